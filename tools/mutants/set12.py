# wrong programs for C83 (recursion limit)
M = []
ST = "Model/Stack.lean"


def m(name, file, definition, old, new, edit, claim, **k):
    M.append(dict(name=name, file=file, definition=definition, old=old, new=new, edit=edit, claim=claim, **k))


m("rd-or-rec", ST, "orLoopD", "      orLoopD fuel n (l ++ [r.1]) r.2", "      orLoopD fuel (n - 1) (l ++ [r.1]) r.2",
  "the parts of an OR are parsed by recursion instead of a loop", "C83: the length of a query does not matter")
m("rd-atom-rec", ST, "atomLoopD", "atomLoopD fuel n (nodes ++ [r.1]) r.2", "atomLoopD fuel (n - 1) (nodes ++ [r.1]) r.2",
  "the atoms of a term are parsed by recursion instead of a loop", "C83: the length of a query does not matter")
m("rd-and-rec", ST, "andLoopD", "      | some t => andLoopD fuel n l (nots ++ [.not t]) r.2", "      | some t => andLoopD fuel (n - 1) l (nots ++ [.not t]) r.2",
  "NOT parts are parsed by recursion instead of a loop", "C83: the length of a query does not matter")
m("rd-exec-rec", ST, "Node.executeOrD", "    let r ← executeD n m\n    let ms ← executeOrD n rest\n    return r.toList ++ ms", "    let r ← executeD n m\n    let ms ← executeOrD (n - 1) rest\n    return r.toList ++ ms",
  "the parts of an OR are executed by recursion", "C83: the length of a query does not matter")
m("rd-paren-loop", ST, "parseTermD", "      let r ← parseOrD fuel n c.2", "      let r ← parseOrD fuel (n + 3) c.2",
  "parentheses cost no frames (an explicit stack)", "C83: no number of frames is enough for all queries")
m("rd-terms-rec", ST, "Node.termsAllD", "    let b ← termsAllD n rest\n    return a ++ b", "    let b ← termsAllD (n - 1) rest\n    return a ++ b",
  "terms are collected by recursion", "C83: the length of a query does not matter")
