# wrong programs for the order, grouping and repetition of the parts of a query (C88)
M = []
SO = "Model/SetOps.lean"
TI = "Model/TextIndex.lean"
PT = "Model/ParseTree.lean"


def m(name, file, definition, old, new, edit, claim, **k):
    M.append(dict(name=name, file=file, definition=definition, old=old, new=new, edit=edit, claim=claim, **k))


m("qa-inter-first", SO, "interStep", "  wInter A result p.1 A.one p.2", "  wInter A result p.1 p.2 A.one", "the weights of the running result and the next part are swapped",
  "C88: order does not matter (weights other than 1)")
m("qa-inter-keep", SO, "massIntersection", ".ok (rest.foldl (interStep A) (wInter A x y wx wy))", ".ok (wInter A x y wx wy)", "only the two smallest parts are intersected",
  "C88: brackets do not matter")
m("qa-terms-first", PT, "termsAll", "  | n :: rest => n.terms ++ termsAll rest", "  | n :: _ => n.terms", "the terms of the first part only", "C88: order does not matter")
m("qa-terms-flat", PT, "terms", "  | .or l => termsAll l", "  | .or l => (termsAll l).take 1", "one term of an OR counts for the weight of the query", "C88: order does not matter")
m("qa-and-weight", PT, "execute", "    let set ← massIntersection A (r.1.map (fun x => (some x, A.one)))", "    let set ← massIntersection A (r.1.mapIdx (fun i x => (some x, if i = 0 then A.add A.one A.one else A.one)))",
  "the first part of an AND counts twice", "C88: order does not matter")
m("qa-or-weight", PT, "execute", "    let set ← massUnion A (w.map (fun x => (x, A.one)))", "    let set ← massUnion A (w.mapIdx (fun i x => (x, if i = 0 then A.add A.one A.one else A.one)))",
  "the first part of an OR counts twice", "C88: order does not matter")
m("qa-weight-last", TI, "termWids", "    return a ++ b", "    return (if b.isEmpty then a else b)", "only the last term counts for the weight of the query", "C88: order does not matter")
m("qa-weight-dedup", TI, "queryWeight", "  K.queryWeight s.ix wids", "  K.queryWeight s.ix wids.dedup", "repeated words count once for the weight of the query",
  "C88: (q) OR (q) has the scores of q")
