# wrong programs for the theorems about quoted texts (C84)
M = []
QP = "Model/QueryParser.lean"
LX = "Model/Lexicon.lean"


def m(name, file, definition, old, new, edit, claim, **k):
    M.append(dict(name=name, file=file, definition=definition, old=old, new=new, edit=edit, claim=claim, **k))


m("qt-space", QP, "quotedRest", "  | _ :: r => some (s.takeWhile (fun c => c ≠ '\"'), r)", "  | _ :: r => if s.takeWhile (fun c => c ≠ '\"') = [] then none else some (s.takeWhile (fun c => c ≠ '\"'), r)",
  "an empty quoted string is not a token", "C84: a text in double quotes is one term")
m("qt-paren", QP, "quotedRest", "  match s.dropWhile (fun c => c ≠ '\"') with", "  match (if '(' ∈ s then [] else s.dropWhile (fun c => c ≠ '\"')) with",
  "quoted strings with parentheses are not recognised", "C84: nothing in a quoted text is taken as parenthesis")
m("qt-neg", QP, "parseAtom", "    | c :: _ => if c = '-' then", "    | c :: t => if c = '-' ∨ t.head? = some '-' then",
  "a hyphen after the opening quote negates the term", "C84: nothing in a quoted text is taken as negation")
m("qt-split", LX, "Splitter.processGlob", "  lst.flatMap (findall isW (fun c => isW c || Lexicon.isGlobChar c))", "  (lst.flatMap (findall isW (fun c => isW c || Lexicon.isGlobChar c))).reverse",
  "the words of a query come out in the opposite order", "C84: a quoted passage finds the documents that contain it")
m("qt-drop", LX, "Splitter.findallF", "    else findallF isA isB fuel t\n", "    else findallF isA isB fuel (t.drop 1)\n",
  "the character after a separator is skipped", "C84: the words of a passage are found in the text")
