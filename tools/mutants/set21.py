# wrong programs for the ways to write a query (C90), other documents (C89) and names of documents (C91)
M = []
QP = "Model/QueryParser.lean"
FI = "Model/Field.lean"
KW = "Model/Keyword.lean"
TO = "Model/Topic.lean"
TI = "Model/TextIndex.lean"


def m(name, file, definition, old, new, edit, claim, **k):
    M.append(dict(name=name, file=file, definition=definition, old=old, new=new, edit=edit, claim=claim, **k))


m("wr-blank-only", QP, "tokenAt", "  else if isSpace c then none\n", "  else if c = ' ' then none\n", "only blanks separate terms, not tabs and newlines",
  "C90: white space of any kind")
m("wr-upper", QP, "classify", "  let u := upper token\n", "  let u := token\n", "keywords in upper case only", "C90: the case of keywords does not matter")
m("wr-bracket-or", QP, "parseTerm", "      return (r.1, st)\n    else\n      let a ←", "      return (r.1.map (fun t => .or [t]), st)\n    else\n      let a ←",
  "a bracketed expression becomes an OR of one part", "C90: brackets around a query do not matter")
m("wr-single-and", QP, "termTree", "      else if rest.isEmpty then .ok (some n)\n      else .ok (some (.and (n :: rest)))", "      else .ok (some (.and (n :: rest)))",
  "a single term becomes an AND of one part", "C90: AND between terms")
m("wr-hyphen", QP, "parseAtom", "if c = '-' then return (some (.not tree), r.2) else return (some tree, r.2)", "return (some tree, r.2)", "a hyphen is overlooked",
  "C90: a hyphen means NOT")
m("wr-not-first", QP, "andTree", "    match l ++ nots with", "    match nots ++ l with", "negated parts come first", "C90: a hyphen means AND NOT")
m("wr-order", QP, "termTree", "    let nodes := nodes.filter (fun n => !n.isNot) ++ nodes.filter (fun n => n.isNot)\n",
  "    let nodes := nodes.filter (fun n => n.isNot) ++ nodes.filter (fun n => !n.isNot)\n", "negated terms come first", "C90: a hyphen means AND NOT")
m("ap-field-del", FI, "unindexDoc", "          if set.isEmpty then fwd.del v else fwd\n        else s.fwd                                 -- KeyError, caught\n    { fwd := fwd, rev := rev, numDocs := s.numDocs - 1 }",
  "          fwd.del v\n        else s.fwd                                 -- KeyError, caught\n    { fwd := fwd, rev := rev, numDocs := s.numDocs - 1 }",
  "unindexing a document forgets its value for all documents", "C89: documents do not influence whether others are found")
m("ap-topic-new", TO, "indexDoc", "    | .ok true => ({ f with ids := SSet.insert f.ids d }, none)", "    | .ok true => ({ f with ids := SSet.insert SSet.empty d }, none)",
  "a filter keeps the last document only", "C89: documents do not influence whether others are found")
m("ap-keyword-reset", KW, "indexDoc", "        ({ s with fwd := insertForward s.treeThreshold s.fwd d newKw.keys\n                  rev := insertReverse s.rev d newKw\n                  numDocs := s.numDocs + 1 }, none)",
  "        ({ s with fwd := insertForward s.treeThreshold SMap.empty d newKw.keys\n                  rev := insertReverse s.rev d newKw\n                  numDocs := s.numDocs + 1 }, none)",
  "a new document empties the index", "C89: documents do not influence whether others are found")
m("rn-rank", TI, "okapiWord", "(okapiScoreStep A P s.docweight", "(okapiScoreStep A P (s.docweight.mapVals (fun d w => if s.docweight.keys.head? = some d then A.add w A.one else w))",
  "the length of the document with the smallest docid is one too large", "C91: scores do not depend on docids")
m("rn-cosine-first", TI, "cosineSearchWids", "mapM (cosineWord A s (A.ofNat s.docweight.len))", "mapM (cosineWord A s (A.ofNat (s.docweight.len + (if s.docweight.len % 2 = 0 then 1 else 0))))",
  "the number of documents is rounded up to an odd number", "C69, C62: scores")
