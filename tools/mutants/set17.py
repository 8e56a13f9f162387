# wrong programs for the theorems about transactions in serial order (C87) and on keyword indexes with large sets (C70)
M = []
TX = "Model/Txn.lean"
KH = "Model/KeywordHeap.lean"


def m(name, file, definition, old, new, edit, claim, **k):
    M.append(dict(name=name, file=file, definition=definition, old=old, new=new, edit=edit, claim=claim, **k))


m("sx-convert-drop", KH, "insertWord", "    { s with heap := s.heap.alloc { isTree := true, ids := set.ids }, fwd := s.fwd.set w s.heap.next }\n  else s\n\n/-- keyword/index.py:136",
  "    { s with heap := s.heap.alloc { isTree := true, ids := SMap.del set.ids d }, fwd := s.fwd.set w s.heap.next }\n  else s\n\n/-- keyword/index.py:136",
  "the TreeSet is made before the new document is added", "C70, C87: committed changes are not lost")
m("sx-convert-stale", KH, "insertWord", "    { s with heap := s.heap.alloc { isTree := true, ids := set.ids }, fwd := s.fwd.set w s.heap.next }\n  else s\n\n/-- keyword/index.py:136",
  "    { s with heap := s.heap.alloc { isTree := true, ids := set.ids }, fwd := s.fwd.set w r.2 }\n  else s\n\n/-- keyword/index.py:136",
  "the new TreeSet is not put into the forward index (unobservable: the old set stays in use)", "none: the old set holds the same documents")
m("sx-optimize-empty", KH, "optimizeWord", "      { s with heap := s.heap.alloc { isTree := false, ids := set.ids }, fwd := s.fwd.set p.1 s.heap.next }",
  "      { s with heap := s.heap.alloc emptySet, fwd := s.fwd.set p.1 s.heap.next }",
  "optimize replaces a small TreeSet by an empty Set", "C70, C87: optimize changes nothing a user can see")
m("sx-optimize-drop-word", KH, "optimizeWord", "      { s with heap := s.heap.alloc { isTree := true, ids := set.ids }, fwd := s.fwd.set p.1 s.heap.next }\n    else s\n  else\n",
  "      { s with heap := s.heap.alloc { isTree := true, ids := set.ids }, fwd := s.fwd.del p.1 }\n    else s\n  else\n",
  "optimize drops a word with a large Set", "C70, C87: optimize changes nothing a user can see")
m("sx-optimize-rev", KH, "optimize", "def optimize (s : HKeyword D W) : HKeyword D W := s.fwd.items.foldl optimizeWord s",
  "def optimize (s : HKeyword D W) : HKeyword D W := { s.fwd.items.foldl optimizeWord s with rev := SMap.empty }",
  "optimize forgets the keywords of the documents", "C70, C87: optimize changes nothing a user can see")
m("sx-merge-set-new", TX, "mergeDocSet", "(mergeTree o.ids c.ids n.ids).map", "(mergeTree o.ids o.ids n.ids).map",
  "the committed changes of a set are overwritten", "C70, C87: committed changes are not lost")
m("sx-merge-fwd", TX, "merge", "  let fwd ← mergeTree o.fwd c.fwd n.fwd\n  let rev ← mergeTree o.rev c.rev n.rev\n  return { heap := heap, fwd := fwd, rev := rev, numDocs := mergeLength o.numDocs c.numDocs n.numDocs,\n",
  "  let fwd ← mergeTree o.fwd o.fwd n.fwd\n  let rev ← mergeTree o.rev c.rev n.rev\n  return { heap := heap, fwd := fwd, rev := rev, numDocs := mergeLength o.numDocs c.numDocs n.numDocs,\n",
  "the committed changes of the forward index are overwritten", "C70, C87: committed changes are not lost")
m("sx-merge-count", TX, "merge", "mergeLength o.numDocs c.numDocs n.numDocs,\n           treeThreshold", "n.numDocs,\n           treeThreshold",
  "the counter of the keyword index is not merged", "C70, C87: the counter counts the documents")
m("sx-field-count", TX, "merge", "rev := rev, numDocs := mergeLength o.numDocs c.numDocs n.numDocs }\n\n/-- transactions on a field index -/",
  "rev := rev, numDocs := n.numDocs }\n\n/-- transactions on a field index -/",
  "the counter of the field index is not merged", "C70, C87: the counter counts the documents")
m("sx-latest-base", TX, "commit", "    let r := E.run db.next base t.ops\n", "    let r := E.run db.next db.latest t.ops\n",
  "a transaction runs on the latest state and is merged against its snapshot", "C70: a transaction works on its snapshot")
m("sx-both-change", TX, "mergeTree", "(fun k => decide (c.get? k = o.get? k) || decide (n.get? k = o.get? k))",
  "(fun k => decide (c.get? k = o.get? k) || decide (n.get? k = o.get? k) || decide (c.get? k = none))",
  "a key removed by others may be changed", "C70, C87: committed changes are not lost")
m("sx-commit-order", TX, "commit", "    | some s => { latest := s, older := db.states, next := r.2 }",
  "    | some s => { latest := s, older := db.older, next := r.2 }",
  "the state before a commit is not kept", "C70, C87: every committed state is that of a history")
m("sx-refused", TX, "commit", "(if t.refused || E.fails db.next base t.ops then none else", "(if E.fails db.next base t.ops then none else",
  "a refused transaction commits", "none: a refused transaction may as well commit")
m("sx-field-unindex", TX, "unindexDoc", "    let s := removeDoc { s with rev := s.rev.del d } d v\n", "    let s := removeDoc s d v\n",
  "the field index keeps the value of a removed document", "C70, C87: a removed document has no value")
m("sx-field-uptodate", TX, "indexDoc", "    if s.upToDate d v then s\n    else insertDoc", "    if !s.upToDate d v then s\n    else insertDoc",
  "a document with another value is not indexed again", "C70, C87: the document has the value given last")
