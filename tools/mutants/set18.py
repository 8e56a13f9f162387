# wrong programs for the theorems about keyword indexes whose large sets are not contended (C70, C87)
M = []
TX = "Model/Txn.lean"
KH = "Model/KeywordHeap.lean"


def m(name, file, definition, old, new, edit, claim, **k):
    M.append(dict(name=name, file=file, definition=definition, old=old, new=new, edit=edit, claim=claim, **k))


m("ct-convert-early", KH, "insertWord", "decide ((set.ids.len : Int) ≥ s.treeThreshold) then\n    { s with heap := s.heap.alloc { isTree := true",
  "decide ((set.ids.len : Int) + 1 ≥ s.treeThreshold) then\n    { s with heap := s.heap.alloc { isTree := true",
  "a set is converted at 63 documents", "C70, C87: keywords with fewer than 64 documents may be contended")
m("ct-copy-always", KH, "insertWord", "  if !set.isTree && decide ((set.ids.len : Int) ≥ s.treeThreshold) then\n    { s with heap := s.heap.alloc { isTree := true, ids := set.ids }, fwd := s.fwd.set w s.heap.next }\n  else s\n\n/-- keyword/index.py:136",
  "  { s with heap := s.heap.alloc set, fwd := s.fwd.set w s.heap.next }\n\n/-- keyword/index.py:136",
  "each insertion makes a new set object", "C70, C87: keywords with fewer than 64 documents may be contended")
m("ct-remove-copy", KH, "removeWord", "      some (if ids.isEmpty then { s with fwd := s.fwd.del w } else s)",
  "      some (if ids.isEmpty then { s with fwd := s.fwd.del w }\n        else { s with heap := s.heap.alloc { set with ids := ids }, fwd := s.fwd.set w s.heap.next })",
  "each removal makes a new set object", "C70, C87: keywords with fewer than 64 documents may be contended")
m("ct-keep-empty", KH, "removeWord", "      some (if ids.isEmpty then { s with fwd := s.fwd.del w } else s)", "      some s",
  "a word without documents stays in the forward index", "C70, C87: word_count counts the words in use")
m("ct-share", KH, "wordIdx", "  | none => ({ s with heap := s.heap.alloc emptySet, fwd := s.fwd.set w s.heap.next }, s.heap.next)",
  "  | none => ({ s with heap := s.heap.put 0 (s.setAt 0), fwd := s.fwd.set w 0 }, 0)",
  "new words share one set object", "C70, C87: a document is found by its own keywords only")
m("ct-index-optimizes", KH, "unindexDoc", "    else { r.1 with rev := r.1.rev.del d, numDocs := r.1.numDocs - 1 }",
  "    else { r.1 with rev := r.1.rev.del d, numDocs := r.1.numDocs - 1, fwd := SMap.empty }",
  "unindex_doc of a document touches the sets of other keywords", "C70, C87: a transaction leaves other keywords alone")
m("ct-heap-merge", TX, "merge", "  let heap ← mergeHeap mergeDocSet o.heap c.heap n.heap\n  let fwd ← mergeTree o.fwd c.fwd n.fwd\n  let rev ← mergeTree o.rev c.rev n.rev\n  return { heap := heap, fwd := fwd, rev := rev, numDocs := mergeLength o.numDocs c.numDocs n.numDocs,\n           treeThreshold",
  "  let heap ← mergeHeap mergeDocSet o.heap o.heap n.heap\n  let fwd ← mergeTree o.fwd c.fwd n.fwd\n  let rev ← mergeTree o.rev c.rev n.rev\n  return { heap := heap, fwd := fwd, rev := rev, numDocs := mergeLength o.numDocs c.numDocs n.numDocs,\n           treeThreshold",
  "the committed changes of the sets are overwritten", "C70, C87: committed changes are not lost")
m("ct-same-address", TX, "exec", "  runFrom normalize { s with heap := { s.heap with next := next } } ops", "  runFrom normalize s ops",
  "overlapping transactions may give the same identity to different new sets", "C70, C87: new objects of different transactions are different")
