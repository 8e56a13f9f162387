# wrong programs for stored field and keyword indexes (C92)
M = []
SS = "Model/StoredSets.lean"


def m(name, definition, old, new, edit, claim="C92: committed changes are stored completely", **k):
    M.append(dict(name=name, file=SS, definition=definition, old=old, new=new, edit=edit, claim=claim, **k))


m("ss-rev-mark", "MStore.setRev", "  { st := { s.st with rev := s.st.rev.set d e }, marks := { s.marks with rev := mark s.marks.rev d } }",
  "  { st := { s.st with rev := s.st.rev.set d e }, marks := if s.st.rev.contains d then s.marks else { s.marks with rev := mark s.marks.rev d } }",
  "replacing the entry of a document in the reverse index is not noticed (entries changed in place)")
m("ss-del-mark", "MStore.delFwd", "marks := { s.marks with fwd := mark s.marks.fwd k } }\n\n/-- `self._rev_index[docid] = e` -/", "marks := s.marks }\n\n/-- `self._rev_index[docid] = e` -/",
  "removing an empty set from the forward index is not noticed")
m("ss-count-mark", "MStore.change", "marks := { s.marks with numDocs := true } }\n\n/-- field/index.py:49-55", "marks := s.marks }\n\n/-- field/index.py:49-55", "the counter of documents is a plain number in an object that is not marked")
m("ss-clear-mark", "MStore.clear", "    marks := { s.marks with fwd := fun _ => true, rev := fun _ => true, numDocs := true } }",
  "    marks := { s.marks with rev := fun _ => true, numDocs := true } }", "clear() empties the forward index without its being noticed")
m("ss-clear-count", "MStore.clear", "  { st := { s.st with fwd := SMap.empty, rev := SMap.empty, numDocs := 0 },\n    marks", "  { st := { s.st with fwd := SMap.empty, rev := SMap.empty },\n    marks",
  "clear() keeps the number of documents")
m("ss-threshold-mark", "MStore.setThreshold", "marks := { s.marks with threshold := true } }", "marks := s.marks }", "tree_threshold is an attribute of an object that is not persistent")
m("ss-new-mark", "MStore.newSet", "marks := { s.marks with sets := mark s.marks.sets s.st.heap.next } }", "marks := s.marks }", "new sets are not written")
m("ss-field-stale", "MField.indexDoc", "    if upToDate s d v then s\n    else insertDoc notices (unindexDoc notices s d) d v", "    if upToDate s d v then s\n    else insertDoc notices s d v",
  "a changed document is not taken out of the set of its old value")
m("ss-field-count", "MField.insertDoc", "((addDoc notices s d v).change 1).setRev d v", "(addDoc notices s d v).setRev d v", "new documents are not counted")
m("ss-kw-convert", "MKeyword.insertWord", "    (s.newSet { isTree := true, ids := set.ids }).setFwd w s.st.heap.next\n  else s", "    s.newSet { isTree := true, ids := set.ids }\n  else s",
  "the set converted to a tree is not put into the forward index")
m("ss-kw-reverse", "MKeyword.indexDoc", "        else insertReverse (insertForward notices r.1 d added.keys) d newKw", "        else insertReverse (insertForward notices r.1 d added.keys) d added",
  "the reverse index of a changed document gets the added keywords only")
m("ss-kw-optimize", "MKeyword.optimizeWord", "    if set.isTree then (s.newSet { isTree := false, ids := set.ids }).setFwd p.1 s.st.heap.next else s",
  "    s", "optimize() does not convert trees to sets")
m("ss-commit-sets", "SetMarks.write", "overlay w.sets saved.heap.cells live.heap.cells", "overlay (fun a => w.sets a && !(saved.heap.cells.contains a)) saved.heap.cells live.heap.cells",
  "the database writes new sets only")
