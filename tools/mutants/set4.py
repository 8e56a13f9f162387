"""Wrong programs: transactions, object identity, older releases, rejected docids."""
M = []


def m(name, file, definition, old, new, edit, claim, **kw):
    M.append(dict(name=name, file=file, definition=definition, old=old, new=new, edit=edit, claim=claim, **kw))


T, TT, AL, LG, RJ, KH, TH = ("Model/Txn.lean", "Model/TxnText.lean", "Model/Alias.lean", "Model/Legacy.lean", "Model/Reject.lean",
                             "Model/KeywordHeap.lean", "Model/TopicHeap.lean")

# transactions
m("merge-empty", T, "mergeTree", "else if c.isEmpty || n.isEmpty then none\n", "else if c.isEmpty && n.isEmpty then none\n",
  "a container emptied by one transaction is merged with one filled by the other", "C70: an emptied set is unlinked by one transaction and filled by the other")
m("merge-samekey", T, "mergeTree", "decide (c.get? k = o.get? k) || decide (n.get? k = o.get? k)", "decide (c.get? k = o.get? k) || decide (n.get? k = o.get? k) || decide (n.get? k = none)",
  "a key changed by one and deleted by the other is no conflict", "C70: no docid changed by both")
m("merge-prefer", T, "mergeTree", "if c.get? k = o.get? k then n.get? k else c.get? k", "if n.get? k = none then c.get? k else n.get? k", "changes overwritten by old values", "C70: each docid has the value of the transaction that changed it")
m("merge-stale", T, "mergeTree", "else if n = o then some c ", "else if n = o then some n ", "a transaction that changed nothing in a container restores its old state", "C70: each docid has the value of the transaction that changed it")
m("length-sign", T, "mergeLength", "c + n - o", "n", "counters not merged: the last one wins", "C70: documents are counted")
m("cell-drop", T, "mergeCell", "| none, some c, none => some (some c)", "| none, some _, none => some none", "objects created by the committed transaction are lost", "C70: committed index")
m("field-forget-alloc", T, "HField.addDoc", "heap := s.heap.alloc (SSet.insert SMap.empty d), fwd := s.fwd.set v s.heap.next", "heap := { s.heap with cells := s.heap.cells.set s.heap.next (SSet.insert SMap.empty d) }, fwd := s.fwd.set v s.heap.next",
  "two set objects get the same address", "C70: committed index")
m("field-fresh-set", T, "HField.addDoc", "| some a => { s with heap := s.heap.put a (SSet.insert (s.setAt a) d) }", "| some a => { s with heap := s.heap.alloc (SSet.insert (s.setAt a) d), fwd := s.fwd.set v s.heap.next }",
  "a set is replaced by a copy instead of changed", "C70: a concurrent change of the old set is lost")
m("field-keep-empty", T, "HField.removeDoc", "if set.isEmpty then { s with fwd := s.fwd.del v } else s", "s", "emptied sets stay", "C70: the committed state is that of one thread")
m("field-count", T, "HField.unindexDoc", "{ s with numDocs := s.numDocs - 1 }", "s", "documents not uncounted", "C70: documents are counted")
m("field-nomerge-count", T, "HField.merge", "numDocs := mergeLength o.numDocs c.numDocs n.numDocs }\n\n/-- transactions on a field index", "numDocs := n.numDocs }\n\n/-- transactions on a field index",
  "the counter of the field index is not merged", "C70: documents are counted")
m("kw-nomerge-count", T, "HKeyword.merge", "numDocs := mergeLength o.numDocs c.numDocs n.numDocs,", "numDocs := c.numDocs,", "the counter of the keyword index is not merged", "C70: documents are counted")
m("db-nobase", T, "Db.commit", "E.merge base db.latest r.1", "E.merge db.latest db.latest r.1", "a commit overwrites what others committed", "C70: each docid has the value of the transaction that changed it")
m("lex-nomerge", T, "Lexicon.merge", "let words ← mergeTree o.words c.words n.words", "let words := n.words", "the words by id are not merged", "C70: one id, one word")
m("text-save-copy", TT, "Text.HIx.save", "| .tree a => { s with heap := s.heap.put a ((s.treeAt a).set docid (K.arith.store f)), wordinfo := s.wordinfo.set wid (.tree a) }",
  "| .tree a => { s with heap := s.heap.alloc ((s.treeAt a).set docid (K.arith.store f)), wordinfo := s.wordinfo.set wid (.tree s.heap.next) }",
  "a tree is replaced by a copy instead of changed", "C70: a concurrent change of the old tree is lost")
m("text-grow-alloc", TT, "Text.HIx.grow", "heap := s.heap.alloc (m.mapVals (fun _ v => K.arith.store v))", "heap := { s.heap with cells := s.heap.cells.set s.heap.next (m.mapVals (fun _ v => K.arith.store v)) }",
  "two trees get the same address", "C70: committed index")
m("text-keep-empty", TT, "Text.HIx.delWordinfo", "if (r.1.entry r.2).map.isEmpty then", "if (s.entry p).map.isEmpty then", "words of no document stay", "C70: wordCount()")
m("text-total-merge", TT, "Text.HIx.merge", "total := mergeLength o.total c.total n.total", "total := n.total", "the total length is not merged", "C70: scores")
m("text-words-merge", TT, "Text.HIx.merge", "wordCount := mergeLength o.wordCount c.wordCount n.wordCount", "wordCount := c.wordCount", "wordCount is not merged", "C70: wordCount()")
m("text-docweight-merge", TT, "Text.HIx.merge", "let docweight ← mergeTree o.docweight c.docweight n.docweight", "let docweight := n.docweight", "document weights are not merged", "C70: scores")
m("text-dict-merge", TT, "Text.HIx.merge", "let wordinfo ← mergeTree o.wordinfo c.wordinfo n.wordinfo", "let wordinfo := n.wordinfo", "word infos are not merged", "C70: search finds the committed documents")
m("text-lex-merge", TT, "Text.HTI.merge", "let lex ← Lexicon.merge o.lex c.lex n.lex", "let lex := n.lex", "the lexicon is not merged with the index", "C70: search finds the committed documents")
m("text-fails", TT, "Text.HTI.engine", "| .error _ => true", "| .error _ => false", "a transaction with an exception commits", "C70: (equivalent: the state is the snapshot)")
m("text-nodocs", TT, "Text.HIx.unindexDoc", "return { s with docwords := s.docwords.del docid, docweight := s.docweight.del docid,", "return { s with docwords := s.docwords.del docid,", "document weight of a removed document stays", "C70: scores")

# identity of results
m("alias-fresh", AL, "SetOps.trivialObj", "else .ok result\n", "else .ok (.fresh result.map)\n", "the fix of C66: _trivial copies", "C66: the refutation must fail")
m("alias-okapi", AL, "Text.okapiOwns", "Bool := false", "Bool := true", "OkapiIndex passes on its own objects", "C66: apply leaves the index as it is")
m("alias-and", AL, "SetOps.massIntersectionObj", ".map .fresh", ".map (fun m => { map := m, own := (L.head?.bind (fun p => p.1.own)) })", "intersection made in place in its first argument", "C66: apply leaves the index as it is")
m("alias-diff", AL, "Node.executeObj", "return some (.fresh (difference set.map notset.map))", "return some { set with map := difference set.map notset.map }", "AND NOT removes documents from the set in place", "C66: apply leaves the index as it is")
m("alias-dict", AL, "Text.cosineOwns", "| some d2w => d2w.tree", "| some _ => true", "CosineIndex passes on dicts too", "C66: apply leaves the index as it is")
m("alias-scale", AL, "Text.applyTreeObj", "let qw := if K.arith.isZero qw then K.arith.one else qw\n      let qw := K.arith.mul", "let qw := K.arith.mul", "zero query weight not avoided", "C66: same results")

# older releases
m("legacy-len", LG, "Text.LIx.addWordinfo", "s.wordCount.change 1 (s.wordinfo.len + 1)", "s.wordCount.change 1 s.wordinfo.len", "rebuilt counter one too small", "C71: rebuilt counters are exact")
m("legacy-mass", LG, "Text.LIx.massAdd", "s.wordCount.change r.2 r.1.len", "s.wordCount.change r.2 s.wordinfo.len", "counter rebuilt from the words before", "C71: rebuilt counters are exact")
m("legacy-del", LG, "Text.LIx.delWordinfo", "(s.wordinfo.del wid).len }", "s.wordinfo.len }", "counter rebuilt before the word is removed", "C71: rebuilt counters are exact")
m("legacy-docs", LG, "Text.LIx.indexDoc", "s.documentCount.change 1 s.docweight.len", "s.documentCount.change 1 (s.docweight.len + 1)", "rebuilt document counter one too large", "C71: rebuilt counters are exact")
m("legacy-undocs", LG, "Text.LIx.unindexDoc", "s.documentCount.change (-1) (s.docweight.del docid).len", "s.documentCount.change (-1) s.docweight.len", "counter rebuilt before the document is removed", "C71: rebuilt counters are exact")
m("legacy-total", LG, "Text.Total.change", "| .plain n => .length (n + delta)", "| .plain _ => .length delta", "the old total is forgotten", "C71: scores after the upgrade")
m("legacy-total-read", LG, "Text.Total.value", "| .plain n => n", "| .plain _ => 0", "a plain total is read as 0", "C71: scores after the upgrade")
m("legacy-method", LG, "Text.Counter.call", "| .method => .error .NotImplementedError", "| .method => .ok 0", "the old methods return 0", "C71: what they raise")
m("legacy-lex", LG, "LLexicon.wordCount", "| none => s.wids.len", "| none => 0", "the counter of an old lexicon starts at 0", "C71: word ids are not given twice (the loop over taken ids still finds a free one)")

# rejected docids
m("reject-rev", RJ, "Field.insertChecked", "else (s, some .TypeError)\n\n/-- field/index.py:65-84 `index_doc`: the state", "else ({ s with numDocs := s.numDocs + 1 }, some .TypeError)\n\n/-- field/index.py:65-84 `index_doc`: the state",
  "a rejected docid is counted", "C68: a rejected call changes nothing else")
m("reject-set", RJ, "Field.insertChecked", "| none => { s with fwd := s.fwd.set v set }\n    | some _ => s\n  if ok d", "| none => s\n    | some _ => s\n  if ok d", "the fix: the empty set is not stored", "C68: the refutation must fail")
m("reject-ok", RJ, "Field.insertChecked", "if ok d then\n    ({ fwd", "if true then\n    ({ fwd", "anything is accepted", "C68: TypeError")
m("reject-kw", RJ, "Keyword.insertForwardChecked", "else (stored, some .TypeError)", "else (stored, none)", "the exception is swallowed", "C68: TypeError")
m("reject-kw-count", RJ, "Keyword.indexChecked", "| some e => ({ s with fwd := r.1 }, some e)\n        | none =>\n          ({ s with fwd := r.1, rev", "| some e => ({ s with fwd := r.1, numDocs := s.numDocs + 1 }, some e)\n        | none =>\n          ({ s with fwd := r.1, rev",
  "a rejected document is counted", "C68: documentCount()")
m("reject-text-weight", RJ, "Text.indexNewChecked", "if !ok docid then (s, some .TypeError)\n      else", "if false then (s, some .TypeError)\n      else", "any docid is stored as document weight", "C68: TypeError")
m("reject-text-count", RJ, "Text.indexNewChecked", "let s := { s with wordinfo := m.1, wordCount := s.wordCount + m.2.1 }", "let s := { s with wordinfo := m.1 }", "wordCount not advanced", "C68: accepted docids as in the model without rejection")
