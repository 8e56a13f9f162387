"""Wrong programs: text indexes, searching, scores."""
M = []


def m(name, file, definition, old, new, edit, claim, **kw):
    M.append(dict(name=name, file=file, definition=definition, old=old, new=new, edit=edit, claim=claim, **kw))


TX, AL = "Model/TextIndex.lean", "Model/Alias.lean"

m("count-once", TX, "Text.countLoop", "(dget? wid d).getD 0 + 1", "1", "repeated words are counted once", "C51: weight computed from the current text; C69: term frequency")
m("grow-lose", TX, "Text.D2S.grow", "map := e.map.mapVals (fun _ v => A.store v) } else e", "map := SMap.empty } else e", "conversion to a tree loses the entries", "C51: exact")
m("put-nostore", TX, "Text.D2S.put", "(if e.tree then A.store f else f)", "f", "tree entries not rounded to single precision", "C53: content; C51: weight stored")
m("massadd-count", TX, "Text.massStep", "(st.1.set p.1 (doc2score.put K.arith docid p.2), st.2 + 1)", "(st.1.set p.1 (doc2score.put K.arith docid p.2), st.2)", "new words not counted", "C52: wordCount()")
m("add-count", TX, "Text.addWordinfo", "wordCount := s.wordCount + 1 }", "wordCount := s.wordCount }", "new words of a reindexed document not counted", "C52: wordCount()")
m("del-count", TX, "Text.delWordinfo", "wordCount := s.wordCount - 1 }", "wordCount := s.wordCount }", "lost words still counted", "C52: wordCount()")
m("del-empty", TX, "Text.delWordinfo", "if doc2score.map.isEmpty then", "if false then", "words of no document stay", "C52: wordCount()")
m("reindex-nodel", TX, "Text.reindexDoc", "let s ← (oldSet.diff both).toList.foldlM (fun s wid => delWordinfo wid docid s) s\n", "", "old words not removed", "C51: exact; C53: reindexing")
m("reindex-noadd", TX, "Text.reindexDoc", "let s ← (newSet.diff both).toList.foldlM (addStep K new.1 docid) s\n", "", "new words not added", "C51: exact; C53: reindexing")
m("reindex-noboth", TX, "Text.reindexDoc", "let s ← both.toList.foldlM (bothStep K old.1 new.1 docid) s\n", "", "changed weights not stored", "C51: weight of the current text")
m("both-old", TX, "Text.bothStep", "then return addWordinfo K wid newscore docid s", "then return addWordinfo K wid oldscore docid s", "the old weight is stored again", "C51: weight of the current text")
m("both-eq", TX, "Text.bothStep", "if K.arith.neq oldscore newscore then", "if !K.arith.neq oldscore newscore then", "comparison negated", "C51: weight of the current text")
m("reindex-docwords", TX, "Text.reindexDoc", "docweight := s.docweight.set docid (K.arith.store new.2), docwords := s.docwords.set docid code }",
  "docweight := s.docweight.set docid (K.arith.store new.2) }", "_docwords not updated", "C51: get_words(d)")
m("reindex-docweight", TX, "Text.reindexDoc", "docweight := s.docweight.set docid (K.arith.store new.2), docwords := s.docwords.set docid code }",
  "docwords := s.docwords.set docid code }", "_docweight not updated", "C54: total length; C69: scores")
m("reindex-total", TX, "Text.reindexDoc", "let s ← subDocLen K docid s\n  let oldWids ← getWords s docid\n  let old", "let oldWids ← getWords s docid\n  let old", "old length not subtracted when reindexing", "C54: total document length")
m("index-total", TX, "Text.indexDoc", "documentCount := s.documentCount + 1 }\n    return changeDocLen K wids.length s", "documentCount := s.documentCount + 1 }\n    return s", "length of a new document not added", "C54: total document length")
m("unindex-total", TX, "Text.unindexDoc", "let s ← subDocLen K docid s\n    let wids", "let wids", "length of a removed document not subtracted", "C54: total document length")
m("total-sign", TX, "Text.subDocLen", "changeDocLen K (-(K.arith.toInt w)) s", "changeDocLen K (K.arith.toInt w) s", "old length added instead of subtracted", "C54: total document length")
m("index-count", TX, "Text.indexDoc", "docwords := s.docwords.set docid code, documentCount := s.documentCount + 1 }", "docwords := s.docwords.set docid code }", "documentCount not advanced", "C52: documentCount()")
m("unindex-count", TX, "Text.unindexDoc", "documentCount := s.documentCount - 1 }", "documentCount := s.documentCount }", "documentCount not lowered", "C52: documentCount()")
m("unindex-words", TX, "Text.unindexDoc", "let s ← (SSet.ofList wids).toList.foldlM (fun s wid => delWordinfo wid docid s) s\n", "", "words of a removed document stay", "C51: exact; C56: term search")
m("unindex-twice", TX, "Text.unindexDoc", "(SSet.ofList wids).toList.foldlM", "wids.foldlM", "repeated words removed twice", "C51: no call fails")
m("clear-count", TX, "Text.clear", "wordCount := 0, documentCount := 0 }", "wordCount := 0 }", "clear keeps documentCount", "C52: documentCount()")
m("clear-total", TX, "Text.clear", "documentCount := 0 }", "documentCount := 0, total := 0 }", "clear resets the total length (the fix of C55)", "C55: the refutation must fail")
m("search-oov", TX, "Text.removeOov", "wids.filter (fun w => s.wordinfo.contains w)", "wids", "unknown words not removed", "C56: no failure; C60: never fails")
m("search-none", TX, "Text.search", "if wids.isEmpty then return none\n  else\n    let r ← searchUnion K s wids", "if (removeOov s wids).isEmpty then return none\n  else\n    let r ← searchUnion K s wids",
  "None for words in no document", "C56: None iff the term has no word at all")
m("phrase-clean", TX, "Text.searchPhrase", "if wids.length ≠ cleaned.length then return SMap.empty\n  else\n    let scores ← K.searchWids s wids", "if cleaned.isEmpty then return SMap.empty\n  else\n    let scores ← K.searchWids s cleaned",
  "unknown words of a phrase are skipped", "C58: phrase search is exact")
m("phrase-all", TX, "Text.phraseLoop", "if 0 ≤ WidCode.pyFind docwords code then .ok (result.set p.1 (K.arith.store p.2)) else .ok result", "let _ := docwords\n    let _ := code\n    .ok (result.set p.1 (K.arith.store p.2))",
  "positions of words not checked", "C58: contiguously")
m("phrase-first", TX, "Text.phraseLoop", "if 0 ≤ WidCode.pyFind docwords code", "if 0 < WidCode.pyFind docwords code", "phrases at the beginning are missed", "C58: phrase search is exact")
m("idf-swap", TX, "Text.idf", "pyDiv A numItems (A.ofNat termCount)", "pyDiv A (A.ofNat termCount) numItems", "quotient turned round in inverse_doc_frequency", "C69: formulas; C63: IDF decreases")
m("idf-noone", TX, "Text.idf", "pyLog A (A.add A.one q)", "pyLog A q", "log(N/n) instead of log(1 + N/n)", "C60: every score is positive; C69: formulas")
m("tf-nomean", TX, "Text.okapiTf", "let q ← pyDiv A (A.mul P.b doclen) meandoclen", "let q ← pyDiv A (A.mul P.b meandoclen) doclen", "length quotient turned round", "C69: formulas")
m("tf-k1", TX, "Text.okapiTf", "pyDiv A (A.mul f (A.add P.k1 A.one)) (A.add f (A.mul P.k1 lenweight))", "pyDiv A (A.mul f P.k1) (A.add f (A.mul P.k1 lenweight))", "k1 instead of k1 + 1", "C69: formulas")
m("okapi-mean", TX, "Text.okapiSearchWids", "let meandoclen ← pyDiv A (A.ofInt s.total) N", "let meandoclen ← pyDiv A (A.ofInt s.wordCount) N", "mean of another count", "C69: mean document length")
m("okapi-qw", TX, "Text.okapiQueryWeight", "(A.add A.one P.k1)) A.zero", "A.one) A.zero", "query_weight without k1", "C61: query_weight bounds the scores")
m("okapi-qw-set", TX, "Text.okapiQueryWeight", "(removeOov s wids).foldlM", "(removeOov s wids).tail.foldlM", "first term not counted in query_weight", "C61: query_weight bounds the scores")
m("c-skip-first", TX, "Text.cWord", "let result ← d2f.map.items.foldlM (cScoreStep", "let result ← d2f.map.items.tail.foldlM (cScoreStep", "the C loop skips the first document", "C64: same bucket")
m("c-noidf", TX, "Text.cScoreStep", "A.store (A.mul (cTf A cdiv P p.2 doclen meandoclen) idf)", "let _ := idf\n    A.store (cTf A cdiv P p.2 doclen meandoclen)", "the C loop forgets idf", "C64: same bucket",
  edits=[("Model/TextIndex.lean", ".ok (result.set p.1 (A.store (A.mul (cTf A cdiv P p.2 doclen meandoclen) idf)))", "let _ := idf; .ok (result.set p.1 (A.store (cTf A cdiv P p.2 doclen meandoclen)))")])
m("cos-nonorm", TX, "Text.cosineFreqs", "let q ← pyDiv A p.2 W", "let q := p.2", "weights not divided by the length of the vector", "C69: normalized cosine weight; C62: a cosine")
m("cos-w", TX, "Text.cosineWeights", "let r ← cosineWeights A d (A.add sum (A.mul w w))", "let r ← cosineWeights A d (A.add sum w)", "sum of weights instead of squares", "C69: normalized cosine weight")
m("cos-dtw", TX, "Text.docTermWeight", "return A.add A.one l", "return l", "log(count) instead of 1 + log(count)", "C60: every score is positive; C69: formulas")
m("cos-qw", TX, "Text.cosineWeightStep", "A.add sum (A.mul wt wt)", "A.add sum wt", "query_weight sums weights, not squares", "C62: query_weight")
m("cos-idf-n", TX, "Text.cosineSearchWids", "wids.mapM (cosineWord A s (A.ofNat s.docweight.len))", "wids.mapM (cosineWord A s (A.ofInt s.wordCount))", "number of words for the number of documents", "C69: formulas")
m("apply-zero", TX, "Text.applyTree", "let qw := if K.arith.isZero qw then K.arith.one else qw\n", "", "division by query weight 0 not avoided", "C60: never fails")
m("apply-noscale", TX, "Text.applyTree", "let r ← results.items.foldlM (scaleStep K.arith qw) results\n      return some r", "return some results", "scores not divided", "C67: scores in (0, 1]")
m("scale-mul", TX, "Text.scaleStep", "let q ← pyDiv A p.2 qw", "let q := A.mul p.2 qw", "multiplied instead of divided", "C67: scores in (0, 1]")

# identities
m("okapi-owns", AL, "Text.okapiOwns", "def okapiOwns (_ : Ix D R) (_ : Int) : Bool := false", "def okapiOwns (_ : Ix D R) (_ : Int) : Bool := true", "OkapiIndex returns its own mappings", "C66: index unchanged",
  note="in the mutant the bucket of scores would replace the frequencies")
m("cos-owns-dict", AL, "Text.cosineOwns", "| some d2w => d2w.tree", "| some _ => true", "dicts are passed on too", "C66: index unchanged")
m("trivial-same", AL, "SetOps.trivialObj", "if !A.isOne weight then .ok (.fresh (wUnion A SMap.empty result.map A.zero weight)) else .ok result",
  "if !A.isOne weight then .ok { result with map := wUnion A SMap.empty result.map A.zero weight } else .ok result", "_trivial always returns its argument", "C66: index unchanged")
m("union-same", AL, "SetOps.unionLoopObj", "let z : Obj D R := .fresh (wUnion A xw.1.1.map yw.1.1.map xw.1.2 yw.1.2)", "let z : Obj D R := { xw.1.1 with map := wUnion A xw.1.1.map yw.1.1.map xw.1.2 yw.1.2 }",
  "unions update their first argument", "C66: index unchanged")
