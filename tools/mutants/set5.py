"""Wrong programs: what a commit writes."""
M = []


def m(name, file, definition, old, new, edit, claim, **kw):
    M.append(dict(name=name, file=file, definition=definition, old=old, new=new, edit=edit, claim=claim, **kw))


S, TX = "Model/Stored.lean", "Model/TextIndex.lean"

m("st-save-poke", S, "Text.MIx.save", "s.assign notices same wid (.dict (m.set docid f))", "if same then s else s.assign notices same wid (.dict (m.set docid f))",
  "the assignment of a changed dict dropped as redundant", "C72: committed changes are stored")
m("st-del-poke", S, "Text.MIx.delWordinfo", "else .ok (r.1.assign notices true wid r.2)", "else .ok (if notices then r.1 else r.1)", "the assignment after a removal dropped as redundant", "C72: committed changes are stored")
m("st-grow-mark", S, "Text.MIx.grow", "(s.newTree (m.mapVals (fun _ v => K.arith.store v)), .tree s.ix.heap.next, false)", "(s.newTree (m.mapVals (fun _ v => (K.arith.store v, v).2)), .tree s.ix.heap.next, false)",
  "a dict is converted without rounding", "C72: what the program sees is the index")
m("st-grow-at", S, "Text.MIx.grow", "if m.len = 10 then", "if m.len = 11 then", "conversion at another size", "C72: what the program sees is the index")
m("st-setdoc-mark", S, "Text.MIx.setDoc", "marks := { s.marks with docweight := mark s.marks.docweight docid, docwords := mark s.marks.docwords docid } }",
  "marks := { s.marks with docwords := mark s.marks.docwords docid } }", "document weights kept in a container that is not persistent", "C72: committed changes are stored")
m("st-deldoc-mark", S, "Text.MIx.delDoc", "marks := { s.marks with docwords := mark s.marks.docwords docid, docweight := mark s.marks.docweight docid } }",
  "marks := { s.marks with docweight := mark s.marks.docweight docid } }", "removed documents not marked", "C72: committed changes are stored")
m("st-count-mark", S, "Text.MIx.changeDocumentCount", "marks := { s.marks with documentCount := true } }", "marks := s.marks }", "a counter that is not persistent", "C72: committed changes are stored")
m("st-words-mark", S, "Text.MIx.changeWordCount", "marks := { s.marks with wordCount := true } }", "marks := s.marks }", "a counter that is not persistent", "C72: committed changes are stored")
m("st-total-mark", S, "Text.MIx.changeDocLen", "marks := { s.marks with total := true } } else s", "marks := s.marks } else s", "the total length is not persistent", "C72: committed changes are stored")
m("st-clear-mark", S, "Text.MIx.clear", "marks := { s.marks with wordinfo := fun _ => true,", "marks := { s.marks with wordinfo := s.marks.wordinfo,", "clear() empties the mapping in place without marking it", "C72: committed changes are stored")
m("st-clear-count", S, "Text.MIx.clear", "wordCount := 0, documentCount := 0 },", "wordCount := 0 },", "clear keeps documentCount", "C72: what the program sees is the index")
m("st-delete-mark", S, "Text.MIx.delete", "wordinfo := s.ix.wordinfo.del wid }, marks := { s.marks with wordinfo := mark s.marks.wordinfo wid } }", "wordinfo := s.ix.wordinfo.del wid }, marks := s.marks }",
  "a removed word not marked", "C72: committed changes are stored")
m("st-newtree-mark", S, "Text.MIx.newTree", "heap := s.ix.heap.alloc m }, marks := { s.marks with trees := mark s.marks.trees s.ix.heap.next } }", "heap := s.ix.heap.alloc m }, marks := s.marks }",
  "a new tree is not written", "C72: committed changes are stored")
m("st-puttree-mark", S, "Text.MIx.putTree", "heap := s.ix.heap.put a m }, marks := { s.marks with trees := mark s.marks.trees a } }", "heap := s.ix.heap.put a m }, marks := s.marks }",
  "a changed tree is not written", "C72: committed changes are stored")
m("st-lex-words", S, "Text.MLex.getWordIdCreate", "words := mark s.marks.words wid, count := true", "words := s.marks.words, count := true", "words by id not persistent", "C72: committed changes are stored")
m("st-lex-count", S, "Text.MLex.getWordIdCreate", "words := mark s.marks.words wid, count := true", "words := mark s.marks.words wid, count := s.marks.count", "the word counter is not marked, and reloaded with its old value", "C72: committed changes are stored")
m("st-lex-deactivate", S, "Text.MLex.deactivate", "if s.marks.count then s else", "if false then s else", "a changed counter is reloaded too: ids are handed out twice", "C72: what the program sees is the index")
m("st-abort-lex", S, "Text.TextDb.abort", "lex := ⟨t.savedLex, LexMarks.none⟩ }", "lex := t.lex }", "the lexicon keeps the words of aborted transactions", "C72: what the program sees after an abort")
m("st-commit-marks", S, "Text.TextDb.step", "savedIx := (t.ix.marks.or wi).write t.savedIx t.ix.ix,", "savedIx := wi.write t.savedIx t.ix.ix,", "marked objects not written", "C72: committed changes are stored")
m("st-error-keeps", S, "Text.TextDb.step", "| .error _ => t.abort", "| .error _ => t", "a call that raises leaves the transaction going", "C72: nothing of a failed transaction counts")
m("st-reindex-both", S, "Text.MIx.reindexDoc", "let s ← both.toList.foldlM (bothStep notices K old.1 new.1 docid) s\n", "", "changed scores of kept words not stored", "C72: what the program sees is the index")
m("st-unindex-count", S, "Text.MIx.unindexDoc", "return (s.delDoc docid).changeDocumentCount (-1)", "return s.delDoc docid", "documents not uncounted", "C72: what the program sees is the index")
m("unindex-total2", TX, "Text.unindexDoc", "let s ← subDocLen K docid s\n    let wids", "let s ← (if K.hasTotal then .ok s else .ok s : Except PyErr (Ix D R))\n    let wids", "length of a removed document not subtracted", "C54: total document length")
m("unindex-words2", TX, "Text.unindexDoc", "let s ← (SSet.ofList wids).toList.foldlM (fun s wid => delWordinfo wid docid s) s\n", "let s ← (SSet.ofList wids).toList.foldlM (fun s _ => (.ok s : Except PyErr (Ix D R))) s\n", "words of a removed document stay", "C51: exact; C56: term search")
