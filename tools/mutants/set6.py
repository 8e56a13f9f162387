"""Wrong programs: answers that depend on the lexicon."""
M = []


def m(name, file, definition, old, new, edit, claim, **kw):
    M.append(dict(name=name, file=file, definition=definition, old=old, new=new, edit=edit, claim=claim, **kw))


TX, LX = "Model/TextIndex.lean", "Model/Lexicon.lean"

m("sl-wordcount", TX, "Text.TI.wordCount", "def TI.wordCount (s : TI D R) : Int := s.ix.wordCount", "def TI.wordCount (s : TI D R) : Int := s.lex.words.len",
  "wordCount of the index answers with the number of words in the lexicon", "C73: the same statistics whatever the lexicon")
m("sl-oov-count", TX, "Text.removeOov", "wids.filter (fun w => s.wordinfo.contains w)", "wids.filter (fun w => decide (0 < w ∧ w ≤ s.wordCount))",
  "a word is taken for known if its id is at most the number of words", "C73: the same answers whatever the ids")
m("sl-glob-oov", TX, "Text.searchGlob", "  let wids ← lex.globToWordIds odd pattern\n  searchUnion K s wids",
  "  let wids ← lex.globToWordIds odd pattern\n  let L ← K.searchWids s wids\n  massUnion K.arith.toWArith L",
  "search_glob keeps the words that are in no document", "C73: globs find the same with a shared lexicon")
m("sl-qw-oov", TX, "Text.okapiQueryWeight", "(removeOov s wids).foldlM (okapiWeightStep", "wids.foldlM (okapiWeightStep",
  "query_weight keeps the words that are in no document", "C73: the same query weight with a shared lexicon")
m("sl-count-word", TX, "Text.countLoop", "dset wid ((dget? wid d).getD 0 + 1) d) []", "dset (wid % 128) ((dget? (wid % 128) d).getD 0 + 1) d) []",
  "counts kept by the last digit of the word id", "C73: the same weights whatever the ids")
m("sl-glob-limit", LX, "Lexicon.globLoop", "if prog key then wid :: globLoop prog pre rest", "if prog key && decide (wid < 128) then wid :: globLoop prog pre rest",
  "globs ignore words with large ids", "C73: globs find the same whatever the ids")
