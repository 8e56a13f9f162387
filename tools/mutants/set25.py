# wrong programs for patterns (C84, C98) and for searching and sorting (C99)
M = []
LX = "Model/Lexicon.lean"
QP = "Model/QueryParser.lean"
NB = "Model/NBest.lean"
FI = "Model/Field.lean"
TI = "Model/TextIndex.lean"


def m(name, file, definition, old, new, edit, claim, **k):
    M.append(dict(name=name, file=file, definition=definition, old=old, new=new, edit=edit, claim=claim, **k))


m("wc-glob-plain", LX, "Splitter.processGlob", "  lst.flatMap (findall isW (fun c => isW c || Lexicon.isGlobChar c))", "  lst.flatMap (findall isW isW)",
  "the splitter drops wildcards from queries", "C98: patterns find what they stand for")
m("wc-isglob-star", LX, "isGlob", "word.contains '*' || word.contains '?'", "word.contains '*'",
  "a word with ? alone is no pattern", "C98: patterns find what they stand for")
m("wc-atom-glob", QP, "parseAtom", "  | [w] => if Lexicon.isGlob w then some (.glob w) else some (.atom w)", "  | [w] => some (.atom w)",
  "patterns are taken as plain words", "C98: patterns find what they stand for")
m("wc-phrase-len", TI, "searchPhrase", "  if wids.length ≠ cleaned.length then return SMap.empty", "  if wids.length + 1 ≠ cleaned.length then return SMap.empty",
  "a phrase is given up unless a word is missing", "C84: a quoted text finds the documents that contain it")
m("wc-prefix", LX, "globToWordIds", "  let pre := pattern.takeWhile (fun c => !isGlobChar c)", "  let pre := pattern.takeWhile (fun c => !(c = '*'))",
  "only * ends the literal part of a pattern", "C98: patterns find what they stand for")
m("nb-ties", NB, "bisectLoop", "if y < x then bisectLoop a x fuel (mid + 1) hi", "if y ≤ x then bisectLoop a x fuel (mid + 1) hi",
  "later entries come first among equal scores", "C99: the smaller docid first among equal scores")
m("nb-skip", NB, "loopStep", ".ok (decide (p.2 ≤ s0), 1)", ".ok (decide (p.2 < s0), 1)",
  "an entry as good as the worst one replaces it", "C99: the smaller docid first among equal scores")
m("so-dup", FI, "body", "      let ids := SSet.ofList docids\n", "      let ids := SSet.ofList (docids.drop 1)\n",
  "the first of the given docids is left out", "C99: exactly the documents that match and have a value")
