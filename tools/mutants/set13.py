# wrong programs for the theorems about transactions that overlap no other (C70, C80)
M = []
TX = "Model/Txn.lean"
TT = "Model/TxnText.lean"
TC = "Model/TxnClear.lean"


def m(name, file, definition, old, new, edit, claim, **k):
    M.append(dict(name=name, file=file, definition=definition, old=old, new=new, edit=edit, claim=claim, **k))


m("al-clear-conflicts", TC, "Housed.merge", "  else if c.home = o.home then (X.over", "  else if c.home = o.home ∧ c.home = n.home then (X.over",
  "a transaction that called clear() never commits", "C80: a transaction that overlaps no other commits")
m("al-kw-over", TC, "HKeyword.clearing", "  reset s := { HKeyword.new with treeThreshold := s.treeThreshold }\n  stale _ c _ := some c\n  over _ _ n := some n",
  "  reset s := { HKeyword.new with treeThreshold := s.treeThreshold }\n  stale _ c _ := some c\n  over _ _ n := if n.rev.isEmpty then some n else none",
  "clear() followed by index_doc conflicts in keyword indexes", "C80: a transaction that overlaps no other commits")
m("al-lex-merge", TX, "Lexicon.merge", "  let words ← mergeTree o.words c.words n.words\n", "  let words ← if c.words = n.words then some c.words else none\n",
  "the id table of the lexicon has no conflict resolution, not even against an unchanged state", "C70: a transaction that overlaps no other commits")
m("al-kw-merge", TX, "HKeyword.merge", "  let rev ← mergeTree o.rev c.rev n.rev\n  return { heap := heap, fwd := fwd, rev := rev, numDocs := mergeLength o.numDocs c.numDocs n.numDocs,\n",
  "  let rev ← if c.rev = n.rev then some c.rev else none\n  return { heap := heap, fwd := fwd, rev := rev, numDocs := mergeLength o.numDocs c.numDocs n.numDocs,\n",
  "the reverse index of keyword indexes refuses every change", "C70: a transaction that overlaps no other commits")
m("al-text-over", TC, "Text.HTI.clearing", "  over o c n := (Lexicon.merge o.lex c.lex n.lex).map", "  over o c n := (Lexicon.merge o.lex c.lex (if c.lex.wids = n.lex.wids then n.lex else o.lex)).map",
  "a transaction that cleared a text index loses the words it added to the lexicon", "C80: a text index keeps all words in its lexicon")
