# wrong programs for C80 (clear() in concurrent transactions)
M = []
TC = "Model/TxnClear.lean"


def m(name, file, definition, old, new, edit, claim):
    M.append(dict(name=name, file=file, definition=definition, old=old, new=new, edit=edit, claim=claim))


m("tc-both", TC, "Housed.merge", "  else none                                          -- both", "  else some n                                        -- both",
  "the second of two overlapping clear() wins", "C80: two overlapping transactions that cleared do not both commit")
m("tc-nohome", TC, "Housed.merge", "    if c.home = o.home then (E.merge o.inner c.inner n.inner).map (fun s => { home := c.home, inner := s })\n    else (X.stale o.inner c.inner n.inner).map (fun s => { home := c.home, inner := s })\n",
  "    (E.merge o.inner c.inner n.inner).map (fun s => { home := c.home, inner := s })\n",
  "changes are merged although the index was cleared", "C80: nothing of a transaction that began before a clear remains")
m("tc-home-old", TC, "Housed.merge", "(X.stale o.inner c.inner n.inner).map (fun s => { home := c.home, inner := s })",
  "(X.stale o.inner c.inner n.inner).map (fun s => { home := o.home, inner := s })",
  "a late commit brings the old containers back", "C80: later transactions are merged")
m("tc-over-home", TC, "Housed.merge", "(X.over o.inner c.inner n.inner).map (fun s => { home := n.home, inner := s })",
  "(X.over o.inner c.inner n.inner).map (fun s => { home := c.home, inner := s })",
  "clear() fills the containers in place", "C80: two overlapping transactions that cleared do not both commit")
m("tc-inplace", TC, "Housed.step", "{ home := r.1.2 + 1, inner := X.reset r.1.1.inner }", "{ home := r.1.1.home, inner := X.reset r.1.1.inner }",
  "clear() empties the containers instead of replacing them", "C80: the index holds exactly what was indexed after the clear")
m("tc-fails", TC, "Housed.engine", "fails next s cs := (exec E X next s cs).2", "fails _ _ _ := false",
  "transactions with exceptions are committed", "C80: committed states are states of an index")
m("tc-field-reset", TC, "HField.clearing", "  reset _ := HField.new\n", "  reset s := { HField.new with rev := s.rev }\n",
  "clear() leaves the reverse index", "C80: the index holds exactly what was indexed after the clear")
m("tc-field-stale", TC, "HField.clearing", "  reset _ := HField.new\n  stale _ c _ := some c\n", "  reset _ := HField.new\n  stale _ _ n := some n\n",
  "a late commit replaces the cleared index", "C80: nothing of a transaction that began before a clear remains")
m("tc-field-over", TC, "HField.clearing", "  reset _ := HField.new\n  stale _ c _ := some c\n  over _ _ n := some n\n", "  reset _ := HField.new\n  stale _ c _ := some c\n  over _ c _ := some c\n",
  "a clear that met other commits has no effect", "C80: the index holds exactly what was indexed after the clear")
m("tc-kw-count", TC, "HKeyword.clearing", "reset s := { HKeyword.new with treeThreshold := s.treeThreshold }", "reset s := { HKeyword.new with treeThreshold := s.treeThreshold, numDocs := s.numDocs }",
  "clear() keeps the number of documents", "C80: every committed state is an index used by one thread")
m("tc-text-lexicon", TC, "Text.HTI.clearing", "reset s := { lex := s.lex, ix", "reset s := { lex := Lexicon.new, ix",
  "clear() empties the lexicon", "C80: a text index keeps all words in its lexicon")
m("tc-text-stale", TC, "Text.HTI.clearing", "  stale o c n := (Lexicon.merge o.lex c.lex n.lex).map\n    (fun lex => { lex := lex, ix", "  stale o c n := some n.lex |>.map\n    (fun lex => { lex := lex, ix",
  "a late commit overwrites the lexicon", "C80: every committed state is an index used by one thread")
m("tc-text-over", TC, "Text.HTI.clearing", "  over o c n := (Lexicon.merge o.lex c.lex n.lex).map\n    (fun lex => { lex := lex, ix", "  over o c n := some c.lex |>.map\n    (fun lex => { lex := lex, ix",
  "words added by the clearing transaction are lost", "C80: every committed state is an index used by one thread")
m("tc-keeps", TC, "HKeyword.clearing", "/-- keyword/index.py:49-59 (`tree_threshold` is an attribute of the class) -/\ndef HKeyword.clearing {D W : Type} [LinearOrder D] [LinearOrder W] : Clearing (HKeyword D W) (Keyword.Op D W) (Keyword.Op D W) where\n  keeps\n    | .clear => none\n", "/-- keyword/index.py:49-59 (`tree_threshold` is an attribute of the class) -/\ndef HKeyword.clearing {D W : Type} [LinearOrder D] [LinearOrder W] : Clearing (HKeyword D W) (Keyword.Op D W) (Keyword.Op D W) where\n  keeps\n    | .unindex _ => none\n",
  "unindex_doc clears", "C80: documents are merged as without clear()")
