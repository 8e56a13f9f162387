# wrong programs for two indexes in one database (C93) and for replaced words (C94)
M = []
CT = "Model/Catalog.lean"


def m(name, definition, old, new, edit, claim="C93: each document is in both indexes or in neither", file=CT, **k):
    M.append(dict(name=name, file=file, definition=definition, old=old, new=new, edit=edit, claim=claim, **k))


m("cat-merge-one", "Engine.both", "    | some r₁, some r₂ => some (r₁, r₂)\n    | _, _ => none", "    | some r₁, some r₂ => some (r₁, r₂)\n    | none, some r₂ => some (c.1, r₂)\n    | _, _ => none",
  "a conflict in the field index loses its changes, while those of the text index are committed")
m("cat-merge-two", "Engine.both", "    | some r₁, some r₂ => some (r₁, r₂)\n    | _, _ => none", "    | some r₁, some r₂ => some (r₁, r₂)\n    | some r₁, none => some (r₁, c.2)\n    | _, _ => none",
  "a conflict in the text index loses its changes, while those of the field index are committed")
m("cat-merge-new", "Engine.both", "    match E₁.merge o.1 c.1 n.1, E₂.merge o.2 c.2 n.2 with", "    match E₁.merge o.1 c.1 n.1, E₂.merge o.2 o.2 n.2 with",
  "the changes committed meanwhile to the text index are overwritten")
m("cat-merge-skip", "Engine.both", "    match E₁.merge o.1 c.1 n.1, E₂.merge o.2 c.2 n.2 with", "    match some c.1, E₂.merge o.2 c.2 n.2 with",
  "the changes of a transaction to the field index are dropped when it has to be merged")
m("cat-unindex-text", "CatOp.text", "  | .index d _ t c => .index d t c\n  | .unindex d => .unindex d", "  | .index d _ t c => .index d t c\n  | .unindex d => .index d .none 0",
  "removing a document gives it an empty text instead")
m("cat-index-field", "CatOp.field", "  | .index d v _ _ => .index d v\n", "  | .index d _ _ _ => .unindex d\n", "the value of a document is not indexed")
LX = "Model/Lexicon.lean"
m("val-wid-word", "getWordIdCreate", "    let wid := s.newWid\n", "    let wid := if word.isEmpty then s.newWid + 1 else s.newWid\n",
  "the id of a new word depends on the word", claim="C94: words are only compared", file=LX)
m("val-first-char", "getWid", "def getWid (s : Lexicon) (word : Word) : Int := (s.wids.get? word).getD 0",
  "def getWid (s : Lexicon) (word : Word) : Int := if word.length = 1 then 0 else (s.wids.get? word).getD 0",
  "words of one character are treated as unknown in queries", claim="C94: words are only compared", file=LX)
m("val-source-len", "sourceToWordIds", "  s.createAll (runPipeline pipeline (sourceText text))", "  s.createAll ((runPipeline pipeline (sourceText text)).filter (fun w => w.length < 250))",
  "very long words are left out of documents", claim="C94: words are only compared", file=LX)
