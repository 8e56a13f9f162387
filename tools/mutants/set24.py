# wrong programs for rejected texts (C96) and cleared indexes (C53, C54, C55)
M = []
RT = "Model/RejectedText.lean"
TI = "Model/TextIndex.lean"


def m(name, definition, old, new, edit, claim="C96: a text the pipeline rejects changes nothing", file=RT, **k):
    M.append(dict(name=name, file=file, definition=definition, old=old, new=new, edit=edit, claim=claim, **k))


m("rej-new-weight", "rejectedDoc", "  else (s, e)", "  else ({ s with docweight := s.docweight.set docid K.arith.zero }, e)",
  "a new document gets a weight before its text is passed through the pipeline")
m("rej-new-count", "rejectedDoc", "  else (s, e)", "  else ({ s with documentCount := s.documentCount + 1 }, e)",
  "a new document is counted before its text is passed through the pipeline")
m("rej-old-removed", "rejectedDoc", "        | .ok _ => (s', e)", "        | .ok _ => ({ s' with docwords := s'.docwords.del docid }, e)",
  "the old words of the document are removed before the new text is passed through the pipeline")
m("rej-swallow", "rejectedDoc", "        | .ok _ => (s', e)", "        | .ok _ => (s', .KeyError)",
  "the exception of the pipeline is replaced by KeyError")
m("rej-twice", "rejectedDoc", "        | .ok _ => (s', e)", "        | .ok _ => ((match subDocLen K docid s' with | .ok s'' => s'' | .error _ => s'), e)",
  "the old length is taken from the total twice", claim="C96: only the length of the document is lost")
m("rej-lexicon", "stepAttempt", "  | .rejected docid e => .ok { s with ix := (rejectedDoc K docid e s.ix).1 }",
  "  | .rejected docid e => .ok { lex := (s.lex.sourceToWordIds pipeline .none).1, ix := if s.lex.wids.isEmpty then (rejectedDoc K docid e s.ix).1 else new }",
  "a rejected text empties the index")
m("clr-count", "clear", "  { s with wordinfo := SMap.empty, docweight := SMap.empty, docwords := SMap.empty, wordCount := 0, documentCount := 0 }",
  "  { s with wordinfo := SMap.empty, docweight := SMap.empty, docwords := SMap.empty, wordCount := 0 }",
  "clear() does not reset the number of documents", claim="C55: clear makes a text index like new", file=TI)
m("clr-weights", "clear", "  { s with wordinfo := SMap.empty, docweight := SMap.empty, docwords := SMap.empty, wordCount := 0, documentCount := 0 }",
  "  { s with wordinfo := SMap.empty, docwords := SMap.empty, wordCount := 0, documentCount := 0 }",
  "clear() keeps the weights of the documents", claim="C55: clear makes a text index like new", file=TI)
m("clr-total-double", "clear", "  { s with wordinfo := SMap.empty, docweight := SMap.empty, docwords := SMap.empty, wordCount := 0, documentCount := 0 }",
  "  { s with wordinfo := SMap.empty, docweight := SMap.empty, docwords := SMap.empty, wordCount := 0, documentCount := 0, total := -s.total }",
  "clear() leaves a negative total length", claim="C54: the total length is the sum of the lengths of the indexed and the cleared documents", file=TI)
