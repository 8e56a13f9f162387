import Verif.Model.Legacy

/-! # What objects stored by older releases look like -/

set_option autoImplicit false

namespace Verif.Spec

open Text

variable {D R : Type} [LinearOrder D]

/-- `l` is the text index `s` as an older release may have stored it: any of the counters `wordCount` and `documentCount` may be
missing, and the total length may be a plain number; all else is the same -/
structure StoredEarlier (l : LTI D R) (s : TI D R) : Prop where
  lexicon : l.lex = s.lex
  wordinfo : l.ix.wordinfo = s.ix.wordinfo
  docweight : l.ix.docweight = s.ix.docweight
  docwords : l.ix.docwords = s.ix.docwords
  wordCount : l.ix.wordCount = .method ∨ l.ix.wordCount = .length s.ix.wordCount
  documentCount : l.ix.documentCount = .method ∨ l.ix.documentCount = .length s.ix.documentCount
  total : l.ix.total = .plain s.ix.total ∨ l.ix.total = .length s.ix.total

end Verif.Spec
