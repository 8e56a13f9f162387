import Verif.Model.TxnText
import Verif.Spec.Text
import Verif.Spec.Txn

/-! Specification of transactions on a text index. -/

set_option autoImplicit false

namespace Verif.Spec.Txn

variable {D : Type} [DecidableEq D]

/-- effect of a call on the word sequences of the documents -/
def textUpdate (pipeline : List Element) (m : D → Option (List Word)) : Text.TOp D → D → Option (List Word)
  | .index d t _ => fun x => if x = d then some (wordsOf pipeline t) else m x
  | .unindex d => fun x => if x = d then none else m x

/-- numbers up to the length of the text are exact in single precision (the case up to `2^24` words) -/
def CountsExact {R : Type} (A : Arith R) (pipeline : List Element) (t : TextArg) : Prop :=
  (∀ n, n ≤ (wordsOf pipeline t).length → A.store (A.ofNat n) = A.ofNat n) ∧
  A.toInt (A.store (A.ofNat (wordsOf pipeline t).length)) = (wordsOf pipeline t).length

end Verif.Spec.Txn

namespace Verif.Spec

/-- two text indexes answer all calls alike, scores included -/
structure SameAnswers {D R : Type} [LinearOrder D] (K : Text.Kind D R) (pipeline : List Element) (s s' : Text.TI D R) : Prop where
  documentCount : s.documentCount = s'.documentCount
  wordCount : s.wordCount = s'.wordCount
  hasDoc : ∀ d, Text.hasDoc s.ix d = Text.hasDoc s'.ix d
  getWords : ∀ d, Text.getWords s.ix d = Text.getWords s'.ix d
  search : ∀ t, Text.search K pipeline s.lex s.ix t = Text.search K pipeline s'.lex s'.ix t
  searchPhrase : ∀ t, Text.searchPhrase K pipeline s.lex s.ix t = Text.searchPhrase K pipeline s'.lex s'.ix t
  searchGlob : ∀ odd w, Text.searchGlob K odd s.lex s.ix w = Text.searchGlob K odd s'.lex s'.ix w
  queryWeight : ∀ terms, Text.queryWeight K pipeline s terms = Text.queryWeight K pipeline s' terms
  apply : ∀ isSpace upper odd q, Text.apply K isSpace upper odd pipeline s q = Text.apply K isSpace upper odd pipeline s' q

end Verif.Spec
