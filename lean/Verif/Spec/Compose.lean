import Verif.Spec.Query

/-! # Query texts built from query texts -/

set_option autoImplicit false

namespace Verif.Spec

/-- `(q1) kw1 kw2 ... (q2)` -/
def combine (q1 : Word) (kws : List Word) (q2 : Word) : Word :=
  '(' :: q1 ++ ')' :: kws.flatMap (fun w => ' ' :: w) ++ ' ' :: '(' :: q2 ++ [')']

/-- every double quote has a partner -/
def QuotesPaired (q : Word) : Prop := q.count '"' % 2 = 0

/-- the documents of the answer of `apply`, a mapping or `None` -/
def Found {D R : Type} [LinearOrder D] (r : Option (SMap D R)) (d : D) : Prop := ∃ m, r = some m ∧ d ∈ m.keys

end Verif.Spec
