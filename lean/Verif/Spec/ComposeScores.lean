import Verif.Spec.Rounding

/-! # Scores of queries built from queries -/

set_option autoImplicit false

namespace Verif.Spec

/-- a document with score `x` for the first query and `y` for the second (`none`: not found), for `(q1) OR (q2)`; `a`, `b` and `c`
are what the scores of the two queries and of the combined query were divided by -/
noncomputable def orScore (a b c : ℝ) : Option ℝ → Option ℝ → Option ℝ
  | none, none => none
  | some x, none => some (x * a / c)
  | none, some y => some (y * b / c)
  | some x, some y => some ((x * a + y * b) / c)

/-- likewise for `(q1) AND (q2)` -/
noncomputable def andScore (a b c : ℝ) : Option ℝ → Option ℝ → Option ℝ
  | some x, some y => some ((x * a + y * b) / c)
  | _, _ => none

/-- likewise for `(q1) AND NOT (q2)` -/
def butScore : Option ℝ → Option ℝ → Option ℝ
  | x, none => x
  | _, some _ => none

end Verif.Spec
