import Verif.Spec.Compose

/-! # Boolean formulas of queries -/

set_option autoImplicit false

namespace Verif.Spec

/-- a query text, or texts joined by `OR`, `AND` and `AND NOT` -/
inductive Formula
  | query (q : Word)
  | or (a b : Formula)
  | and (a b : Formula)
  | andNot (a b : Formula)

/-- the text of the formula, every part in parentheses -/
def Formula.text : Formula → Word
  | .query q => q
  | .or a b => combine a.text [['O', 'R']] b.text
  | .and a b => combine a.text [['A', 'N', 'D']] b.text
  | .andNot a b => combine a.text [['A', 'N', 'D'], ['N', 'O', 'T']] b.text

/-- the queries it is made of -/
def Formula.queries : Formula → List Word
  | .query q => [q]
  | .or a b => a.queries ++ b.queries
  | .and a b => a.queries ++ b.queries
  | .andNot a b => a.queries ++ b.queries

/-- its truth, given the truth of the queries -/
def Formula.truth (v : Word → Prop) : Formula → Prop
  | .query q => v q
  | .or a b => a.truth v ∨ b.truth v
  | .and a b => a.truth v ∧ b.truth v
  | .andNot a b => a.truth v ∧ ¬ b.truth v

/-- the second formula is true whenever the first is -/
def Formula.Implies (a b : Formula) : Prop := ∀ v, a.truth v → b.truth v

/-- the two formulas are true in the same cases -/
def Formula.Equivalent (a b : Formula) : Prop := ∀ v, a.truth v ↔ b.truth v

end Verif.Spec
