/-! Vocabulary shared by the specifications. -/

set_option autoImplicit false

namespace Verif.Spec

/-- `n` is the number of elements satisfying `P` -/
def CountIs {α : Type} (P : α → Prop) (n : Nat) : Prop :=
  ∃ l : List α, l.Nodup ∧ (∀ x, x ∈ l ↔ P x) ∧ l.length = n

end Verif.Spec
