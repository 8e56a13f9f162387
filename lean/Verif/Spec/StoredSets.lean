import Verif.Model.StoredSets

/-! # Which calls count, for a program that commits and aborts (C92) -/

set_option autoImplicit false

namespace Verif.Spec.StoredSets

variable {Op D K : Type}

/-- `h.1`: the calls that were committed; `h.2`: the calls since then -/
def historyStep (h : List Op × List Op) : StoreStep Op D K → List Op × List Op
  | .call op => (h.1, h.2 ++ [op])
  | .commit _ => (h.1 ++ h.2, [])
  | .evict _ => h
  | .abort => (h.1, [])

/-- the calls that count, after all steps of a program -/
def history (steps : List (StoreStep Op D K)) : List Op × List Op := steps.foldl historyStep ([], [])

end Verif.Spec.StoredSets
