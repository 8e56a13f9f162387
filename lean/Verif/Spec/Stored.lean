import Verif.Model.Stored

/-! # Which calls count, for a program that commits and aborts (C72) -/

set_option autoImplicit false

namespace Verif.Spec.Stored

open Text

variable {D R : Type} [LinearOrder D] (K : Kind D R) (pipeline : List Element)

/-- a call as an operation on a text index without a database -/
def toOp : SOp D → Text.Op D
  | .index d t => .index d t
  | .unindex d => .unindex d
  | .clear => .clear

/-- `h.1`: the calls that were committed; `h.2`: the calls since then.  A call that raises an exception ends its transaction, and
nothing of the transaction counts. -/
def historyStep (h : List (Text.Op D) × List (Text.Op D)) : DbStep D → List (Text.Op D) × List (Text.Op D)
  | .call op =>
    match Text.run K pipeline (h.1 ++ h.2 ++ [toOp op]) with
    | .ok _ => (h.1, h.2 ++ [toOp op])
    | .error _ => (h.1, [])
  | .commit _ _ => (h.1 ++ h.2, [])
  | .evict _ _ => h
  | .abort => (h.1, [])

/-- the calls that count, after all steps of a program -/
def history (steps : List (DbStep D)) : List (Text.Op D) × List (Text.Op D) := steps.foldl (historyStep K pipeline) ([], [])

end Verif.Spec.Stored
