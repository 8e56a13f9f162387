import Verif.Model.RejectedText
import Verif.Spec.Text

/-! # What calls with rejected texts should do, and what they do -/

set_option autoImplicit false

namespace Verif.Spec

variable {D : Type} [DecidableEq D]

/-- the calls that were not rejected, in order -/
def accepted : List (Text.Attempt D) → List (Text.Op D)
  | [] => []
  | .made op :: calls => op :: accepted calls
  | .rejected _ _ :: calls => accepted calls

/-- every rejected call was for a docid that was not indexed at the time: `done` are the calls accepted before -/
def RejectedNew (done : List (Text.Op D)) : List (Text.Attempt D) → Prop
  | [] => True
  | .made op :: calls => RejectedNew (done ++ [op]) calls
  | .rejected d _ :: calls => currentText done d = none ∧ RejectedNew done calls

/-- the number of words of the document of each rejected call at the time, added up -/
def lostWords (pipeline : List Element) (done : List (Text.Op D)) : List (Text.Attempt D) → Nat
  | [] => 0
  | .made op :: calls => lostWords pipeline (done ++ [op]) calls
  | .rejected d _ :: calls => ((docWords pipeline done d).map List.length).getD 0 + lostWords pipeline done calls

end Verif.Spec
