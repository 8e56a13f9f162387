import Verif.Model.Reject

/-! The calls of a history that raised nothing. -/

set_option autoImplicit false

namespace Verif.Spec

/-- the calls of a history on the field index `s` that raise nothing; the others were caught by the caller -/
def fieldSucceeded {D V : Type} [LinearOrder D] [LinearOrder V] (ok : D → Bool) : Field D V → List (Field.Op D V) →
    List (Field.Op D V)
  | _, [] => []
  | s, op :: ops =>
    match Field.stepChecked ok s op with
    | (s', none) => op :: fieldSucceeded ok s' ops
    | (s', some _) => fieldSucceeded ok s' ops

/-- the calls of a history on the keyword index `s` that do not raise `TypeError` -/
def keywordSucceeded {D W : Type} [LinearOrder D] [LinearOrder W] (ok : D → Bool) (normalize : List W → List W) :
    Keyword D W → List (Keyword.Op D W) → List (Keyword.Op D W)
  | _, [] => []
  | s, op :: ops =>
    match Keyword.stepChecked ok normalize s op with
    | (s', some .TypeError) => keywordSucceeded ok normalize s' ops
    | (s', _) => op :: keywordSucceeded ok normalize s' ops

end Verif.Spec
