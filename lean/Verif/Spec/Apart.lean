import Verif.Model.Field
import Verif.Model.Keyword
import Verif.Model.Topic
import Verif.Model.TextIndex

/-! # Calls that do not concern a document -/

set_option autoImplicit false

namespace Verif.Spec

variable {D : Type}

/-- the call neither names document `d` nor clears the index -/
def SparesField {V : Type} (d : D) : Field.Op D V → Prop
  | .index d' _ => d' ≠ d
  | .unindex d' => d' ≠ d
  | .clear => False

/-- the call neither names document `d` nor clears the index; `optimize` and changes of `tree_threshold` are allowed -/
def SparesKeyword {W : Type} (d : D) : Keyword.Op D W → Prop
  | .index d' _ => d' ≠ d
  | .unindex d' => d' ≠ d
  | .clear => False
  | .optimize => True
  | .setThreshold _ => True

/-- the call indexes or unindexes another document; no changes of the filters -/
def SparesTopic {F E X : Type} [LinearOrder D] (d : D) : Topic.Op F D E X → Prop
  | .index d' _ => d' ≠ d
  | .unindex d' => d' ≠ d
  | _ => False

/-- the call neither names document `d` nor clears the index; any use of the lexicon is allowed -/
def SparesText (d : D) : Text.Op D → Prop
  | .index d' _ => d' ≠ d
  | .unindex d' => d' ≠ d
  | .clear => False
  | .lexicon _ => True

end Verif.Spec
