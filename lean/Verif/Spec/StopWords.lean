import Verif.Spec.Lexicon
import Verif.Spec.Text

/-! # Stop words -/

set_option autoImplicit false

namespace Verif.Spec

/-- `ws` are the lower case words of a text, in order: words are maximal runs of word characters -/
def LowerWords (isW : Char → Bool) (lower : Word → Word) (t : TextArg) (ws : List Word) : Prop :=
  ∃ wss : List (List Word), List.Forall₂ (Runs isW isW) (textOf t) wss ∧ ws = wss.flatten.map lower

/-- the lower case words of two texts are the same if the stop words are left out -/
def SameText (isW : Char → Bool) (lower : Word → Word) (stop : Word → Bool) (t t' : TextArg) : Prop :=
  ∃ ws ws', LowerWords isW lower t ws ∧ LowerWords isW lower t' ws' ∧
    ws.filter (fun w => !stop w) = ws'.filter (fun w => !stop w)

/-- two calls are the same except for stop words in the text -/
inductive SameCall {D : Type} (isW : Char → Bool) (lower : Word → Word) (stop : Word → Bool) : Text.Op D → Text.Op D → Prop
  | same (op : Text.Op D) : SameCall isW lower stop op op
  | index (d : D) (t t' : TextArg) : SameText isW lower stop t t' → SameCall isW lower stop (.index d t) (.index d t')
  | source (t t' : TextArg) : SameText isW lower stop t t' →
      SameCall isW lower stop (.lexicon (.source t)) (.lexicon (.source t'))

end Verif.Spec
