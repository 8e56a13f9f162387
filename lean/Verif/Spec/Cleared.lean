import Verif.Spec.Text

/-! # The total document length, when an index is cleared -/

set_option autoImplicit false

namespace Verif.Spec

variable {D : Type} [DecidableEq D]

/-- the list holds each indexed document with its words, once -/
def Listing (pipeline : List Element) (ops : List (Text.Op D)) (l : List (D × List Word)) : Prop :=
  (l.map (·.1)).Nodup ∧ ∀ d ws, (d, ws) ∈ l ↔ docWords pipeline ops d = some ws

/-- the number of words of the documents of a listing -/
def wordTotal (l : List (D × List Word)) : Nat := (l.map (fun p => p.2.length)).sum

/-- `n` is the number of words of the documents removed by `clear` in the history, added up over all calls of it -/
inductive Leftover (pipeline : List Element) : List (Text.Op D) → Nat → Prop
  | start : Leftover pipeline [] 0
  | clear {ops : List (Text.Op D)} {n : Nat} {l : List (D × List Word)} : Leftover pipeline ops n → Listing pipeline ops l →
      Leftover pipeline (ops ++ [.clear]) (n + wordTotal l)
  | other {ops : List (Text.Op D)} {n : Nat} {op : Text.Op D} : Leftover pipeline ops n → op ≠ .clear → Leftover pipeline (ops ++ [op]) n

/-- only what reached the lexicon -/
def lexiconOnly (ops : List (Text.Op D)) : List (Text.Op D) := (lexCalls ops).map .lexicon

end Verif.Spec
