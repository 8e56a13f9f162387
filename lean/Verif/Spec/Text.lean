import Verif.Model.TextIndex
import Verif.Spec.Lexicon
import Verif.Spec.Common

/-! # What a text index promises, in terms of the calls made on it -/

set_option autoImplicit false

namespace Verif.Spec

variable {D : Type} [DecidableEq D]

/-- effect of a call on the assignment of texts to docids -/
def textStep (cur : D → Option TextArg) : Text.Op D → D → Option TextArg
  | .index d t => fun d' => if d' = d then some t else cur d'
  | .unindex d => fun d' => if d' = d then none else cur d'
  | .clear => fun _ => none
  | .lexicon _ => cur

/-- the texts indexed after a history -/
def currentText (ops : List (Text.Op D)) : D → Option TextArg := ops.foldl textStep (fun _ => none)

/-- the calls that reach the lexicon -/
def lexCalls (ops : List (Text.Op D)) : List Lexicon.Op :=
  ops.filterMap (fun op => match op with
    | .index _ t => some (.source t)
    | .lexicon op => some op
    | _ => none)

/-- the lexicon after a history -/
def lexAfter (pipeline : List Element) (ops : List (Text.Op D)) : Lexicon := Lexicon.run pipeline (lexCalls ops)

/-- the word sequence of an argument -/
def wordsOf (pipeline : List Element) (t : TextArg) : List Word := pipelined pipeline (textOf t)

/-- the word sequence of an indexed document -/
def docWords (pipeline : List Element) (ops : List (Text.Op D)) (d : D) : Option (List Word) :=
  (currentText ops d).map (wordsOf pipeline)

/-- the document is indexed and contains the word -/
def Holds (pipeline : List Element) (ops : List (Text.Op D)) (d : D) (w : Word) : Prop :=
  ∃ ws, docWords pipeline ops d = some ws ∧ w ∈ ws

/-- the lexicon gave out fewer than `2^28` word ids, and no counter read from the database was negative -/
def SmallLexicon (pipeline : List Element) (ops : List (Text.Op D)) : Prop :=
  NonNegReloads (lexCalls ops) ∧ ∀ w, (lexAfter pipeline ops).getWid w < 2 ^ 28

/-- the length of every text passed in is exact in single precision (the case up to `2^24` words) -/
def LengthsExact {R : Type} (A : Arith R) (pipeline : List Element) (ops : List (Text.Op D)) : Prop :=
  ∀ d t, Text.Op.index d t ∈ ops → A.toInt (A.store (A.ofNat (wordsOf pipeline t).length)) = (wordsOf pipeline t).length

/-- no `clear` in the history -/
def NoClear (ops : List (Text.Op D)) : Prop := Text.Op.clear ∉ ops

end Verif.Spec
