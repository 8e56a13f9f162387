import Verif.Model.TxnText

/-! # A program that keeps two indexes

Programs index a document in several indexes, one for each aspect of it: here a field index and a text index with its lexicon, in
one database.  `/repo` has no class for this; what is modelled is the code of `/repo` used by such a program. -/

set_option autoImplicit false

namespace Verif

/-- two kinds of objects in one database: the calls of a transaction are executed on both, its changes are merged on both, and it is
aborted if one of the two objects cannot be merged, or one of the calls raises.  Objects of the two have separate addresses. -/
def Engine.both {S₁ S₂ O O₁ O₂ : Type} (E₁ : Engine S₁ O₁) (E₂ : Engine S₂ O₂) (f₁ : O → O₁) (f₂ : O → O₂) : Engine (S₁ × S₂) O where
  run n s ops := (((E₁.run n s.1 (ops.map f₁)).1, (E₂.run n s.2 (ops.map f₂)).1),
    max (E₁.run n s.1 (ops.map f₁)).2 (E₂.run n s.2 (ops.map f₂)).2)
  merge o c n :=
    match E₁.merge o.1 c.1 n.1, E₂.merge o.2 c.2 n.2 with
    | some r₁, some r₂ => some (r₁, r₂)
    | _, _ => none
  fails n s ops := E₁.fails n s.1 (ops.map f₁) || E₂.fails n s.2 (ops.map f₂)

/-- the program gives a document a value and a text, or removes it.  `counter`: what `_new_wid` of the lexicon starts from
(text/lexicon.py:149-155) -/
inductive CatOp (D V : Type)
  | index (docid : D) (value : V) (text : TextArg) (counter : Int)
  | unindex (docid : D)

/-- field/index.py:65-107: the call of the field index -/
def CatOp.field {D V : Type} : CatOp D V → Field.Op D V
  | .index d v _ _ => .index d v
  | .unindex d => .unindex d

/-- text/textindex.py:53-57: the call of the text index -/
def CatOp.text {D V : Type} : CatOp D V → Text.TOp D
  | .index d _ t c => .index d t c
  | .unindex d => .unindex d

/-- a field index and a text index with its lexicon in one database -/
def catEngine {D V R : Type} [LinearOrder D] [LinearOrder V] [DecidableEq R] (K : Text.Kind D R) (pipeline : List Element) :
    Engine (HField D V × Text.HTI D R) (CatOp D V) :=
  Engine.both HField.engine (Text.HTI.engine K pipeline) CatOp.field CatOp.text

/-- the two new indexes -/
def catNew {D V R : Type} [LinearOrder D] [LinearOrder V] : HField D V × Text.HTI D R := (HField.new, Text.HTI.new)

end Verif
