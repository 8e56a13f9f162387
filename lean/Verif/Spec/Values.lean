import Verif.Spec.Text
import Verif.Spec.Keyword
import Verif.Spec.Field

/-! # The same calls with other values, keywords or words -/

set_option autoImplicit false

namespace Verif.Spec

variable {D : Type}

/-- the call with the value replaced -/
def mapValue {V V' : Type} (g : V → V') : Field.Op D V → Field.Op D V'
  | .index d v => .index d (g v)
  | .unindex d => .unindex d
  | .clear => .clear

/-- the sequence with its keywords replaced -/
def mapSeq {W W' : Type} (g : W → W') : Keyword.SeqArg W → Keyword.SeqArg W'
  | .str => .str
  | .seq truthy items => .seq truthy (items.map g)

/-- the call with the keywords replaced -/
def mapKeywords {W W' : Type} (g : W → W') : Keyword.Op D W → Keyword.Op D W'
  | .index d seq => .index d (mapSeq g seq)
  | .unindex d => .unindex d
  | .clear => .clear
  | .optimize => .optimize
  | .setThreshold n => .setThreshold n

/-- the query with its keywords replaced -/
def mapQuery {W W' : Type} (g : W → W') : Keyword.QueryArg W → Keyword.QueryArg W'
  | .str w => .str (g w)
  | .seq l => .seq (l.map g)

/-- the text argument `t'` has, with the second pipeline, the words that `t` has with the first, replaced -/
def MappedText (g : Word → Word) (pipeline pipeline' : List Element) (t t' : TextArg) : Prop :=
  (t = .none ↔ t' = .none) ∧ wordsOf pipeline' t' = (wordsOf pipeline t).map g

/-- the same call, on an index with the second pipeline, with the words replaced -/
inductive MappedCall (g : Word → Word) (pipeline pipeline' : List Element) : Text.Op D → Text.Op D → Prop
  | index (d : D) (t t' : TextArg) : wordsOf pipeline' t' = (wordsOf pipeline t).map g →
      MappedCall g pipeline pipeline' (.index d t) (.index d t')
  | unindex (d : D) : MappedCall g pipeline pipeline' (.unindex d) (.unindex d)
  | clear : MappedCall g pipeline pipeline' .clear .clear
  | source (t t' : TextArg) : wordsOf pipeline' t' = (wordsOf pipeline t).map g →
      MappedCall g pipeline pipeline' (.lexicon (.source t)) (.lexicon (.source t'))
  | reload (n : Int) : MappedCall g pipeline pipeline' (.lexicon (.reload n)) (.lexicon (.reload n))

/-- the same parsed query, without patterns, with the words replaced -/
inductive MappedQuery (g : Word → Word) (pipeline pipeline' : List Element) : Node → Node → Prop
  | atom (w w' : Word) : MappedText g pipeline pipeline' (.str w) (.str w') → MappedQuery g pipeline pipeline' (.atom w) (.atom w')
  | phrase (ws ws' : List Word) : MappedText g pipeline pipeline' (.list ws) (.list ws') →
      MappedQuery g pipeline pipeline' (.phrase ws) (.phrase ws')
  | not (n n' : Node) : MappedQuery g pipeline pipeline' n n' → MappedQuery g pipeline pipeline' (.not n) (.not n')
  | and (l l' : List Node) : List.Forall₂ (MappedQuery g pipeline pipeline') l l' → MappedQuery g pipeline pipeline' (.and l) (.and l')
  | or (l l' : List Node) : List.Forall₂ (MappedQuery g pipeline pipeline') l l' → MappedQuery g pipeline pipeline' (.or l) (.or l')

end Verif.Spec
