import Verif.Model.ParseTree
import Verif.Spec.Text

/-! # Meaning of a query: which documents match -/

set_option autoImplicit false

namespace Verif.Spec

variable {D : Type}

/-- which documents match the leaves of a tree; a word may be ignored (`none`) -/
structure Leaves (D : Type) where
  word : Word → Option (D → Prop)
  phrase : List Word → Option (D → Prop)
  glob : Word → Option (D → Prop)

namespace Leaves

variable (L : Leaves D)

mutual

/-- which documents match a tree; `none` if the tree is ignored.  AND: at least one part that is neither ignored nor a NOT, all such
parts match, and no negated part does.  OR: some part that is not ignored matches. -/
def matches? : Node → Option (D → Prop)
  | .atom w => L.word w
  | .phrase ws => L.phrase ws
  | .glob w => L.glob w
  | .not _ => none
  | .and l => some (fun d => positive l ≠ [] ∧ (∀ P ∈ positive l, P d) ∧ ∀ P ∈ negative l, ¬ P d)
  | .or l => some (fun d => ∃ P ∈ parts l, P d)

/-- the parts of an AND that are not negated and not ignored -/
def positive : List Node → List (D → Prop)
  | [] => []
  | .not _ :: rest => positive rest
  | n :: rest => (matches? n).toList ++ positive rest

/-- the negated parts of an AND that are not ignored -/
def negative : List Node → List (D → Prop)
  | [] => []
  | .not m :: rest => (matches? m).toList ++ negative rest
  | _ :: rest => negative rest

/-- the parts of an OR that are not ignored -/
def parts : List Node → List (D → Prop)
  | [] => []
  | n :: rest => (matches? n).toList ++ parts rest

end

end Leaves

/-- `n` is a leaf (word, phrase, glob) of the tree -/
inductive LeafOf : Node → Node → Prop
  | atom (w : Word) : LeafOf (.atom w) (.atom w)
  | phrase (ws : List Word) : LeafOf (.phrase ws) (.phrase ws)
  | glob (w : Word) : LeafOf (.glob w) (.glob w)
  | not (x n : Node) : LeafOf x n → LeafOf x (.not n)
  | and (x n : Node) (l : List Node) : n ∈ l → LeafOf x n → LeafOf x (.and l)
  | or (x n : Node) (l : List Node) : n ∈ l → LeafOf x n → LeafOf x (.or l)

section text

variable [DecidableEq D] (pipeline : List Element) (ops : List (Text.Op D))

/-- the document contains the words one after the other -/
def HasPhrase (d : D) (ws : List Word) : Prop := ∃ doc, docWords pipeline ops d = some doc ∧ ws <:+: doc

/-- what `search_phrase` looks for: the document contains every word of the phrase and, one after the other, the words of the
phrase, except that instead of the last word there may be one whose id begins, written to base 128, with the digits of the id of
that last word -/
def PhraseFound (d : D) (ws : List Word) : Prop :=
  ∃ doc init last v, docWords pipeline ops d = some doc ∧ ws = init ++ [last] ∧ (∀ w ∈ ws, w ∈ doc) ∧ init ++ [v] <:+: doc ∧
    ∃ j : Nat, (lexAfter pipeline ops).getWid v / 128 ^ j = (lexAfter pipeline ops).getWid last

/-- a glob pattern whose first glob character comes after a non-empty literal part without regular expression metacharacters other
than `.` -/
def GlobOk (p : Word) : Prop :=
  ∃ pre c rest, p = pre ++ c :: rest ∧ pre ≠ [] ∧ (c = '*' ∨ c = '?') ∧ ∀ x ∈ pre, x ∉ Lexicon.specialChars

/-- the document contains a word that matches the pattern -/
def HasGlob (d : D) (p : Word) : Prop := ∃ w, Holds pipeline ops d w ∧ GlobMatch p w

/-- the documents that match a word, phrase or pattern of a query.  The words of the query pass through the pipeline once more. -/
def textLeaves : Leaves D where
  word w := if wordsOf pipeline (.str w) = [] then none
    else some (fun d => ∃ v ∈ wordsOf pipeline (.str w), Holds pipeline ops d v)
  phrase ws := some (fun d => PhraseFound pipeline ops d (wordsOf pipeline (.list ws)))
  glob p := some (fun d => HasGlob pipeline ops d p)

end text

end Verif.Spec
