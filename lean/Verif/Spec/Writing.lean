import Verif.Spec.Compose

/-! # Ways to write the same query -/

set_option autoImplicit false

namespace Verif.Spec

/-- the words `w1 w2 w3` with a blank between them -/
def spaced : List Word → Word
  | [] => []
  | [w] => w
  | w :: ws => w ++ ' ' :: spaced ws

/-- a word, or a text in double quotes, perhaps after a hyphen -/
def TermShape (isSpace : Char → Bool) (w : Word) : Prop := (w ≠ [] ∧ ∀ c ∈ w, WordChar isSpace c) ∨
  ∃ hyphen body, (hyphen = [] ∨ hyphen = ['-']) ∧ '"' ∉ body ∧ w = hyphen ++ '"' :: body ++ ['"']

/-- a term that is looked up in the lexicon: no keyword -/
def IsTerm (isSpace : Char → Bool) (upper : Word → Word) (w : Word) : Prop := TermShape isSpace w ∧ TokOf upper w (.atom w)

/-- the terms `w1 AND w2 AND w3` -/
def withAnd : List Word → List Word
  | [] => []
  | [w] => [w]
  | w :: ws => w :: ['A', 'N', 'D'] :: withAnd ws

/-- white space or a parenthesis -/
def Delimiter (isSpace : Char → Bool) (c : Char) : Prop := isSpace c = true ∨ c = '(' ∨ c = ')'

/-- `w` is the keyword `kw`, in upper, lower or mixed case -/
def IsKeyword (isSpace : Char → Bool) (upper : Word → Word) (w kw : Word) : Prop :=
  w ≠ [] ∧ (∀ c ∈ w, WordChar isSpace c) ∧ kw ∈ [['A', 'N', 'D'], ['O', 'R'], ['N', 'O', 'T']] ∧ upper w = kw

end Verif.Spec
