import Verif.Spec.Lexicon

/-! # What counts as markup -/

set_option autoImplicit false

namespace Verif.Spec

/-- an ASCII letter -/
def AsciiLetter (c : Char) : Prop := ('A' ≤ c ∧ c ≤ 'Z') ∨ ('a' ≤ c ∧ c ≤ 'z')

/-- `<...>` without angle brackets inside, or `&name;` -/
inductive Markup : Word → Prop
  | tag (body : Word) : '<' ∉ body → '>' ∉ body → Markup ('<' :: body ++ ['>'])
  | entity (name : Word) : name ≠ [] → (∀ c ∈ name, AsciiLetter c) → Markup ('&' :: name ++ [';'])

/-- `Strip s t`: reading `s` from left to right, `t` is what remains when each piece of markup met is replaced by a blank -/
inductive Strip : Word → Word → Prop
  | nil : Strip [] []
  | markup (m s t : Word) : Markup m → Strip s t → Strip (m ++ s) (' ' :: t)
  | char (c : Char) (s t : Word) : (∀ m r, Markup m → c :: s ≠ m ++ r) → Strip s t → Strip (c :: s) (c :: t)

/-- a text with pieces of markup in it: `first`, then for each pair a piece of markup and the text after it -/
def document (first : Word) (rest : List (Word × Word)) : Word := first ++ rest.flatMap (fun p => p.1 ++ p.2)

/-- plain text: no `<` and no `&` -/
def Plain (s : Word) : Prop := '<' ∉ s ∧ '&' ∉ s

end Verif.Spec
