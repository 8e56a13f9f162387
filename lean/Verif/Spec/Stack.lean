import Verif.Spec.Query
import Verif.Model.Stack

/-! Specification for queries on a limited stack: how deep a query is nested. -/

set_option autoImplicit false

namespace Verif.Spec

open QueryParser (Tok)

/-- reading from the left, never more than `m` parentheses are open -/
def NestedAtMost (m : Nat) (ts : List Tok) : Prop :=
  ∀ p : List Tok, p <+: ts → p.count .lparen ≤ p.count .rparen + m

/-- the query, taken apart as in C50, never has more than `m` parentheses open -/
def QueryNestedAtMost (isSpace : Char → Bool) (upper : Word → Word) (m : Nat) (q : Word) : Prop :=
  ∃ (ws : List Word) (ts : List Tok), Tokens isSpace q ws ∧ List.Forall₂ (TokOf upper) ws ts ∧ NestedAtMost m ts

/-- a number of frames for a query with `m` parentheses open: four for each, and a fixed number -/
def enoughFrames (F : Frames) (m : Nat) : Nat := 4 * m + 11 + max (max F.terms F.search) (max F.setops F.weight)

/-- the text `q` in `n` pairs of parentheses -/
def inParens (n : Nat) (q : Word) : Word := List.replicate n '(' ++ q ++ List.replicate n ')'

end Verif.Spec
