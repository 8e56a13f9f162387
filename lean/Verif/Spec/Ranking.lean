import Verif.Spec.Scores

/-! # When a document should rank at least as high as another one -/

set_option autoImplicit false

namespace Verif.Spec

variable {D : Type} [DecidableEq D] (pipeline : List Element) (ops : List (Text.Op D))

/-- how often the word occurs in the document -/
def occurrences (d : D) (w : Word) : ℕ := ((docWords pipeline ops d).getD []).count w

/-- number of words of the document -/
def docLength (d : D) : ℕ := ((docWords pipeline ops d).getD []).length

/-- for the query `t`, document `d` is at least as good as document `e`: the words asked for occur in `d` at least as often as in `e`,
the phrases found in `e` are found in `d`, and the negated parts that `d` matches are matched by `e` as well -/
inductive AsGood (d e : D) : Node → Prop
  | atom (w : Word) : (∀ v ∈ wordsOf pipeline (.str w), occurrences pipeline ops e v ≤ occurrences pipeline ops d v) → AsGood d e (.atom w)
  | phrase (ws : List Word) : (∀ v ∈ wordsOf pipeline (.list ws), occurrences pipeline ops e v ≤ occurrences pipeline ops d v) →
      ((textLeaves pipeline ops).Matches (.phrase ws) e → (textLeaves pipeline ops).Matches (.phrase ws) d) → AsGood d e (.phrase ws)
  | glob (p : Word) : (∀ v, GlobMatch p v → occurrences pipeline ops e v ≤ occurrences pipeline ops d v) → AsGood d e (.glob p)
  | not (n : Node) : ((textLeaves pipeline ops).Matches n d → (textLeaves pipeline ops).Matches n e) → AsGood d e (.not n)
  | and (l : List Node) : (∀ n ∈ l, AsGood d e n) → AsGood d e (.and l)
  | or (l : List Node) : (∀ n ∈ l, AsGood d e n) → AsGood d e (.or l)

end Verif.Spec
