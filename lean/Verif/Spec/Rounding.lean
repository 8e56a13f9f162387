import Verif.Spec.Scores

/-! # Arithmetic with rounding errors -/

set_option autoImplicit false

namespace Verif.Spec

/-- `x` and `y` agree up to the factor `c` -/
def Near (c x y : ℝ) : Prop := y ≤ c * x ∧ x ≤ c * y

/-- The results of the operations of `B` are those of the real numbers, up to a relative error of at most `u`.  (Floating point
numbers satisfy this as long as nothing overflows or underflows; `u = 2⁻²³` covers single precision and the conversion of a weight to
it.) -/
structure Rounded (u : ℝ) (B : Arith ℝ) : Prop where
  zero : B.zero = 0
  one : B.one = 1
  isOne : ∀ x, B.isOne x = true → x = 1
  ofNat : ∀ n : ℕ, |B.ofNat n - n| ≤ u * |(n : ℝ)|
  ofNatOne : B.ofNat 1 = 1
  ofInt : ∀ n : ℤ, |B.ofInt n - n| ≤ u * |(n : ℝ)|
  add : ∀ x y, |B.add x y - (x + y)| ≤ u * |x + y|
  mul : ∀ x y, |B.mul x y - x * y| ≤ u * |x * y|
  sub : ∀ x y, |B.sub x y - (x - y)| ≤ u * |x - y|
  div : ∀ x y, y ≠ 0 → ∃ z, B.div x y = some z ∧ |z - x / y| ≤ u * |x / y|
  log : ∀ x, 0 < x → ∃ z, B.log x = some z ∧ |z - Real.log x| ≤ u * |Real.log x|
  sqrt : ∀ x, 0 ≤ x → ∃ z, B.sqrt x = some z ∧ |z - Real.sqrt x| ≤ u * |Real.sqrt x|
  store : ∀ x, |B.store x - x| ≤ u * |x|
  neq : ∀ x y, B.neq x y = true ↔ x ≠ y
  isZero : ∀ x, B.isZero x = true ↔ x = 0

/-- what `n` roundings may amount to -/
noncomputable def slack (u : ℝ) (n : ℕ) : ℝ := (1 / (1 - u)) ^ n

section text

variable {D : Type} [DecidableEq D] (pipeline : List Element) (ops : List (Text.Op D))

/-- number of different words of the documents that match a pattern -/
noncomputable def numMatching (p : Word) : ℕ := Set.ncard {w | GlobMatch p w ∧ ∃ d, Holds pipeline ops d w}

mutual

/-- roundings in the unions and intersections of a query -/
noncomputable def cost : Node → ℕ
  | .atom w => 2 * (wordsOf pipeline (.str w)).length
  | .phrase ws => 2 * (wordsOf pipeline (.list ws)).length
  | .glob p => 2 * numMatching pipeline ops p
  | .not _ => 0
  | .and l => 2 * l.length + costMax l
  | .or l => 2 * l.length + costMax l

noncomputable def costMax : List Node → ℕ
  | [] => 0
  | n :: l => max (cost n) (costMax l)

end

end text

/-- the result has exactly the documents that match the tree, with the scores `f` up to the factor `c`; it is `None` exactly if the
tree is ignored -/
def ScoredNear {D : Type} [LinearOrder D] (L : Leaves D) (t : Node) (f c : D → ℝ) (r : Option (SMap D ℝ)) : Prop :=
  (r = none ↔ L.matches? t = none) ∧
  ∀ m, r = some m → ∀ d, (d ∈ m.keys ↔ L.Matches t d) ∧ ∀ v, m.get? d = some v → Near (c d) (f d) v

open scoped Classical in
/-- `TextIndex` divides scores by the weight of the query, unless that is 0 -/
noncomputable def divisor (weight : ℝ) : ℝ := if weight = 0 then 1 else weight

/-- OkapiIndex: the weight of a query (okapiindex.py:341-370) -/
noncomputable def okapiWeight {D : Type} [DecidableEq D] (pipeline : List Element) (ops : List (Text.Op D)) (P : Text.Bm25 ℝ) (t : Node) : ℝ :=
  ((termWords pipeline t.terms).map (fun w => wordIdf pipeline ops w * (1 + P.k1))).sum

/-- CosineIndex: the weight of a query (cosineindex.py:84-91) -/
noncomputable def cosineWeight {D : Type} [DecidableEq D] (pipeline : List Element) (ops : List (Text.Op D)) (t : Node) : ℝ :=
  Real.sqrt ((termWords pipeline t.terms).map (fun w => wordIdf pipeline ops w ^ 2)).sum

/-- number of different words of a document -/
def numWords {D : Type} [DecidableEq D] (pipeline : List Element) (ops : List (Text.Op D)) (d : D) : ℕ :=
  ((docWords pipeline ops d).getD []).dedup.length

end Verif.Spec
