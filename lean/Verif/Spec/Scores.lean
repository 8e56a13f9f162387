import Mathlib.Analysis.SpecialFunctions.Log.Basic
import Mathlib.Analysis.Real.Sqrt
import Mathlib.Data.Set.Card
import Verif.Spec.Boolean
import Verif.Spec.SetOps

/-! # Scores: the formulas of the documentation, over the real numbers -/

set_option autoImplicit false

namespace Verif.Spec

open scoped Classical in
/-- exact real arithmetic: no rounding, `store` keeps the number as it is -/
noncomputable def realArith : Arith ℝ where
  toWArith := exact ℝ
  ofNat n := n
  ofInt n := n
  sub x y := x - y
  div x y := if y = 0 then none else some (x / y)
  log x := if 0 < x then some (Real.log x) else none
  sqrt x := if 0 ≤ x then some (Real.sqrt x) else none
  neq x y := decide (x ≠ y)
  isZero x := decide (x = 0)
  store x := x
  toInt x := if 0 ≤ x then ⌊x⌋ else ⌈x⌉

/-- usual conditions on the parameters of BM25 -/
structure Bm25Params (P : Text.Bm25 ℝ) : Prop where
  k1 : 0 < P.k1
  b0 : 0 < P.b
  b1 : P.b < 1

/-! ## The formulas (comments in okapiindex.py:61-136, 171-183 and cosineindex.py:47-64) -/

/-- BM25 term frequency weight: `f` occurrences in a document of length `len`, mean length `mean` -/
noncomputable def bm25 (P : Text.Bm25 ℝ) (f len mean : ℝ) : ℝ := f * (P.k1 + 1) / (f + P.k1 * ((1 - P.b) + P.b * len / mean))

/-- inverse document frequency: `n` of `N` documents have the word -/
noncomputable def invFreq (N n : ℝ) : ℝ := Real.log (1 + N / n)

/-- cosine measure: weight of a word that occurs `f` times -/
noncomputable def termWeight (f : ℝ) : ℝ := 1 + Real.log f

/-- cosine measure: length of the vector of weights of a document -/
noncomputable def docNorm (ws : List Word) : ℝ := Real.sqrt ((ws.dedup.map (fun v => termWeight (ws.count v) ^ 2)).sum)

section text

variable {D : Type} [DecidableEq D] (pipeline : List Element) (ops : List (Text.Op D))

/-- number of documents -/
noncomputable def numDocs : ℕ := Set.ncard {d | ∃ t, currentText ops d = some t}

/-- number of documents that contain the word -/
noncomputable def numHolders (w : Word) : ℕ := Set.ncard {d | Holds pipeline ops d w}

/-- inverse document frequency of a word; 0 for words that do not occur -/
noncomputable def wordIdf (w : Word) : ℝ := if numHolders pipeline ops w = 0 then 0 else invFreq (numDocs ops) (numHolders pipeline ops w)

/-- Okapi: what the word contributes to the score of the document -/
noncomputable def okapiRate (P : Text.Bm25 ℝ) (mean : ℝ) (w : Word) (d : D) : ℝ :=
  match docWords pipeline ops d with
  | none => 0
  | some ws => if w ∈ ws then bm25 P (ws.count w) ws.length mean * wordIdf pipeline ops w else 0

/-- cosine measure: what the word contributes to the score of the document -/
noncomputable def cosineRate (w : Word) (d : D) : ℝ :=
  match docWords pipeline ops d with
  | none => 0
  | some ws => if w ∈ ws then termWeight (ws.count w) / docNorm ws * wordIdf pipeline ops w else 0

/-- the mean length of the documents -/
def MeanLength (mean : ℝ) : Prop :=
  ∃ l : List (D × List Word), (l.map (·.1)).Nodup ∧ (∀ d ws, (d, ws) ∈ l ↔ docWords pipeline ops d = some ws) ∧
    mean = ((l.map (fun p => p.2.length)).sum : ℕ) / (l.length : ℝ)

end text

/-! ## Scores of trees -/

variable {D : Type}

/-- the tree is not ignored and the document matches -/
def Leaves.Matches (L : Leaves D) (t : Node) (d : D) : Prop := ∃ P, L.matches? t = some P ∧ P d

section

variable (L : Leaves D) (rate : Node → D → ℝ)

open scoped Classical

mutual

/-- score of a document for a tree: 0 if it does not match; `rate` for a leaf; the sum of the scores for the parts that are not
negated otherwise -/
noncomputable def score : Node → D → ℝ
  | .atom w, d => if L.Matches (.atom w) d then rate (.atom w) d else 0
  | .phrase ws, d => if L.Matches (.phrase ws) d then rate (.phrase ws) d else 0
  | .glob w, d => if L.Matches (.glob w) d then rate (.glob w) d else 0
  | .not _, _ => 0
  | .and l, d => if L.Matches (.and l) d then scoreSum l d else 0
  | .or l, d => if L.Matches (.or l) d then scoreSum l d else 0

noncomputable def scoreSum : List Node → D → ℝ
  | [], _ => 0
  | n :: l, d => score n d + scoreSum l d

end

end

open scoped Classical in
/-- score of a leaf: the sum over its words; for a pattern, the sum over the different words of the document that match it -/
noncomputable def leafRate [DecidableEq D] (pipeline : List Element) (ops : List (Text.Op D)) (rate : Word → D → ℝ) :
    Node → D → ℝ
  | .atom w, d => ((wordsOf pipeline (.str w)).map (fun v => rate v d)).sum
  | .phrase ws, d => ((wordsOf pipeline (.list ws)).map (fun v => rate v d)).sum
  | .glob p, d => (((((docWords pipeline ops d).getD []).dedup).filter (fun v => decide (GlobMatch p v))).map (fun v => rate v d)).sum
  | _, _ => 0

/-- no glob in the tree, except in negated parts -/
inductive GlobFree : Node → Prop
  | atom (w : Word) : GlobFree (.atom w)
  | phrase (ws : List Word) : GlobFree (.phrase ws)
  | not (n : Node) : GlobFree (.not n)
  | and (l : List Node) : (∀ n ∈ l, GlobFree n) → GlobFree (.and l)
  | or (l : List Node) : (∀ n ∈ l, GlobFree n) → GlobFree (.or l)

/-- the result has exactly the documents that match the tree, with their scores; it is `None` exactly if the tree is ignored -/
def Scored [LinearOrder D] (L : Leaves D) (rate : Node → D → ℝ) (t : Node) (r : Option (SMap D ℝ)) : Prop :=
  (r = none ↔ L.matches? t = none) ∧
  ∀ m, r = some m → ∀ d v, m.get? d = some v ↔ L.Matches t d ∧ v = score L rate t d

/-- the words of the terms of a query -/
def termWords (pipeline : List Element) (ts : List TextArg) : List Word := ts.flatMap (wordsOf pipeline)

end Verif.Spec
