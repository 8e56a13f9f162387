import Mathlib.Analysis.Complex.ExponentialBounds
import Verif.Spec.ComposeScores
import Verif.Props.Compose
import Verif.Props.TextScores

/-!
# Property C81: scores of queries built from queries

Scores are computed over the real numbers here (`realArith`: no rounding).
-/

set_option autoImplicit false

namespace Verif

open Spec Text SetOps QueryParser

variable {D : Type} [LinearOrder D]

/-! ## Trees -/

theorem score_zero (L : Leaves D) (rate : Node → D → ℝ) (t : Node) (d : D) (h : ¬ L.Matches t d) : score L rate t d = 0 := by
  cases t <;> rw [score]
  all_goals exact if_neg h

theorem matches_or (L : Leaves D) (t1 t2 : Node) (d : D) : L.Matches (.or [t1, t2]) d ↔ L.Matches t1 d ∨ L.Matches t2 d := by
  unfold Leaves.Matches
  rw [Leaves.matches?]
  simp only [Leaves.parts, List.append_nil]
  cases L.matches? t1 <;> cases L.matches? t2 <;> simp

theorem matches_and (L : Leaves D) {t1 t2 : Node} (c1 : Clean t1) (c2 : Clean t2) (h1 : L.matches? t1 ≠ none) (h2 : L.matches? t2 ≠ none)
    (d : D) : L.Matches (.and [t1, t2]) d ↔ L.Matches t1 d ∧ L.Matches t2 d := by
  unfold Leaves.Matches
  rw [Leaves.matches?, positive_clean _ c1, positive_clean _ c2, negative_clean _ c1, negative_clean _ c2, Leaves.positive, Leaves.negative]
  cases e1 : L.matches? t1 with
  | none => exact absurd e1 h1
  | some P1 =>
    cases e2 : L.matches? t2 with
    | none => exact absurd e2 h2
    | some P2 => simp

theorem matches_but (L : Leaves D) {t1 t2 : Node} (c1 : Clean t1) (d : D) :
    L.Matches (.and [t1, .not t2]) d ↔ L.Matches t1 d ∧ ¬ L.Matches t2 d := by
  unfold Leaves.Matches
  rw [Leaves.matches?, positive_clean _ c1, negative_clean _ c1]
  simp only [Leaves.positive, Leaves.negative, List.append_nil]
  cases L.matches? t1 <;> cases L.matches? t2 <;> simp

/-! ## Scores -/

/-- what `apply` returns for a parsed query -/
theorem apply_scored {K : Kind D ℝ} (hK : Ranked realArith (fun x => 0 < x) K) (isSpace : Char → Bool) (upper : Word → Word)
    (odd : Word → Except PyErr (Word → Bool)) {pipeline : List Element} {ops : List (Text.Op D)} (hs : SmallLexicon pipeline ops)
    {s : TI D ℝ} (hr : run K pipeline ops = .ok s)
    {L : Leaves D} {rate : Node → D → ℝ}
    (hsc : ∀ q t ign, parseQuery isSpace upper (Lexicon.parseTerms pipeline) q = .ok (t, ign) → GlobsFine pipeline ops t →
      ∃ r, t.execute realArith.toWArith (searcher K odd pipeline s) = .ok r ∧ Scored L rate t r)
    (q : Word) (t : Node) (ign : List Word) (hq : parseQuery isSpace upper (Lexicon.parseTerms pipeline) q = .ok (t, ign)) (hg : GlobsFine pipeline ops t) :
    ∃ w r, queryWeight K pipeline s t.terms = .ok w ∧ apply K isSpace upper odd pipeline s q = .ok r ∧ (r = none ↔ L.matches? t = none) ∧
      ∀ m, r = some m → ∀ d v, m.get? d = some v ↔ L.Matches t d ∧ v = score L rate t d / divisor w := by
  obtain ⟨r, w, e, ew, r', e', h1, h2⟩ := C67_scaled hK isSpace upper odd pipeline ops hs s hr q t ign hq hg
  obtain ⟨r0, e0, g1, g2⟩ := hsc q t ign hq hg
  rw [e] at e0
  obtain rfl := Except.ok.inj e0
  refine ⟨w, r', ew, e', h1.trans g1, ?_⟩
  intro m hm d v
  cases r with
  | none => rw [h1.2 rfl] at hm; cases hm
  | some m0 =>
    rw [h2 m0 m rfl hm d, Option.map_eq_some_iff]
    constructor
    · rintro ⟨u, hu, rfl⟩
      obtain ⟨a, rfl⟩ := (g2 m0 rfl d u).1 hu
      exact ⟨a, rfl⟩
    · rintro ⟨a, rfl⟩
      exact ⟨_, (g2 m0 rfl d _).2 ⟨a, rfl⟩, rfl⟩

theorem divisor_ne (w : ℝ) : divisor w ≠ 0 := by
  unfold divisor
  split
  · exact one_ne_zero
  · assumption

theorem get?_scored {L : Leaves D} {t : Node} {m : SMap D ℝ} {f : D → ℝ} (h : ∀ d v, m.get? d = some v ↔ L.Matches t d ∧ v = f d) (d : D) :
    (L.Matches t d ∧ m.get? d = some (f d)) ∨ (¬ L.Matches t d ∧ m.get? d = none) := by
  by_cases hd : L.Matches t d
  · exact .inl ⟨hd, (h d _).2 ⟨hd, rfl⟩⟩
  · refine .inr ⟨hd, ?_⟩
    cases hg : m.get? d with
    | none => rfl
    | some v => exact absurd ((h d v).1 hg).1 hd

theorem combined_scores {K : Kind D ℝ} (hK : Ranked realArith (fun x => 0 < x) K) (isSpace : Char → Bool) (upper : Word → Word)
    (hsp : SpaceOk isSpace) (hu : KeywordsOk isSpace upper)
    (odd : Word → Except PyErr (Word → Bool)) {pipeline : List Element} {ops : List (Text.Op D)} (hs : SmallLexicon pipeline ops)
    {s : TI D ℝ} (hr : run K pipeline ops = .ok s)
    {L : Leaves D} {rate : Node → D → ℝ}
    (hsc : ∀ q t ign, parseQuery isSpace upper (Lexicon.parseTerms pipeline) q = .ok (t, ign) → GlobsFine pipeline ops t →
      ∃ r, t.execute realArith.toWArith (searcher K odd pipeline s) = .ok r ∧ Scored L rate t r)
    (q1 q2 : Word) (g1 : QueryFine isSpace upper pipeline ops q1) (g2 : QueryFine isSpace upper pipeline ops q2)
    (e1 : QuotesPaired q1) (e2 : QuotesPaired q2) (m1 m2 : SMap D ℝ)
    (h1 : apply K isSpace upper odd pipeline s q1 = .ok (some m1)) (h2 : apply K isSpace upper odd pipeline s q2 = .ok (some m2)) :
    ∃ (t1 t2 : Node) (ign1 ign2 : List Word) (w1 w2 w : ℝ),
      parseQuery isSpace upper (Lexicon.parseTerms pipeline) q1 = .ok (t1, ign1) ∧
      parseQuery isSpace upper (Lexicon.parseTerms pipeline) q2 = .ok (t2, ign2) ∧
      queryWeight K pipeline s t1.terms = .ok w1 ∧ queryWeight K pipeline s t2.terms = .ok w2 ∧
      queryWeight K pipeline s (t1.terms ++ t2.terms) = .ok w ∧
      (∃ m, apply K isSpace upper odd pipeline s (combine q1 [['O', 'R']] q2) = .ok (some m) ∧
        ∀ d, m.get? d = orScore (divisor w1) (divisor w2) (divisor w) (m1.get? d) (m2.get? d)) ∧
      (∃ m, apply K isSpace upper odd pipeline s (combine q1 [['A', 'N', 'D']] q2) = .ok (some m) ∧
        ∀ d, m.get? d = andScore (divisor w1) (divisor w2) (divisor w) (m1.get? d) (m2.get? d)) ∧
      (∃ m, apply K isSpace upper odd pipeline s (combine q1 [['A', 'N', 'D'], ['N', 'O', 'T']] q2) = .ok (some m) ∧
        ∀ d, m.get? d = butScore (m1.get? d) (m2.get? d)) := by
  have key : ∀ q m, QueryFine isSpace upper pipeline ops q → apply K isSpace upper odd pipeline s q = .ok (some m) → ∃ t ign w,
      parseQuery isSpace upper (Lexicon.parseTerms pipeline) q = .ok (t, ign) ∧ queryWeight K pipeline s t.terms = .ok w ∧
      L.matches? t ≠ none ∧ ∀ d v, m.get? d = some v ↔ L.Matches t d ∧ v = score L rate t d / divisor w := by
    intro q m hg h
    cases hq : parseQuery isSpace upper (Lexicon.parseTerms pipeline) q with
    | error x => unfold apply at h; rw [hq] at h; cases x <;> simp at h
    | ok p =>
      obtain ⟨t, ign⟩ := p
      obtain ⟨w, r, ew, er, hn, hm⟩ := apply_scored hK isSpace upper odd hs hr hsc q t ign hq (hg t ign hq)
      rw [h] at er
      obtain rfl := Except.ok.inj er
      exact ⟨t, ign, w, rfl, ew, fun h => (by have := hn.2 h; cases this), hm m rfl⟩
  have back : ∀ q t ign, parseQuery isSpace upper (Lexicon.parseTerms pipeline) q = .ok (t, ign) → L.matches? t ≠ none → GlobsFine pipeline ops t →
      ∃ w m, queryWeight K pipeline s t.terms = .ok w ∧ apply K isSpace upper odd pipeline s q = .ok (some m) ∧
        ∀ d v, m.get? d = some v ↔ L.Matches t d ∧ v = score L rate t d / divisor w := by
    intro q t ign hq hn hg
    obtain ⟨w, r, ew, er, hn', hm⟩ := apply_scored hK isSpace upper odd hs hr hsc q t ign hq hg
    cases r with
    | none => exact absurd (hn'.1 rfl) hn
    | some m => exact ⟨w, m, ew, er, hm m rfl⟩
  obtain ⟨t1, ign1, w1, p1, ew1, n1, s1⟩ := key q1 m1 g1 h1
  obtain ⟨t2, ign2, w2, p2, ew2, n2, s2⟩ := key q2 m2 g2 h2
  obtain ⟨po, pa, pn, -⟩ := C76_parse isSpace upper _ hsp hu q1 q2 e1 e2 t1 t2 ign1 ign2 p1 p2
  have cl1 := C48_shape isSpace upper _ q1 t1 ign1 p1
  have cl2 := C48_shape isSpace upper _ q2 t2 ign2 p2
  obtain ⟨wo, mo, ewo, ao, so⟩ := back _ _ _ po (by rw [Leaves.matches?]; simp) (.or (g1 _ _ p1) (g2 _ _ p2))
  obtain ⟨wa, ma, ewa, aa, sa⟩ := back _ _ _ pa (by rw [Leaves.matches?]; simp) (.and (g1 _ _ p1) (g2 _ _ p2))
  obtain ⟨wn, mn, ewn, an, sn⟩ := back _ _ _ pn (by rw [Leaves.matches?]; simp) (.and (g1 _ _ p1) (.not (g2 _ _ p2)))
  have tor : (Node.or [t1, t2]).terms = t1.terms ++ t2.terms := by rw [Node.terms]; simp [Node.termsAll]
  have ta : (Node.and [t1, t2]).terms = t1.terms ++ t2.terms := by rw [Node.terms]; simp [Node.termsAll]
  have tn : (Node.and [t1, .not t2]).terms = t1.terms := by rw [Node.terms]; simp [Node.termsAll, Node.terms]
  rw [tor] at ewo
  rw [ta, ewo] at ewa
  obtain rfl := Except.ok.inj ewa
  rw [tn, ew1] at ewn
  obtain rfl := Except.ok.inj ewn
  have d1 := divisor_ne w1
  have d2 := divisor_ne w2
  refine ⟨t1, t2, ign1, ign2, w1, w2, wo, p1, p2, ew1, ew2, ewo, ⟨mo, ao, ?_⟩, ⟨ma, aa, ?_⟩, ⟨mn, an, ?_⟩⟩
  · intro d
    have ho : ∀ d, L.Matches (.or [t1, t2]) d → score L rate (.or [t1, t2]) d = score L rate t1 d + score L rate t2 d := by
      intro d h
      rw [score, if_pos h]
      simp [scoreSum]
    rcases get?_scored s1 d with ⟨a1, g1⟩ | ⟨a1, g1⟩ <;> rcases get?_scored s2 d with ⟨a2, g2⟩ | ⟨a2, g2⟩ <;> rw [g1, g2] <;>
      rcases get?_scored so d with ⟨a, g⟩ | ⟨a, g⟩ <;> rw [g] <;> have a' := a <;> rw [matches_or] at a' <;> unfold orScore
    all_goals first
      | rfl
      | (exfalso; revert a'; simp [a1, a2]; done)
      | skip
    · rw [ho d a]; congr 2; field_simp
    · rw [ho d a, score_zero L rate t2 d a2]; congr 2; field_simp; simp
    · rw [ho d a, score_zero L rate t1 d a1]; congr 2; field_simp; simp
  · intro d
    have ho : ∀ d, L.Matches (.and [t1, t2]) d → score L rate (.and [t1, t2]) d = score L rate t1 d + score L rate t2 d := by
      intro d h
      rw [score, if_pos h]
      simp [scoreSum]
    rcases get?_scored s1 d with ⟨a1, g1⟩ | ⟨a1, g1⟩ <;> rcases get?_scored s2 d with ⟨a2, g2⟩ | ⟨a2, g2⟩ <;> rw [g1, g2] <;>
      rcases get?_scored sa d with ⟨a, g⟩ | ⟨a, g⟩ <;> rw [g] <;> have a' := a <;> rw [matches_and L cl1 cl2 n1 n2] at a' <;> unfold andScore
    all_goals first
      | rfl
      | (exfalso; revert a'; simp [a1, a2]; done)
      | skip
    rw [ho d a]; congr 2; field_simp
  · intro d
    have ho : ∀ d, L.Matches (.and [t1, .not t2]) d → score L rate (.and [t1, .not t2]) d = score L rate t1 d := by
      intro d h
      rw [score, if_pos h]
      simp [scoreSum, score]
    rcases get?_scored s1 d with ⟨a1, g1⟩ | ⟨a1, g1⟩ <;> rcases get?_scored s2 d with ⟨a2, g2⟩ | ⟨a2, g2⟩ <;> rw [g1, g2] <;>
      rcases get?_scored sn d with ⟨a, g⟩ | ⟨a, g⟩ <;> rw [g] <;> have a' := a <;> rw [matches_but L cl1] at a' <;> unfold butScore
    all_goals first
      | rfl
      | (exfalso; revert a'; simp [a1, a2]; done)
      | skip
    rw [ho d a]

/-- `w` is `query_weight` of the terms of the query -/
def WeightOf (K : Kind D ℝ) (isSpace : Char → Bool) (upper : Word → Word) (pipeline : List Element) (s : TI D ℝ) (q : Word) (w : ℝ) : Prop :=
  ∃ t ign, parseQuery isSpace upper (Lexicon.parseTerms pipeline) q = .ok (t, ign) ∧ queryWeight K pipeline s t.terms = .ok w

theorem okapi_weight_nonneg {P : Bm25 ℝ} (hP : Bm25Params P) {pipeline : List Element} {ops : List (Text.Op D)}
    (hs : SmallLexicon pipeline ops) {s : TI D ℝ} (hr : run (okapi realArith P) pipeline ops = .ok s) (w : Word) :
    0 ≤ wordIdf pipeline ops w * (1 + P.k1) := by
  obtain ⟨hl, hi, -⟩ := (ranked_okapi (D := D) hP).run real_positive hs (fun _ => real_lengths pipeline ops) hr
  have hk : 0 < 1 + P.k1 := by have := hP.k1; linarith
  refine mul_nonneg ?_ (le_of_lt hk)
  rcases wordIdf_pos (okapi_lawful' real_positive P) hs hi w with ⟨h, -⟩ | ⟨h, -⟩
  · exact le_of_lt h
  · rw [h]

/-- C81, OkapiIndex: the score of a document for a combined query follows from its scores for the two queries and their
`query_weight`, which do not depend on the document.  For OR and AND it is the mean of the scores, weighted with the `query_weight`
of the queries (a document that OR finds for only one query counts as 0 for the other); AND NOT leaves the scores of the first
query as they are. -/
theorem C81_okapi (P : Bm25 ℝ) (hP : Bm25Params P) (isSpace : Char → Bool) (upper : Word → Word)
    (hsp : SpaceOk isSpace) (hu : KeywordsOk isSpace upper)
    (odd : Word → Except PyErr (Word → Bool)) (pipeline : List Element) (ops : List (Text.Op D)) (hs : SmallLexicon pipeline ops)
    (s : TI D ℝ) (hr : run (okapi realArith P) pipeline ops = .ok s)
    (q1 q2 : Word) (g1 : QueryFine isSpace upper pipeline ops q1) (g2 : QueryFine isSpace upper pipeline ops q2)
    (e1 : QuotesPaired q1) (e2 : QuotesPaired q2) (m1 m2 : SMap D ℝ)
    (h1 : apply (okapi realArith P) isSpace upper odd pipeline s q1 = .ok (some m1))
    (h2 : apply (okapi realArith P) isSpace upper odd pipeline s q2 = .ok (some m2)) :
    ∃ w1 w2 : ℝ, 0 ≤ w1 ∧ 0 ≤ w2 ∧
      WeightOf (okapi realArith P) isSpace upper pipeline s q1 w1 ∧ WeightOf (okapi realArith P) isSpace upper pipeline s q2 w2 ∧
      (∃ m, apply (okapi realArith P) isSpace upper odd pipeline s (combine q1 [['O', 'R']] q2) = .ok (some m) ∧
        ∀ d, m.get? d = orScore (divisor w1) (divisor w2) (divisor (w1 + w2)) (m1.get? d) (m2.get? d)) ∧
      (∃ m, apply (okapi realArith P) isSpace upper odd pipeline s (combine q1 [['A', 'N', 'D']] q2) = .ok (some m) ∧
        ∀ d, m.get? d = andScore (divisor w1) (divisor w2) (divisor (w1 + w2)) (m1.get? d) (m2.get? d)) ∧
      (∃ m, apply (okapi realArith P) isSpace upper odd pipeline s (combine q1 [['A', 'N', 'D'], ['N', 'O', 'T']] q2) = .ok (some m) ∧
        ∀ d, m.get? d = butScore (m1.get? d) (m2.get? d)) := by
  obtain ⟨mean, -, hmean, hsc⟩ := C69_okapi P hP isSpace upper odd pipeline ops hs s hr
  obtain ⟨t1, t2, ign1, ign2, w1, w2, w, p1, p2, ew1, ew2, ew, ho⟩ := combined_scores (ranked_okapi hP) isSpace upper hsp hu odd hs hr
    hsc q1 q2 g1 g2 e1 e2 m1 m2 h1 h2
  have f1 := ew1
  have f2 := ew2
  rw [C61_query_weight P hP pipeline ops hs s hr _ (terms_ne_none t1)] at f1
  rw [C61_query_weight P hP pipeline ops hs s hr _ (terms_ne_none t2)] at f2
  rw [C61_query_weight P hP pipeline ops hs s hr _ (fun x hx => (List.mem_append.1 hx).elim (terms_ne_none t1 x) (terms_ne_none t2 x))] at ew
  have hw : w = w1 + w2 := by
    rw [← Except.ok.inj ew, ← Except.ok.inj f1, ← Except.ok.inj f2]
    unfold termWords
    simp
  subst hw
  have hpos := okapi_weight_nonneg hP hs hr
  refine ⟨w1, w2, ?_, ?_, ⟨t1, ign1, p1, ew1⟩, ⟨t2, ign2, p2, ew2⟩, ho⟩
  · rw [← Except.ok.inj f1]; exact sum_nonneg' hpos
  · rw [← Except.ok.inj f2]; exact sum_nonneg' hpos

/-- C81, CosineIndex: likewise, but the scores of OR and AND are divided by the square root of the sum of the squares of the two
`query_weight`s -/
theorem C81_cosine (isSpace : Char → Bool) (upper : Word → Word) (hsp : SpaceOk isSpace) (hu : KeywordsOk isSpace upper)
    (odd : Word → Except PyErr (Word → Bool)) (pipeline : List Element) (ops : List (Text.Op D)) (hs : SmallLexicon pipeline ops)
    (s : TI D ℝ) (hr : run (cosine realArith) pipeline ops = .ok s)
    (q1 q2 : Word) (g1 : QueryFine isSpace upper pipeline ops q1) (g2 : QueryFine isSpace upper pipeline ops q2)
    (e1 : QuotesPaired q1) (e2 : QuotesPaired q2) (m1 m2 : SMap D ℝ)
    (h1 : apply (cosine realArith) isSpace upper odd pipeline s q1 = .ok (some m1))
    (h2 : apply (cosine realArith) isSpace upper odd pipeline s q2 = .ok (some m2)) :
    ∃ w1 w2 : ℝ, 0 ≤ w1 ∧ 0 ≤ w2 ∧
      WeightOf (cosine realArith) isSpace upper pipeline s q1 w1 ∧ WeightOf (cosine realArith) isSpace upper pipeline s q2 w2 ∧
      (∃ m, apply (cosine realArith) isSpace upper odd pipeline s (combine q1 [['O', 'R']] q2) = .ok (some m) ∧
        ∀ d, m.get? d = orScore (divisor w1) (divisor w2) (divisor (Real.sqrt (w1 ^ 2 + w2 ^ 2))) (m1.get? d) (m2.get? d)) ∧
      (∃ m, apply (cosine realArith) isSpace upper odd pipeline s (combine q1 [['A', 'N', 'D']] q2) = .ok (some m) ∧
        ∀ d, m.get? d = andScore (divisor w1) (divisor w2) (divisor (Real.sqrt (w1 ^ 2 + w2 ^ 2))) (m1.get? d) (m2.get? d)) ∧
      (∃ m, apply (cosine realArith) isSpace upper odd pipeline s (combine q1 [['A', 'N', 'D'], ['N', 'O', 'T']] q2) = .ok (some m) ∧
        ∀ d, m.get? d = butScore (m1.get? d) (m2.get? d)) := by
  obtain ⟨t1, t2, ign1, ign2, w1, w2, w, p1, p2, ew1, ew2, ew, ho⟩ := combined_scores ranked_cosine isSpace upper hsp hu odd hs hr
    (fun q t ign hq hg => C69_cosine isSpace upper odd pipeline ops hs s hr q t ign hq hg) q1 q2 g1 g2 e1 e2 m1 m2 h1 h2
  have f1 := ew1
  have f2 := ew2
  rw [C62_query_weight pipeline ops hs s hr _ (terms_ne_none t1)] at f1
  rw [C62_query_weight pipeline ops hs s hr _ (terms_ne_none t2)] at f2
  rw [C62_query_weight pipeline ops hs s hr _ (fun x hx => (List.mem_append.1 hx).elim (terms_ne_none t1 x) (terms_ne_none t2 x))] at ew
  have hw : w = Real.sqrt (w1 ^ 2 + w2 ^ 2) := by
    rw [← Except.ok.inj ew, ← Except.ok.inj f1, ← Except.ok.inj f2, Real.sq_sqrt (sum_nonneg' fun w => sq_nonneg _),
      Real.sq_sqrt (sum_nonneg' fun w => sq_nonneg _)]
    unfold termWords
    simp
  subst hw
  refine ⟨w1, w2, ?_, ?_, ⟨t1, ign1, p1, ew1⟩, ⟨t2, ign2, p2, ew2⟩, ho⟩
  · rw [← Except.ok.inj f1]; exact Real.sqrt_nonneg _
  · rw [← Except.ok.inj f2]; exact Real.sqrt_nonneg _

theorem weight_pos {P : Bm25 ℝ} (hP : Bm25Params P) (isSpace : Char → Bool) (upper : Word → Word)
    (odd : Word → Except PyErr (Word → Bool)) {pipeline : List Element} {ops : List (Text.Op D)} (hs : SmallLexicon pipeline ops)
    {s : TI D ℝ} (hr : run (okapi realArith P) pipeline ops = .ok s) {q : Word} {t : Node} {ign : List Word}
    (hq : parseQuery isSpace upper (Lexicon.parseTerms pipeline) q = .ok (t, ign)) (hg : GlobsFine pipeline ops t) (hgf : GlobFree t) {m : SMap D ℝ}
    (hm : apply (okapi realArith P) isSpace upper odd pipeline s q = .ok (some m)) {d : D} {v : ℝ} (hv : m.get? d = some v)
    {w : ℝ} (hw : WeightOf (okapi realArith P) isSpace upper pipeline s q w) : 0 < w ∧ 0 < v := by
  refine ⟨?_, (C67_normalized P hP isSpace upper odd pipeline ops hs s hr q t ign hq hg hgf m hm d v hv).1⟩
  obtain ⟨t', ign', hq', hw⟩ := hw
  rw [hq] at hq'
  cases hq'
  obtain ⟨r, qw, e, eq, r', e', h1, h2⟩ := C67_scaled (ranked_okapi hP) isSpace upper odd pipeline ops hs s hr q t ign hq hg
  rw [hm] at e'
  obtain rfl := Except.ok.inj e'
  rw [hw] at eq
  obtain rfl := Except.ok.inj eq
  cases r with
  | none => have := h1.2 rfl; cases this
  | some m0 =>
    have h3 := h2 m0 m rfl rfl d
    rw [hv] at h3
    obtain ⟨v0, hv0, rfl⟩ := Option.map_eq_some_iff.1 h3.symm
    obtain ⟨qw', eq', hb⟩ := C61_bound_partial P hP isSpace upper odd pipeline ops hs s hr q t ign hq hg hgf
    rw [hw] at eq'
    obtain rfl := Except.ok.inj eq'
    obtain ⟨hb1, hb2⟩ := hb m0 e d v0 hv0
    exact lt_trans hb1 hb2

/-- C81 for queries without globs, OkapiIndex: a document that both queries find has, for OR and AND, a score between its scores for
the two; a document that OR finds although the second query does not find it has a lower score than for the first query alone, if
the second query finds anything at all.  What is missing: queries with globs, for which it is false (`C81_fails`). -/
theorem C81_between_partial (P : Bm25 ℝ) (hP : Bm25Params P) (isSpace : Char → Bool) (upper : Word → Word)
    (hsp : SpaceOk isSpace) (hu : KeywordsOk isSpace upper)
    (odd : Word → Except PyErr (Word → Bool)) (pipeline : List Element) (ops : List (Text.Op D)) (hs : SmallLexicon pipeline ops)
    (s : TI D ℝ) (hr : run (okapi realArith P) pipeline ops = .ok s)
    (q1 q2 : Word) (g1 : QueryFine isSpace upper pipeline ops q1) (g2 : QueryFine isSpace upper pipeline ops q2)
    (e1 : QuotesPaired q1) (e2 : QuotesPaired q2) (t1 t2 : Node) (ign1 ign2 : List Word)
    (p1 : parseQuery isSpace upper (Lexicon.parseTerms pipeline) q1 = .ok (t1, ign1)) (f1 : GlobFree t1)
    (p2 : parseQuery isSpace upper (Lexicon.parseTerms pipeline) q2 = .ok (t2, ign2)) (f2 : GlobFree t2) (m1 m2 : SMap D ℝ)
    (h1 : apply (okapi realArith P) isSpace upper odd pipeline s q1 = .ok (some m1))
    (h2 : apply (okapi realArith P) isSpace upper odd pipeline s q2 = .ok (some m2)) :
    (∃ m, apply (okapi realArith P) isSpace upper odd pipeline s (combine q1 [['A', 'N', 'D']] q2) = .ok (some m) ∧
      ∀ d v1 v2, m1.get? d = some v1 → m2.get? d = some v2 → ∃ v, m.get? d = some v ∧ min v1 v2 ≤ v ∧ v ≤ max v1 v2) ∧
    (∃ m, apply (okapi realArith P) isSpace upper odd pipeline s (combine q1 [['O', 'R']] q2) = .ok (some m) ∧
      (∀ d v1 v2, m1.get? d = some v1 → m2.get? d = some v2 → ∃ v, m.get? d = some v ∧ min v1 v2 ≤ v ∧ v ≤ max v1 v2) ∧
      (∀ d v1, m1.get? d = some v1 → m2.get? d = none → ∃ v, m.get? d = some v ∧ 0 < v ∧ v ≤ v1 ∧ (m2.keys ≠ [] → v < v1)) ∧
      (∀ d v2, m1.get? d = none → m2.get? d = some v2 → ∃ v, m.get? d = some v ∧ 0 < v ∧ v ≤ v2 ∧ (m1.keys ≠ [] → v < v2))) := by
  obtain ⟨w1, w2, n1, n2, ew1, ew2, ⟨mo, ao, so⟩, ⟨ma, aa, sa⟩, -⟩ := C81_okapi P hP isSpace upper hsp hu odd pipeline ops hs s hr q1 q2 g1 g2 e1 e2 m1 m2 h1 h2
  have k1 : ∀ d v, m1.get? d = some v → 0 < w1 ∧ 0 < v := fun d v h => weight_pos hP isSpace upper odd hs hr p1 (g1 _ _ p1) f1 h1 h ew1
  have k2 : ∀ d v, m2.get? d = some v → 0 < w2 ∧ 0 < v := fun d v h => weight_pos hP isSpace upper odd hs hr p2 (g2 _ _ p2) f2 h2 h ew2
  have hdiv : ∀ {w : ℝ}, 0 < w → divisor w = w := by
    intro w h
    unfold divisor
    rw [if_neg (ne_of_gt h)]
  have some_key : ∀ m : SMap D ℝ, m.keys ≠ [] → ∃ d v, m.get? d = some v := by
    intro m h
    obtain ⟨d, hd⟩ := List.exists_mem_of_ne_nil _ h
    obtain ⟨v, hv⟩ := (SMap.mem_keys_iff m d).1 hd
    exact ⟨d, v, hv⟩
  have hmix : ∀ d v1 v2, m1.get? d = some v1 → m2.get? d = some v2 →
      min v1 v2 ≤ (v1 * divisor w1 + v2 * divisor w2) / divisor (w1 + w2) ∧ (v1 * divisor w1 + v2 * divisor w2) / divisor (w1 + w2) ≤ max v1 v2 := by
    intro d v1 v2 hv1 hv2
    have a1 := (k1 d v1 hv1).1
    have a2 := (k2 d v2 hv2).1
    rw [hdiv a1, hdiv a2, hdiv (add_pos a1 a2), le_div_iff₀ (add_pos a1 a2), div_le_iff₀ (add_pos a1 a2), mul_add, mul_add]
    have b1 := mul_le_mul_of_nonneg_right (min_le_left v1 v2) (le_of_lt a1)
    have b2 := mul_le_mul_of_nonneg_right (min_le_right v1 v2) (le_of_lt a2)
    have b3 := mul_le_mul_of_nonneg_right (le_max_left v1 v2) (le_of_lt a1)
    have b4 := mul_le_mul_of_nonneg_right (le_max_right v1 v2) (le_of_lt a2)
    constructor <;> linarith
  have hone : ∀ {a b v : ℝ}, 0 < a → 0 ≤ b → 0 < v → 0 < v * a / (a + b) ∧ v * a / (a + b) ≤ v ∧ (0 < b → v * a / (a + b) < v) := by
    intro a b v ha hb hv
    have hab : 0 < a + b := by linarith
    refine ⟨div_pos (mul_pos hv ha) hab, ?_, fun hb' => ?_⟩
    · rw [div_le_iff₀ hab, mul_add]; have := mul_nonneg (le_of_lt hv) hb; linarith
    · rw [div_lt_iff₀ hab, mul_add]; have := mul_pos hv hb'; linarith
  refine ⟨⟨ma, aa, ?_⟩, mo, ao, ?_, ?_, ?_⟩
  · intro d v1 v2 hv1 hv2
    refine ⟨_, ?_, hmix d v1 v2 hv1 hv2⟩
    rw [sa d, hv1, hv2]; rfl
  · intro d v1 v2 hv1 hv2
    refine ⟨_, ?_, hmix d v1 v2 hv1 hv2⟩
    rw [so d, hv1, hv2]; rfl
  · intro d v1 hv1 hv2
    obtain ⟨a1, b1⟩ := k1 d v1 hv1
    obtain ⟨c1, c2, c3⟩ := hone a1 n2 b1
    refine ⟨v1 * w1 / (w1 + w2), ?_, c1, c2, ?_⟩
    · rw [so d, hv1, hv2, hdiv a1, hdiv (by linarith : 0 < w1 + w2)]; rfl
    · intro hk
      obtain ⟨d', v', hv'⟩ := some_key m2 hk
      exact c3 (k2 d' v' hv').1
  · intro d v2 hv1 hv2
    obtain ⟨a2, b2⟩ := k2 d v2 hv2
    obtain ⟨c1, c2, c3⟩ := hone a2 n1 b2
    refine ⟨v2 * w2 / (w1 + w2), ?_, ?_, ?_, ?_⟩
    · rw [so d, hv1, hv2, hdiv a2, hdiv (by linarith : 0 < w1 + w2)]; rfl
    · rw [add_comm]; exact c1
    · rw [add_comm]; exact c2
    · intro hk
      obtain ⟨d', v', hv'⟩ := some_key m1 hk
      rw [add_comm]
      exact c3 (k1 d' v' hv').1

/-! ## A history with one document -/

def exOneOps : List (Text.Op Nat) := [.index 7 (.str ['d', 'o', 'g', ' ', 'b', 'i', 'g'])]

theorem exOne_small : SmallLexicon exPipeline exOneOps := by
  refine ⟨?_, ?_⟩
  · intro n h
    simp [exOneOps, lexCalls] at h
  · intro w
    have h : ∀ p ∈ (lexAfter exPipeline exOneOps).wids.items, p.2 < 2 ^ 28 := by decide
    unfold Lexicon.getWid
    cases hg : (lexAfter exPipeline exOneOps).wids.get? w with
    | none => decide
    | some i => exact h (w, i) ((SMap.get?_eq_some_iff _ _ _).1 hg)

theorem exOne_words (d : Nat) : docWords exPipeline exOneOps d = if d = 7 then some [['d', 'o', 'g'], ['b', 'i', 'g']] else none := by
  unfold docWords currentText exOneOps
  simp only [List.foldl_cons, List.foldl_nil, textStep]
  by_cases h : d = 7
  · rw [if_pos h, if_pos h]; decide +kernel
  · rw [if_neg h, if_neg h]; rfl

theorem exOne_holds (d : Nat) (w : Word) : Holds exPipeline exOneOps d w ↔ d = 7 ∧ (w = ['d', 'o', 'g'] ∨ w = ['b', 'i', 'g']) := by
  unfold Holds
  rw [exOne_words]
  by_cases h : d = 7 <;> simp [h]

theorem exOne_idf (w : Word) (hw : w = ['d', 'o', 'g'] ∨ w = ['b', 'i', 'g']) : wordIdf exPipeline exOneOps w = Real.log 2 := by
  have h1 : numHolders exPipeline exOneOps w = 1 := by
    unfold numHolders
    have : {d | Holds exPipeline exOneOps d w} = {7} := by
      ext d
      simp [exOne_holds, hw]
    rw [this, Set.ncard_singleton]
  have h2 : numDocs exOneOps = 1 := by
    unfold numDocs
    have : {d | ∃ t, currentText exOneOps d = some t} = {7} := by
      ext d
      simp [currentText, exOneOps, textStep]
    rw [this, Set.ncard_singleton]
  unfold wordIdf invFreq
  rw [h1, h2]
  norm_num

/-- C81 fails for globs: after indexing `dog big` as document 7, `(bi*) AND (dog)` gives it a higher score than `bi*` and than `dog` -/
theorem C81_fails : ∃ s m1 m2 m v1 v2 v, run (okapi realArith defaultBm25) exPipeline exOneOps = .ok s ∧
    apply (okapi realArith defaultBm25) exIsSpace exUpper (fun _ => .ok (fun _ => false)) exPipeline s ['b', 'i', '*'] = .ok (some m1) ∧
    apply (okapi realArith defaultBm25) exIsSpace exUpper (fun _ => .ok (fun _ => false)) exPipeline s ['d', 'o', 'g'] = .ok (some m2) ∧
    apply (okapi realArith defaultBm25) exIsSpace exUpper (fun _ => .ok (fun _ => false)) exPipeline s
      (combine ['b', 'i', '*'] [['A', 'N', 'D']] ['d', 'o', 'g']) = .ok (some m) ∧
    m1.get? 7 = some v1 ∧ m2.get? 7 = some v2 ∧ m.get? 7 = some v ∧ v1 < v ∧ v2 < v := by
  have hK := ranked_okapi (D := Nat) defaultBm25_ok
  obtain ⟨s, hr, -⟩ := C51_documents _ (hK.lawful real_positive) exPipeline exOneOps exOne_small
  obtain ⟨mean, -, hmean, hsc⟩ := C69_okapi defaultBm25 defaultBm25_ok exIsSpace exUpper (fun _ => .ok (fun _ => false)) exPipeline exOneOps
    exOne_small s hr
  have hq1 : parseQuery exIsSpace exUpper (Lexicon.parseTerms exPipeline) ['b', 'i', '*'] = .ok (.glob ['b', 'i', '*'], []) := rfl
  have hq2 : parseQuery exIsSpace exUpper (Lexicon.parseTerms exPipeline) ['d', 'o', 'g'] = .ok (.atom ['d', 'o', 'g'], []) := rfl
  obtain ⟨w1, r1, ew1, a1, n1, s1⟩ := apply_scored hK exIsSpace exUpper _ exOne_small hr hsc _ _ _ hq1 (exFine _ _ _ _ hq1)
  obtain ⟨w2, r2, ew2, a2, n2, s2⟩ := apply_scored hK exIsSpace exUpper _ exOne_small hr hsc _ _ _ hq2 (exFine _ _ _ _ hq2)
  have M1 : (textLeaves exPipeline exOneOps).Matches (.glob ['b', 'i', '*']) 7 := by
    refine ⟨_, rfl, ['b', 'i', 'g'], (exOne_holds _ _).2 ⟨rfl, .inr rfl⟩, ?_⟩
    exact .char _ _ _ (by decide) (by decide) (.char _ _ _ (by decide) (by decide) (.star [] ['g'] [] .nil))
  have hw2 : wordsOf exPipeline (.str ['d', 'o', 'g']) = [['d', 'o', 'g']] := by decide +kernel
  have hne : wordsOf exPipeline (.str ['d', 'o', 'g']) ≠ [] := by rw [hw2]; simp
  have hL2 : (textLeaves exPipeline exOneOps).matches? (.atom ['d', 'o', 'g']) =
      some (fun d => ∃ v ∈ wordsOf exPipeline (.str ['d', 'o', 'g']), Holds exPipeline exOneOps d v) := by
    rw [Leaves.matches?]
    exact @if_neg _ _ hne _ none _
  have M2 : (textLeaves exPipeline exOneOps).Matches (.atom ['d', 'o', 'g']) 7 :=
    ⟨_, hL2, ['d', 'o', 'g'], by rw [hw2]; simp, (exOne_holds _ _).2 ⟨rfl, .inl rfl⟩⟩
  cases r1 with
  | none => have := n1.1 rfl; rw [Leaves.matches?] at this; cases this
  | some m1 =>
  cases r2 with
  | none => have := n2.1 rfl; rw [hL2] at this; cases this
  | some m2 =>
  obtain ⟨u1, u2, -, -, ⟨t1', i1', pu1, eu1⟩, ⟨t2', i2', pu2, eu2⟩, -, ⟨m, am, sm⟩, -⟩ := C81_okapi defaultBm25 defaultBm25_ok exIsSpace exUpper exIsSpace_ok exKeywordsOk _ exPipeline exOneOps
    exOne_small s hr _ _ (exFine _ _) (exFine _ _) (by unfold QuotesPaired; decide) (by unfold QuotesPaired; decide) m1 m2 a1 a2
  rw [hq1] at pu1; cases pu1
  rw [hq2] at pu2; cases pu2
  rw [ew1] at eu1; obtain rfl := Except.ok.inj eu1
  rw [ew2] at eu2; obtain rfl := Except.ok.inj eu2
  rw [C61_query_weight _ defaultBm25_ok _ _ exOne_small s hr _ (terms_ne_none _)] at ew1 ew2
  have k1 : termWords exPipeline (Node.glob ['b', 'i', '*']).terms = [['b', 'i']] := by rw [Node.terms]; decide +kernel
  have k2 : termWords exPipeline (Node.atom ['d', 'o', 'g']).terms = [['d', 'o', 'g']] := by rw [Node.terms]; decide +kernel
  have z1 : wordIdf exPipeline exOneOps ['b', 'i'] = 0 := by
    unfold wordIdf
    rw [if_pos]
    unfold numHolders
    have : {d | Holds exPipeline exOneOps d ['b', 'i']} = ∅ := by ext d; simp [exOne_holds]
    rw [this, Set.ncard_empty]
  have y1 : w1 = 0 := by rw [← Except.ok.inj ew1, k1]; simp [z1]
  have y2 : w2 = Real.log 2 * (1 + 1.2) := by rw [← Except.ok.inj ew2, k2]; simp [exOne_idf _ (.inl rfl)]; left; rfl
  have hlog : 0 < Real.log 2 := Real.log_pos (by norm_num)
  have hx : 0 < bm25 defaultBm25 1 2 mean := (bm25_bounds defaultBm25_ok (by norm_num) (by norm_num) (hmean ⟨7, ['d', 'o', 'g'], (exOne_holds _ _).2 ⟨rfl, .inl rfl⟩⟩)).1
  have hrate : ∀ w, w = ['d', 'o', 'g'] ∨ w = ['b', 'i', 'g'] → okapiRate exPipeline exOneOps defaultBm25 mean w 7 = bm25 defaultBm25 1 2 mean * Real.log 2 := by
    intro w hw
    unfold okapiRate
    rw [exOne_words, if_pos rfl]
    simp only
    rw [if_pos (by simpa using hw), exOne_idf w hw]
    rcases hw with rfl | rfl <;> simp
  have c1 : score (textLeaves exPipeline exOneOps) (leafRate exPipeline exOneOps (okapiRate exPipeline exOneOps defaultBm25 mean)) (.glob ['b', 'i', '*']) 7 =
      bm25 defaultBm25 1 2 mean * Real.log 2 := by
    rw [score, if_pos M1, leafRate, exOne_words, if_pos rfl]
    have hd : ([['d', 'o', 'g'], ['b', 'i', 'g']] : List Word).dedup = [['d', 'o', 'g'], ['b', 'i', 'g']] := by decide
    have g1 : ¬ GlobMatch ['b', 'i', '*'] ['d', 'o', 'g'] := by intro h; cases h
    have g2 : GlobMatch ['b', 'i', '*'] ['b', 'i', 'g'] :=
      .char _ _ _ (by decide) (by decide) (.char _ _ _ (by decide) (by decide) (.star [] ['g'] [] .nil))
    rw [Option.getD_some, hd]
    simp [g1, g2, hrate]
  have c2 : score (textLeaves exPipeline exOneOps) (leafRate exPipeline exOneOps (okapiRate exPipeline exOneOps defaultBm25 mean)) (.atom ['d', 'o', 'g']) 7 =
      bm25 defaultBm25 1 2 mean * Real.log 2 := by
    rw [score, if_pos M2, leafRate, hw2]
    simp [hrate]
  have v1 := (s1 m1 rfl 7 _).2 ⟨M1, rfl⟩
  have v2 := (s2 m2 rfl 7 _).2 ⟨M2, rfl⟩
  have v := sm 7
  rw [c1] at v1
  rw [c2] at v2
  rw [v1, v2] at v
  have hx := mul_pos hx hlog
  have q1 : divisor w1 = 1 := by unfold divisor; rw [if_pos y1]
  have hw2 : 0 < w2 := by rw [y2]; exact mul_pos hlog (by norm_num)
  have hlt : w2 < 2 := by rw [y2]; have := Real.log_two_lt_d9; linarith
  have q2 : divisor w2 = w2 := by unfold divisor; rw [if_neg (ne_of_gt hw2)]
  rw [q1] at v1
  rw [q2] at v2
  rw [y1, zero_add, ← y1, q1, q2] at v
  refine ⟨s, m1, m2, m, _, _, _, hr, a1, a2, am, v1, v2, v, ?_, ?_⟩
  · rw [lt_div_iff₀ hw2, div_mul_cancel₀ _ (ne_of_gt hw2)]
    have := mul_lt_mul_of_pos_left hlt hx
    linarith
  · rw [div_mul_cancel₀ _ (ne_of_gt hw2)]
    apply div_lt_div_of_pos_right _ hw2
    linarith

/-- the hypotheses are met: `dog` and `big` both find document 7 of the history -/
theorem exOne_found (s : TI Nat ℝ) (hr : run (okapi realArith defaultBm25) exPipeline exOneOps = .ok s) (w : Word)
    (hw : wordsOf exPipeline (.str w) = [w]) (hd : w = ['d', 'o', 'g'] ∨ w = ['b', 'i', 'g'])
    (hq : parseQuery exIsSpace exUpper (Lexicon.parseTerms exPipeline) w = .ok (.atom w, [])) :
    ∃ m v, apply (okapi realArith defaultBm25) exIsSpace exUpper (fun _ => .ok (fun _ => false)) exPipeline s w = .ok (some m) ∧
      m.get? 7 = some v := by
  obtain ⟨mean, -, -, hsc⟩ := C69_okapi defaultBm25 defaultBm25_ok exIsSpace exUpper (fun _ => .ok (fun _ => false)) exPipeline exOneOps
    exOne_small s hr
  obtain ⟨w1, r, -, a, n, sc⟩ := apply_scored (ranked_okapi defaultBm25_ok) exIsSpace exUpper _ exOne_small hr hsc _ _ _ hq (exFine _ _ _ _ hq)
  have hne : wordsOf exPipeline (.str w) ≠ [] := by rw [hw]; simp
  have hL : (textLeaves exPipeline exOneOps).matches? (.atom w) =
      some (fun d => ∃ v ∈ wordsOf exPipeline (.str w), Holds exPipeline exOneOps d v) := by
    rw [Leaves.matches?]
    exact @if_neg _ _ hne _ none _
  cases r with
  | none => have := n.1 rfl; rw [hL] at this; cases this
  | some m => exact ⟨m, _, a, (sc m rfl 7 _).2 ⟨⟨_, hL, w, by rw [hw]; simp, (exOne_holds _ _).2 ⟨rfl, hd⟩⟩, rfl⟩⟩

example : ∃ s m1 m2 m v1 v2 v, run (okapi realArith defaultBm25) exPipeline exOneOps = .ok s ∧
    apply (okapi realArith defaultBm25) exIsSpace exUpper (fun _ => .ok (fun _ => false)) exPipeline s ['b', 'i', 'g'] = .ok (some m1) ∧
    apply (okapi realArith defaultBm25) exIsSpace exUpper (fun _ => .ok (fun _ => false)) exPipeline s ['d', 'o', 'g'] = .ok (some m2) ∧
    apply (okapi realArith defaultBm25) exIsSpace exUpper (fun _ => .ok (fun _ => false)) exPipeline s
      (combine ['b', 'i', 'g'] [['A', 'N', 'D']] ['d', 'o', 'g']) = .ok (some m) ∧
    m1.get? 7 = some v1 ∧ m2.get? 7 = some v2 ∧ m.get? 7 = some v ∧ min v1 v2 ≤ v ∧ v ≤ max v1 v2 := by
  obtain ⟨s, hr, -⟩ := C51_documents _ ((ranked_okapi defaultBm25_ok).lawful real_positive) exPipeline exOneOps exOne_small
  obtain ⟨m1, v1, a1, g1⟩ := exOne_found s hr ['b', 'i', 'g'] (by decide +kernel) (.inr rfl) rfl
  obtain ⟨m2, v2, a2, g2⟩ := exOne_found s hr ['d', 'o', 'g'] (by decide +kernel) (.inl rfl) rfl
  obtain ⟨⟨m, a, h⟩, -⟩ := C81_between_partial defaultBm25 defaultBm25_ok exIsSpace exUpper exIsSpace_ok exKeywordsOk _ exPipeline exOneOps
    exOne_small s hr ['b', 'i', 'g'] ['d', 'o', 'g'] (exFine _ _) (exFine _ _) (by unfold QuotesPaired; decide)
    (by unfold QuotesPaired; decide) _ _ _ _ rfl (.atom _) rfl (.atom _) m1 m2 a1 a2
  obtain ⟨v, hv, h1, h2⟩ := h 7 v1 v2 g1 g2
  exact ⟨s, m1, m2, m, v1, v2, v, hr, a1, a2, a, g1, g2, hv, h1, h2⟩

end Verif
