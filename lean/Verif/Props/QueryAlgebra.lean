import Verif.Proofs.Rearrange
import Verif.Props.Rounding

/-!
# Property C88: order, grouping and repetition of the parts of a query

Scores are computed over the real numbers here (`realArith`: no rounding), except in the section on rounding.
-/

set_option autoImplicit false

namespace Verif

open Spec Text SetOps QueryParser

variable {D : Type} [LinearOrder D]

/-- the same words, phrases and patterns occur in both trees -/
theorem rearranged_leaves {L : Leaves D} {t t' : Node} (h : Rearranged L t t') (x : Node) : LeafOf x t ↔ LeafOf x t' := by
  have hand : ∀ l, LeafOf x (.and l) ↔ ∃ n ∈ l, LeafOf x n := fun l =>
    ⟨fun h => by cases h with | and _ n _ hn h => exact ⟨n, hn, h⟩, fun ⟨n, hn, h⟩ => .and _ n _ hn h⟩
  have hor : ∀ l, LeafOf x (.or l) ↔ ∃ n ∈ l, LeafOf x n := fun l =>
    ⟨fun h => by cases h with | or _ n _ hn h => exact ⟨n, hn, h⟩, fun ⟨n, hn, h⟩ => .or _ n _ hn h⟩
  have hnot : ∀ n, LeafOf x (.not n) ↔ LeafOf x n := fun n => ⟨fun h => by cases h with | not _ _ h => exact h, .not _ _⟩
  induction h with
  | refl => exact Iff.rfl
  | symm _ ih => exact ih.symm
  | trans _ _ ih ih' => exact ih.trans ih'
  | orderAnd h => simp only [hand, h.mem_iff]
  | orderOr h => simp only [hor, h.mem_iff]
  | groupAnd l r _ => simp only [hand, List.mem_cons, List.mem_append, or_and_right, exists_or, exists_eq_left]
  | groupOr l r => simp only [hor, List.mem_cons, List.mem_append, or_and_right, exists_or, exists_eq_left]
  | insideNot _ ih => exact (hnot _).trans (ih.trans (hnot _).symm)
  | insideAnd l _ ih => simp only [hand, List.mem_cons, exists_eq_or_imp, ih]
  | insideOr l _ ih => simp only [hor, List.mem_cons, exists_eq_or_imp, ih]

theorem rearranged_fine {L : Leaves D} {t t' : Node} (h : Rearranged L t t') {pipeline : List Element} {ops : List (Text.Op D)}
    (hg : GlobsFine pipeline ops t) : GlobsFine pipeline ops t' := fun p hp => hg p ((rearranged_leaves h _).2 hp)

theorem rearranged_apply {K : Kind D ℝ} (hK : Ranked realArith (fun x => 0 < x) K) (isSpace : Char → Bool) (upper : Word → Word)
    (odd : Word → Except PyErr (Word → Bool)) {pipeline : List Element} {ops : List (Text.Op D)} (hs : SmallLexicon pipeline ops)
    {s : TI D ℝ} (hr : run K pipeline ops = .ok s)
    {L : Leaves D} {rate : Node → D → ℝ}
    (hsc : ∀ q t ign, parseQuery isSpace upper (Lexicon.parseTerms pipeline) q = .ok (t, ign) → GlobsFine pipeline ops t →
      ∃ r, t.execute realArith.toWArith (searcher K odd pipeline s) = .ok r ∧ Scored L rate t r)
    (hw : ∀ t t' : Node, t.terms.Perm t'.terms → queryWeight K pipeline s t.terms = queryWeight K pipeline s t'.terms)
    (q q' : Word) (t t' : Node) (ign ign' : List Word)
    (hq : parseQuery isSpace upper (Lexicon.parseTerms pipeline) q = .ok (t, ign)) (hg : GlobsFine pipeline ops t)
    (hq' : parseQuery isSpace upper (Lexicon.parseTerms pipeline) q' = .ok (t', ign')) (hh : Rearranged L t t') :
    ∃ r, apply K isSpace upper odd pipeline s q = .ok r ∧ apply K isSpace upper odd pipeline s q' = .ok r := by
  have h := Rearr.same L rate hh
  obtain ⟨w, r, ew, er, hn, hm⟩ := apply_scored hK isSpace upper odd hs hr hsc q t ign hq hg
  obtain ⟨w', r', ew', er', hn', hm'⟩ := apply_scored hK isSpace upper odd hs hr hsc q' t' ign' hq' (rearranged_fine hh hg)
  rw [hw t t' h.terms, ew'] at ew
  obtain rfl := Except.ok.inj ew
  have hM : ∀ d, L.Matches t d ↔ L.Matches t' d := fun d => by unfold Leaves.Matches; rw [h.all]
  refine ⟨r, er, ?_⟩
  rw [er']
  congr 1
  rw [h.all] at hn
  cases r with
  | none => exact hn'.2 (hn.1 rfl)
  | some m =>
    cases r' with
    | none => have := hn.2 (hn'.1 rfl); cases this
    | some m' =>
      congr 1
      apply SMap.ext
      intro d
      apply Option.ext
      intro v
      rw [hm m rfl d v, hm' m' rfl d v, hM, h.score]

theorem okapi_weight_perm {P : Bm25 ℝ} (hP : Bm25Params P) {pipeline : List Element} {ops : List (Text.Op D)}
    (hs : SmallLexicon pipeline ops) {s : TI D ℝ} (hr : run (okapi realArith P) pipeline ops = .ok s) (t t' : Node)
    (h : t.terms.Perm t'.terms) :
    queryWeight (okapi realArith P) pipeline s t.terms = queryWeight (okapi realArith P) pipeline s t'.terms := by
  rw [C61_query_weight P hP pipeline ops hs s hr _ (terms_ne_none t), C61_query_weight P hP pipeline ops hs s hr _ (terms_ne_none t')]
  congr 1
  exact ((h.flatMap_right _).map _).sum_eq

theorem cosine_weight_perm {pipeline : List Element} {ops : List (Text.Op D)}
    (hs : SmallLexicon pipeline ops) {s : TI D ℝ} (hr : run (cosine realArith) pipeline ops = .ok s) (t t' : Node)
    (h : t.terms.Perm t'.terms) :
    queryWeight (cosine realArith) pipeline s t.terms = queryWeight (cosine realArith) pipeline s t'.terms := by
  rw [C62_query_weight pipeline ops hs s hr _ (terms_ne_none t), C62_query_weight pipeline ops hs s hr _ (terms_ne_none t')]
  congr 2
  exact ((h.flatMap_right _).map _).sum_eq

/-- C88, OkapiIndex: if two queries differ only in the order and the grouping of the parts of AND and OR, `apply` returns the same
documents with the same scores -/
theorem C88_okapi (P : Bm25 ℝ) (hP : Bm25Params P) (isSpace : Char → Bool) (upper : Word → Word)
    (odd : Word → Except PyErr (Word → Bool)) (pipeline : List Element) (ops : List (Text.Op D)) (hs : SmallLexicon pipeline ops)
    (s : TI D ℝ) (hr : run (okapi realArith P) pipeline ops = .ok s) (q q' : Word) (t t' : Node) (ign ign' : List Word)
    (hq : parseQuery isSpace upper (Lexicon.parseTerms pipeline) q = .ok (t, ign)) (hg : GlobsFine pipeline ops t)
    (hq' : parseQuery isSpace upper (Lexicon.parseTerms pipeline) q' = .ok (t', ign'))
    (hh : Rearranged (textLeaves pipeline ops) t t') :
    ∃ r, apply (okapi realArith P) isSpace upper odd pipeline s q = .ok r ∧
      apply (okapi realArith P) isSpace upper odd pipeline s q' = .ok r := by
  obtain ⟨mean, -, -, hsc⟩ := C69_okapi P hP isSpace upper odd pipeline ops hs s hr
  exact rearranged_apply (ranked_okapi hP) isSpace upper odd hs hr hsc (okapi_weight_perm hP hs hr) q q' t t' ign ign' hq hg hq' hh

/-- C88, CosineIndex: likewise -/
theorem C88_cosine (isSpace : Char → Bool) (upper : Word → Word)
    (odd : Word → Except PyErr (Word → Bool)) (pipeline : List Element) (ops : List (Text.Op D)) (hs : SmallLexicon pipeline ops)
    (s : TI D ℝ) (hr : run (cosine realArith) pipeline ops = .ok s) (q q' : Word) (t t' : Node) (ign ign' : List Word)
    (hq : parseQuery isSpace upper (Lexicon.parseTerms pipeline) q = .ok (t, ign)) (hg : GlobsFine pipeline ops t)
    (hq' : parseQuery isSpace upper (Lexicon.parseTerms pipeline) q' = .ok (t', ign'))
    (hh : Rearranged (textLeaves pipeline ops) t t') :
    ∃ r, apply (cosine realArith) isSpace upper odd pipeline s q = .ok r ∧
      apply (cosine realArith) isSpace upper odd pipeline s q' = .ok r :=
  rearranged_apply ranked_cosine isSpace upper odd hs hr
    (fun q t ign hq hg => C69_cosine isSpace upper odd pipeline ops hs s hr q t ign hq hg) (cosine_weight_perm hs hr)
    q q' t t' ign ign' hq hg hq' hh

/-! ## Query texts -/

/-- the queries have the same answer -/
def SameAnswer (K : Kind D ℝ) (isSpace : Char → Bool) (upper : Word → Word) (odd : Word → Except PyErr (Word → Bool))
    (pipeline : List Element) (s : TI D ℝ) (q q' : Word) : Prop :=
  ∃ r, apply K isSpace upper odd pipeline s q = .ok r ∧ apply K isSpace upper odd pipeline s q' = .ok r

/-- C88 for texts: `(q1) OR (q2)` and `(q2) OR (q1)` have the same answer, so do `(q1) AND (q2)` and `(q2) AND (q1)`, and
`((q1) OR (q2)) OR (q3)` and `(q1) OR ((q2) OR (q3))`, and the same with AND provided that `q1` or `q2` has an answer other than
`None` and so has `q2` or `q3`.  For OkapiIndex and CosineIndex, for every query `F` that `apply`
accepts. -/
def SameUpToOrder (K : Kind D ℝ) (isSpace : Char → Bool) (upper : Word → Word) (odd : Word → Except PyErr (Word → Bool))
    (pipeline : List Element) (s : TI D ℝ) (F : Word → Prop) : Prop :=
  ∀ q1 q2 q3, F q1 → F q2 → F q3 → QuotesPaired q1 → QuotesPaired q2 → QuotesPaired q3 → ∀ r1 r2 r3,
    apply K isSpace upper odd pipeline s q1 = .ok r1 → apply K isSpace upper odd pipeline s q2 = .ok r2 →
    apply K isSpace upper odd pipeline s q3 = .ok r3 →
    SameAnswer K isSpace upper odd pipeline s (combine q1 [['O', 'R']] q2) (combine q2 [['O', 'R']] q1) ∧
    SameAnswer K isSpace upper odd pipeline s (combine q1 [['A', 'N', 'D']] q2) (combine q2 [['A', 'N', 'D']] q1) ∧
    SameAnswer K isSpace upper odd pipeline s (combine (combine q1 [['O', 'R']] q2) [['O', 'R']] q3)
      (combine q1 [['O', 'R']] (combine q2 [['O', 'R']] q3)) ∧
    (r1 ≠ none ∨ r2 ≠ none → r2 ≠ none ∨ r3 ≠ none →
      SameAnswer K isSpace upper odd pipeline s (combine (combine q1 [['A', 'N', 'D']] q2) [['A', 'N', 'D']] q3)
        (combine q1 [['A', 'N', 'D']] (combine q2 [['A', 'N', 'D']] q3)))

theorem paired_combine {q1 q2 : Word} (h1 : QuotesPaired q1) (h2 : QuotesPaired q2) (kw : Word) (hk : kw.count '"' = 0) :
    QuotesPaired (combine q1 [kw] q2) := by
  unfold QuotesPaired combine at *
  simp only [List.cons_append, List.count_cons, List.count_append, List.flatMap_cons, List.flatMap_nil, hk, List.count_nil]
  have a : ('(' == '"') = false := by decide
  have b : (')' == '"') = false := by decide
  have c : (' ' == '"') = false := by decide
  simp only [a, b, c]
  simp
  omega

theorem same_up_to_order {K : Kind D ℝ} (hK : Ranked realArith (fun x => 0 < x) K) (isSpace : Char → Bool) (upper : Word → Word)
    (hsp : SpaceOk isSpace) (hu : KeywordsOk isSpace upper)
    (odd : Word → Except PyErr (Word → Bool)) {pipeline : List Element} {ops : List (Text.Op D)} (hs : SmallLexicon pipeline ops)
    {s : TI D ℝ} (hr : run K pipeline ops = .ok s)
    {L : Leaves D} {rate : Node → D → ℝ}
    (hsc : ∀ q t ign, parseQuery isSpace upper (Lexicon.parseTerms pipeline) q = .ok (t, ign) → GlobsFine pipeline ops t →
      ∃ r, t.execute realArith.toWArith (searcher K odd pipeline s) = .ok r ∧ Scored L rate t r)
    (hw : ∀ t t' : Node, t.terms.Perm t'.terms → queryWeight K pipeline s t.terms = queryWeight K pipeline s t'.terms) :
    SameUpToOrder K isSpace upper odd pipeline s (QueryFine isSpace upper pipeline ops) := by
  have key : ∀ q r, QueryFine isSpace upper pipeline ops q → apply K isSpace upper odd pipeline s q = .ok r → ∃ t ign,
      parseQuery isSpace upper (Lexicon.parseTerms pipeline) q = .ok (t, ign) ∧ Clean t ∧ (r = none ↔ L.matches? t = none) := by
    intro q r hg h
    cases hq : parseQuery isSpace upper (Lexicon.parseTerms pipeline) q with
    | error x => unfold apply at h; rw [hq] at h; cases x <;> simp at h
    | ok p =>
      obtain ⟨t, ign⟩ := p
      obtain ⟨w, r', -, er, hn, -⟩ := apply_scored hK isSpace upper odd hs hr hsc q t ign hq (hg t ign hq)
      rw [h] at er
      obtain rfl := Except.ok.inj er
      exact ⟨t, ign, rfl, C48_shape isSpace upper _ q t ign hq, hn⟩
  have fin := rearranged_apply hK isSpace upper odd hs hr hsc hw
  intro q1 q2 q3 f1 f2 f3 e1 e2 e3 r1 r2 r3 h1 h2 h3
  obtain ⟨t1, i1, p1, c1, n1⟩ := key q1 r1 f1 h1
  obtain ⟨t2, i2, p2, c2, n2⟩ := key q2 r2 f2 h2
  obtain ⟨t3, i3, p3, c3, n3⟩ := key q3 r3 f3 h3
  have kor : (['O', 'R'] : Word).count '"' = 0 := by decide
  have kand : (['A', 'N', 'D'] : Word).count '"' = 0 := by decide
  obtain ⟨o12, a12, -, -⟩ := C76_parse isSpace upper _ hsp hu q1 q2 e1 e2 t1 t2 i1 i2 p1 p2
  obtain ⟨o21, a21, -, -⟩ := C76_parse isSpace upper _ hsp hu q2 q1 e2 e1 t2 t1 i2 i1 p2 p1
  obtain ⟨o23, a23, -, -⟩ := C76_parse isSpace upper _ hsp hu q2 q3 e2 e3 t2 t3 i2 i3 p2 p3
  obtain ⟨oo, -, -, -⟩ := C76_parse isSpace upper _ hsp hu _ q3 (paired_combine e1 e2 _ kor) e3 _ t3 _ i3 o12 p3
  obtain ⟨oo', -, -, -⟩ := C76_parse isSpace upper _ hsp hu q1 _ e1 (paired_combine e2 e3 _ kor) t1 _ i1 _ p1 o23
  obtain ⟨-, aa, -, -⟩ := C76_parse isSpace upper _ hsp hu _ q3 (paired_combine e1 e2 _ kand) e3 _ t3 _ i3 a12 p3
  obtain ⟨-, aa', -, -⟩ := C76_parse isSpace upper _ hsp hu q1 _ e1 (paired_combine e2 e3 _ kand) t1 _ i1 _ p1 a23
  have pos2 : ∀ {t t' : Node}, Clean t → Clean t' → L.matches? t ≠ none ∨ L.matches? t' ≠ none → L.positive [t, t'] ≠ [] := by
    intro t t' c c' h
    rw [positive_clean _ c, positive_clean _ c']
    cases e : L.matches? t <;> cases e' : L.matches? t' <;> simp_all
  replace f1 := f1 _ _ p1
  replace f2 := f2 _ _ p2
  replace f3 := f3 _ _ p3
  refine ⟨fin _ _ _ _ _ _ o12 (f1.or f2) o21 (.orderOr (.swap _ _ _)), fin _ _ _ _ _ _ a12 (f1.and f2) a21 (.orderAnd (.swap _ _ _)),
    fin _ _ _ _ _ _ oo ((f1.or f2).or f3) oo' ?_, fun g1 g2 => fin _ _ _ _ _ _ aa ((f1.and f2).and f3) aa' ?_⟩
  · refine (Rearranged.groupOr [t1, t2] [t3]).trans (.symm (.trans (.orderOr (.swap _ _ _)) (.trans (.groupOr [t2, t3] [t1]) ?_)))
    exact .orderOr (List.perm_append_comm (l₁ := [t2, t3]) (l₂ := [t1]))
  · rw [Ne, n1, Ne, n2] at g1
    rw [Ne, n2, Ne, n3] at g2
    refine (Rearranged.groupAnd [t1, t2] [t3] (pos2 c1 c2 g1)).trans
      (.symm (.trans (.orderAnd (.swap _ _ _)) (.trans (.groupAnd [t2, t3] [t1] (pos2 c2 c3 g2)) ?_)))
    exact .orderAnd (List.perm_append_comm (l₁ := [t2, t3]) (l₂ := [t1]))

/-- C88 for texts, OkapiIndex -/
theorem C88_okapi_texts (P : Bm25 ℝ) (hP : Bm25Params P) (isSpace : Char → Bool) (upper : Word → Word)
    (hsp : SpaceOk isSpace) (hu : KeywordsOk isSpace upper)
    (odd : Word → Except PyErr (Word → Bool)) (pipeline : List Element) (ops : List (Text.Op D)) (hs : SmallLexicon pipeline ops)
    (s : TI D ℝ) (hr : run (okapi realArith P) pipeline ops = .ok s) :
    SameUpToOrder (okapi realArith P) isSpace upper odd pipeline s (QueryFine isSpace upper pipeline ops) := by
  obtain ⟨mean, -, -, hsc⟩ := C69_okapi P hP isSpace upper odd pipeline ops hs s hr
  exact same_up_to_order (ranked_okapi hP) isSpace upper hsp hu odd hs hr hsc (okapi_weight_perm hP hs hr)

/-- C88 for texts, CosineIndex -/
theorem C88_cosine_texts (isSpace : Char → Bool) (upper : Word → Word) (hsp : SpaceOk isSpace) (hu : KeywordsOk isSpace upper)
    (odd : Word → Except PyErr (Word → Bool)) (pipeline : List Element) (ops : List (Text.Op D)) (hs : SmallLexicon pipeline ops)
    (s : TI D ℝ) (hr : run (cosine realArith) pipeline ops = .ok s) :
    SameUpToOrder (cosine realArith) isSpace upper odd pipeline s (QueryFine isSpace upper pipeline ops) :=
  same_up_to_order ranked_cosine isSpace upper hsp hu odd hs hr
    (fun q t ign hq hg => C69_cosine isSpace upper odd pipeline ops hs s hr q t ign hq hg) (cosine_weight_perm hs hr)

/-! ## Repetition -/

theorem double_or {w1 w : ℝ} {c : ℝ} (h : divisor w1 + divisor w1 = c * divisor w) (o : Option ℝ) :
    orScore (divisor w1) (divisor w1) (divisor w) o o = o.map (fun v => c * v) := by
  have hw := divisor_ne w
  cases o with
  | none => rfl
  | some v =>
    unfold orScore
    simp only [Option.map_some, Option.some.injEq]
    rw [div_eq_iff hw]
    linear_combination v * h

theorem double_and {w1 w : ℝ} {c : ℝ} (h : divisor w1 + divisor w1 = c * divisor w) (o : Option ℝ) :
    andScore (divisor w1) (divisor w1) (divisor w) o o = o.map (fun v => c * v) := by
  have hw := divisor_ne w
  cases o with
  | none => rfl
  | some v =>
    unfold andScore
    simp only [Option.map_some, Option.some.injEq]
    rw [div_eq_iff hw]
    linear_combination v * h

/-- C88, repetition, OkapiIndex: `(q) OR (q)` and `(q) AND (q)` have the answer of `q` if the `query_weight` of `q` is not 0; if it is
0, all scores are twice as high -/
theorem C88_repeat_okapi (P : Bm25 ℝ) (hP : Bm25Params P) (isSpace : Char → Bool) (upper : Word → Word)
    (hsp : SpaceOk isSpace) (hu : KeywordsOk isSpace upper)
    (odd : Word → Except PyErr (Word → Bool)) (pipeline : List Element) (ops : List (Text.Op D)) (hs : SmallLexicon pipeline ops)
    (s : TI D ℝ) (hr : run (okapi realArith P) pipeline ops = .ok s) (q : Word)
    (g : QueryFine isSpace upper pipeline ops q) (e : QuotesPaired q) (m : SMap D ℝ)
    (h : apply (okapi realArith P) isSpace upper odd pipeline s q = .ok (some m)) :
    ∃ w m', WeightOf (okapi realArith P) isSpace upper pipeline s q w ∧ (w ≠ 0 → m' = m) ∧
      (w = 0 → ∀ d, m'.get? d = (m.get? d).map (fun v => 2 * v)) ∧
      apply (okapi realArith P) isSpace upper odd pipeline s (combine q [['O', 'R']] q) = .ok (some m') ∧
      apply (okapi realArith P) isSpace upper odd pipeline s (combine q [['A', 'N', 'D']] q) = .ok (some m') := by
  obtain ⟨w, w', -, -, hw, hw', ⟨mo, ao, so⟩, ⟨ma, aa, sa⟩, -⟩ := C81_okapi P hP isSpace upper hsp hu odd pipeline ops hs s hr
    q q g g e e m m h h
  obtain ⟨t, ign, p, x⟩ := hw
  obtain ⟨t', ign', p', x'⟩ := hw'
  rw [p] at p'
  cases p'
  rw [x] at x'
  obtain rfl := Except.ok.inj x'
  have hc : divisor w + divisor w = (if w = 0 then 2 else 1) * divisor (w + w) := by
    unfold divisor
    by_cases hz : w = 0
    · subst hz; norm_num
    · have : w + w ≠ 0 := fun h => hz (by linarith)
      simp only [hz, this, if_false]
      ring
  have hm : ma = mo := by
    apply SMap.ext
    intro d
    rw [so, sa, double_or hc, double_and hc]
  subst hm
  refine ⟨w, ma, ⟨t, ign, p, x⟩, ?_, ?_, ao, aa⟩
  · intro hz
    apply SMap.ext
    intro d
    rw [so, double_or hc, if_neg hz]
    simp
  · intro hz d
    rw [so, double_or hc, if_pos hz]

/-- C88, repetition, OkapiIndex, queries without globs: `(q) OR (q)` and `(q) AND (q)` have the answer of `q`.  What is missing:
queries with globs, for which it is false (`C88_repeat_fails`), and CosineIndex, for which it is false too
(`C88_repeat_cosine`). -/
theorem C88_repeat_partial (P : Bm25 ℝ) (hP : Bm25Params P) (isSpace : Char → Bool) (upper : Word → Word)
    (hsp : SpaceOk isSpace) (hu : KeywordsOk isSpace upper)
    (odd : Word → Except PyErr (Word → Bool)) (pipeline : List Element) (ops : List (Text.Op D)) (hs : SmallLexicon pipeline ops)
    (s : TI D ℝ) (hr : run (okapi realArith P) pipeline ops = .ok s) (q : Word) (e : QuotesPaired q) (t : Node) (ign : List Word)
    (hq : parseQuery isSpace upper (Lexicon.parseTerms pipeline) q = .ok (t, ign)) (hg : GlobsFine pipeline ops t) (hgf : GlobFree t) (m : SMap D ℝ)
    (h : apply (okapi realArith P) isSpace upper odd pipeline s q = .ok (some m)) :
    apply (okapi realArith P) isSpace upper odd pipeline s (combine q [['O', 'R']] q) = .ok (some m) ∧
    apply (okapi realArith P) isSpace upper odd pipeline s (combine q [['A', 'N', 'D']] q) = .ok (some m) := by
  obtain ⟨w, m', hw, h1, h2, ao, aa⟩ := C88_repeat_okapi P hP isSpace upper hsp hu odd pipeline ops hs s hr q
    (fun t' ign' h => by rw [hq] at h; cases h; exact hg) e m h
  have : m' = m := by
    by_cases hz : w = 0
    · apply SMap.ext
      intro d
      rw [h2 hz]
      cases hd : m.get? d with
      | none => rfl
      | some v => exact absurd hz (ne_of_gt (weight_pos hP isSpace upper odd hs hr hq hg hgf h hd hw).1)
    · exact h1 hz
  subst this
  exact ⟨ao, aa⟩

/-- C88, repetition, CosineIndex: all scores for `(q) OR (q)` and `(q) AND (q)` are those for `q` times the square root of 2, or twice
as high if the `query_weight` of `q` is 0 -/
theorem C88_repeat_cosine (isSpace : Char → Bool) (upper : Word → Word) (hsp : SpaceOk isSpace) (hu : KeywordsOk isSpace upper)
    (odd : Word → Except PyErr (Word → Bool)) (pipeline : List Element) (ops : List (Text.Op D)) (hs : SmallLexicon pipeline ops)
    (s : TI D ℝ) (hr : run (cosine realArith) pipeline ops = .ok s) (q : Word)
    (g : QueryFine isSpace upper pipeline ops q) (e : QuotesPaired q) (m : SMap D ℝ)
    (h : apply (cosine realArith) isSpace upper odd pipeline s q = .ok (some m)) :
    ∃ w m', WeightOf (cosine realArith) isSpace upper pipeline s q w ∧
      (w ≠ 0 → ∀ d, m'.get? d = (m.get? d).map (fun v => Real.sqrt 2 * v)) ∧
      (w = 0 → ∀ d, m'.get? d = (m.get? d).map (fun v => 2 * v)) ∧
      apply (cosine realArith) isSpace upper odd pipeline s (combine q [['O', 'R']] q) = .ok (some m') ∧
      apply (cosine realArith) isSpace upper odd pipeline s (combine q [['A', 'N', 'D']] q) = .ok (some m') := by
  obtain ⟨w, w', hw0, -, hw, hw', ⟨mo, ao, so⟩, ⟨ma, aa, sa⟩, -⟩ := C81_cosine isSpace upper hsp hu odd pipeline ops hs s hr
    q q g g e e m m h h
  obtain ⟨t, ign, p, x⟩ := hw
  obtain ⟨t', ign', p', x'⟩ := hw'
  rw [p] at p'
  cases p'
  rw [x] at x'
  obtain rfl := Except.ok.inj x'
  have hsq : Real.sqrt (w ^ 2 + w ^ 2) = Real.sqrt 2 * w := by
    rw [← two_mul, Real.sqrt_mul (by norm_num), Real.sqrt_sq hw0]
  have h2 : Real.sqrt 2 * Real.sqrt 2 = 2 := Real.mul_self_sqrt (by norm_num)
  have hc : divisor w + divisor w = (if w = 0 then 2 else Real.sqrt 2) * divisor (Real.sqrt (w ^ 2 + w ^ 2)) := by
    rw [hsq]
    unfold divisor
    by_cases hz : w = 0
    · subst hz; norm_num
    · have : Real.sqrt 2 * w ≠ 0 := mul_ne_zero (by positivity) hz
      simp only [hz, this, if_false]
      linear_combination -w * h2
  have hm : ma = mo := by
    apply SMap.ext
    intro d
    rw [so, sa, double_or hc, double_and hc]
  subst hm
  refine ⟨w, ma, ⟨t, ign, p, x⟩, ?_, ?_, ao, aa⟩
  · intro hz d
    rw [so, double_or hc, if_neg hz]
  · intro hz d
    rw [so, double_or hc, if_pos hz]

/-- C88, repetition fails for globs: after indexing `dog big` as document 7, its score for `(bi*) OR (bi*)` is twice as high as for `bi*` -/
theorem C88_repeat_fails : ∃ s m m' v, run (okapi realArith defaultBm25) exPipeline exOneOps = .ok s ∧
    apply (okapi realArith defaultBm25) exIsSpace exUpper (fun _ => .ok (fun _ => false)) exPipeline s ['b', 'i', '*'] = .ok (some m) ∧
    apply (okapi realArith defaultBm25) exIsSpace exUpper (fun _ => .ok (fun _ => false)) exPipeline s
      (combine ['b', 'i', '*'] [['O', 'R']] ['b', 'i', '*']) = .ok (some m') ∧
    0 < v ∧ m.get? 7 = some v ∧ m'.get? 7 = some (2 * v) := by
  obtain ⟨s, m1, -, -, v1, -, -, hr, a1, -, -, g1, -⟩ := C81_fails
  have hK := ranked_okapi (D := Nat) defaultBm25_ok
  obtain ⟨w, m', ⟨t, ign, p, x⟩, -, h2, ao, -⟩ := C88_repeat_okapi defaultBm25 defaultBm25_ok exIsSpace exUpper exIsSpace_ok exKeywordsOk _
    exPipeline exOneOps exOne_small s hr _ (exFine _ _) (by unfold QuotesPaired; decide) m1 a1
  have hq1 : parseQuery exIsSpace exUpper (Lexicon.parseTerms exPipeline) ['b', 'i', '*'] = .ok (.glob ['b', 'i', '*'], []) := rfl
  rw [hq1] at p
  cases p
  rw [C61_query_weight _ defaultBm25_ok _ _ exOne_small s hr _ (terms_ne_none _)] at x
  have k1 : termWords exPipeline (Node.glob ['b', 'i', '*']).terms = [['b', 'i']] := by rw [Node.terms]; decide +kernel
  have z1 : wordIdf exPipeline exOneOps ['b', 'i'] = 0 := by
    unfold wordIdf
    rw [if_pos]
    unfold numHolders
    have : {d | Holds exPipeline exOneOps d ['b', 'i']} = ∅ := by ext d; simp [exOne_holds]
    rw [this, Set.ncard_empty]
  have y1 : w = 0 := by rw [← Except.ok.inj x, k1]; simp [z1]
  refine ⟨s, m1, m', v1, hr, a1, ao, ?_, g1, by rw [h2 y1, g1]; rfl⟩
  rcases C60_apply real_positive hK exIsSpace exUpper (fun _ => .ok (fun _ => false)) exPipeline exOneOps exOne_small
    (fun _ => real_lengths _ _) s hr ['b', 'i', '*'] (exFine _ _) with ⟨-, h⟩ | ⟨t, ign, -, ⟨-, h⟩ | ⟨P, m, -, h, -, hp⟩⟩
  · rw [a1] at h; cases h
  · rw [a1] at h; cases h
  · rw [a1] at h; cases h
    exact hp 7 v1 g1

/-! ## Rounding -/

theorem near_near {u : ℝ} (hu : u ≤ 1 / 64) {n n' : ℕ} {x v v' : ℝ} (h : Near (slack u n) x v) (h' : Near (slack u n') x v') :
    Near (slack u (n + n')) v v' := by
  have hp : ∀ k, 0 ≤ slack u k := fun k => pow_nonneg (div_nonneg zero_le_one (by linarith)) k
  have he : slack u (n + n') = slack u n * slack u n' := pow_add _ _ _
  unfold Near at *
  rw [he]
  constructor
  · have := mul_le_mul_of_nonneg_left h.2 (hp n')
    calc v' ≤ slack u n' * x := h'.1
      _ ≤ slack u n' * (slack u n * v) := this
      _ = _ := by ring
  · have := mul_le_mul_of_nonneg_left h'.2 (hp n)
    calc v ≤ slack u n * x := h.1
      _ ≤ slack u n * (slack u n' * v') := this
      _ = _ := by ring

/-- the same documents, with scores that agree up to the factor `c d` -/
def NearAnswers (c : D → ℝ) : Option (SMap D ℝ) → Option (SMap D ℝ) → Prop
  | none, none => True
  | some m, some m' => ∀ d, (m.get? d = none ∧ m'.get? d = none) ∨ ∃ v v', m.get? d = some v ∧ m'.get? d = some v' ∧ Near (c d) v v'
  | _, _ => False

theorem nearAnswers_of {u : ℝ} (hu : u ≤ 1 / 64) {L : Leaves D} {t t' : Node} (e : L.matches? t = L.matches? t')
    {f : D → ℝ} {n n' : D → ℕ} {r r' : Option (SMap D ℝ)} (h : ScoredNear L t f (fun d => slack u (n d)) r)
    (h' : ScoredNear L t' f (fun d => slack u (n' d)) r') : NearAnswers (fun d => slack u (n d + n' d)) r r' := by
  have hM : ∀ d, L.Matches t d ↔ L.Matches t' d := fun d => by unfold Leaves.Matches; rw [e]
  have h1 := h.1
  have h1' := h'.1
  rw [e] at h1
  cases r with
  | none => rw [h1'.2 (h1.1 rfl)]; trivial
  | some m =>
    cases r' with
    | none => have := h1.2 (h1'.1 rfl); cases this
    | some m' =>
      intro d
      obtain ⟨k, g⟩ := h.2 m rfl d
      obtain ⟨k', g'⟩ := h'.2 m' rfl d
      rw [hM, ← k', SMap.mem_keys_iff, SMap.mem_keys_iff] at k
      cases hm : m.get? d with
      | none =>
        cases hm' : m'.get? d with
        | none => exact .inl ⟨rfl, rfl⟩
        | some v' => rw [hm, hm'] at k; simp at k
      | some v =>
        cases hm' : m'.get? d with
        | none => rw [hm, hm'] at k; simp at k
        | some v' => exact .inr ⟨v, v', rfl, rfl, near_near hu (g v hm) (g' v' hm')⟩

/-- C88 with rounding, OkapiIndex: the answers have the same documents, and the scores agree up to the factor for the roundings of the
two queries (C74) -/
theorem C88_okapi_rounded {u : ℝ} {B : Arith ℝ} (hu0 : 0 ≤ u) (hu : u ≤ 1 / 64) (hB : Rounded u B) (P : Bm25 ℝ) (hP : Bm25Params P)
    (isSpace : Char → Bool)
    (upper : Word → Word) (odd : Word → Except PyErr (Word → Bool)) (pipeline : List Element) (ops : List (Text.Op D))
    (hs : SmallLexicon pipeline ops) (he : LengthsExact B pipeline ops) (s : TI D ℝ) (hr : run (okapi B P) pipeline ops = .ok s) (q q' : Word) (t t' : Node)
    (ign ign' : List Word) (hq : parseQuery isSpace upper (Lexicon.parseTerms pipeline) q = .ok (t, ign)) (hg : GlobsFine pipeline ops t)
    (hq' : parseQuery isSpace upper (Lexicon.parseTerms pipeline) q' = .ok (t', ign'))
    (hh : Rearranged (textLeaves pipeline ops) t t') :
    ∃ r r', apply (okapi B P) isSpace upper odd pipeline s q = .ok r ∧ apply (okapi B P) isSpace upper odd pipeline s q' = .ok r' ∧
      NearAnswers (fun _ => slack u (40 + cost pipeline ops t + (termWords pipeline t.terms).length +
        (40 + cost pipeline ops t' + (termWords pipeline t'.terms).length))) r r' := by
  obtain ⟨mean, -, -, h⟩ := C74_okapi hu0 hu hB P hP isSpace upper odd pipeline ops hs he s hr
  obtain ⟨-, r, e, hn⟩ := h q t ign hq hg
  obtain ⟨-, r', e', hn'⟩ := h q' t' ign' hq' (rearranged_fine hh hg)
  have hsame := Rearr.same _ (leafRate pipeline ops (okapiRate pipeline ops P mean)) hh
  refine ⟨r, r', e, e', nearAnswers_of hu hsame.all hn ?_⟩
  have hw : okapiWeight pipeline ops P t = okapiWeight pipeline ops P t' := ((hsame.terms.flatMap_right _).map _).sum_eq
  simpa only [hw, hsame.score] using hn'

/-- C88 with rounding, CosineIndex: likewise -/
theorem C88_cosine_rounded {u : ℝ} {B : Arith ℝ} (hu0 : 0 ≤ u) (hu : u ≤ 1 / 64) (hB : Rounded u B) (isSpace : Char → Bool)
    (upper : Word → Word) (odd : Word → Except PyErr (Word → Bool)) (pipeline : List Element) (ops : List (Text.Op D))
    (hs : SmallLexicon pipeline ops) (s : TI D ℝ) (hr : run (cosine B) pipeline ops = .ok s) (q q' : Word) (t t' : Node)
    (ign ign' : List Word) (hq : parseQuery isSpace upper (Lexicon.parseTerms pipeline) q = .ok (t, ign)) (hg : GlobsFine pipeline ops t)
    (hq' : parseQuery isSpace upper (Lexicon.parseTerms pipeline) q' = .ok (t', ign'))
    (hh : Rearranged (textLeaves pipeline ops) t t') :
    ∃ r r', apply (cosine B) isSpace upper odd pipeline s q = .ok r ∧ apply (cosine B) isSpace upper odd pipeline s q' = .ok r' ∧
      NearAnswers (fun d => slack u (49 + numWords pipeline ops d + cost pipeline ops t + (termWords pipeline t.terms).length +
        (49 + numWords pipeline ops d + cost pipeline ops t' + (termWords pipeline t'.terms).length))) r r' := by
  obtain ⟨-, r, e, hn⟩ := C74_cosine hu0 hu hB isSpace upper odd pipeline ops hs s hr q t ign hq hg
  obtain ⟨-, r', e', hn'⟩ := C74_cosine hu0 hu hB isSpace upper odd pipeline ops hs s hr q' t' ign' hq' (rearranged_fine hh hg)
  have hsame := Rearr.same _ (leafRate pipeline ops (cosineRate pipeline ops)) hh
  refine ⟨r, r', e, e', nearAnswers_of hu hsame.all hn ?_⟩
  have hw : cosineWeight pipeline ops t = cosineWeight pipeline ops t' := by
    unfold cosineWeight
    congr 1
    exact ((hsame.terms.flatMap_right _).map _).sum_eq
  simpa only [hw, hsame.score] using hn'

/-- double precision with weights in single precision: `dog OR big` and `big OR dog` -/
example (s : TI Nat ℝ) (hr : run (okapi (floatArith 52 23) defaultBm25) exPipeline exTextOps = .ok s) :
    ∃ n r r', apply (okapi (floatArith 52 23) defaultBm25) exIsSpace exUpper (fun _ => .ok (fun _ => false)) exPipeline s
        (combine ['d', 'o', 'g'] [['O', 'R']] ['b', 'i', 'g']) = .ok r ∧
      apply (okapi (floatArith 52 23) defaultBm25) exIsSpace exUpper (fun _ => .ok (fun _ => false)) exPipeline s
        (combine ['b', 'i', 'g'] [['O', 'R']] ['d', 'o', 'g']) = .ok r' ∧
      NearAnswers (fun _ => slack ((1 / 2) ^ 24) n) r r' := by
  obtain ⟨hB, hu0, hu⟩ := C74_float
  obtain ⟨r, r', h⟩ := C88_okapi_rounded hu0 hu hB defaultBm25 defaultBm25_ok exIsSpace exUpper (fun _ => .ok (fun _ => false)) exPipeline exTextOps
    exText_small exFloat_lengths s hr (combine ['d', 'o', 'g'] [['O', 'R']] ['b', 'i', 'g'])
    (combine ['b', 'i', 'g'] [['O', 'R']] ['d', 'o', 'g']) (.or [.atom ['d', 'o', 'g'], .atom ['b', 'i', 'g']])
    (.or [.atom ['b', 'i', 'g'], .atom ['d', 'o', 'g']]) [] [] rfl
    (exFine (isSpace := exIsSpace) (upper := exUpper) _ (combine ['d', 'o', 'g'] [['O', 'R']] ['b', 'i', 'g']) _ _ rfl) rfl (.orderOr (.swap _ _ _))
  exact ⟨_, r, r', h⟩

/-! ## The hypotheses are met -/

/-- `a AND (b NOT c) AND d` and `b AND d AND a NOT c` -/
example (L : Leaves Nat) (a b c d : Node) (hb : L.positive [b, .not c] ≠ []) :
    Rearranged L (.and [a, .and [b, .not c], d]) (.and [b, d, a, .not c]) := by
  refine (Rearranged.orderAnd (.swap _ _ _)).trans ((Rearranged.groupAnd [b, .not c] [a, d] hb).trans (.orderAnd ?_))
  refine List.Perm.cons _ ?_
  exact (List.perm_append_comm (l₁ := [Node.not c]) (l₂ := [a, d])).trans (.swap _ _ _)

/-- after indexing `dog big` as document 7, `(big) OR (dog)` and `(dog) OR (big)` find it with the same score, and `(dog) OR (dog)` finds
it with the score of `dog` -/
example : ∃ s m m' v v', run (okapi realArith defaultBm25) exPipeline exOneOps = .ok s ∧
    apply (okapi realArith defaultBm25) exIsSpace exUpper (fun _ => .ok (fun _ => false)) exPipeline s
      (combine ['b', 'i', 'g'] [['O', 'R']] ['d', 'o', 'g']) = .ok (some m) ∧
    apply (okapi realArith defaultBm25) exIsSpace exUpper (fun _ => .ok (fun _ => false)) exPipeline s
      (combine ['d', 'o', 'g'] [['O', 'R']] ['b', 'i', 'g']) = .ok (some m) ∧ m.get? 7 = some v ∧
    apply (okapi realArith defaultBm25) exIsSpace exUpper (fun _ => .ok (fun _ => false)) exPipeline s ['d', 'o', 'g'] = .ok (some m') ∧
    apply (okapi realArith defaultBm25) exIsSpace exUpper (fun _ => .ok (fun _ => false)) exPipeline s
      (combine ['d', 'o', 'g'] [['O', 'R']] ['d', 'o', 'g']) = .ok (some m') ∧ m'.get? 7 = some v' := by
  obtain ⟨s, hr, -⟩ := C51_documents _ ((ranked_okapi defaultBm25_ok).lawful real_positive) exPipeline exOneOps exOne_small
  obtain ⟨m1, v1, a1, g1⟩ := exOne_found s hr ['b', 'i', 'g'] (by decide +kernel) (.inr rfl) rfl
  obtain ⟨m2, v2, a2, g2⟩ := exOne_found s hr ['d', 'o', 'g'] (by decide +kernel) (.inl rfl) rfl
  have p1 : QuotesPaired ['b', 'i', 'g'] := by unfold QuotesPaired; decide
  have p2 : QuotesPaired ['d', 'o', 'g'] := by unfold QuotesPaired; decide
  obtain ⟨⟨r, x, y⟩, -⟩ := C88_okapi_texts defaultBm25 defaultBm25_ok exIsSpace exUpper exIsSpace_ok exKeywordsOk (fun _ => .ok (fun _ => false))
    exPipeline exOneOps exOne_small s hr _ _ _ (exFine _ _) (exFine _ _) (exFine _ _) p1 p2 p2 _ _ _ a1 a2 a2
  obtain ⟨w1, w2, -, -, -, -, ⟨m, am, sm⟩, -⟩ := C81_okapi defaultBm25 defaultBm25_ok exIsSpace exUpper exIsSpace_ok exKeywordsOk
    (fun _ => .ok (fun _ => false)) exPipeline exOneOps exOne_small s hr _ _ (exFine _ _) (exFine _ _) p1 p2 _ _ a1 a2
  rw [am] at x
  obtain rfl := Except.ok.inj x
  obtain ⟨z, -⟩ := C88_repeat_partial defaultBm25 defaultBm25_ok exIsSpace exUpper exIsSpace_ok exKeywordsOk (fun _ => .ok (fun _ => false))
    exPipeline exOneOps exOne_small s hr _ p2 _ _ rfl
    (exFine (isSpace := exIsSpace) (upper := exUpper) _ ['d', 'o', 'g'] _ _ rfl) (.atom _) m2 a2
  have hm := sm 7
  rw [g1, g2] at hm
  exact ⟨s, m, m2, _, v2, hr, am, y, hm, a2, z, g2⟩

end Verif
