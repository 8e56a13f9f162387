import Verif.Props.TextScores
import Verif.Proofs.RoundedQueries
import Verif.Proofs.FloatArith

/-!
# Property C74: scores computed with rounding stay close to the documented formulas

`Verif.Spec.Rounding` says what a rounded arithmetic is (`Rounded u B`) and counts the roundings in a query.
-/

set_option autoImplicit false

namespace Verif

open Spec Text SetOps

variable {D : Type} [LinearOrder D] {u : ℝ} {B : Arith ℝ}

theorem near_of_app {k : ℕ} {x y : ℝ} (h : App (unit u) k x y) : Near (slack u k) x y := ⟨h.2.2.1, h.2.2.2⟩

theorem scoredNear_of {L : Leaves D} {t : Node} {r : Option (SMap D ℝ)} {f : D → ℝ} {kd : D → ℕ}
    (ha : Answers (fun x => 0 < x) r (L.matches? t)) (hv : ∀ d, App (unit u) (kd d) (f d) (valueAt r d)) :
    ScoredNear L t f (fun d => slack u (kd d)) r := by
  rcases answers_cases ha with ⟨rfl, h1⟩ | ⟨m, P, rfl, h1, h2, h3⟩
  · exact ⟨⟨fun _ => h1, fun _ => rfl⟩, by intro m hm; cases hm⟩
  · refine ⟨⟨fun h => (by cases h), fun h => (by rw [h1] at h; cases h)⟩, ?_⟩
    intro m' hm d
    obtain rfl := Option.some.inj hm
    constructor
    · rw [h2]
      constructor
      · exact fun h => ⟨P, h1, h⟩
      · rintro ⟨P', h1', hd⟩
        rw [h1] at h1'
        obtain rfl := Option.some.inj h1'
        exact hd
    · intro v hg
      have := hv d
      unfold valueAt at this
      rw [Option.bind_some, hg] at this
      exact near_of_app this

theorem mean_length {P : Bm25 ℝ} (hcmp : CountsCompare B) {pipeline : List Element} {ops : List (Text.Op D)}
    (hs : SmallLexicon pipeline ops) (he : LengthsExact B pipeline ops) {s : TI D ℝ}
    (hr : run (okapi B P) pipeline ops = .ok s) (hc : NoClear ops) : MeanLength pipeline ops (s.ix.total / (numDocs ops : ℝ)) := by
  obtain ⟨l, h1, h2, h3⟩ := C54_total_length B P hcmp pipeline ops hs he hc s hr
  refine ⟨l, h1, h2, ?_⟩
  have hlen : numDocs ops = l.length := by
    unfold numDocs
    have : {d | ∃ t, currentText ops d = some t} = (((l.map (·.1)).toFinset : Finset D) : Set D) := by
      ext d
      simp only [Set.mem_ofPred_eq, List.coe_toFinset, List.mem_map, Prod.exists, exists_and_right, exists_eq_right]
      constructor
      · rintro ⟨t, ht⟩
        exact ⟨wordsOf pipeline t, (h2 d _).2 (by unfold docWords; rw [ht]; rfl)⟩
      · rintro ⟨ws, hws⟩
        have := (h2 d ws).1 hws
        unfold docWords at this
        obtain ⟨t, ht, -⟩ := Option.map_eq_some_iff.1 this
        exact ⟨t, ht⟩
    rw [this, Set.ncard_coe_finset, List.toFinset_card_of_nodup h1, List.length_map]
  rw [hlen, h3, Int.cast_natCast]

/-- C74, OkapiIndex: executing a parsed query, with every operation rounded, gives exactly the matching documents; the score of each is
the BM25 sum of `C69_okapi` up to the factor for `26` roundings for every word and those of the unions and intersections of the query.
The third part is about `TextIndex.apply`, which divides by the weight of the query. -/
theorem C74_okapi (hu0 : 0 ≤ u) (hu : u ≤ 1 / 64) (hB : Rounded u B) (P : Bm25 ℝ) (hP : Bm25Params P) (isSpace : Char → Bool)
    (upper : Word → Word) (odd : Word → Except PyErr (Word → Bool)) (pipeline : List Element) (ops : List (Text.Op D))
    (hs : SmallLexicon pipeline ops) (he : LengthsExact B pipeline ops) (s : TI D ℝ) (hr : run (okapi B P) pipeline ops = .ok s) :
    ∃ mean, (NoClear ops → MeanLength pipeline ops mean) ∧ ((∃ d w, Holds pipeline ops d w) → 0 < mean) ∧
      ∀ q t ign, QueryParser.parseQuery isSpace upper (Lexicon.parseTerms pipeline) q = .ok (t, ign) → GlobsFine pipeline ops t →
        (∃ r, t.execute B.toWArith (searcher (okapi B P) odd pipeline s) = .ok r ∧
          ScoredNear (textLeaves pipeline ops) t
            (score (textLeaves pipeline ops) (leafRate pipeline ops (okapiRate pipeline ops P mean)) t)
            (fun _ => slack u (26 + cost pipeline ops t)) r) ∧
        ∃ r, apply (okapi B P) isSpace upper odd pipeline s q = .ok r ∧
          ScoredNear (textLeaves pipeline ops) t
            (fun d => score (textLeaves pipeline ops) (leafRate pipeline ops (okapiRate pipeline ops P mean)) t d /
              divisor (okapiWeight pipeline ops P t))
            (fun _ => slack u (40 + cost pipeline ops t + (termWords pipeline t.terms).length)) r := by
  have hK := ranked_rounded (D := D) hu0 hu hB hP
  obtain ⟨hl, hi, -⟩ := hK.run (rounded_positive hu0 hu hB) hs (fun _ => he) hr
  refine ⟨s.ix.total / (numDocs ops : ℝ), ?_, ?_, ?_⟩
  · refine mean_length (fun m n h => ?_) hs he hr
    by_contra hne
    rw [(hB.neq _ _).2 hne] at h
    cases h
  · intro hh
    obtain ⟨h1, h2⟩ := mean_pos_rounded hu0 hu hB hP hs he hr hh
    exact div_pos (by exact_mod_cast h1) (by exact_mod_cast h2)
  · intro q t ign hq hg
    obtain ⟨r, e, ha, hv⟩ := query_near hu0 hu hB hK isSpace upper odd hs (fun _ => he) hr (okapi_rateNear hu0 hu hB hP hs he hr) q t ign hq hg
    refine ⟨⟨r, e, scoredNear_of ha hv⟩, ?_⟩
    obtain ⟨qw, eq, hw⟩ := okapi_weight_near hu0 hu hB hP hs hl hi t
    obtain ⟨r', e', ha', hv'⟩ := apply_near hu0 hu hB hK hq e ha hv eq hw
    refine ⟨r', e', scoredNear_of ha' (fun d => (hv' d).mono (unit_ge hu0 hu) (by omega))⟩

/-- C74, CosineIndex: as `C74_okapi`; the weight of a word in a document takes more roundings, one for each different word of the
document -/
theorem C74_cosine (hu0 : 0 ≤ u) (hu : u ≤ 1 / 64) (hB : Rounded u B) (isSpace : Char → Bool)
    (upper : Word → Word) (odd : Word → Except PyErr (Word → Bool)) (pipeline : List Element) (ops : List (Text.Op D))
    (hs : SmallLexicon pipeline ops) (s : TI D ℝ) (hr : run (cosine B) pipeline ops = .ok s) (q : Word) (t : Node) (ign : List Word)
    (hq : QueryParser.parseQuery isSpace upper (Lexicon.parseTerms pipeline) q = .ok (t, ign)) (hg : GlobsFine pipeline ops t) :
    (∃ r, t.execute B.toWArith (searcher (cosine B) odd pipeline s) = .ok r ∧
      ScoredNear (textLeaves pipeline ops) t
        (score (textLeaves pipeline ops) (leafRate pipeline ops (cosineRate pipeline ops)) t)
        (fun d => slack u (26 + numWords pipeline ops d + cost pipeline ops t)) r) ∧
    ∃ r, apply (cosine B) isSpace upper odd pipeline s q = .ok r ∧
      ScoredNear (textLeaves pipeline ops) t
        (fun d => score (textLeaves pipeline ops) (leafRate pipeline ops (cosineRate pipeline ops)) t d /
          divisor (cosineWeight pipeline ops t))
        (fun d => slack u (49 + numWords pipeline ops d + cost pipeline ops t + (termWords pipeline t.terms).length)) r := by
  have hK : Ranked (D := D) B (fun x => 0 < x) (cosine B) := .cosine
  have he : (cosine B : Kind D ℝ).hasTotal = true → LengthsExact B pipeline ops := fun h => by cases h
  obtain ⟨hl, hi, -⟩ := hK.run (rounded_positive hu0 hu hB) hs he hr
  obtain ⟨r, e, ha, hv⟩ := query_near hu0 hu hB hK isSpace upper odd hs he hr (cosine_rateNear hu0 hu hB hs hr) q t ign hq hg
  refine ⟨⟨r, e, scoredNear_of ha hv⟩, ?_⟩
  obtain ⟨qw, eq, hw⟩ := cosine_weight_near hu0 hu hB hs hl hi t
  obtain ⟨r', e', ha', hv'⟩ := apply_near hu0 hu hB hK hq e ha hv eq hw
  refine ⟨r', e', scoredNear_of ha' (fun d => (hv' d).mono (unit_ge hu0 hu) (by omega))⟩

/-- C74: results that are near the exact scores list two documents in the right order if the exact scores differ by more than the
product of the factors -/
theorem C74_ranking {L : Leaves D} {t : Node} {f c : D → ℝ} {m : SMap D ℝ} (h : ScoredNear L t f c (some m)) (d d' : D) {v v' : ℝ}
    (hv : m.get? d = some v) (hv' : m.get? d' = some v') (hc : 0 < c d') (hlt : c d * c d' * f d < f d') : v < v' := by
  have h1 := ((h.2 m rfl d).2 v hv).1
  have h2 := ((h.2 m rfl d').2 v' hv').2
  have h3 : c d' * v < c d' * v' := by
    calc c d' * v ≤ c d' * (c d * f d) := mul_le_mul_of_nonneg_left h1 (le_of_lt hc)
      _ = c d * c d' * f d := by ring
      _ < f d' := hlt
      _ ≤ _ := h2
  exact lt_of_mul_lt_mul_left h3 (le_of_lt hc)

/-- C74: the factor for `n` roundings: with `n` roundings of relative error `u` the relative error is at most `n·u / (1 - n·u)` -/
theorem C74_slack (hu : u < 1) {n : ℕ} (hn : n * u < 1) : slack u n ≤ 1 / (1 - n * u) := by
  unfold slack
  rw [div_pow, one_pow]
  have h1 : 1 - n * u ≤ (1 - u) ^ n := by
    have := one_add_mul_le_pow (a := -u) (by linarith) n
    simpa [sub_eq_add_neg] using this
  exact one_div_le_one_div_of_le (by linarith) h1

/-! ## double precision, with weights stored in single precision, is such an arithmetic -/

/-- C74: double precision arithmetic with weights in single precision, as long as nothing overflows or underflows -/
theorem C74_float : Rounded ((1 / 2) ^ 24) (floatArith 52 23) ∧ (0 : ℝ) ≤ (1 / 2) ^ 24 ∧ ((1 / 2) ^ 24 : ℝ) ≤ 1 / 64 :=
  ⟨float_rounded (by norm_num), by positivity, by norm_num⟩

omit [LinearOrder D] in
/-- C74: the lengths of documents with less than 2²⁴ words are exact -/
theorem C74_lengths (pipeline : List Element) (ops : List (Text.Op D))
    (h : ∀ d t, Text.Op.index d t ∈ ops → (wordsOf pipeline t).length < 2 ^ 24) : LengthsExact (floatArith 52 23) pipeline ops :=
  fun d t ht => float_length (by norm_num) (h d t ht)

theorem exFloat_lengths : LengthsExact (floatArith 52 23) exPipeline exTextOps := by
  apply C74_lengths
  intro d t ht
  have : ∀ op ∈ exTextOps, ∀ d t, op = Text.Op.index d t → (wordsOf exPipeline t).length < 2 ^ 24 := by
    intro op hop
    simp only [exTextOps, List.mem_cons, List.not_mem_nil, or_false] at hop
    rcases hop with rfl | rfl | rfl | rfl | rfl | rfl | rfl | rfl <;> intro d t e <;> cases e <;> decide +kernel
  exact this _ ht d t rfl

/-- the query `bi*` in floating point: document 7 has the word `big`; its score is near that of the formula -/
example : ∃ s mean m v, run (okapi (floatArith 52 23) defaultBm25) exPipeline exTextOps = .ok s ∧
    (Node.glob ['b', 'i', '*']).execute (floatArith 52 23).toWArith
      (searcher (okapi (floatArith 52 23) defaultBm25) (fun _ => .ok (fun _ => false)) exPipeline s) = .ok (some m) ∧
    m.get? 7 = some v ∧ (0 : ℝ) < mean ∧
    Near (slack ((1 / 2) ^ 24) (26 + cost exPipeline exTextOps (.glob ['b', 'i', '*'])))
      (score (textLeaves exPipeline exTextOps) (leafRate exPipeline exTextOps (okapiRate exPipeline exTextOps defaultBm25 mean))
        (.glob ['b', 'i', '*']) 7) v := by
  obtain ⟨hB, hu0, hu⟩ := C74_float
  have hK := ranked_rounded (D := Nat) hu0 hu hB defaultBm25_ok
  obtain ⟨s, hr, -⟩ := C51_documents _ (hK.lawful (rounded_positive hu0 hu hB)) exPipeline exTextOps exText_small
  have hq : QueryParser.parseQuery exIsSpace exUpper (Lexicon.parseTerms exPipeline) ['b', 'i', '*'] = .ok (.glob ['b', 'i', '*'], []) := rfl
  obtain ⟨mean, -, hmean, h⟩ := C74_okapi hu0 hu hB _ defaultBm25_ok exIsSpace exUpper (fun _ => .ok (fun _ => false)) exPipeline
    exTextOps exText_small exFloat_lengths s hr
  obtain ⟨⟨r, e, h1, h2⟩, -⟩ := h _ _ _ hq (exFine _ _ _ _ hq)
  have hm : (textLeaves exPipeline exTextOps).matches? (.glob ['b', 'i', '*']) =
      some (fun d => HasGlob exPipeline exTextOps d ['b', 'i', '*']) := rfl
  have hh : Holds exPipeline exTextOps 7 ['b', 'i', 'g'] := ⟨_, rfl, by decide +kernel⟩
  cases r with
  | none => rw [hm] at h1; exact absurd (h1.1 rfl) (by simp)
  | some m =>
    obtain ⟨h3, h4⟩ := h2 m rfl 7
    have h7 : HasGlob exPipeline exTextOps 7 ['b', 'i', '*'] := by
      refine ⟨['b', 'i', 'g'], hh, ?_⟩
      exact .char _ _ _ (by decide) (by decide) (.char _ _ _ (by decide) (by decide) (.star [] ['g'] [] .nil))
    obtain ⟨v, hv⟩ := (SMap.mem_keys_iff m 7).1 (h3.2 ⟨_, hm, h7⟩)
    exact ⟨s, mean, m, v, hr, e, hv, hmean ⟨7, _, hh⟩, h4 v hv⟩

/-- the example meets the hypotheses of `C74_cosine` -/
example : ∃ s r, run (cosine (floatArith 52 23)) exPipeline exTextOps = .ok s ∧
    apply (cosine (floatArith 52 23)) exIsSpace exUpper (fun _ => .ok (fun _ => false)) exPipeline s ['d', 'o', 'g'] = .ok r ∧
    ScoredNear (textLeaves exPipeline exTextOps) (.atom ['d', 'o', 'g'])
      (fun d => score (textLeaves exPipeline exTextOps) (leafRate exPipeline exTextOps (cosineRate exPipeline exTextOps)) (.atom ['d', 'o', 'g']) d /
        divisor (cosineWeight exPipeline exTextOps (.atom ['d', 'o', 'g'])))
      (fun d => slack ((1 / 2) ^ 24) (49 + numWords exPipeline exTextOps d + cost exPipeline exTextOps (.atom ['d', 'o', 'g']) +
        (termWords exPipeline (Node.atom ['d', 'o', 'g']).terms).length)) r := by
  obtain ⟨hB, hu0, hu⟩ := C74_float
  obtain ⟨s, hr, -⟩ := C51_documents _ (cosine_lawful (D := Nat) (rounded_positive hu0 hu hB)) exPipeline exTextOps exText_small
  have hq : QueryParser.parseQuery exIsSpace exUpper (Lexicon.parseTerms exPipeline) ['d', 'o', 'g'] = .ok (.atom ['d', 'o', 'g'], []) := rfl
  obtain ⟨-, r, e, h⟩ := C74_cosine hu0 hu hB exIsSpace exUpper (fun _ => .ok (fun _ => false)) exPipeline
    exTextOps exText_small s hr _ _ _ hq (exFine _ _ _ _ hq)
  exact ⟨s, r, hr, e, h⟩

/-- 100 roundings to single precision: a relative error below 1 / 150000 -/
example : slack ((1 / 2) ^ 24) 100 ≤ 1 + 1 / 150000 := by
  refine (C74_slack (by norm_num) (n := 100) (by norm_num)).trans ?_
  norm_num

/-- the order is kept for clearly different scores -/
example : ∃ (L : Leaves Nat) (t : Node) (f : Nat → ℝ) (m : SMap Nat ℝ), ScoredNear L t f (fun _ => 2) (some m) ∧
    m.get? 1 = some 1 ∧ m.get? 2 = some 9 ∧ (2 : ℝ) * 2 * f 1 < f 2 := by
  refine ⟨⟨fun _ => some (fun d => d = 1 ∨ d = 2), fun _ => none, fun _ => none⟩, .atom [],
    fun d => if d = 1 then 1 else 8, (SMap.empty.set 1 1).set 2 9, ⟨?_, ?_⟩, ?_, ?_, ?_⟩
  · simp [Leaves.matches?]
  · rintro m hm d
    obtain rfl := Option.some.inj hm
    constructor
    · rw [SMap.mem_keys_iff]
      simp only [SMap.get?_set, SMap.get?_empty, Leaves.Matches, Leaves.matches?, Option.some.injEq, exists_eq_left']
      by_cases h2 : d = 2
      · simp [h2]
      · by_cases h1 : d = 1
        · simp [h1]
        · simp [h1, h2]
    · intro v hv
      simp only [SMap.get?_set, SMap.get?_empty] at hv
      by_cases h2 : d = 2
      · subst h2
        simp at hv
        subst hv
        unfold Near; norm_num
      · by_cases h1 : d = 1
        · subst h1
          simp at hv
          subst hv
          unfold Near; norm_num
        · simp [h1, h2] at hv
  · simp [SMap.get?_set]
  · simp
  · norm_num

end Verif
