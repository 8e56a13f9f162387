import Verif.Proofs.QueryScores

/-!
# Properties C61 - C64, C67, C69: scores

Scores are computed over the real numbers here (`realArith`: no rounding).  The formulas are in `Verif.Spec.Scores`.
-/

set_option autoImplicit false

namespace Verif

open Spec Text SetOps

variable {D : Type} [LinearOrder D]

theorem ranked_okapi {P : Bm25 ℝ} (hP : Bm25Params P) : Ranked (D := D) realArith (fun x => 0 < x) (okapi realArith P) :=
  .okapi _ (real_params hP)

theorem ranked_cosine : Ranked (D := D) realArith (fun x => 0 < x) (cosine realArith) := .cosine

/-- the parameters of okapiindex.py:217-221 -/
noncomputable def defaultBm25 : Bm25 ℝ := { k1 := 1.2, b := 0.75 }

theorem defaultBm25_ok : Bm25Params defaultBm25 :=
  ⟨by show (0 : ℝ) < 1.2; norm_num, by show (0 : ℝ) < 0.75; norm_num, by show (0.75 : ℝ) < 1; norm_num⟩

theorem okapi_ratedBy {P : Bm25 ℝ} (hP : Bm25Params P) {pipeline : List Element} {ops : List (Text.Op D)}
    (hs : SmallLexicon pipeline ops) {s : TI D ℝ} (hr : run (okapi realArith P) pipeline ops = .ok s) :
    RatedBy (okapi realArith P) pipeline ops s (okapiRate pipeline ops P (s.ix.total / (numDocs ops : ℝ))) := by
  obtain ⟨hl, hi, -⟩ := (ranked_okapi (D := D) hP).run real_positive hs (fun _ => real_lengths pipeline ops) hr
  refine ⟨⟨_, okapi_rateOk P s.ix, fun w d => okapiWidRate_eq hs hr hi hl w d⟩, ?_⟩
  intro w d hno
  unfold okapiRate
  cases hd : docWords pipeline ops d with
  | none => rfl
  | some ws => exact if_neg (fun hw => hno ⟨ws, hd, hw⟩)

theorem cosine_ratedBy {pipeline : List Element} {ops : List (Text.Op D)}
    (hs : SmallLexicon pipeline ops) {s : TI D ℝ} (hr : run (cosine realArith) pipeline ops = .ok s) :
    RatedBy (cosine realArith) pipeline ops s (cosineRate pipeline ops) := by
  obtain ⟨hl, hi, -⟩ := (ranked_cosine (D := D)).run real_positive hs (fun h => by cases h) hr
  refine ⟨⟨_, cosine_rateOk s.ix, fun w d => cosineWidRate_eq hs hi w d⟩, ?_⟩
  intro w d hno
  unfold cosineRate
  cases hd : docWords pipeline ops d with
  | none => rfl
  | some ws => exact if_neg (fun hw => hno ⟨ws, hd, hw⟩)

theorem mean_pos {P : Bm25 ℝ} (hP : Bm25Params P) {pipeline : List Element} {ops : List (Text.Op D)}
    (hs : SmallLexicon pipeline ops) {s : TI D ℝ} (hr : run (okapi realArith P) pipeline ops = .ok s)
    (hh : ∃ d w, Holds pipeline ops d w) : 0 < s.ix.total / (numDocs ops : ℝ) := by
  have hK := ranked_okapi (D := D) hP
  obtain ⟨hl, hi, hS, -⟩ := hK.run real_positive hs (fun _ => real_lengths pipeline ops) hr
  obtain ⟨d, w, hh⟩ := hh
  have hst := (stored_holds (hK.lawful real_positive) hs hi w d).2 hh
  have ht : 0 < s.ix.total := total_pos real_positive P pipeline ops hs (real_lengths pipeline ops) hr hi ⟨_, stored_contains (K := okapi realArith P) real_positive hS hst⟩
  have hN : 0 < numDocs ops := by
    obtain ⟨ws, hws, -⟩ := hh
    rw [(numDocs_eq hi).1]
    have : s.ix.docweight.get? d = some (realArith.store (fr (okapi realArith P : Kind D ℝ) (ws.map (lexAfter pipeline ops).getWid)).2) := by
      rw [hi.docweight]; unfold docWids; rw [hws]; rfl
    exact len_pos_of_get this
  exact div_pos (by exact_mod_cast ht) (by exact_mod_cast hN)

/-! ## C69: scores are those of the documented formulas -/

theorem scored_of {L : Leaves D} {rate : Node → D → ℝ} {t : Node} {r : Option (SMap D ℝ)}
    (ha : Answers (fun x => 0 < x) r (L.matches? t)) (hv : ∀ d, valueAt r d = score L rate t d) : Scored L rate t r := by
  rcases answers_cases ha with ⟨rfl, h1⟩ | ⟨m, P, rfl, h1, h2, h3⟩
  · exact ⟨⟨fun _ => h1, fun _ => rfl⟩, by intro m hm; cases hm⟩
  · refine ⟨⟨fun h => (by cases h), fun h => (by rw [h1] at h; cases h)⟩, ?_⟩
    intro m' hm d v
    obtain rfl := Option.some.inj hm
    have hval : ∀ v, m.get? d = some v → v = score L rate t d := by
      intro v hg
      rw [← hv d]
      unfold valueAt
      rw [Option.bind_some, hg]; rfl
    constructor
    · intro hg
      exact ⟨⟨P, h1, (h2 d).1 ((SMap.mem_keys_iff m d).2 ⟨v, hg⟩)⟩, hval v hg⟩
    · rintro ⟨⟨P', h1', hd⟩, rfl⟩
      rw [h1] at h1'
      obtain rfl := Option.some.inj h1'
      obtain ⟨v, hg⟩ := (SMap.mem_keys_iff m d).1 ((h2 d).2 hd)
      rw [hg, hval v hg]

/-- C69, OkapiIndex: executing a parsed query gives every matching document the sum of the BM25 weights of its words; `mean` is the
mean length of the documents if `clear` was never called -/
theorem C69_okapi (P : Bm25 ℝ) (hP : Bm25Params P) (isSpace : Char → Bool) (upper : Word → Word)
    (odd : Word → Except PyErr (Word → Bool)) (pipeline : List Element) (ops : List (Text.Op D)) (hs : SmallLexicon pipeline ops)
    (s : TI D ℝ) (hr : run (okapi realArith P) pipeline ops = .ok s) :
    ∃ mean, (NoClear ops → MeanLength pipeline ops mean) ∧ ((∃ d w, Holds pipeline ops d w) → 0 < mean) ∧
      ∀ q t ign, QueryParser.parseQuery isSpace upper (Lexicon.parseTerms pipeline) q = .ok (t, ign) → GlobsFine pipeline ops t →
        ∃ r, t.execute realArith.toWArith (searcher (okapi realArith P) odd pipeline s) = .ok r ∧
          Scored (textLeaves pipeline ops) (leafRate pipeline ops (okapiRate pipeline ops P mean)) t r := by
  have hK := ranked_okapi (D := D) hP
  obtain ⟨hl, hi, -⟩ := hK.run real_positive hs (fun _ => real_lengths pipeline ops) hr
  refine ⟨s.ix.total / (numDocs ops : ℝ), ?_, ?_, ?_⟩
  · intro hc
    obtain ⟨l, h1, h2, h3⟩ := C54_total_length realArith P (by
      intro m n h
      have h : decide ((m : ℝ) ≠ n) = false := h
      show (m : ℝ) = n
      simpa using h) pipeline ops hs (real_lengths pipeline ops) hc s hr
    refine ⟨l, h1, h2, ?_⟩
    have hlen : numDocs ops = l.length := by
      unfold numDocs
      have : {d | ∃ t, currentText ops d = some t} = (((l.map (·.1)).toFinset : Finset D) : Set D) := by
        ext d
        simp only [Set.mem_ofPred_eq, List.coe_toFinset, List.mem_map, Prod.exists, exists_and_right, exists_eq_right]
        constructor
        · rintro ⟨t, ht⟩
          exact ⟨wordsOf pipeline t, (h2 d _).2 (by unfold docWords; rw [ht]; rfl)⟩
        · rintro ⟨ws, hws⟩
          have := (h2 d ws).1 hws
          unfold docWords at this
          obtain ⟨t, ht, -⟩ := Option.map_eq_some_iff.1 this
          exact ⟨t, ht⟩
      rw [this, Set.ncard_coe_finset, List.toFinset_card_of_nodup h1, List.length_map]
    rw [hlen, h3, Int.cast_natCast]
  · exact mean_pos hP hs hr
  · intro q t ign hq hg
    obtain ⟨r, e, ha, hv⟩ := query_scores hK isSpace upper odd hs hr (okapi_ratedBy hP hs hr) q t ign hq hg
    exact ⟨r, e, scored_of ha hv⟩

/-- C69, CosineIndex: executing a parsed query gives every matching document the sum over the words of (normalized weight in the
document) times (inverse document frequency) -/
theorem C69_cosine (isSpace : Char → Bool) (upper : Word → Word)
    (odd : Word → Except PyErr (Word → Bool)) (pipeline : List Element) (ops : List (Text.Op D)) (hs : SmallLexicon pipeline ops)
    (s : TI D ℝ) (hr : run (cosine realArith) pipeline ops = .ok s) (q : Word) (t : Node) (ign : List Word)
    (hq : QueryParser.parseQuery isSpace upper (Lexicon.parseTerms pipeline) q = .ok (t, ign)) (hg : GlobsFine pipeline ops t) :
    ∃ r, t.execute realArith.toWArith (searcher (cosine realArith) odd pipeline s) = .ok r ∧
      Scored (textLeaves pipeline ops) (leafRate pipeline ops (cosineRate pipeline ops)) t r := by
  obtain ⟨r, e, ha, hv⟩ := query_scores ranked_cosine isSpace upper odd hs hr (cosine_ratedBy hs hr) q t ign hq hg
  exact ⟨r, e, scored_of ha hv⟩

/-! ## C61 -/

/-- C61, first part: `query_weight` of OkapiIndex is the sum over the words of the terms of their inverse document frequency times
`k1 + 1` -/
theorem C61_query_weight (P : Bm25 ℝ) (hP : Bm25Params P) (pipeline : List Element) (ops : List (Text.Op D))
    (hs : SmallLexicon pipeline ops) (s : TI D ℝ) (hr : run (okapi realArith P) pipeline ops = .ok s) (ts : List TextArg)
    (ht : ∀ t ∈ ts, t ≠ .none) :
    queryWeight (okapi realArith P) pipeline s ts =
      .ok ((termWords pipeline ts).map (fun w => wordIdf pipeline ops w * (1 + P.k1))).sum := by
  obtain ⟨hl, hi, -, hwt⟩ := (ranked_okapi (D := D) hP).run real_positive hs (fun _ => real_lengths pipeline ops) hr
  unfold queryWeight
  rw [hl, termWids_eq ts ht, bind_ok]
  obtain ⟨q, e, -⟩ := hwt ((termWords pipeline ts).map (lexAfter pipeline ops).getWid)
  rw [e]
  have e : okapiQueryWeight realArith P s.ix ((termWords pipeline ts).map (lexAfter pipeline ops).getWid) = .ok q := e
  rw [okapi_weight_value e, List.map_map]
  congr 2
  apply List.map_congr_left
  intro w _
  simp only [Function.comp]
  rw [widIdf_eq (okapi_lawful' real_positive P) hs hi]

theorem okapiRate_bounds {P : Bm25 ℝ} (hP : Bm25Params P) {pipeline : List Element} {ops : List (Text.Op D)}
    (hs : SmallLexicon pipeline ops) {s : TI D ℝ} (hr : run (okapi realArith P) pipeline ops = .ok s) {mean : ℝ}
    (hm : (∃ d w, Holds pipeline ops d w) → 0 < mean) (w : Word) (d : D) :
    0 ≤ okapiRate pipeline ops P mean w d ∧ okapiRate pipeline ops P mean w d ≤ wordIdf pipeline ops w * (1 + P.k1) ∧
    (0 < okapiRate pipeline ops P mean w d → okapiRate pipeline ops P mean w d < wordIdf pipeline ops w * (1 + P.k1)) := by
  obtain ⟨hl, hi, -⟩ := (ranked_okapi (D := D) hP).run real_positive hs (fun _ => real_lengths pipeline ops) hr
  have hk : 0 < 1 + P.k1 := by have := hP.k1; linarith
  have h0 : 0 ≤ wordIdf pipeline ops w := by
    rcases wordIdf_pos (okapi_lawful' real_positive P) hs hi w with ⟨h, -⟩ | ⟨h, -⟩
    · exact le_of_lt h
    · rw [h]
  have hmul : 0 ≤ wordIdf pipeline ops w * (1 + P.k1) := mul_nonneg h0 (le_of_lt hk)
  unfold okapiRate
  cases hd : docWords pipeline ops d with
  | none => exact ⟨le_refl _, hmul, fun h => absurd h (lt_irrefl _)⟩
  | some ws =>
    simp only
    by_cases hw : w ∈ ws
    · rw [if_pos hw]
      have hh : Holds pipeline ops d w := ⟨ws, hd, hw⟩
      have hidf : 0 < wordIdf pipeline ops w := by
        rcases wordIdf_pos (okapi_lawful' real_positive P) hs hi w with ⟨h, -⟩ | ⟨-, h⟩
        · exact h
        · exact absurd hh (h d)
      have hc : (0 : ℝ) < ws.count w := by exact_mod_cast List.count_pos_iff.2 hw
      have hlen : (0 : ℝ) < ws.length := by exact_mod_cast List.length_pos_of_mem hw
      obtain ⟨h1, h2⟩ := bm25_bounds hP hc hlen (hm ⟨d, w, hh⟩)
      have hlt : bm25 P (ws.count w) ws.length mean * wordIdf pipeline ops w < wordIdf pipeline ops w * (1 + P.k1) := by
        rw [mul_comm]; exact mul_lt_mul_of_pos_left h2 hidf
      exact ⟨le_of_lt (mul_pos h1 hidf), le_of_lt hlt, fun _ => hlt⟩
    · rw [if_neg hw]
      exact ⟨le_refl _, hmul, fun h => absurd h (lt_irrefl _)⟩

/-- C61 for queries without globs (globs may occur in negated parts): all scores are less than `query_weight` of the terms.
What is missing: queries with globs, for which it is false (`C61_fails`). -/
theorem C61_bound_partial (P : Bm25 ℝ) (hP : Bm25Params P) (isSpace : Char → Bool) (upper : Word → Word)
    (odd : Word → Except PyErr (Word → Bool)) (pipeline : List Element) (ops : List (Text.Op D)) (hs : SmallLexicon pipeline ops)
    (s : TI D ℝ) (hr : run (okapi realArith P) pipeline ops = .ok s) (q : Word) (t : Node) (ign : List Word)
    (hq : QueryParser.parseQuery isSpace upper (Lexicon.parseTerms pipeline) q = .ok (t, ign)) (hg : GlobsFine pipeline ops t) (hgf : GlobFree t) :
    ∃ qw, queryWeight (okapi realArith P) pipeline s t.terms = .ok qw ∧
      ∀ m, t.execute realArith.toWArith (searcher (okapi realArith P) odd pipeline s) = .ok (some m) →
        ∀ d v, m.get? d = some v → 0 < v ∧ v < qw := by
  refine ⟨_, C61_query_weight P hP pipeline ops hs s hr t.terms (terms_ne_none t), ?_⟩
  intro m hm d v hv
  obtain ⟨r, e, ha⟩ := C57_query real_positive (ranked_okapi hP) isSpace upper odd pipeline ops hs (fun _ => real_lengths pipeline ops)
    s hr q t ign hq hg
  obtain ⟨mean, -, hmean, hsc⟩ := C69_okapi P hP isSpace upper odd pipeline ops hs s hr
  obtain ⟨r', e', h1, h2⟩ := hsc q t ign hq hg
  rw [hm] at e e'
  obtain rfl := Except.ok.inj e
  obtain rfl := Except.ok.inj e'
  have hpos : 0 < v := by
    rcases answers_cases ha with ⟨h, -⟩ | ⟨m', _, h, -, -, h3⟩
    · cases h
    · obtain rfl := Option.some.inj h
      exact h3 d v hv
  refine ⟨hpos, ?_⟩
  obtain ⟨-, hval⟩ := (h2 m rfl d v).1 hv
  have hb := okapiRate_bounds hP hs hr hmean
  have hle := score_le (pipeline := pipeline) (textLeaves pipeline ops) (fun w d => (hb w d).1) ops hgf d
  rw [← hval] at hle
  exact lt_of_le_of_lt hle (sum_lt_of_pos (fun w => (hb w d).2.1) (fun w => (hb w d).2.2) (fun w => (hb w d).1) (lt_of_lt_of_le hpos hle))

theorem exAfter_bi (d : Nat) : ¬ Holds exPipeline exTextOps d ['b', 'i'] := fun h => absurd (holds_seen h) (by decide +kernel)

/-- C61 fails for globs: the query `bi*` gives document 7 (`dog big eel`) a positive score, but its `query_weight` is 0, because
`query_weight` treats the pattern as the word `bi` -/
theorem C61_fails : ∃ s m v, run (okapi realArith defaultBm25) exPipeline exTextOps = .ok s ∧
    QueryParser.parseQuery exIsSpace exUpper (Lexicon.parseTerms exPipeline) ['b', 'i', '*'] = .ok (.glob ['b', 'i', '*'], []) ∧
    (Node.glob ['b', 'i', '*']).execute realArith.toWArith (searcher (okapi realArith defaultBm25) (fun _ => .ok (fun _ => false)) exPipeline s) =
      .ok (some m) ∧
    m.get? 7 = some v ∧ 0 < v ∧
    queryWeight (okapi realArith defaultBm25) exPipeline s (Node.glob ['b', 'i', '*']).terms = .ok 0 := by
  have hK := ranked_okapi (D := Nat) defaultBm25_ok
  obtain ⟨s, hr, -⟩ := C51_documents _ (hK.lawful real_positive) exPipeline exTextOps exText_small
  have hq : QueryParser.parseQuery exIsSpace exUpper (Lexicon.parseTerms exPipeline) ['b', 'i', '*'] = .ok (.glob ['b', 'i', '*'], []) := rfl
  obtain ⟨hl, hi, -⟩ := hK.run real_positive exText_small (fun _ => real_lengths exPipeline exTextOps) hr
  obtain ⟨r, e, ha⟩ := C57_query real_positive hK exIsSpace exUpper (fun _ => .ok (fun _ => false)) exPipeline exTextOps exText_small
    (fun _ => real_lengths _ _) s hr _ _ _ hq (exFine _ _ _ _ hq)
  have hm : (textLeaves exPipeline exTextOps).matches? (.glob ['b', 'i', '*']) =
      some (fun d => HasGlob exPipeline exTextOps d ['b', 'i', '*']) := rfl
  rcases answers_cases ha with ⟨-, h⟩ | ⟨m, P, rfl, h1, h2, h3⟩
  · rw [hm] at h; cases h
  · rw [hm] at h1
    obtain rfl := Option.some.inj h1
    have h7 : HasGlob exPipeline exTextOps 7 ['b', 'i', '*'] := by
      refine ⟨['b', 'i', 'g'], ⟨_, rfl, by decide +kernel⟩, ?_⟩
      exact .char _ _ _ (by decide) (by decide) (.char _ _ _ (by decide) (by decide) (.star [] ['g'] [] .nil))
    obtain ⟨v, hv⟩ := (SMap.mem_keys_iff m 7).1 ((h2 7).2 h7)
    refine ⟨s, m, v, hr, hq, e, hv, h3 _ _ hv, ?_⟩
    rw [C61_query_weight _ defaultBm25_ok _ _ exText_small s hr _ (terms_ne_none _)]
    have : termWords exPipeline (Node.glob ['b', 'i', '*']).terms = [['b', 'i']] := by
      rw [Node.terms]; decide +kernel
    rw [this]
    have h0 : wordIdf exPipeline exTextOps ['b', 'i'] = 0 := by
      rcases wordIdf_pos (hK.lawful real_positive) exText_small hi ['b', 'i'] with ⟨-, d, h⟩ | ⟨h, -⟩
      · exact absurd h (exAfter_bi d)
      · exact h
    simp [h0]

/-! ## C62 -/

/-- C62, first part: `query_weight` of CosineIndex is the length of the vector of inverse document frequencies -/
theorem C62_query_weight (pipeline : List Element) (ops : List (Text.Op D))
    (hs : SmallLexicon pipeline ops) (s : TI D ℝ) (hr : run (cosine realArith) pipeline ops = .ok s) (ts : List TextArg)
    (ht : ∀ t ∈ ts, t ≠ .none) :
    queryWeight (cosine realArith) pipeline s ts =
      .ok (Real.sqrt ((termWords pipeline ts).map (fun w => wordIdf pipeline ops w ^ 2)).sum) := by
  obtain ⟨hl, hi, -, hwt⟩ := (ranked_cosine (D := D)).run real_positive hs (fun h => by cases h) hr
  unfold queryWeight
  rw [hl, termWids_eq ts ht, bind_ok]
  obtain ⟨q, e, -⟩ := hwt ((termWords pipeline ts).map (lexAfter pipeline ops).getWid)
  rw [e]
  have e : cosineQueryWeight realArith s.ix ((termWords pipeline ts).map (lexAfter pipeline ops).getWid) = .ok q := e
  rw [cosine_weight_value e, List.map_map]
  congr 3
  apply List.map_congr_left
  intro w _
  simp only [Function.comp]
  rw [widIdf_eq (ranked_cosine.lawful real_positive) hs hi]

theorem cosineRate_nonneg {pipeline : List Element} {ops : List (Text.Op D)} (hidf : ∀ w, 0 ≤ wordIdf pipeline ops w) (w : Word) (d : D) :
    0 ≤ cosineRate pipeline ops w d := by
  unfold cosineRate
  cases hd : docWords pipeline ops d with
  | none => exact le_refl _
  | some ws =>
    simp only
    split
    · rename_i hw
      exact mul_nonneg (div_nonneg (le_of_lt (termWeight_pos (List.count_pos_iff.2 hw))) (Real.sqrt_nonneg _)) (hidf w)
    · exact le_refl _

/-- Cauchy-Schwarz for the words of a query and the words of a document -/
theorem cosine_sum_le {pipeline : List Element} {ops : List (Text.Op D)} (d : D) (T : List Word)
    (hd : ∀ w, (∃ d, Holds pipeline ops d w) → T.count w ≤ 1) :
    (T.map (fun w => cosineRate pipeline ops w d)).sum ≤ Real.sqrt ((T.map (fun w => wordIdf pipeline ops w ^ 2)).sum) := by
  cases hw : docWords pipeline ops d with
  | none =>
    have : T.map (fun w => cosineRate pipeline ops w d) = T.map (fun _ => 0) := by
      apply List.map_congr_left; intro w _; unfold cosineRate; rw [hw]
    rw [this]
    simp [Real.sqrt_nonneg]
  | some ws =>
    have hrate : ∀ w, cosineRate pipeline ops w d =
        if w ∈ ws then termWeight (ws.count w) / docNorm ws * wordIdf pipeline ops w else 0 := by
      intro w; unfold cosineRate; rw [hw]
    rw [sum_filter_zero T _ (fun w => decide (w ∈ ws)) (by intro w _ h; rw [hrate, if_neg (by simpa using h)])]
    have hnd : (T.filter (fun w => decide (w ∈ ws))).Nodup := by
      rw [List.nodup_iff_count_le_one]
      intro w
      by_cases hm : w ∈ ws
      · exact le_trans (List.filter_sublist.count_le w) (hd w ⟨d, ws, hw, hm⟩)
      · rw [List.count_eq_zero_of_not_mem (by simp [hm])]; omega
    set T' := T.filter (fun w => decide (w ∈ ws)) with hT'
    have hmem : ∀ w ∈ T', w ∈ ws := by intro w h; simpa using (List.mem_filter.1 h).2
    have h1 : (T'.map (fun w => cosineRate pipeline ops w d)).sum =
        ∑ w ∈ T'.toFinset, termWeight (ws.count w) / docNorm ws * wordIdf pipeline ops w := by
      rw [List.sum_toFinset _ hnd]
      congr 1
      apply List.map_congr_left
      intro w h
      rw [hrate, if_pos (hmem w h)]
    rw [h1]
    refine le_trans (Real.sum_mul_le_sqrt_mul_sqrt _ _ _) ?_
    have h2 : ∑ w ∈ T'.toFinset, (termWeight (ws.count w) / docNorm ws) ^ 2 ≤ 1 := by
      refine le_trans (Finset.sum_le_sum_of_subset_of_nonneg (t := ws.dedup.toFinset) ?_ (fun _ _ _ => sq_nonneg _)) ?_
      · intro w h
        simpa using hmem w (by simpa using h)
      · rw [List.sum_toFinset _ (List.nodup_dedup ws)]
        rcases ws with _ | ⟨w0, ws0⟩
        · simp
        · have hp := docNorm_pos (ws := w0 :: ws0) (w := w0) (by simp)
          set ws := w0 :: ws0
          have h3 : (ws.dedup.map (fun w => (termWeight (ws.count w) / docNorm ws) ^ 2)).sum =
              (ws.dedup.map (fun w => termWeight (ws.count w) ^ 2)).sum / docNorm ws ^ 2 := by
            rw [div_eq_mul_inv, ← List.sum_map_mul_right]
            congr 1
            apply List.map_congr_left
            intro w _
            rw [div_pow, div_eq_mul_inv]
          rw [h3]
          have h4 : docNorm ws ^ 2 = (ws.dedup.map (fun w => termWeight (ws.count w) ^ 2)).sum := by
            unfold docNorm
            rw [Real.sq_sqrt]
            apply List.sum_nonneg
            intro x hx
            obtain ⟨v, -, rfl⟩ := List.mem_map.1 hx
            exact sq_nonneg _
          rw [← h4, div_self (by positivity)]
    have h5 : ∑ w ∈ T'.toFinset, wordIdf pipeline ops w ^ 2 ≤ (T.map (fun w => wordIdf pipeline ops w ^ 2)).sum := by
      rw [List.sum_toFinset _ hnd]
      apply List.Sublist.sum_le_sum
      · exact List.Sublist.map _ List.filter_sublist
      · intro x hx
        obtain ⟨v, -, rfl⟩ := List.mem_map.1 hx
        exact sq_nonneg _
    calc _ ≤ 1 * Real.sqrt ((T.map (fun w => wordIdf pipeline ops w ^ 2)).sum) := by
          apply mul_le_mul _ (Real.sqrt_le_sqrt h5) (Real.sqrt_nonneg _) zero_le_one
          rw [Real.sqrt_le_one]
          exact h2
      _ = _ := one_mul _

/-- C62 for queries without globs in which no word of the index occurs twice: all scores are at most `query_weight` of the terms.
What is missing: queries with globs and queries with repeated words, for which it is false (`C62_fails`). -/
theorem C62_bound_partial (isSpace : Char → Bool) (upper : Word → Word)
    (odd : Word → Except PyErr (Word → Bool)) (pipeline : List Element) (ops : List (Text.Op D)) (hs : SmallLexicon pipeline ops)
    (s : TI D ℝ) (hr : run (cosine realArith) pipeline ops = .ok s) (q : Word) (t : Node) (ign : List Word)
    (hq : QueryParser.parseQuery isSpace upper (Lexicon.parseTerms pipeline) q = .ok (t, ign)) (hg : GlobsFine pipeline ops t) (hgf : GlobFree t)
    (hd : ∀ w, (∃ d, Holds pipeline ops d w) → (termWords pipeline t.terms).count w ≤ 1) :
    ∃ qw, queryWeight (cosine realArith) pipeline s t.terms = .ok qw ∧
      ∀ m, t.execute realArith.toWArith (searcher (cosine realArith) odd pipeline s) = .ok (some m) →
        ∀ d v, m.get? d = some v → v ≤ qw := by
  refine ⟨_, C62_query_weight pipeline ops hs s hr t.terms (terms_ne_none t), ?_⟩
  intro m hm d v hv
  obtain ⟨r', e', h1, h2⟩ := C69_cosine isSpace upper odd pipeline ops hs s hr q t ign hq hg
  rw [hm] at e'
  obtain rfl := Except.ok.inj e'
  obtain ⟨hl, hi, -⟩ := (ranked_cosine (D := D)).run real_positive hs (fun h => by cases h) hr
  have hidf : ∀ w, 0 ≤ wordIdf pipeline ops w := by
    intro w
    rcases wordIdf_pos (ranked_cosine.lawful real_positive) hs hi w with ⟨h, -⟩ | ⟨h, -⟩
    · exact le_of_lt h
    · rw [h]
  obtain ⟨-, hval⟩ := (h2 m rfl d v).1 hv
  have hle := score_le (pipeline := pipeline) (textLeaves pipeline ops) (cosineRate_nonneg hidf) ops hgf d
  rw [← hval] at hle
  exact le_trans hle (cosine_sum_le d _ hd)

/-- C62 fails for repeated words: `dog dog` gives document 3 (`dog dog`) a score above `query_weight` -/
theorem C62_fails : ∃ s m v qw, run (cosine realArith) exPipeline exTextOps = .ok s ∧
    QueryParser.parseQuery exIsSpace exUpper (Lexicon.parseTerms exPipeline) ['d', 'o', 'g', ' ', 'd', 'o', 'g'] =
      .ok (.and [.atom ['d', 'o', 'g'], .atom ['d', 'o', 'g']], []) ∧
    (Node.and [.atom ['d', 'o', 'g'], .atom ['d', 'o', 'g']]).execute realArith.toWArith
      (searcher (cosine realArith) (fun _ => .ok (fun _ => false)) exPipeline s) = .ok (some m) ∧
    m.get? (3 : Nat) = some v ∧
    queryWeight (cosine realArith) exPipeline s (Node.and [.atom ['d', 'o', 'g'], .atom ['d', 'o', 'g']]).terms = .ok qw ∧
    qw < v := by
  have hK := ranked_cosine (D := Nat)
  obtain ⟨s, hr, -⟩ := C51_documents _ (hK.lawful real_positive) exPipeline exTextOps exText_small
  have hq : QueryParser.parseQuery exIsSpace exUpper (Lexicon.parseTerms exPipeline) ['d', 'o', 'g', ' ', 'd', 'o', 'g'] =
      .ok (.and [.atom ['d', 'o', 'g'], .atom ['d', 'o', 'g']], []) := rfl
  obtain ⟨hl, hi, -⟩ := hK.run real_positive exText_small (fun h => by cases h) hr
  obtain ⟨r, e, h1, h2⟩ := C69_cosine exIsSpace exUpper (fun _ => .ok (fun _ => false)) exPipeline exTextOps exText_small
    s hr _ _ _ hq (exFine _ _ _ _ hq)
  have hw : wordsOf exPipeline (.str ['d', 'o', 'g']) = [['d', 'o', 'g']] := by decide +kernel
  have hh : Holds exPipeline exTextOps 3 ['d', 'o', 'g'] := ⟨_, rfl, by decide +kernel⟩
  have hma : (textLeaves exPipeline exTextOps).Matches (.atom ['d', 'o', 'g']) 3 := by
    refine ⟨fun d => ∃ v ∈ wordsOf exPipeline (.str ['d', 'o', 'g']), Holds exPipeline exTextOps d v, ?_, ?_⟩
    · rw [Leaves.matches?]
      show (if wordsOf exPipeline (.str ['d', 'o', 'g']) = [] then none else some _) = _
      rw [if_neg (by rw [hw]; simp)]
    · exact ⟨_, by rw [hw]; simp, hh⟩
  have hm : (textLeaves exPipeline exTextOps).Matches (.and [.atom ['d', 'o', 'g'], .atom ['d', 'o', 'g']]) 3 := by
    obtain ⟨P, e1, e2⟩ := hma
    have hp : (textLeaves exPipeline exTextOps).positive [.atom ['d', 'o', 'g'], .atom ['d', 'o', 'g']] = [P, P] := by
      simp [Leaves.positive, e1]
    have hn : (textLeaves exPipeline exTextOps).negative [.atom ['d', 'o', 'g'], .atom ['d', 'o', 'g']] = [] := by
      simp [Leaves.negative]
    refine ⟨_, by rw [Leaves.matches?], ?_⟩
    rw [hp, hn]
    simpa using e2
  cases r with
  | none =>
    obtain ⟨P, e1, -⟩ := hm
    rw [h1.1 rfl] at e1; cases e1
  | some m =>
    refine ⟨s, m, _, _, hr, hq, e, (h2 m rfl 3 _).2 ⟨hm, rfl⟩, C62_query_weight _ _ exText_small s hr _ (terms_ne_none _), ?_⟩
    have ht : termWords exPipeline (Node.and [.atom ['d', 'o', 'g'], .atom ['d', 'o', 'g']]).terms = [['d', 'o', 'g'], ['d', 'o', 'g']] := by
      simp only [Node.terms, Node.termsAll]; decide +kernel
    have hidf : 0 < wordIdf exPipeline exTextOps ['d', 'o', 'g'] := by
      rcases wordIdf_pos (hK.lawful real_positive) exText_small hi ['d', 'o', 'g'] with ⟨h, -⟩ | ⟨-, h⟩
      · exact h
      · exact absurd hh (h 3)
    have hrate : cosineRate exPipeline exTextOps ['d', 'o', 'g'] 3 = wordIdf exPipeline exTextOps ['d', 'o', 'g'] := by
      have hd : docWords exPipeline exTextOps 3 = some [['d', 'o', 'g'], ['d', 'o', 'g']] := by decide +kernel
      unfold cosineRate
      rw [hd]
      simp only
      rw [if_pos (by simp)]
      have h3 : docNorm [['d', 'o', 'g'], ['d', 'o', 'g']] = termWeight (([['d', 'o', 'g'], ['d', 'o', 'g']] : List Word).count ['d', 'o', 'g']) := by
        unfold docNorm
        have : ([['d', 'o', 'g'], ['d', 'o', 'g']] : List Word).dedup = [['d', 'o', 'g']] := by decide +kernel
        rw [this, List.map_singleton, List.sum_singleton, Real.sqrt_sq (le_of_lt (termWeight_pos (by decide +kernel)))]
      rw [h3, div_self (ne_of_gt (termWeight_pos (by decide +kernel))), one_mul]
    rw [ht, score, if_pos hm, scoreSum, scoreSum, scoreSum, score, if_pos hma, leafRate, hw, List.map_singleton, List.sum_singleton, hrate]
    simp only [List.map_cons, List.map_nil, List.sum_cons, List.sum_nil, add_zero]
    rw [Real.sqrt_lt' (by linarith)]
    nlinarith

/-! ## C63 -/

theorem okapiTf_eq {P : Bm25 ℝ} (hP : Bm25Params P) {f len mean : ℝ} (hf : 0 < f) (hl : 0 < len) (hm : 0 < mean) :
    okapiTf realArith P f len mean = .ok (bm25 P f len mean) := by
  obtain ⟨z, e, -⟩ := okapiTf_ok real_positive (real_params hP) hf hl hm
  rw [e, okapiTf_real e]

theorem lenweight_pos {P : Bm25 ℝ} (hP : Bm25Params P) {len mean : ℝ} (hl : 0 < len) (hm : 0 < mean) :
    0 < P.k1 * ((1 - P.b) + P.b * len / mean) := by
  have h1 := hP.k1
  have h2 := hP.b0
  have h3 := hP.b1
  have : 0 < P.b * len / mean := by positivity
  apply mul_pos h1
  linarith

theorem bm25_mono {P : Bm25 ℝ} (hP : Bm25Params P) {f f' len mean : ℝ} (hf : 0 < f) (hff : f < f') (hl : 0 < len) (hm : 0 < mean) :
    bm25 P f len mean < bm25 P f' len mean := by
  have hc := lenweight_pos hP hl hm
  have hk := hP.k1
  unfold bm25
  rw [div_lt_div_iff₀ (by linarith) (by linarith)]
  have : 0 < (f' - f) * (P.k1 + 1) * (P.k1 * ((1 - P.b) + P.b * len / mean)) :=
    mul_pos (mul_pos (by linarith) (by linarith)) hc
  nlinarith

theorem bm25_anti {P : Bm25 ℝ} (hP : Bm25Params P) {f len len' mean : ℝ} (hf : 0 < f) (hl : 0 < len) (hll : len < len') (hm : 0 < mean) :
    bm25 P f len' mean < bm25 P f len mean := by
  have hc := lenweight_pos hP hl hm
  have hk := hP.k1
  have hb := hP.b0
  unfold bm25
  apply div_lt_div_of_pos_left (by apply mul_pos hf; linarith) (by linarith)
  have : P.b * len / mean < P.b * len' / mean := by
    apply div_lt_div_of_pos_right _ hm
    exact mul_lt_mul_of_pos_left hll hb
  have : P.k1 * ((1 - P.b) + P.b * len / mean) < P.k1 * ((1 - P.b) + P.b * len' / mean) :=
    mul_lt_mul_of_pos_left (by linarith) hk
  linarith

/-- C63: the term frequency weight is between 0 and `k1 + 1` and grows with the number of occurrences -/
theorem C63_frequency (P : Bm25 ℝ) (hP : Bm25Params P) (f f' len mean : ℝ) (hf : 0 < f) (hff : f < f') (hl : 0 < len) (hm : 0 < mean) :
    ∃ x x', okapiTf realArith P f len mean = .ok x ∧ okapiTf realArith P f' len mean = .ok x' ∧ 0 < x ∧ x < x' ∧ x' < P.k1 + 1 :=
  ⟨_, _, okapiTf_eq hP hf hl hm, okapiTf_eq hP (lt_trans hf hff) hl hm, (bm25_bounds hP hf hl hm).1, bm25_mono hP hf hff hl hm, by
    have := (bm25_bounds hP (lt_trans hf hff) hl hm).2; linarith⟩

/-- C63: the term frequency weight shrinks with the length of the document -/
theorem C63_length (P : Bm25 ℝ) (hP : Bm25Params P) (f len len' mean : ℝ) (hf : 0 < f) (hl : 0 < len) (hll : len < len') (hm : 0 < mean) :
    ∃ x x', okapiTf realArith P f len mean = .ok x ∧ okapiTf realArith P f len' mean = .ok x' ∧ x' < x :=
  ⟨_, _, okapiTf_eq hP hf hl hm, okapiTf_eq hP hf (lt_trans hl hll) hm, bm25_anti hP hf hl hll hm⟩

/-- C63: the inverse document frequency is positive and shrinks with the number of documents that contain the word -/
theorem C63_idf (N : ℝ) (hN : 0 < N) (n n' : ℕ) (hn : 0 < n) (hnn : n < n') :
    ∃ x x', idf realArith n N = .ok x ∧ idf realArith n' N = .ok x' ∧ 0 < x' ∧ x' < x := by
  have hv : ∀ n : ℕ, 0 < n → idf realArith n N = .ok (invFreq N n) ∧ 0 < invFreq N n := by
    intro n hn
    have hn' : (0 : ℝ) < n := by exact_mod_cast hn
    have hq : 0 < N / n := div_pos hN hn'
    refine ⟨?_, invFreq_pos hN hn'⟩
    unfold idf
    rw [show pyDiv realArith N (realArith.ofNat n) = .ok (N / n) from pyDiv_real_eq (ne_of_gt hn'), bind_ok]
    unfold pyLog
    rw [show realArith.log (realArith.add realArith.one (N / n)) = some (Real.log (1 + N / n)) from if_pos (by show 0 < 1 + N / n; linarith)]
    rfl
  refine ⟨_, _, (hv n hn).1, (hv n' (lt_trans hn hnn)).1, (hv n' (lt_trans hn hnn)).2, ?_⟩
  unfold invFreq
  have h1 : (0 : ℝ) < n := by exact_mod_cast hn
  have h2 : (n : ℝ) < n' := by exact_mod_cast hnn
  have h3 : 0 < N / n' := div_pos hN (by linarith)
  apply Real.log_lt_log (by linarith)
  have : N / n' < N / n := div_lt_div_of_pos_left hN h1 h2
  linarith

example : 0 < defaultBm25.k1 ∧ okapiTf realArith defaultBm25 1 10 10 = .ok 1 := by
  refine ⟨defaultBm25_ok.k1, ?_⟩
  rw [okapiTf_eq defaultBm25_ok (by norm_num) (by norm_num) (by norm_num)]
  unfold bm25 defaultBm25
  norm_num

/-- C63, what a search shows of it: of two documents found for one word, the one with more occurrences of the word and no more
words, or with fewer words and no fewer occurrences, has the higher score -/
theorem C63_ranking (P : Bm25 ℝ) (hP : Bm25Params P) (pipeline : List Element) (ops : List (Text.Op D))
    (hs : SmallLexicon pipeline ops) (s : TI D ℝ) (hr : run (okapi realArith P) pipeline ops = .ok s) (t : TextArg) (ht : t ≠ .none)
    (w : Word) (hw : wordsOf pipeline t = [w]) (d d' : D) (ws ws' : List Word) (hd : docWords pipeline ops d = some ws)
    (hd' : docWords pipeline ops d' = some ws') (hm : w ∈ ws)
    (hlt : ws.count w < ws'.count w ∧ ws'.length ≤ ws.length ∨ ws.count w ≤ ws'.count w ∧ ws'.length < ws.length) :
    ∃ m v v', search (okapi realArith P) pipeline s.lex s.ix t = .ok (some m) ∧ m.get? d = some v ∧ m.get? d' = some v' ∧ v < v' := by
  have hK := ranked_okapi (D := D) hP
  obtain ⟨hl, hi, -⟩ := hK.run real_positive hs (fun _ => real_lengths pipeline ops) hr
  have hc : 0 < ws.count w := List.count_pos_iff.2 hm
  have hm' : w ∈ ws' := List.count_pos_iff.1 (by omega)
  obtain ⟨hnone, hfound⟩ := C56_search real_positive hK pipeline ops hs (fun _ => real_lengths pipeline ops) s hr t ht
  obtain ⟨m, e, hk⟩ := hfound (by rw [hw]; simp)
  obtain ⟨v, hv⟩ := (SMap.mem_keys_iff m d).1 ((hk d).2 ⟨w, by rw [hw]; simp, ws, hd, hm⟩)
  obtain ⟨v', hv'⟩ := (SMap.mem_keys_iff m d').1 ((hk d').2 ⟨w, by rw [hw]; simp, ws', hd', hm'⟩)
  refine ⟨m, v, v', e, hv, hv', ?_⟩
  have hti := term_ids pipeline ops t ht
  rw [← hl] at hti
  have hrate : ∀ d, okapiWidRate P s.ix ((lexAfter pipeline ops).getWid w) d =
      okapiRate pipeline ops P (s.ix.total / (numDocs ops : ℝ)) w d := fun d => okapiWidRate_eq hs hr hi hl w d
  have h1 := search_value (okapi_rateOk P s.ix) hti e d v hv
  have h2 := search_value (okapi_rateOk P s.ix) hti e d' v' hv'
  rw [hw, List.map_singleton, List.map_singleton, List.sum_singleton, hl, hrate] at h1 h2
  rw [h1, h2]
  have hmean := mean_pos hP hs hr ⟨d, w, ws, hd, hm⟩
  have hidf : 0 < wordIdf pipeline ops w := by
    rcases wordIdf_pos (okapi_lawful' real_positive P) hs hi w with ⟨h, -⟩ | ⟨-, h⟩
    · exact h
    · exact absurd ⟨ws, hd, hm⟩ (h d)
  unfold okapiRate
  rw [hd, hd']
  simp only
  rw [if_pos hm, if_pos hm']
  apply mul_lt_mul_of_pos_right _ hidf
  have hc1 : (0 : ℝ) < ws.count w := by exact_mod_cast hc
  have hl1 : (0 : ℝ) < ws.length := by exact_mod_cast List.length_pos_of_mem hm
  have hl2 : (0 : ℝ) < ws'.length := by exact_mod_cast List.length_pos_of_mem hm'
  rcases hlt with ⟨h3, h4⟩ | ⟨h3, h4⟩
  · have h5 := bm25_mono hP hc1 (f' := ws'.count w) (by exact_mod_cast h3) hl1 hmean
    rcases Nat.lt_or_eq_of_le h4 with h4 | h4
    · exact lt_trans h5 (bm25_anti hP (by exact_mod_cast lt_trans hc h3) hl2 (by exact_mod_cast h4) hmean)
    · rw [h4]; exact h5
  · have h5 := bm25_anti hP hc1 hl2 (len' := ws.length) (by exact_mod_cast h4) hmean
    rcases Nat.lt_or_eq_of_le h3 with h3 | h3
    · exact lt_trans h5 (bm25_mono hP hc1 (by exact_mod_cast h3) hl2 hmean)
    · rw [← h3]; exact h5

-- after the history of the examples, `dog` is 2 of 2 words of document 3 and 1 of 3 words of document 7: 3 comes before 7
example : ∃ s m v v', run (okapi realArith defaultBm25) exPipeline exTextOps = .ok s ∧
    search (okapi realArith defaultBm25) exPipeline s.lex s.ix (.str ['D', 'o', 'g']) = .ok (some m) ∧ m.get? 7 = some v ∧
    m.get? 3 = some v' ∧ v < v' := by
  obtain ⟨s, hr, -⟩ := C51_documents _ ((ranked_okapi defaultBm25_ok).lawful real_positive) exPipeline exTextOps exText_small
  obtain ⟨m, v, v', h⟩ := C63_ranking _ defaultBm25_ok exPipeline exTextOps exText_small s hr (.str ['D', 'o', 'g']) (by simp) ['d', 'o', 'g']
    (by decide +kernel) 7 3 [['d', 'o', 'g'], ['b', 'i', 'g'], ['e', 'e', 'l']] [['d', 'o', 'g'], ['d', 'o', 'g']]
    (by decide +kernel) (by decide +kernel) (by decide +kernel) (by decide +kernel)
  exact ⟨s, m, v, v', hr, h⟩

/-! ## C67 -/

/-- C67: `TextIndex.apply` returns the documents and scores of executing the parsed query, each score divided by `query_weight` of
the terms of the query (by 1 if that is 0) -/
theorem C67_scaled {K : Kind D ℝ} (hK : Ranked realArith (fun x => 0 < x) K) (isSpace : Char → Bool) (upper : Word → Word)
    (odd : Word → Except PyErr (Word → Bool)) (pipeline : List Element) (ops : List (Text.Op D)) (hs : SmallLexicon pipeline ops)
    (s : TI D ℝ) (hr : run K pipeline ops = .ok s) (q : Word) (t : Node) (ign : List Word)
    (hq : QueryParser.parseQuery isSpace upper (Lexicon.parseTerms pipeline) q = .ok (t, ign)) (hg : GlobsFine pipeline ops t) :
    ∃ r qw, t.execute realArith.toWArith (searcher K odd pipeline s) = .ok r ∧ queryWeight K pipeline s t.terms = .ok qw ∧
      ∃ r', apply K isSpace upper odd pipeline s q = .ok r' ∧ (r' = none ↔ r = none) ∧
        ∀ m m', r = some m → r' = some m' → ∀ d, m'.get? d = (m.get? d).map (fun v => v / (if qw = 0 then 1 else qw)) := by
  obtain ⟨r, e, ha⟩ := C57_query real_positive hK isSpace upper odd pipeline ops hs (fun _ => real_lengths pipeline ops) s hr q t ign hq hg
  obtain ⟨-, -, -, hwt⟩ := hK.run real_positive hs (fun _ => real_lengths pipeline ops) hr
  have har := hK.arith
  obtain ⟨ids, ei⟩ := termWids_ok pipeline s.lex t.terms (terms_ne_none t)
  obtain ⟨w, ew, hw⟩ := hwt ids
  have eq : queryWeight K pipeline s t.terms = .ok w := by
    unfold queryWeight; rw [ei, bind_ok]; exact ew
  refine ⟨r, w, e, eq, ?_⟩
  unfold apply
  rw [hq]
  simp only
  unfold applyTree
  rw [har, e, bind_ok]
  rcases answers_cases ha with ⟨rfl, h1⟩ | ⟨m, P, rfl, h1, h2, h3⟩
  · exact ⟨none, rfl, by simp, by intro m m' h; cases h⟩
  · simp only
    by_cases hem : m.isEmpty = true
    · rw [if_pos hem]
      refine ⟨some m, rfl, by simp, ?_⟩
      intro m1 m' hm1 hm' d
      cases hm1; cases hm'
      cases hd : m.get? d with
      | none => rfl
      | some v =>
        have h := (SMap.get?_eq_some_iff _ _ _).1 hd
        unfold SMap.isEmpty at hem
        rw [List.isEmpty_iff.1 hem] at h
        simp at h
    · rw [if_neg hem, eq, bind_ok]
      have hqw : realArith.mul (if realArith.isZero w = true then realArith.one else w) realArith.one = if w = 0 then 1 else w := by
        show (if decide (w = 0) = true then (1 : ℝ) else w) * 1 = _
        rw [mul_one]; simp
      have hpw : 0 < (if w = 0 then 1 else w) := by
        split
        · exact one_pos
        · rename_i h0
          rcases hw with h | h
          · rw [har] at h
            have : decide (w = 0) = true := h
            simp [h0] at this
          · exact h
      obtain ⟨r, er, hk, hp, hv⟩ := scale_ok real_positive h3 hpw
      rw [hqw, er, bind_ok]
      refine ⟨some r, rfl, by simp, ?_⟩
      intro m1 m' hm1 hm' d
      cases hm1; cases hm'
      cases hd : m.get? d with
      | none =>
        cases hd' : r.get? d with
        | none => rfl
        | some v =>
          have := (hk d).1 ((SMap.mem_keys_iff _ _).2 ⟨v, hd'⟩)
          rw [SMap.mem_keys_iff, hd] at this
          obtain ⟨_, h⟩ := this
          cases h
      | some v =>
        obtain ⟨z, hz, hg⟩ := hv d v hd
        rw [hg]
        have hz : (if (if w = 0 then 1 else w) = 0 then none else some (v / (if w = 0 then 1 else w))) = some z := hz
        rw [if_neg (ne_of_gt hpw)] at hz
        cases hz
        rfl

/-- C67 for queries without globs on an OkapiIndex: all scores are strictly between 0 and 1 -/
theorem C67_normalized (P : Bm25 ℝ) (hP : Bm25Params P) (isSpace : Char → Bool) (upper : Word → Word)
    (odd : Word → Except PyErr (Word → Bool)) (pipeline : List Element) (ops : List (Text.Op D)) (hs : SmallLexicon pipeline ops)
    (s : TI D ℝ) (hr : run (okapi realArith P) pipeline ops = .ok s) (q : Word) (t : Node) (ign : List Word)
    (hq : QueryParser.parseQuery isSpace upper (Lexicon.parseTerms pipeline) q = .ok (t, ign)) (hg : GlobsFine pipeline ops t) (hgf : GlobFree t) (m : SMap D ℝ)
    (hm : apply (okapi realArith P) isSpace upper odd pipeline s q = .ok (some m)) (d : D) (v : ℝ) (hv : m.get? d = some v) :
    0 < v ∧ v < 1 := by
  obtain ⟨r, qw, e, eq, r', e', h1, h2⟩ := C67_scaled (ranked_okapi hP) isSpace upper odd pipeline ops hs s hr q t ign hq hg
  rw [hm] at e'
  obtain rfl := Except.ok.inj e'
  cases r with
  | none => have := h1.2 rfl; cases this
  | some m0 =>
    have h3 := h2 m0 m rfl rfl d
    rw [hv] at h3
    obtain ⟨v0, hv0, rfl⟩ := Option.map_eq_some_iff.1 h3.symm
    obtain ⟨qw', eq', hb⟩ := C61_bound_partial P hP isSpace upper odd pipeline ops hs s hr q t ign hq hg hgf
    rw [eq] at eq'
    obtain rfl := Except.ok.inj eq'
    obtain ⟨hb1, hb2⟩ := hb m0 e d v0 hv0
    have hq0 : 0 < qw := lt_trans hb1 hb2
    rw [if_neg (ne_of_gt hq0)]
    exact ⟨div_pos hb1 hq0, (div_lt_one hq0).2 hb2⟩

/-- C67 for a CosineIndex: with neither globs nor repeated words the scores are in (0, 1] -/
theorem C67_cosine (isSpace : Char → Bool) (upper : Word → Word)
    (odd : Word → Except PyErr (Word → Bool)) (pipeline : List Element) (ops : List (Text.Op D)) (hs : SmallLexicon pipeline ops)
    (s : TI D ℝ) (hr : run (cosine realArith) pipeline ops = .ok s) (q : Word) (t : Node) (ign : List Word)
    (hq : QueryParser.parseQuery isSpace upper (Lexicon.parseTerms pipeline) q = .ok (t, ign)) (hg : GlobsFine pipeline ops t) (hgf : GlobFree t)
    (hd : ∀ w, (∃ d, Holds pipeline ops d w) → (termWords pipeline t.terms).count w ≤ 1) (m : SMap D ℝ)
    (hm : apply (cosine realArith) isSpace upper odd pipeline s q = .ok (some m)) (d : D) (v : ℝ) (hv : m.get? d = some v) :
    0 < v ∧ v ≤ 1 := by
  obtain ⟨r, qw, e, eq, r', e', h1, h2⟩ := C67_scaled ranked_cosine isSpace upper odd pipeline ops hs s hr q t ign hq hg
  rw [hm] at e'
  obtain rfl := Except.ok.inj e'
  obtain ⟨r0, e0, ha⟩ := C57_query real_positive ranked_cosine isSpace upper odd pipeline ops hs (fun h => by cases h) s hr q t ign hq hg
  rw [e] at e0
  obtain rfl := Except.ok.inj e0
  rcases answers_cases ha with ⟨rfl, -⟩ | ⟨m0, _, rfl, -, -, hpos⟩
  · have := h1.2 rfl; cases this
  · have h3 := h2 m0 m rfl rfl d
    rw [hv] at h3
    obtain ⟨v0, hv0, rfl⟩ := Option.map_eq_some_iff.1 h3.symm
    obtain ⟨qw', eq', hb⟩ := C62_bound_partial isSpace upper odd pipeline ops hs s hr q t ign hq hg hgf hd
    rw [eq] at eq'
    obtain rfl := Except.ok.inj eq'
    have hb1 := hpos d v0 hv0
    have hb2 := hb m0 e d v0 hv0
    have hq0 : 0 < qw := lt_of_lt_of_le hb1 hb2
    rw [if_neg (ne_of_gt hq0)]
    exact ⟨div_pos hb1 hq0, (div_le_one hq0).2 hb2⟩

/-- a query that meets the hypotheses: `dog -cat big` -/
theorem exDogBig : QueryParser.parseQuery exIsSpace exUpper (Lexicon.parseTerms exPipeline)
    ['d', 'o', 'g', ' ', '-', 'c', 'a', 't', ' ', 'b', 'i', 'g'] =
      .ok (.and [.atom ['d', 'o', 'g'], .atom ['b', 'i', 'g'], .not (.atom ['c', 'a', 't'])], []) := rfl

theorem exDogBig_free : GlobFree (.and [.atom ['d', 'o', 'g'], .atom ['b', 'i', 'g'], .not (.atom ['c', 'a', 't'])]) := by
  refine .and _ ?_
  intro n hn
  simp only [List.mem_cons, List.not_mem_nil, or_false] at hn
  rcases hn with rfl | rfl | rfl
  · exact .atom _
  · exact .atom _
  · exact .not _

theorem exDogBig_words :
    termWords exPipeline (Node.and [.atom ['d', 'o', 'g'], .atom ['b', 'i', 'g'], .not (.atom ['c', 'a', 't'])]).terms =
      [['d', 'o', 'g'], ['b', 'i', 'g']] := by
  simp only [Node.terms, Node.termsAll]; decide +kernel

theorem exDogBig_found (d : Nat) (hd : d = 7) :
    (textLeaves exPipeline exTextOps).Matches (.and [.atom ['d', 'o', 'g'], .atom ['b', 'i', 'g'], .not (.atom ['c', 'a', 't'])]) d := by
  subst hd
  have hdoc : docWords exPipeline exTextOps 7 = some [['d', 'o', 'g'], ['b', 'i', 'g'], ['e', 'e', 'l']] := by decide +kernel
  have hw : ∀ w ∈ [['d', 'o', 'g'], ['b', 'i', 'g'], ['c', 'a', 't']], wordsOf exPipeline (.str w) = [w] := by decide +kernel
  have hl : ∀ w ∈ [['d', 'o', 'g'], ['b', 'i', 'g'], ['c', 'a', 't']], (textLeaves exPipeline exTextOps).word w =
      some (fun d => Holds exPipeline exTextOps d w) := by
    intro w h
    show (if wordsOf exPipeline (.str w) = [] then none else some _) = _
    rw [if_neg (by rw [hw w h]; simp), hw w h]
    simp
  refine ⟨_, by rw [Leaves.matches?], ?_⟩
  simp only [Leaves.positive, Leaves.negative, Leaves.matches?, hl ['d', 'o', 'g'] (by simp), hl ['b', 'i', 'g'] (by simp),
    hl ['c', 'a', 't'] (by simp)]
  simp [Holds, hdoc]

-- C61, C62, C67 and C69 for this query: the document 7 is found, with a score between 0 and 1
example : ∃ s m v, run (okapi realArith defaultBm25) exPipeline exTextOps = .ok s ∧
    apply (okapi realArith defaultBm25) exIsSpace exUpper (fun _ => .ok (fun _ => false)) exPipeline s
      ['d', 'o', 'g', ' ', '-', 'c', 'a', 't', ' ', 'b', 'i', 'g'] = .ok (some m) ∧ m.get? 7 = some v ∧ 0 < v ∧ v < 1 := by
  obtain ⟨s, hr, -⟩ := C51_documents _ ((ranked_okapi defaultBm25_ok).lawful real_positive) exPipeline exTextOps exText_small
  rcases C60_apply real_positive (ranked_okapi defaultBm25_ok) exIsSpace exUpper (fun _ => .ok (fun _ => false)) exPipeline exTextOps exText_small
    (fun _ => real_lengths _ _) s hr ['d', 'o', 'g', ' ', '-', 'c', 'a', 't', ' ', 'b', 'i', 'g'] (exFine _ _) with
    ⟨h, -⟩ | ⟨t, ign, hq, h⟩
  · rw [exDogBig] at h; cases h
  · rw [exDogBig] at hq
    cases hq
    obtain ⟨P', h0, h0'⟩ := exDogBig_found 7 rfl
    rcases h with ⟨h, -⟩ | ⟨P, m, h1, h2, h3, -⟩
    · rw [h] at h0; cases h0
    · rw [h1] at h0
      cases h0
      obtain ⟨v, hv⟩ := (SMap.mem_keys_iff m 7).1 ((h3 7).2 h0')
      exact ⟨s, m, v, hr, h2, hv, C67_normalized _ defaultBm25_ok exIsSpace exUpper _ exPipeline exTextOps exText_small s hr _ _ _
        exDogBig (exFine _ _ _ _ exDogBig) exDogBig_free m h2 7 v hv⟩

-- the hypothesis of C62 about repeated words
example (w : Word) : (termWords exPipeline
    (Node.and [.atom ['d', 'o', 'g'], .atom ['b', 'i', 'g'], .not (.atom ['c', 'a', 't'])]).terms).count w ≤ 1 := by
  rw [exDogBig_words]
  exact List.nodup_iff_count_le_one.1 (by decide +kernel) w

end Verif
