import Verif.Proofs.WordScores

/-! # Scores of queries -/

set_option autoImplicit false

namespace Verif

open Spec SetOps Text

variable {D : Type} [LinearOrder D] {K : Kind D ℝ} {pipeline : List Element} {ops : List (Text.Op D)}

/-- `rate` is what the words contribute to the scores in the state `s` -/
structure RatedBy (K : Kind D ℝ) (pipeline : List Element) (ops : List (Text.Op D)) (s : TI D ℝ) (rate : Word → D → ℝ) : Prop where
  rates : ∃ rw, RateOk K s.ix rw ∧ ∀ w d, rw ((lexAfter pipeline ops).getWid w) d = rate w d
  zero : ∀ w d, ¬ Holds pipeline ops d w → rate w d = 0

theorem RatedBy.sum {s : TI D ℝ} {rate : Word → D → ℝ} (hR : RatedBy K pipeline ops s rate) :
    ∃ rw, RateOk K s.ix rw ∧ ∀ (l : List Word) (d : D),
      ((l.map (lexAfter pipeline ops).getWid).map (fun wid => rw wid d)).sum = (l.map (fun w => rate w d)).sum := by
  obtain ⟨rw, h1, h2⟩ := hR.rates
  refine ⟨rw, h1, ?_⟩
  intro l d
  rw [List.map_map]
  congr 1
  exact List.map_congr_left (fun w _ => h2 w d)

theorem sum_filter_zero (l : List Word) (f : Word → ℝ) (p : Word → Bool) (h : ∀ w ∈ l, p w = false → f w = 0) :
    (l.map f).sum = ((l.filter p).map f).sum := by
  induction l with
  | nil => rfl
  | cons w l ih =>
    rw [List.filter_cons, List.map_cons, List.sum_cons, ih (fun v hv => h v (by simp [hv]))]
    cases hp : p w with
    | true => simp
    | false => simp [h w (by simp) hp]

open scoped Classical in
/-- the sum over the words of the lexicon that match is the sum over the words of the document that match -/
theorem glob_sum {rate : Word → D → ℝ} (hz : ∀ w d, ¬ Holds pipeline ops d w → rate w d = 0) {p : Word} {ws : List Word}
    (hn : ws.Pairwise (· < ·)) (hm : ∀ w, w ∈ ws ↔ w ∈ seen pipeline (lexCalls ops) ∧ GlobMatch p w) (d : D) :
    (ws.map (fun w => rate w d)).sum =
      (((((docWords pipeline ops d).getD []).dedup).filter (fun v => decide (GlobMatch p v))).map (fun v => rate v d)).sum := by
  rw [sum_filter_zero ws _ (fun w => decide (Holds pipeline ops d w)) (fun w _ h => hz w d (by simpa using h))]
  have hp : (ws.filter (fun w => decide (Holds pipeline ops d w))).Perm
      ((((docWords pipeline ops d).getD []).dedup).filter (fun v => decide (GlobMatch p v))) := by
    rw [List.perm_ext_iff_of_nodup ((hn.imp (fun h => ne_of_lt h)).filter _) ((List.nodup_dedup _).filter _)]
    intro w
    simp only [List.mem_filter, decide_eq_true_eq, List.mem_dedup]
    have hh : w ∈ (docWords pipeline ops d).getD [] ↔ Holds pipeline ops d w := by
      unfold Holds
      cases docWords pipeline ops d <;> simp
    rw [hh, hm]
    constructor
    · rintro ⟨⟨-, h1⟩, h2⟩; exact ⟨h2, h1⟩
    · rintro ⟨h1, h2⟩; exact ⟨⟨holds_seen h1, h2⟩, h1⟩
  exact (hp.map _).sum_eq

theorem score_leaf_none {L : Leaves D} {rate : Node → D → ℝ} {n : Node} (hl : (∃ w, n = .atom w) ∨ (∃ w, n = .phrase w) ∨ ∃ w, n = .glob w)
    (h : L.matches? n = none) (d : D) : score L rate n d = 0 := by
  have : ¬ L.Matches n d := by rintro ⟨P, hP, -⟩; rw [h] at hP; cases hP
  rcases hl with ⟨w, rfl⟩ | ⟨w, rfl⟩ | ⟨w, rfl⟩ <;> rw [score, if_neg this]

/-- executing a parsed query computes the scores -/
theorem query_scores (hK : Ranked realArith (fun x => 0 < x) K) (isSpace : Char → Bool) (upper : Word → Word)
    (odd : Word → Except PyErr (Word → Bool)) (hs : SmallLexicon pipeline ops) {s : TI D ℝ} (hr : run K pipeline ops = .ok s) {rate : Word → D → ℝ}
    (hR : RatedBy K pipeline ops s rate) (q : Word) (t : Node) (ign : List Word)
    (hq : QueryParser.parseQuery isSpace upper (Lexicon.parseTerms pipeline) q = .ok (t, ign)) (hg : GlobsFine pipeline ops t) :
    ∃ r, t.execute realArith.toWArith (searcher K odd pipeline s) = .ok r ∧
      Answers (fun x => 0 < x) r ((textLeaves pipeline ops).matches? t) ∧
      ∀ d, valueAt r d = score (textLeaves pipeline ops) (leafRate pipeline ops rate) t d := by
  refine execute_scores (C48_shape isSpace upper _ q t ign hq) ?_
  intro n hn
  have he : K.hasTotal = true → LengthsExact realArith pipeline ops := fun _ => real_lengths pipeline ops
  obtain ⟨r, e, ha⟩ := query_leaf real_positive hK isSpace upper odd pipeline ops hs he s hr q t ign hq hg n hn
  refine ⟨r, e, ha, ?_⟩
  intro d
  obtain ⟨hl, -⟩ := hK.run real_positive hs he hr
  obtain ⟨rw', hR1, hR2⟩ := hR.sum
  obtain ⟨w, b, hw⟩ := leaf_from_atom isSpace upper _ q t ign hq n hn
  have hkind : (∃ w, n = .atom w) ∨ (∃ ws, n = .phrase ws) ∨ ∃ w, n = .glob w := by
    clear hw ha e hq hg
    induction hn with
    | atom w => exact Or.inl ⟨w, rfl⟩
    | phrase ws => exact Or.inr (Or.inl ⟨ws, rfl⟩)
    | glob w => exact Or.inr (Or.inr ⟨w, rfl⟩)
    | not _ _ _ ih => exact ih
    | and _ _ _ _ _ ih => exact ih
    | or _ _ _ _ _ ih => exact ih
  rcases answers_cases ha with ⟨rfl, h1⟩ | ⟨m, P, rfl, h1, h2, -⟩
  · rw [score_leaf_none hkind h1]; rfl
  rcases hkind with ⟨x, rfl⟩ | ⟨ws, rfl⟩ | ⟨x, rfl⟩
  · rw [score]
    refine valueAt_ite h2 ?_ h1 d
    intro d v hv
    rw [Node.execute] at e
    rw [search_value hR1 (by rw [hl]; exact term_ids pipeline ops _ (by simp)) e d v hv, hR2]
    rw [leafRate]
  · rw [score]
    refine valueAt_ite h2 ?_ h1 d
    intro d v hv
    rw [Node.execute] at e
    have e : (searchPhrase K pipeline s.lex s.ix (.list ws)).map some = .ok (some m) := e
    cases e' : searchPhrase K pipeline s.lex s.ix (.list ws) with
    | error x => rw [e'] at e; cases e
    | ok m' =>
      rw [e'] at e
      obtain rfl := Option.some.inj (Except.ok.inj e)
      rw [searchPhrase_value hR1 (by rw [hl]; exact term_ids pipeline ops _ (by simp)) e' d v hv, hR2]
      rw [leafRate]
  · rw [score]
    refine valueAt_ite h2 ?_ h1 d
    intro d v hv
    rw [Node.execute] at e
    have e : (searchGlob K odd s.lex s.ix x).map some = .ok (some m) := e
    obtain ⟨⟨pre, c, rest, rfl, hne, hc, hm⟩, hnl⟩ := hg x hn
    obtain ⟨ws, hws1, hws, eg⟩ := C43_glob_partial odd pipeline (lexCalls ops) hnl pre rest c hm hne hc
    cases e' : searchGlob K odd s.lex s.ix (pre ++ c :: rest) with
    | error x => rw [e'] at e; cases e
    | ok m' =>
      rw [e'] at e
      obtain rfl := Option.some.inj (Except.ok.inj e)
      unfold searchGlob at e'
      have eg : s.lex.globToWordIds odd (pre ++ c :: rest) = .ok (ws.map (lexAfter pipeline ops).getWid) := by rw [hl]; exact eg
      rw [eg, bind_ok] at e'
      rw [searchUnion_value hR1 e' d v hv, hR2, leafRate, glob_sum hR.zero hws1 hws]

/-! ## bounds -/

theorem sum_nonneg' {l : List Word} {f : Word → ℝ} (h : ∀ w, 0 ≤ f w) : 0 ≤ (l.map f).sum := by
  apply List.sum_nonneg
  intro x hx
  obtain ⟨w, -, rfl⟩ := List.mem_map.1 hx
  exact h w

theorem termsAll_flat (l : List Node) : Node.termsAll l = l.flatMap Node.terms := by
  induction l with
  | nil => rw [Node.termsAll]; rfl
  | cons n l ih => rw [Node.termsAll, ih]; rfl

/-- the score for a tree without globs is at most the sum over the words of its terms -/
theorem score_le (L : Leaves D) {rate : Word → D → ℝ} (h0 : ∀ w d, 0 ≤ rate w d) (ops : List (Text.Op D)) {t : Node} (hg : GlobFree t) (d : D) :
    score L (leafRate pipeline ops rate) t d ≤ ((termWords pipeline t.terms).map (fun w => rate w d)).sum := by
  have hall : ∀ l : List Node, (∀ n ∈ l, score L (leafRate pipeline ops rate) n d ≤
      ((termWords pipeline n.terms).map (fun w => rate w d)).sum) →
      scoreSum L (leafRate pipeline ops rate) l d ≤ ((termWords pipeline (Node.termsAll l)).map (fun w => rate w d)).sum := by
    intro l
    induction l with
    | nil => intro _; rw [scoreSum]; simp [termWords, Node.termsAll]
    | cons n l ih =>
      intro h
      rw [scoreSum, Node.termsAll]
      have h1 := h n (by simp)
      have h2 := ih (fun m hm => h m (by simp [hm]))
      unfold termWords at h1 h2 ⊢
      rw [List.flatMap_append, List.map_append, List.sum_append]
      linarith
  have h0' : ∀ l : List Word, 0 ≤ (l.map (fun w => rate w d)).sum := fun l => sum_nonneg' (fun w => h0 w d)
  induction hg with
  | atom w =>
    rw [score, leafRate]
    split
    · simp [termWords, Node.terms]
    · exact h0' _
  | phrase ws =>
    rw [score, leafRate]
    split
    · simp [termWords, Node.terms]
    · exact h0' _
  | not n => rw [score]; exact h0' _
  | and l _ ih =>
    rw [score, Node.terms]
    split
    · exact hall l ih
    · exact h0' _
  | or l _ ih =>
    rw [score, Node.terms]
    split
    · exact hall l ih
    · exact h0' _

theorem sum_lt_of_pos {l : List Word} {f g : Word → ℝ} (hle : ∀ w, f w ≤ g w) (hlt : ∀ w, 0 < f w → f w < g w)
    (h0 : ∀ w, 0 ≤ f w) (hpos : 0 < (l.map f).sum) : (l.map f).sum < (l.map g).sum := by
  induction l with
  | nil => simp at hpos
  | cons w l ih =>
    rw [List.map_cons, List.map_cons, List.sum_cons, List.sum_cons] at *
    have hl : (l.map f).sum ≤ (l.map g).sum := by
      apply List.sum_le_sum; intro v _; exact hle v
    rcases lt_or_eq_of_le (h0 w) with h | h
    · have := hlt w h; linarith
    · rw [← h, zero_add] at hpos
      have := ih hpos
      have := hle w
      linarith

/-- the word ids of the terms of a query -/
theorem termWids_eq (ts : List TextArg) (h : ∀ t ∈ ts, t ≠ .none) :
    termWids pipeline (lexAfter pipeline ops) ts = .ok ((termWords pipeline ts).map (lexAfter pipeline ops).getWid) := by
  induction ts with
  | nil => rfl
  | cons t ts ih =>
    unfold termWids
    rw [term_ids pipeline ops t (h t (by simp)), bind_ok, ih (fun x hx => h x (by simp [hx])), bind_ok]
    unfold termWords
    rw [List.flatMap_cons, List.map_append]; rfl

theorem bm25_bounds {P : Bm25 ℝ} (hP : Bm25Params P) {f len mean : ℝ} (hf : 0 < f) (hl : 0 < len) (hm : 0 < mean) :
    0 < bm25 P f len mean ∧ bm25 P f len mean < 1 + P.k1 := by
  have h1 := hP.k1
  have h2 := hP.b0
  have h3 := hP.b1
  have hw : 0 < (1 - P.b) + P.b * len / mean := by
    have : 0 < P.b * len / mean := by positivity
    linarith
  have hkw : 0 < P.k1 * ((1 - P.b) + P.b * len / mean) := mul_pos h1 hw
  unfold bm25
  refine ⟨by positivity, ?_⟩
  rw [div_lt_iff₀ (by positivity)]
  nlinarith

theorem invFreq_pos {N n : ℝ} (hN : 0 < N) (hn : 0 < n) : 0 < invFreq N n := by
  unfold invFreq
  apply Real.log_pos
  have : 0 < N / n := div_pos hN hn
  linarith

/-- a word that occurs has a positive inverse document frequency -/
theorem wordIdf_pos (hK : Lawful K) (hs : SmallLexicon pipeline ops) {s : Ix D ℝ} (hi : Text.Inv K s (docWids pipeline ops)) (w : Word) :
    (0 < wordIdf pipeline ops w ∧ ∃ d, Holds pipeline ops d w) ∨ (wordIdf pipeline ops w = 0 ∧ ∀ d, ¬ Holds pipeline ops d w) := by
  obtain ⟨h1, h2⟩ := entry_word hK hs hi w
  cases he : s.wordinfo.get? ((lexAfter pipeline ops).getWid w) with
  | none =>
    right
    refine ⟨?_, (h2 he).2⟩
    unfold wordIdf
    rw [if_pos (h2 he).1]
  | some e =>
    left
    obtain ⟨h3, h4⟩ := h1 e he
    obtain ⟨-, ⟨d, v, hd⟩, -⟩ := entry_docs hK hi he
    have hh : Holds pipeline ops d w := by
      rw [← stored_holds hK hs hi w d]
      unfold storedWeight
      rw [he, Option.bind_some, hd]; rfl
    refine ⟨?_, d, hh⟩
    unfold wordIdf
    rw [if_neg (by omega)]
    apply invFreq_pos
    · have : 0 < numDocs ops := by
        obtain ⟨ws, hws, -⟩ := hh
        rw [(numDocs_eq hi).1]
        have : s.docweight.get? d = some (K.arith.store (fr K (ws.map (lexAfter pipeline ops).getWid)).2) := by
          rw [hi.docweight]; unfold docWids; rw [hws]; rfl
        exact len_pos_of_get this
      exact_mod_cast this
    · have : 0 < numHolders pipeline ops w := by omega
      exact_mod_cast this

end Verif
