import Verif.Proofs.RealScores

/-! # Scores in terms of words and histories -/

set_option autoImplicit false

namespace Verif

open Spec SetOps Text

variable {D : Type} [LinearOrder D]

theorem ncard_keys {V : Type} (m : SMap D V) {P : D → Prop} (h : ∀ d, d ∈ m.keys ↔ P d) : Set.ncard {d | P d} = m.len := by
  have : {d | P d} = ((m.keys.toFinset : Finset D) : Set D) := by
    ext d; simp [h d]
  rw [this, Set.ncard_coe_finset, List.toFinset_card_of_nodup (SMap.keys_nodup m)]
  exact SMap.len_keys m

variable {K : Kind D ℝ} {pipeline : List Element} {ops : List (Text.Op D)}

theorem numDocs_eq {s : Ix D ℝ} (hi : Text.Inv K s (docWids pipeline ops)) : numDocs ops = s.docweight.len ∧ (numDocs ops : Int) = s.documentCount := by
  have h1 : numDocs ops = s.docweight.len := by
    refine ncard_keys _ ?_
    intro d
    rw [SMap.mem_keys_iff, hi.docweight]
    unfold docWids docWords
    cases currentText ops d <;> simp
  refine ⟨h1, ?_⟩
  have h2 : numDocs ops = s.docwords.len := by
    refine ncard_keys _ ?_
    intro d
    rw [SMap.mem_keys_iff, hi.docwords]
    unfold docWids docWords
    cases currentText ops d <;> simp
  rw [h2, hi.documentCount]

/-- the entry of a word in the index: it is there exactly if a document has the word -/
theorem entry_word (hK : Lawful K) (hs : SmallLexicon pipeline ops) {s : Ix D ℝ} (hi : Text.Inv K s (docWids pipeline ops)) (w : Word) :
    (∀ e, s.wordinfo.get? ((lexAfter pipeline ops).getWid w) = some e → numHolders pipeline ops w = e.map.len ∧ 0 < e.map.len) ∧
    (s.wordinfo.get? ((lexAfter pipeline ops).getWid w) = none → numHolders pipeline ops w = 0 ∧ ∀ d, ¬ Holds pipeline ops d w) := by
  refine ⟨?_, ?_⟩
  · intro e he
    refine ⟨ncard_keys _ ?_, (entry_docs hK hi he).1⟩
    intro d
    rw [← stored_holds hK hs hi w d]
    unfold storedWeight
    rw [he, Option.bind_some, SMap.mem_keys_iff, Option.isSome_iff_exists]
  · intro hn
    have hno : ∀ d, ¬ Holds pipeline ops d w := by
      intro d hd
      rw [← stored_holds hK hs hi w d] at hd
      unfold storedWeight at hd
      rw [hn] at hd
      cases hd
    refine ⟨?_, hno⟩
    unfold numHolders
    rw [Set.ncard_eq_zero (by
      have : {d | Holds pipeline ops d w} = ∅ := by ext d; simp [hno d]
      rw [this]; exact Set.finite_empty)]
    ext d; simp [hno d]

theorem widIdf_eq (hK : Lawful K) (hs : SmallLexicon pipeline ops) {s : Ix D ℝ} (hi : Text.Inv K s (docWids pipeline ops)) (w : Word) :
    widIdf s ((lexAfter pipeline ops).getWid w) = wordIdf pipeline ops w := by
  unfold widIdf wordIdf
  obtain ⟨h1, h2⟩ := entry_word hK hs hi w
  cases he : s.wordinfo.get? ((lexAfter pipeline ops).getWid w) with
  | none => rw [if_pos (h2 he).1]
  | some e =>
    obtain ⟨h3, h4⟩ := h1 e he
    rw [if_neg (by omega), (numDocs_eq hi).1, h3]

/-- what a class computes: `rw` is the contribution of a word id to the score of a document -/
structure RateOk (K : Kind D ℝ) (s : Ix D ℝ) (rw : Int → D → ℝ) : Prop where
  arith : K.arith = realArith
  some : ∀ wids L, K.searchWids s wids = .ok L → List.Forall₂ (fun wid p => ∀ d, contribution d p = rw wid d) wids L
  none : ∀ wid, s.wordinfo.contains wid = false → ∀ d, rw wid d = 0

noncomputable def okapiWidRate (P : Bm25 ℝ) (s : Ix D ℝ) (wid : Int) (d : D) : ℝ :=
  match s.wordinfo.get? wid with
  | none => 0
  | some e => ((e.map.get? d).bind (fun f => (s.docweight.get? d).map (fun len =>
      bm25 P f len (s.total / s.documentCount) * invFreq s.documentCount e.map.len))).getD 0

noncomputable def cosineWidRate (s : Ix D ℝ) (wid : Int) (d : D) : ℝ :=
  match s.wordinfo.get? wid with
  | none => 0
  | some e => (e.map.get? d).getD 0 * invFreq s.docweight.len e.map.len

theorem not_contains {V : Type} {m : SMap Int V} {k : Int} (h : m.contains k = false) : m.get? k = none := by
  cases hg : m.get? k with
  | none => rfl
  | some e =>
    have := (SMap.contains_iff m k).2 ⟨e, hg⟩
    rw [h] at this; cases this

theorem okapi_rateOk (P : Bm25 ℝ) (s : Ix D ℝ) : RateOk (okapi realArith P) s (okapiWidRate P s) := by
  refine ⟨rfl, ?_, ?_⟩
  · intro wids L h
    refine (okapi_values h).imp ?_
    rintro wid p ⟨e, he, h1, h2⟩ d
    unfold contribution okapiWidRate
    rw [he, h2 d, h1]
    simp only
    cases (e.map.get? d).bind (fun f => (s.docweight.get? d).map (fun len =>
      bm25 P f len (s.total / s.documentCount) * invFreq s.documentCount e.map.len)) <;> simp
  · intro wid h d
    unfold okapiWidRate
    rw [not_contains h]

theorem cosine_rateOk (s : Ix D ℝ) : RateOk (cosine realArith) s (cosineWidRate s) := by
  refine ⟨rfl, ?_, ?_⟩
  · intro wids L h
    refine (cosine_values h).imp ?_
    rintro wid p ⟨e, he, h1, h2⟩ d
    unfold contribution cosineWidRate
    rw [he, h2 d, h1]
    simp only
    cases e.map.get? d <;> simp
  · intro wid h d
    unfold cosineWidRate
    rw [not_contains h]

theorem sum_forall₂ {wids : List Int} {L : List (SMap D ℝ × ℝ)} {rw : Int → D → ℝ}
    (h : List.Forall₂ (fun wid p => ∀ d, contribution d p = rw wid d) wids L) (d : D) :
    (L.map (contribution d)).sum = (wids.map (fun wid => rw wid d)).sum := by
  induction h with
  | nil => rfl
  | cons h _ ih => rw [List.map_cons, List.map_cons, List.sum_cons, List.sum_cons, ih, h d]

theorem sum_removeOov {K : Kind D ℝ} {s : Ix D ℝ} {rw : Int → D → ℝ} (hr : RateOk K s rw) (wids : List Int) (d : D) :
    ((removeOov s wids).map (fun wid => rw wid d)).sum = (wids.map (fun wid => rw wid d)).sum := by
  unfold removeOov
  induction wids with
  | nil => rfl
  | cons w wids ih =>
    rw [List.filter_cons]
    by_cases hc : s.wordinfo.contains w = true
    · rw [if_pos hc, List.map_cons, List.map_cons, List.sum_cons, List.sum_cons, ih]
    · rw [if_neg hc, ih, List.map_cons, List.sum_cons, hr.none w (by simpa using hc) d, zero_add]

/-- score of a union -/
theorem searchUnion_value {K : Kind D ℝ} {s : Ix D ℝ} {rw : Int → D → ℝ} (hr : RateOk K s rw) {wids : List Int} {m : SMap D ℝ}
    (h : searchUnion K s wids = .ok m) (d : D) (v : ℝ) (hv : m.get? d = some v) : v = (wids.map (fun wid => rw wid d)).sum := by
  unfold searchUnion at h
  cases e : K.searchWids s (removeOov s wids) with
  | error x => rw [e] at h; cases h
  | ok L =>
    rw [e, bind_ok, hr.arith] at h
    obtain ⟨m', em, hm⟩ := @C28_union_values D ℝ _ _ (Classical.decEq ℝ) L
    have em : massUnion realArith.toWArith L = .ok m' := em
    obtain rfl := Except.ok.inj (em.symm.trans h)
    rw [((hm d v).1 hv).2, sum_forall₂ (hr.some _ _ e), sum_removeOov hr]

theorem search_value {K : Kind D ℝ} {s : Ix D ℝ} {rw : Int → D → ℝ} (hr : RateOk K s rw) {lex : Lexicon} {t : TextArg} {ids : List Int}
    (ht : lex.termToWordIds pipeline t = .ok ids) {m : SMap D ℝ} (h : search K pipeline lex s t = .ok (some m)) (d : D) (v : ℝ)
    (hv : m.get? d = some v) : v = (ids.map (fun wid => rw wid d)).sum := by
  unfold search at h
  rw [ht, bind_ok] at h
  split at h
  · cases h
  · cases e : searchUnion K s ids with
    | error x => rw [e] at h; cases h
    | ok r =>
      rw [e, bind_ok] at h
      cases h
      exact searchUnion_value hr e d v hv

theorem searchPhrase_value {K : Kind D ℝ} {s : Ix D ℝ} {rw : Int → D → ℝ} (hr : RateOk K s rw) {lex : Lexicon} {t : TextArg}
    {ids : List Int} (ht : lex.termToWordIds pipeline t = .ok ids) {m : SMap D ℝ} (h : searchPhrase K pipeline lex s t = .ok m) (d : D)
    (v : ℝ) (hv : m.get? d = some v) : v = (ids.map (fun wid => rw wid d)).sum := by
  unfold searchPhrase at h
  rw [ht, bind_ok] at h
  simp only at h
  split at h
  · cases h; simp at hv
  · cases e : K.searchWids s ids with
    | error x => rw [e] at h; cases h
    | ok L =>
      rw [e, bind_ok, hr.arith] at h
      obtain ⟨hits, em, hm⟩ := @C29_inter_values D ℝ _ _ (Classical.decEq ℝ) (L.map (fun p => (some p.1, p.2)))
      have em : massIntersection realArith.toWArith (L.map (fun p => (some p.1, p.2))) = .ok hits := em
      rw [em, bind_ok] at h
      have hpm : presentMaps (L.map (fun p => (some p.1, p.2))) = L := by
        unfold presentMaps
        rw [List.filterMap_map]
        exact List.filterMap_some
      have key : ∀ v, hits.get? d = some v → v = (ids.map (fun wid => rw wid d)).sum := by
        intro v hv
        rw [((hm d v).1 hv).2, hpm, sum_forall₂ (hr.some _ _ e)]
      split at h
      · cases h; exact key v hv
      · cases ec : WidCode.encode ids with
        | error x => rw [ec] at h; cases h
        | ok code =>
          rw [ec, bind_ok] at h
          -- the loop keeps values of `hits`
          have loop : ∀ (l : List (D × ℝ)) (acc r : SMap D ℝ), (∀ p ∈ l, hits.get? p.1 = some p.2) →
              l.foldlM (phraseLoop K s code) acc = .ok r → (∀ v, acc.get? d = some v → hits.get? d = some v) →
              ∀ v, r.get? d = some v → hits.get? d = some v := by
            intro l
            induction l with
            | nil => intro acc r _ h ha; cases h; exact ha
            | cons p l ih =>
              intro acc r hp h ha
              rw [List.foldlM_cons] at h
              cases es : phraseLoop K s code acc p with
              | error x => rw [es] at h; cases h
              | ok acc' =>
                rw [es, bind_ok] at h
                refine ih acc' r (fun q hq => hp q (by simp [hq])) h ?_
                unfold phraseLoop at es
                split at es
                · cases es
                · split at es
                  · cases es
                    intro v hv
                    rw [SMap.get?_set] at hv
                    split at hv
                    · rename_i hd
                      rw [hr.arith] at hv
                      cases hv
                      rw [hd]
                      exact hp p (by simp)
                    · exact ha v hv
                  · cases es; exact ha
          refine key v (loop hits.items SMap.empty m (fun p hp => (SMap.get?_eq_some_iff _ _ _).2 hp) ?_ (by simp) v hv)
          rw [← h]

/-! ## the contributions of words -/

theorem okapiWidRate_eq {P : Bm25 ℝ} (hs : SmallLexicon pipeline ops) {s : TI D ℝ} (hr : run (okapi realArith P) pipeline ops = .ok s)
    (hi : Text.Inv (okapi realArith P) s.ix (docWids pipeline ops)) (hl : s.lex = lexAfter pipeline ops) (w : Word) (d : D) :
    okapiWidRate P s.ix ((lexAfter pipeline ops).getWid w) d =
      okapiRate pipeline ops P (s.ix.total / (numDocs ops : ℝ)) w d := by
  have hK := okapi_lawful' (D := D) real_positive P
  obtain ⟨h1, h2, h3⟩ := C51_okapi realArith P (by
    intro m n h
    have h : decide ((m : ℝ) ≠ n) = false := h
    show (m : ℝ) = n
    simpa using h) pipeline ops hs s hr
  obtain ⟨hw1, hw2⟩ := entry_word hK hs hi w
  have hN : (s.ix.documentCount : ℝ) = (numDocs ops : ℝ) := by rw [← (numDocs_eq hi).2]; simp
  unfold okapiWidRate okapiRate
  rw [hl] at h2 h3
  cases hd : docWords pipeline ops d with
  | none =>
    have hno : ¬ Holds pipeline ops d w := by rintro ⟨ws, h, -⟩; rw [hd] at h; cases h
    have := h3 d w hno
    unfold storedWeight at this
    cases he : s.ix.wordinfo.get? ((lexAfter pipeline ops).getWid w) with
    | none => rfl
    | some e =>
      rw [he, Option.bind_some] at this
      simp only
      rw [this]; rfl
  | some ws =>
    simp only
    by_cases hw : w ∈ ws
    · obtain ⟨v, hv, hv'⟩ := h2 d ws w hd hw
      have hv' : v = (ws.count w : ℝ) := by rcases hv' with h | h <;> exact h
      have hlen : s.ix.docweight.get? d = some (ws.length : ℝ) := h1 d ws hd
      unfold storedWeight at hv
      cases he : s.ix.wordinfo.get? ((lexAfter pipeline ops).getWid w) with
      | none => rw [he] at hv; cases hv
      | some e =>
        rw [he, Option.bind_some] at hv
        obtain ⟨h4, h5⟩ := hw1 e he
        simp only
        rw [hv, hlen, if_pos hw, hv', hN]
        simp only [Option.bind_some, Option.map_some, Option.getD_some]
        unfold wordIdf
        rw [if_neg (by omega), h4]
    · have hno : ¬ Holds pipeline ops d w := by rintro ⟨ws', h, h'⟩; rw [hd] at h; cases h; exact hw h'
      have := h3 d w hno
      unfold storedWeight at this
      rw [if_neg hw]
      cases he : s.ix.wordinfo.get? ((lexAfter pipeline ops).getWid w) with
      | none => rfl
      | some e =>
        rw [he, Option.bind_some] at this
        simp only
        rw [this]; rfl

theorem tw_real {n : ℕ} (hn : 0 < n) : tw realArith n = termWeight n := by
  have h := (tw_ok real_positive hn).1
  unfold docTermWeight at h
  cases e : pyLog realArith (realArith.ofNat n) with
  | error x => rw [e] at h; cases h
  | ok z =>
    rw [e, bind_ok] at h
    obtain ⟨-, rfl⟩ := pyLog_real e
    rw [← Except.ok.inj h]; rfl

theorem termWeight_pos {n : ℕ} (hn : 0 < n) : 0 < termWeight n := by
  unfold termWeight
  have := Real.log_natCast_nonneg n
  linarith

/-- ids of different words of a document are different -/
theorem getWid_inj {d : D} {ws : List Word} (h : docWords pipeline ops d = some ws) {v w : Word} (hv : v ∈ ws) (hw : w ∈ ws)
    (e : (lexAfter pipeline ops).getWid v = (lexAfter pipeline ops).getWid w) : v = w := by
  have hi := Lexicon.run_inv pipeline (lexCalls ops)
  obtain ⟨n, hn⟩ := doc_wid h hv
  obtain ⟨m, hm⟩ := doc_wid h hw
  rw [Lexicon.getWid_eq hn, Lexicon.getWid_eq hm] at e
  subst e
  have e1 := (hi v n).1 hn
  have e2 := (hi w n).1 hm
  rw [e1] at e2
  exact Option.some.inj e2

/-- the square of the length of the vector, computed from word ids -/
theorem sqSum_real {d : D} {ws : List Word} (h : docWords pipeline ops d = some ws) :
    sqSum realArith (ws.map (lexAfter pipeline ops).getWid) = (ws.dedup.map (fun v => termWeight (ws.count v) ^ 2)).sum := by
  have hsum : ∀ (l : List (Int × ℕ)) (acc : ℝ), (∀ p ∈ l, 0 < p.2) →
      l.foldl (fun s p => realArith.add s (realArith.mul (tw realArith p.2) (tw realArith p.2))) acc =
        acc + (l.map (fun p => termWeight p.2 ^ 2)).sum := by
    intro l
    induction l with
    | nil => intro acc _; simp
    | cons p l ih =>
      intro acc hp
      rw [List.foldl_cons, ih _ (fun q hq => hp q (by simp [hq])), tw_real (hp p (by simp)), List.map_cons, List.sum_cons]
      show acc + termWeight p.2 * termWeight p.2 + _ = _
      ring
  unfold sqSum
  rw [hsum _ _ (fun p hp => (countLoop_pos hp).1)]
  show (0 : ℝ) + _ = _
  rw [zero_add]
  -- the counted ids are the ids of the different words
  have hk : ((countLoop (ws.map (lexAfter pipeline ops).getWid)).map (·.1)).Perm (ws.dedup.map (lexAfter pipeline ops).getWid) := by
    rw [List.perm_ext_iff_of_nodup (countLoop_nodup _)]
    · intro k
      rw [countLoop_keys]
      simp
    · refine List.Nodup.map_on ?_ (List.nodup_dedup ws)
      intro v hv w hw e
      exact getWid_inj h (List.mem_dedup.1 hv) (List.mem_dedup.1 hw) e
  have h1 : (countLoop (ws.map (lexAfter pipeline ops).getWid)).map (fun p => termWeight p.2 ^ 2) =
      ((countLoop (ws.map (lexAfter pipeline ops).getWid)).map (·.1)).map (fun k =>
        termWeight ((ws.map (lexAfter pipeline ops).getWid).count k) ^ 2) := by
    rw [List.map_map]
    apply List.map_congr_left
    intro p hp
    simp only [Function.comp]
    rw [(countLoop_pos hp).2]
  rw [h1, (hk.map _).sum_eq, List.map_map]
  congr 1
  apply List.map_congr_left
  intro v hv
  simp only [Function.comp]
  rw [count_map_wid h (List.mem_dedup.1 hv)]

theorem docNorm_pos {ws : List Word} {w : Word} (hw : w ∈ ws) : 0 < docNorm ws := by
  unfold docNorm
  rw [Real.sqrt_pos]
  have hmem : termWeight (ws.count w) ^ 2 ∈ ws.dedup.map (fun v => termWeight (ws.count v) ^ 2) :=
    List.mem_map.2 ⟨w, List.mem_dedup.2 hw, rfl⟩
  refine lt_of_lt_of_le ?_ (List.single_le_sum (by
    intro x hx
    obtain ⟨v, -, rfl⟩ := List.mem_map.1 hx
    positivity) _ hmem)
  exact pow_pos (termWeight_pos (List.count_pos_iff.2 hw)) 2

theorem cosine_stored (hs : SmallLexicon pipeline ops) {s : TI D ℝ} 
    (hi : Text.Inv (cosine realArith) s.ix (docWids pipeline ops)) {w : Word} {d : D} {ws : List Word}
    (hd : docWords pipeline ops d = some ws) (hw : w ∈ ws) :
    storedWeight s.ix ((lexAfter pipeline ops).getWid w) d = some (termWeight (ws.count w) / docNorm ws) := by
  have hK := cosine_lawful (D := D) real_positive
  have hst := (stored_holds hK hs hi w d).2 ⟨ws, hd, hw⟩
  rw [Option.isSome_iff_exists] at hst
  obtain ⟨v, hv⟩ := hst
  obtain ⟨f, hf, hvf⟩ := (stored_iff hi _ d).2 v hv
  have hvf : v = f := by rcases hvf with h | h <;> exact h
  subst hvf
  rw [hv]
  congr 1
  unfold weights docWids at hf
  rw [hd, Option.map_some, Option.bind_some] at hf
  obtain ⟨l, W, e, eW, hF⟩ := cosineFreqs_ok real_positive (ws.map (lexAfter pipeline ops).getWid)
  have hfr : fr (cosine realArith : Kind D ℝ) (ws.map (lexAfter pipeline ops).getWid) = (l, W) := by
    unfold fr
    have : (cosine realArith : Kind D ℝ).freqs (ws.map (lexAfter pipeline ops).getWid) = .ok (l, W) := e
    rw [this]
  rw [hfr] at hf
  have hW : W = docNorm ws := by
    have : pySqrt realArith (sqSum realArith (ws.map (lexAfter pipeline ops).getWid)) = .ok W := by unfold pySqrt; rw [eW]
    rw [(pySqrt_real this).2, sqSum_real hd]; rfl
  have hmem := dget?_mem hf
  obtain ⟨p, hp, h1, h2, -⟩ := forall₂_right hF hmem
  obtain ⟨hpos, hcnt⟩ := countLoop_pos hp
  have hdiv : pyDiv realArith (tw realArith p.2) W = .ok v := by unfold pyDiv; rw [h2]
  rw [(pyDiv_real hdiv).2, tw_real hpos, hW, hcnt]
  have h1 : (lexAfter pipeline ops).getWid w = p.1 := h1
  rw [← h1, count_map_wid hd hw]

theorem cosineWidRate_eq (hs : SmallLexicon pipeline ops) {s : TI D ℝ}
    (hi : Text.Inv (cosine realArith) s.ix (docWids pipeline ops)) (w : Word) (d : D) :
    cosineWidRate s.ix ((lexAfter pipeline ops).getWid w) d = cosineRate pipeline ops w d := by
  have hK := cosine_lawful (D := D) real_positive
  obtain ⟨hw1, hw2⟩ := entry_word hK hs hi w
  have hst := stored_holds hK hs hi w d
  unfold cosineWidRate cosineRate
  have hzero : ¬ Holds pipeline ops d w → (match s.ix.wordinfo.get? ((lexAfter pipeline ops).getWid w) with
      | none => (0 : ℝ)
      | some e => (e.map.get? d).getD 0 * invFreq s.ix.docweight.len e.map.len) = 0 := by
    intro hno
    rw [← hst] at hno
    unfold storedWeight at hno
    cases he : s.ix.wordinfo.get? ((lexAfter pipeline ops).getWid w) with
    | none => rfl
    | some e =>
      rw [he, Option.bind_some, Option.isSome_iff_exists] at hno
      simp only
      cases hg : e.map.get? d with
      | none => simp
      | some v => exact absurd ⟨v, hg⟩ hno
  cases hd : docWords pipeline ops d with
  | none => exact hzero (by rintro ⟨ws, h, -⟩; rw [hd] at h; cases h)
  | some ws =>
    simp only
    by_cases hw : w ∈ ws
    · have h1 := cosine_stored hs hi hd hw
      unfold storedWeight at h1
      rw [if_pos hw]
      cases he : s.ix.wordinfo.get? ((lexAfter pipeline ops).getWid w) with
      | none => rw [he] at h1; cases h1
      | some e =>
        rw [he, Option.bind_some] at h1
        obtain ⟨h4, h5⟩ := hw1 e he
        simp only
        rw [h1, Option.getD_some, ← (numDocs_eq hi).1, ← h4]
        unfold wordIdf
        rw [if_neg (by omega)]
    · rw [if_neg hw]
      exact hzero (by rintro ⟨ws', h, h'⟩; rw [hd] at h; cases h; exact hw h')

end Verif
