import Verif.Proofs.Rounding

/-! # Scores of queries, with rounding errors -/

set_option autoImplicit false

namespace Verif

open Spec SetOps Text

variable {D : Type} [LinearOrder D] {u : ℝ} {B : Arith ℝ} {K : Kind D ℝ} {pipeline : List Element} {ops : List (Text.Op D)}

/-! ## words -/

/-- `rate` is what the words contribute to the scores in the state `s`, up to `k d` roundings -/
structure RateNear (u : ℝ) (B : Arith ℝ) (K : Kind D ℝ) (pipeline : List Element) (ops : List (Text.Op D)) (s : TI D ℝ)
    (rate : Word → D → ℝ) (k : D → ℕ) : Prop where
  arith : K.arith = B
  some : ∀ (ws : List Word) L, K.searchWids s.ix (ws.map (lexAfter pipeline ops).getWid) = .ok L → ∀ d,
    List.Forall₂ (fun p t => App (unit u) (k d) t (contribution d p)) L (ws.map (fun w => rate w d))
  known : ∀ w, s.ix.wordinfo.contains ((lexAfter pipeline ops).getWid w) = true ↔ ∃ d, Holds pipeline ops d w
  zero : ∀ w d, ¬ Holds pipeline ops d w → rate w d = 0

theorem known_iff (hK : Lawful K) (hs : SmallLexicon pipeline ops) {s : Ix D ℝ} (hi : Text.Inv K s (docWids pipeline ops)) (w : Word) :
    s.wordinfo.contains ((lexAfter pipeline ops).getWid w) = true ↔ ∃ d, Holds pipeline ops d w := by
  rw [SMap.contains_iff]
  constructor
  · rintro ⟨e, he⟩
    obtain ⟨-, ⟨d, v, hv⟩, -⟩ := entry_docs hK hi he
    refine ⟨d, (stored_holds hK hs hi w d).1 ?_⟩
    unfold storedWeight
    rw [he, Option.bind_some, hv]; rfl
  · rintro ⟨d, hd⟩
    have := (stored_holds hK hs hi w d).2 hd
    unfold storedWeight at this
    cases he : s.wordinfo.get? ((lexAfter pipeline ops).getWid w) with
    | none => rw [he] at this; cases this
    | some e => exact ⟨e, rfl⟩

theorem forall₂_words {ws : List Word} {L : List (SMap D ℝ × ℝ)} {f : Int → Except PyErr (SMap D ℝ × ℝ)} {getWid : Word → Int}
    {Q : SMap D ℝ × ℝ → ℝ → Prop} {g : Word → ℝ} (h : (ws.map getWid).mapM f = .ok L)
    (hQ : ∀ w p, f (getWid w) = .ok p → Q p (g w)) : List.Forall₂ Q L (ws.map g) := by
  have h1 := mapM_ok f _ h
  rw [List.forall₂_map_left_iff] at h1
  rw [List.forall₂_map_right_iff]
  exact (h1.imp (fun w p hp => hQ w p hp)).flip

section okapi

variable (hu0 : 0 ≤ u) (hu : u ≤ 1 / 64) (hB : Rounded u B) {P : Bm25 ℝ} (hP : Bm25Params P)

include hu0 hu hB hP

theorem ranked_rounded : Ranked (D := D) B (fun x => 0 < x) (okapi B P) := .okapi _ (rounded_params hu0 hu hB hP)

/-- the mean length is positive -/
theorem mean_pos_rounded (hs : SmallLexicon pipeline ops) (he : LengthsExact B pipeline ops) {s : TI D ℝ}
    (hr : run (okapi B P) pipeline ops = .ok s) (hh : ∃ d w, Holds pipeline ops d w) :
    0 < s.ix.total ∧ 0 < numDocs ops := by
  have hpos := rounded_positive hu0 hu hB
  have hK := ranked_rounded (D := D) hu0 hu hB hP
  obtain ⟨hl, hi, hS, -⟩ := hK.run hpos hs (fun _ => he) hr
  obtain ⟨d, w, hh⟩ := hh
  refine ⟨total_pos hpos P pipeline ops hs he hr hi ⟨_, (known_iff (hK.lawful hpos) hs hi w).2 ⟨d, hh⟩⟩, ?_⟩
  obtain ⟨ws, hws, -⟩ := hh
  rw [(numDocs_eq hi).1]
  have : s.ix.docweight.get? d = some (B.store (fr (okapi B P : Kind D ℝ) (ws.map (lexAfter pipeline ops).getWid)).2) := by
    rw [hi.docweight]; unfold docWids; rw [hws]; rfl
  exact len_pos_of_get this

theorem okapi_rateNear (hs : SmallLexicon pipeline ops) (he : LengthsExact B pipeline ops) {s : TI D ℝ}
    (hr : run (okapi B P) pipeline ops = .ok s) :
    RateNear u B (okapi B P) pipeline ops s (okapiRate pipeline ops P (s.ix.total / (numDocs ops : ℝ))) (fun _ => 26) := by
  have hq := unit_ge hu0 hu
  have hpos := rounded_positive hu0 hu hB
  have hKr := ranked_rounded (D := D) hu0 hu hB hP
  have hK := hKr.lawful hpos
  obtain ⟨hl, hi, -⟩ := hKr.run hpos hs (fun _ => he) hr
  have hzero : ∀ w d, ¬ Holds pipeline ops d w → okapiRate pipeline ops P (s.ix.total / (numDocs ops : ℝ)) w d = 0 := by
    intro w d hno
    unfold okapiRate
    cases hd : docWords pipeline ops d with
    | none => rfl
    | some ws => exact if_neg (fun hw => hno ⟨ws, hd, hw⟩)
  refine ⟨rfl, ?_, known_iff hK hs hi, hzero⟩
  intro ws L h d
  have h : okapiSearchWids B P s.ix (ws.map (lexAfter pipeline ops).getWid) = .ok L := h
  unfold okapiSearchWids at h
  cases ws with
  | nil => cases h; exact .nil
  | cons w0 ws =>
    simp only [List.map_cons, List.isEmpty_cons, Bool.false_eq_true, if_false] at h
    rw [← List.map_cons] at h
    cases em : pyDiv B (B.ofInt s.ix.total) (B.ofInt s.ix.documentCount) with
    | error x => rw [em] at h; cases h
    | ok mean =>
      rw [em, bind_ok] at h
      refine forall₂_words h ?_
      intro w p hp
      -- what the word contributes
      unfold okapiWord at hp
      cases hw : s.ix.wordinfo.get? ((lexAfter pipeline ops).getWid w) with
      | none => rw [hw] at hp; cases hp
      | some e =>
        rw [hw] at hp
        simp only at hp
        obtain ⟨d0, hd0⟩ := (known_iff hK hs hi w).1 ((SMap.contains_iff _ _).2 ⟨e, hw⟩)
        obtain ⟨hT, hN⟩ := mean_pos_rounded hu0 hu hB hP hs he hr ⟨d0, w, hd0⟩
        have hN' : (0 : ℝ) < numDocs ops := by exact_mod_cast hN
        have hcount : s.ix.documentCount = (numDocs ops : Int) := (numDocs_eq hi).2.symm
        have hT' : (0 : ℝ) < s.ix.total := by exact_mod_cast hT
        obtain ⟨hn1, hn2⟩ := (entry_word hK hs hi w).1 e hw
        have hle := entry_le hK hi hw
        rw [← (numDocs_eq hi).1] at hle
        have aN : App (unit u) 1 (numDocs ops : ℕ) (B.ofInt s.ix.documentCount) := by
          have := App.ofInt hu0 hu hB (n := s.ix.documentCount) (by rw [hcount]; omega)
          rw [hcount] at this ⊢
          simpa using this
        have aT := App.ofInt hu0 hu hB (le_of_lt hT)
        obtain ⟨mean', em', am⟩ := App.div hu0 hu hB aT aN hN'
        have : mean = mean' := by
          unfold pyDiv at em
          rw [em'] at em
          exact (Except.ok.inj em).symm
        subst this
        obtain ⟨z, ez, az⟩ := App.idf hu0 hu hB hn2 hle aN
        rw [ez, bind_ok] at hp
        cases er : e.map.items.foldlM (okapiScoreStep B P s.ix.docweight z mean) SMap.empty with
        | error x => rw [er] at hp; cases hp
        | ok r =>
          rw [er, bind_ok] at hp
          cases hp
          rw [contribution_nonneg_one hB]
          have hval := foldlM_set_ok _ (fun d f => match s.ix.docweight.get? d with
            | none => none
            | some len => match okapiTf B P f len mean with
              | .ok tf => some (B.store (B.mul tf z))
              | .error _ => none) e.map.items e.map.sorted (by
            intro p _ acc acc' ha
            unfold okapiScoreStep at ha
            cases hl : s.ix.docweight.get? p.1 with
            | none => rw [hl] at ha; cases ha
            | some len =>
              rw [hl] at ha
              simp only at ha
              cases et : okapiTf B P p.2 len mean with
              | error x => rw [et] at ha; cases ha
              | ok tf =>
                rw [et, bind_ok] at ha
                cases ha
                exact ⟨_, by simp only [et], rfl⟩) SMap.empty er d
          rw [SMap.get?_empty, Option.or_none] at hval
          rw [hval]
          change App _ _ _ (((e.map.get? d).bind _).getD 0)
          by_cases hh : Holds pipeline ops d w
          · obtain ⟨f', hf'⟩ := Option.isSome_iff_exists.1 ((stored_holds hK hs hi w d).2 hh)
            unfold storedWeight at hf'
            rw [hw, Option.bind_some] at hf'
            obtain ⟨ids, f, hW, -, hm, hv⟩ := (entry_docs hK hi hw).2.2 d f' hf'
            obtain ⟨dws, hd, hwd⟩ := hh
            have hids : ids = dws.map (lexAfter pipeline ops).getWid := by
              unfold docWids at hW
              rw [hd] at hW
              exact (Option.some.inj hW).symm
            obtain ⟨c, hc, ec⟩ := List.mem_map.1 (show ((lexAfter pipeline ops).getWid w, f) ∈ (countLoop ids).map (fun p => (p.1, B.ofNat p.2)) from hm)
            obtain ⟨hc0, hcc⟩ := countLoop_pos hc
            obtain ⟨ec1, ec2⟩ := Prod.mk.inj ec
            rw [ec1, hids, count_map_wid hd hwd] at hcc
            have af0 := App.ofNat hu0 hu hB c.2
            rw [ec2, hcc] at af0
            have af : App (unit u) 2 (dws.count w : ℕ) f' := by
              rcases hv with rfl | rfl
              · exact af0.mono hq (by norm_num)
              · exact App.store hu0 hu hB af0
            have hlen : s.ix.docweight.get? d = some (B.store (B.ofNat dws.length)) := by
              rw [hi.docweight, hW, hids, Option.map_some]
              show some (B.store (B.ofNat (dws.map (lexAfter pipeline ops).getWid).length)) = _
              rw [List.length_map]
            have al := App.store hu0 hu hB (App.ofNat hu0 hu hB dws.length)
            have hf0 : (0 : ℝ) < (dws.count w : ℕ) := by exact_mod_cast List.count_pos_iff.2 hwd
            obtain ⟨tf, et, at'⟩ := App.okapiTf hu0 hu hB hP af hf0 al am (div_pos hT' hN')
            rw [hf', Option.bind_some]
            simp only [hlen, et, Option.getD_some]
            unfold okapiRate
            rw [hd]
            simp only
            rw [if_pos hwd]
            unfold wordIdf
            rw [if_neg (by omega), hn1]
            exact App.store hu0 hu hB (App.mul hu0 hu hB at' az)
          · rw [hzero w d hh]
            cases hf : e.map.get? d with
            | none => exact App.zero _
            | some f =>
              exfalso
              apply hh
              rw [← stored_holds hK hs hi w d]
              unfold storedWeight
              rw [hw, Option.bind_some, hf]; rfl

end okapi

section cosine

variable (hu0 : 0 ≤ u) (hu : u ≤ 1 / 64) (hB : Rounded u B)

include hu0 hu hB

theorem sqSum_app {d : D} {ws : List Word} (h : docWords pipeline ops d = some ws) :
    App (unit u) (9 + ws.dedup.length) ((ws.dedup.map (fun v => termWeight (ws.count v) ^ 2)).sum)
      (sqSum B (ws.map (lexAfter pipeline ops).getWid)) := by
  have hq := unit_ge hu0 hu
  rw [← sqSum_real h]
  have hlen : (countLoop (ws.map (lexAfter pipeline ops).getWid)).length = ws.dedup.length := by
    have hk : ((countLoop (ws.map (lexAfter pipeline ops).getWid)).map (·.1)).Perm (ws.dedup.map (lexAfter pipeline ops).getWid) := by
      rw [List.perm_ext_iff_of_nodup (countLoop_nodup _)]
      · intro k
        rw [countLoop_keys]
        simp
      · refine List.Nodup.map_on ?_ (List.nodup_dedup ws)
        intro v hv w hw e
        exact getWid_inj h (List.mem_dedup.1 hv) (List.mem_dedup.1 hw) e
    have := hk.length_eq
    simpa using this
  rw [← hlen]
  unfold sqSum
  have key : ∀ (l : List (Int × ℕ)) (j : ℕ) (a a' : ℝ), 9 ≤ j → (∀ p ∈ l, 0 < p.2) → App (unit u) j a a' →
      App (unit u) (j + l.length) (l.foldl (fun s p => realArith.add s (realArith.mul (tw realArith p.2) (tw realArith p.2))) a)
        (l.foldl (fun s p => B.add s (B.mul (tw B p.2) (tw B p.2))) a') := by
    intro l
    induction l with
    | nil => intro j a a' _ _ h; exact h
    | cons p l ih =>
      intro j a a' hj hp ha
      rw [List.foldl_cons, List.foldl_cons, List.length_cons, show j + (l.length + 1) = (j + 1) + l.length by omega]
      refine ih (j + 1) _ _ (by omega) (fun q hq => hp q (by simp [hq])) ?_
      have ht := App.tw hu0 hu hB (hp p (by simp))
      rw [tw_real (hp p (by simp))]
      have := App.add hu0 hu hB ha (App.mul hu0 hu hB ht ht)
      rwa [show max j (4 + 4 + 1) = j by omega] at this
  refine key _ 9 _ _ (le_refl 9) (fun p hp => (countLoop_pos hp).1) ?_
  show App (unit u) 9 0 B.zero
  rw [hB.zero]; exact App.zero _

theorem cosine_rateNear (hs : SmallLexicon pipeline ops) {s : TI D ℝ} (hr : run (cosine B) pipeline ops = .ok s) :
    RateNear u B (cosine B) pipeline ops s (cosineRate pipeline ops)
      (fun d => 26 + numWords pipeline ops d) := by
  have hq := unit_ge hu0 hu
  have hpos := rounded_positive hu0 hu hB
  have hKr : Ranked (D := D) B (fun x => 0 < x) (cosine B) := .cosine
  have hK := hKr.lawful hpos
  obtain ⟨hl, hi, -⟩ := hKr.run hpos hs (fun h => by cases h) hr
  have hzero : ∀ w d, ¬ Holds pipeline ops d w → cosineRate pipeline ops w d = 0 := by
    intro w d hno
    unfold cosineRate
    cases hd : docWords pipeline ops d with
    | none => rfl
    | some ws => exact if_neg (fun hw => hno ⟨ws, hd, hw⟩)
  refine ⟨rfl, ?_, known_iff hK hs hi, hzero⟩
  intro ws L h d
  have h : cosineSearchWids B s.ix (ws.map (lexAfter pipeline ops).getWid) = .ok L := h
  unfold cosineSearchWids at h
  cases ws with
  | nil => cases h; exact .nil
  | cons w0 ws =>
    simp only [List.map_cons, List.isEmpty_cons, Bool.false_eq_true, if_false] at h
    rw [← List.map_cons] at h
    refine forall₂_words h ?_
    intro w p hp
    unfold cosineWord at hp
    cases hw : s.ix.wordinfo.get? ((lexAfter pipeline ops).getWid w) with
    | none => rw [hw] at hp; cases hp
    | some e =>
      rw [hw] at hp
      simp only at hp
      obtain ⟨hn1, hn2⟩ := (entry_word hK hs hi w).1 e hw
      have hle := entry_le hK hi hw
      obtain ⟨z, ez, az⟩ := App.idf hu0 hu hB hn2 hle (App.ofNat hu0 hu hB s.ix.docweight.len)
      rw [ez, bind_ok] at hp
      cases hp
      rw [← (numDocs_eq hi).1, ← hn1] at az
      unfold contribution
      simp only
      by_cases hh : Holds pipeline ops d w
      · obtain ⟨f', hf'⟩ := Option.isSome_iff_exists.1 ((stored_holds hK hs hi w d).2 hh)
        unfold storedWeight at hf'
        rw [hw, Option.bind_some] at hf'
        obtain ⟨ids, f, hW, -, hm, hv⟩ := (entry_docs hK hi hw).2.2 d f' hf'
        obtain ⟨dws, hd, hwd⟩ := hh
        have hids : ids = dws.map (lexAfter pipeline ops).getWid := by
          unfold docWids at hW
          rw [hd] at hW
          exact (Option.some.inj hW).symm
        subst hids
        -- the normalized weight
        obtain ⟨l, W, efr, eW, hF⟩ := cosineFreqs_ok hpos (dws.map (lexAfter pipeline ops).getWid)
        have hfr : fr (cosine B : Kind D ℝ) (dws.map (lexAfter pipeline ops).getWid) = (l, W) := by
          unfold fr
          have : (cosine B : Kind D ℝ).freqs (dws.map (lexAfter pipeline ops).getWid) = .ok (l, W) := efr
          rw [this]
        rw [hfr] at hm
        obtain ⟨c, hc, ec, hdiv, -⟩ := forall₂_right hF hm
        obtain ⟨hc0, hcc⟩ := countLoop_pos hc
        have ec : (lexAfter pipeline ops).getWid w = c.1 := ec
        rw [← ec, count_map_wid hd hwd] at hcc
        obtain ⟨W', eW', aW⟩ := App.sqrt hu0 hu hB (sqSum_app hu0 hu hB hd)
        rw [eW] at eW'
        obtain rfl := Option.some.inj eW'
        have aw := App.tw hu0 hu hB hc0
        have hnorm := docNorm_pos hwd
        obtain ⟨f'', ef, af⟩ := App.div hu0 hu hB aw aW hnorm
        have hdiv : B.div (tw B c.2) W = some f := hdiv
        rw [hdiv] at ef
        obtain rfl := Option.some.inj ef
        have af' : App (unit u) (16 + dws.dedup.length) (termWeight (dws.count w) / docNorm dws) f' := by
          rw [hcc] at af
          rcases hv with rfl | rfl
          · exact af.mono hq (by omega)
          · exact (App.store hu0 hu hB af).mono hq (by omega)
        unfold cosineRate numWords
        rw [hd]
        simp only [Option.getD_some]
        rw [if_pos hwd]
        unfold wordIdf
        rw [if_neg (by omega)]
        have fin : ∀ v, App (unit u) (17 + dws.dedup.length) (termWeight (dws.count w) / docNorm dws) v →
            App (unit u) (26 + dws.dedup.length) (termWeight (dws.count w) / docNorm dws *
              invFreq (numDocs ops) (numHolders pipeline ops w)) (v * z) := by
          intro v av
          exact (av.mulExact hq az).mono hq (by omega)
        by_cases ht : e.tree = true
        · rw [if_pos ht, hf']
          exact fin f' (af'.mono hq (by omega))
        · rw [if_neg ht, SMap.get?_mapVals, hf']
          exact fin _ ((App.store hu0 hu hB af').mono hq (by omega))
      · rw [hzero w d hh]
        have hnone : e.map.get? d = none := by
          cases hf : e.map.get? d with
          | none => rfl
          | some f =>
            exfalso
            apply hh
            rw [← stored_holds hK hs hi w d]
            unfold storedWeight
            rw [hw, Option.bind_some, hf]; rfl
        split
        · rename_i v hv
          split at hv
          · rw [hnone] at hv; cases hv
          · rw [SMap.get?_mapVals, hnone] at hv; cases hv
        · exact App.zero _

end cosine

end Verif
