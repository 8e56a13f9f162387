import Verif.Proofs.Text
import Verif.Proofs.Lexicon

/-! # The calls of an index preserve its invariant -/

set_option autoImplicit false

namespace Verif.Text

variable {D R : Type} [LinearOrder D]

/-- what an index class must do: `_get_frequencies` succeeds and yields a weight for each word of the list and for no other;
weights that compare equal are equal -/
structure Lawful (K : Kind D R) : Prop where
  freqs : ∀ wids, ∃ r, K.freqs wids = .ok r ∧ (r.1.map (·.1)).Nodup ∧ ∀ w, w ∈ r.1.map (·.1) ↔ w ∈ wids
  neq : ∀ wids wids' r r' w a b, K.freqs wids = .ok r → K.freqs wids' = .ok r' → (w, a) ∈ r.1 → (w, b) ∈ r'.1 →
    K.arith.neq a b = false → a = b

variable (K : Kind D R)

/-- result of `_get_frequencies` -/
def fr (wids : List Int) : List (Int × R) × R :=
  match K.freqs wids with
  | .ok r => r
  | .error _ => ([], K.arith.zero)

variable {K}

theorem Lawful.ok (hK : Lawful K) (wids : List Int) : K.freqs wids = .ok (fr K wids) := by
  obtain ⟨r, e, -⟩ := hK.freqs wids
  unfold fr; rw [e]

theorem Lawful.nodup (hK : Lawful K) (wids : List Int) : ((fr K wids).1.map (·.1)).Nodup := by
  obtain ⟨r, e, h, -⟩ := hK.freqs wids
  unfold fr; rw [e]; exact h

theorem Lawful.mem (hK : Lawful K) (wids : List Int) (w : Int) : w ∈ (fr K wids).1.map (·.1) ↔ w ∈ wids := by
  obtain ⟨r, e, -, h⟩ := hK.freqs wids
  unfold fr; rw [e]; exact h w

variable (K)

/-- the weights of documents with word lists `W` -/
def weights (W : D → Option (List Int)) : D → Int → Option R := fun d wid => (W d).bind (fun ws => dget? wid (fr K ws).1)

theorem weights_isSome {K : Kind D R} (hK : Lawful K) (W : D → Option (List Int)) (d : D) (wid : Int) :
    (weights K W d wid).isSome ↔ ∃ ws, W d = some ws ∧ wid ∈ ws := by
  unfold weights
  cases hW : W d with
  | none => simp
  | some ws =>
    rw [Option.bind_some, dget?_isSome, hK.mem]
    simp

/-- the index holds exactly the documents `W` -/
structure Inv (s : Ix D R) (W : D → Option (List Int)) : Prop where
  docwords : ∀ d, s.docwords.get? d = (W d).map WidCode.encs
  docweight : ∀ d, s.docweight.get? d = (W d).map (fun ws => K.arith.store (fr K ws).2)
  info : Info K.arith s.wordinfo (weights K W)
  wordCount : s.wordCount = s.wordinfo.len
  documentCount : s.documentCount = s.docwords.len
  valid : ∀ d ws, W d = some ws → ∀ w ∈ ws, WidCode.Valid w

/-- the same, with weights `P` instead of the exact ones -/
structure InvP (s : Ix D R) (W : D → Option (List Int)) (P : D → Int → Option R) : Prop where
  docwords : ∀ d, s.docwords.get? d = (W d).map WidCode.encs
  docweight : ∀ d, s.docweight.get? d = (W d).map (fun ws => K.arith.store (fr K ws).2)
  info : Info K.arith s.wordinfo P
  dom : ∀ d w, P d w = none ↔ weights K W d w = none
  wordCount : s.wordCount = s.wordinfo.len
  documentCount : s.documentCount = s.docwords.len
  valid : ∀ d ws, W d = some ws → ∀ w ∈ ws, WidCode.Valid w

theorem Inv.toP {K : Kind D R} {s : Ix D R} {W : D → Option (List Int)} (h : Inv K s W) : InvP K s W (weights K W) :=
  ⟨h.docwords, h.docweight, h.info, fun _ _ => Iff.rfl, h.wordCount, h.documentCount, h.valid⟩

theorem InvP.toInv {K : Kind D R} {s : Ix D R} {W : D → Option (List Int)} {P : D → Int → Option R} (h : InvP K s W P)
    (hP : ∀ d w, P d w = weights K W d w) : Inv K s W :=
  ⟨h.docwords, h.docweight, info_congr h.info hP, h.wordCount, h.documentCount, h.valid⟩

/-- one document changed -/
def setDoc (W : D → Option (List Int)) (d : D) (o : Option (List Int)) : D → Option (List Int) :=
  fun d' => if d' = d then o else W d'

theorem inv_new : Inv K (new : Ix D R) (fun _ => none) := by
  refine ⟨by intro d; rfl, by intro d; rfl, ?_, rfl, rfl, by simp⟩
  intro w
  exact ⟨fun e (he : none = some e) => (by cases he), fun _ d => rfl⟩

theorem inv_clear (s : Ix D R) : Inv K (clear s) (fun _ => none) := by
  refine ⟨by intro d; rfl, by intro d; rfl, ?_, rfl, rfl, by simp⟩
  intro w
  exact ⟨fun e (he : none = some e) => (by cases he), fun _ d => rfl⟩

/-- `int(self._docweight[docid])` of a document -/
def lenOf (W : D → Option (List Int)) (d : D) : Int :=
  match W d with
  | none => 0
  | some ws => K.arith.toInt (K.arith.store (fr K ws).2)

variable {K}

theorem Inv.contains {s : Ix D R} {W : D → Option (List Int)} (h : Inv K s W) (d : D) :
    s.docwords.contains d = (W d).isSome := by
  unfold SMap.contains
  rw [h.docwords d, Option.isSome_map]

theorem Inv.getWords {s : Ix D R} {W : D → Option (List Int)} (h : Inv K s W) {d : D} {ws : List Int} (hW : W d = some ws) :
    getWords s d = .ok ws := by
  unfold Text.getWords
  rw [h.docwords d, hW]
  exact WidCode.decode_encs (h.valid d ws hW)

theorem invP_total {s : Ix D R} {W : D → Option (List Int)} {P : D → Int → Option R} (h : InvP K s W P) (t : Int) :
    InvP K { s with total := t } W P :=
  ⟨h.docwords, h.docweight, h.info, h.dom, h.wordCount, h.documentCount, h.valid⟩

theorem inv_total {s : Ix D R} {W : D → Option (List Int)} (h : Inv K s W) (t : Int) : Inv K { s with total := t } W :=
  ⟨h.docwords, h.docweight, h.info, h.wordCount, h.documentCount, h.valid⟩

theorem InvP.contains {s : Ix D R} {W : D → Option (List Int)} {P : D → Int → Option R} (h : InvP K s W P) (d : D) :
    s.docwords.contains d = (W d).isSome := by
  unfold SMap.contains
  rw [h.docwords d, Option.isSome_map]

theorem InvP.getWords {s : Ix D R} {W : D → Option (List Int)} {P : D → Int → Option R} (h : InvP K s W P) {d : D} {ws : List Int}
    (hW : W d = some ws) : getWords s d = .ok ws := by
  unfold Text.getWords
  rw [h.docwords d, hW]
  exact WidCode.decode_encs (h.valid d ws hW)

theorem subDocLen_ok {s : Ix D R} {W : D → Option (List Int)} {P : D → Int → Option R} (h : InvP K s W P) {d : D} {ws : List Int} (hW : W d = some ws) :
    subDocLen K d s = .ok { s with total := s.total - if K.hasTotal then lenOf K W d else 0 } := by
  unfold subDocLen changeDocLen
  cases K.hasTotal with
  | false => simp
  | true =>
    simp only [if_true]
    rw [h.docweight d, hW]
    simp only [Option.map_some, lenOf, hW]
    rfl

theorem changeDocLen_eq (n : Int) (s : Ix D R) :
    changeDocLen K n s = { s with total := s.total + if K.hasTotal then n else 0 } := by
  unfold changeDocLen
  cases K.hasTotal <;> simp

theorem inv_good {s : Ix D R} {W : D → Option (List Int)} {P : D → Int → Option R} (h : InvP K s W P) : Good K.arith s s P :=
  ⟨rfl, rfl, rfl, rfl, h.info, h.wordCount⟩

theorem mem_toList_ofList (l : List Int) (w : Int) : w ∈ (SSet.ofList l).toList ↔ w ∈ l := by
  unfold SSet.toList SSet.ofList
  rw [SSet.mem_keys_foldl_insert]
  simp [SMap.empty, SMap.keys]

theorem toList_nodup (s : SSet Int) : s.toList.Nodup := SMap.keys_nodup s

/-- the state after storing the words of a document -/
theorem inv_store {s0 s : Ix D R} {W : D → Option (List Int)} {wids : List Int} {d : D} {P0 P : D → Int → Option R} (h : InvP K s0 W P0)
    (hv : ∀ w ∈ wids, WidCode.Valid w) (hg : Good K.arith s0 s P)
    (hP : ∀ d' w, P d' w = none ↔ weights K (setDoc W d (some wids)) d' w = none) (n t : Int)
    (hn : n = if (W d).isSome then s0.documentCount else s0.documentCount + 1) :
    InvP K { s with docweight := s.docweight.set d (K.arith.store (fr K wids).2),
                    docwords := s.docwords.set d (WidCode.encs wids), documentCount := n, total := t }
      (setDoc W d (some wids)) P := by
  refine ⟨?_, ?_, hg.info, hP, hg.wordCount, ?_, ?_⟩
  · intro d'
    show (s.docwords.set d _).get? d' = _
    rw [SMap.get?_set, hg.docwords, h.docwords]
    unfold setDoc
    by_cases hd : d' = d <;> simp [hd]
  · intro d'
    show (s.docweight.set d _).get? d' = _
    rw [SMap.get?_set, hg.docweight, h.docweight]
    unfold setDoc
    by_cases hd : d' = d <;> simp [hd]
  · show n = ((s.docwords.set d _).len : Int)
    rw [SMap.len_set, hg.docwords, h.contains, hn, h.documentCount]
    cases (W d).isSome <;> simp
  · intro d' ws hW w hw
    unfold setDoc at hW
    by_cases hd : d' = d
    · simp [hd] at hW; subst hW; exact hv w hw
    · simp [hd] at hW; exact h.valid d' ws hW w hw

theorem bind_ok {α β : Type} (x : α) (f : α → Except PyErr β) : (Except.ok x >>= f) = f x := rfl

theorem pick_some {d : List (Int × R)} {wid : Int} {v : R} (h : dget? wid d = some v) : pick d wid = .ok v := by
  unfold pick; rw [h]

/-- the weights of one document became those of its new words, or were kept because they are the same -/
def Changed (K : Kind D R) (W : D → Option (List Int)) (d : D) (o : Option (List Int)) (P P' : D → Int → Option R) : Prop :=
  (∀ d' w, d' ≠ d → P' d' w = P d' w) ∧
  ∀ w, P' d w = weights K (setDoc W d o) d w ∨ (P' d w = P d w ∧ weights K W d w = weights K (setDoc W d o) d w)

theorem Changed.dom {W : D → Option (List Int)} {d : D} {o : Option (List Int)} {P P' : D → Int → Option R} (h : Changed K W d o P P')
    (hP : ∀ d w, P d w = none ↔ weights K W d w = none) (d' : D) (w : Int) :
    P' d' w = none ↔ weights K (setDoc W d o) d' w = none := by
  by_cases hd : d' = d
  · subst hd
    rcases h.2 w with e | ⟨e1, e2⟩
    · rw [e]
    · rw [e1, hP, e2]
  · rw [h.1 d' w hd, hP]
    unfold weights setDoc
    rw [if_neg hd]

theorem Changed.exact {W : D → Option (List Int)} {d : D} {o : Option (List Int)} {P' : D → Int → Option R}
    (h : Changed K W d o (weights K W) P') (d' : D) (w : Int) : P' d' w = weights K (setDoc W d o) d' w := by
  by_cases hd : d' = d
  · subst hd
    rcases h.2 w with e | ⟨e1, e2⟩
    · exact e
    · rw [e1, e2]
  · rw [h.1 d' w hd]
    unfold weights setDoc
    rw [if_neg hd]

theorem reindexDoc_okP (hK : Lawful K) {s : Ix D R} {W : D → Option (List Int)} {P : D → Int → Option R} (h : InvP K s W P) {d : D}
    {old : List Int} (hW : W d = some old) (wids : List Int) (hv : ∀ w ∈ wids, WidCode.Valid w) :
    ∃ s' P', reindexDoc K d wids s = .ok s' ∧ InvP K s' (setDoc W d (some wids)) P' ∧ Changed K W d (some wids) P P' ∧
      s'.total = s.total - if K.hasTotal then lenOf K W d else 0 := by
  unfold reindexDoc
  rw [subDocLen_ok h hW, bind_ok]
  have h := invP_total h (s.total - if K.hasTotal then lenOf K W d else 0)
  generalize hs1 : ({ s with total := s.total - if K.hasTotal then lenOf K W d else 0 } : Ix D R) = s1 at h ⊢
  rw [h.getWords hW, bind_ok, hK.ok old, bind_ok, hK.ok wids, bind_ok]
  dsimp only
  -- the sets
  have mo : ∀ w, w ∈ (SSet.ofList ((fr K old).1.map (·.1))).keys ↔ w ∈ old := by
    intro w; rw [← hK.mem old w]; exact mem_toList_ofList _ w
  have mn : ∀ w, w ∈ (SSet.ofList ((fr K wids).1.map (·.1))).keys ↔ w ∈ wids := by
    intro w; rw [← hK.mem wids w]; exact mem_toList_ofList _ w
  generalize SSet.ofList ((fr K old).1.map (·.1)) = os at mo ⊢
  generalize SSet.ofList ((fr K wids).1.map (·.1)) = ns at mn ⊢
  have mb : ∀ w, w ∈ (os.inter ns).toList ↔ w ∈ old ∧ w ∈ wids := by
    intro w
    show w ∈ (SMap.filter os _).keys ↔ _
    rw [SSet.mem_keys_filter, mo, SMap.contains_iff_mem, mn]
  have mod : ∀ w, w ∈ (os.diff (os.inter ns)).toList ↔ w ∈ old ∧ w ∉ wids := by
    intro w
    show w ∈ (SMap.filter os _).keys ↔ _
    rw [SSet.mem_keys_filter, mo, Bool.not_eq_true', SMap.contains_eq_false, SMap.get?_eq_none_iff]
    have := mb w
    unfold SSet.toList at this
    rw [this]; tauto
  have mnd : ∀ w, w ∈ (ns.diff (os.inter ns)).toList ↔ w ∈ wids ∧ w ∉ old := by
    intro w
    show w ∈ (SMap.filter ns _).keys ↔ _
    rw [SSet.mem_keys_filter, mn, Bool.not_eq_true', SMap.contains_eq_false, SMap.get?_eq_none_iff]
    have := mb w
    unfold SSet.toList at this
    rw [this]; tauto
  have hoS : ∀ w, w ∈ old → ∃ v, dget? w (fr K old).1 = some v := by
    intro w hw
    rw [← Option.isSome_iff_exists, dget?_isSome, hK.mem]; exact hw
  have hnS : ∀ w, w ∈ wids → ∃ v, dget? w (fr K wids).1 = some v := by
    intro w hw
    rw [← Option.isSome_iff_exists, dget?_isSome, hK.mem]; exact hw
  have hPold : ∀ w, weights K W d w = dget? w (fr K old).1 := by
    intro w; unfold weights; rw [hW]; rfl
  -- words only in the old text
  obtain ⟨s2, e2, g2⟩ := loop_good (A := K.arith) (s0 := s1) d (fun _ => none) (fun s wid => delWordinfo wid d s)
    (os.diff (os.inter ns)).toList (toList_nodup _) (inv_good h) (by
      intro w hw s Q hg hq
      obtain ⟨v, hv⟩ := hoS w ((mod w).1 hw).1
      exact delWordinfo_good hg w d (by rw [hq, ne_eq, h.dom, hPold, hv]; simp))
  rw [e2, bind_ok]
  -- words only in the new text
  obtain ⟨s3, e3, g3⟩ := loop_good (A := K.arith) (s0 := s1) d (fun w => dget? w (fr K wids).1) (addStep K (fr K wids).1 d)
    (ns.diff (os.inter ns)).toList (toList_nodup _) g2 (by
      intro w hw s Q hg _
      obtain ⟨v, hv⟩ := hnS w ((mnd w).1 hw).1
      refine ⟨addWordinfo K w v d s, ?_, ?_⟩
      · unfold addStep; rw [pick_some hv]; rfl
      · rw [hv]; exact addWordinfo_good K hg w v d)
  rw [e3, bind_ok]
  -- words in both
  let g : Int → Option R := fun w =>
    match dget? w (fr K old).1, dget? w (fr K wids).1 with
    | some v', some v => if K.arith.neq v' v then some v else P d w
    | _, _ => none
  obtain ⟨s4, e4, g4⟩ := loop_good (A := K.arith) (s0 := s1) d g (bothStep K (fr K old).1 (fr K wids).1 d)
    (os.inter ns).toList (toList_nodup _) g3 (by
      intro w hw s Q hg hq
      obtain ⟨v, hv⟩ := hnS w ((mb w).1 hw).2
      obtain ⟨v', hv'⟩ := hoS w ((mb w).1 hw).1
      unfold bothStep
      rw [pick_some hv, pick_some hv', bind_ok, bind_ok]
      have hgw : g w = if K.arith.neq v' v then some v else P d w := by
        show (match dget? w (fr K old).1, dget? w (fr K wids).1 with
          | some v', some v => if K.arith.neq v' v then some v else P d w
          | _, _ => none) = _
        rw [hv, hv']
      cases hne : K.arith.neq v' v with
      | true =>
        refine ⟨_, rfl, ?_⟩
        rw [hgw, hne, if_pos rfl]; exact addWordinfo_good K hg w v d
      | false =>
        refine ⟨_, rfl, ?_⟩
        have hnd : w ∉ (ns.diff (os.inter ns)).toList := by
          rw [mnd]; exact fun hc => hc.2 ((mb w).1 hw).1
        have hnd' : w ∉ (os.diff (os.inter ns)).toList := by
          rw [mod]; exact fun hc => hc.2 ((mb w).1 hw).2
        have : Q = upd Q d w (g w) := by
          funext d' w'
          unfold upd
          split
          · rename_i hc
            obtain ⟨rfl, rfl⟩ := hc
            rw [hq, hgw, hne]
            simp only [hnd, hnd', and_false, if_false, Bool.false_eq_true]
          · rfl
        rw [← this]; exact hg)
  rw [e4, bind_ok, WidCode.encode_ok hv, bind_ok]
  have hch : Changed K W d (some wids) P (fun d' w => if d' = d ∧ w ∈ (os.inter ns).toList then g w else
      if d' = d ∧ w ∈ (ns.diff (os.inter ns)).toList then dget? w (fr K wids).1 else
      if d' = d ∧ w ∈ (os.diff (os.inter ns)).toList then none else P d' w) := by
    refine ⟨fun d' w hd => by simp [hd], fun w => ?_⟩
    have hnew : weights K (setDoc W d (some wids)) d w = dget? w (fr K wids).1 := by
      unfold weights setDoc; simp
    rw [hnew, hPold]
    simp only [true_and, mb, mod, mnd]
    by_cases ho : w ∈ old
    · by_cases hn : w ∈ wids
      · obtain ⟨v, hv⟩ := hnS w hn
        obtain ⟨v', hv'⟩ := hoS w ho
        have hgw : g w = if K.arith.neq v' v then some v else P d w := by
          show (match dget? w (fr K old).1, dget? w (fr K wids).1 with
            | some v', some v => if K.arith.neq v' v then some v else P d w
            | _, _ => none) = _
          rw [hv, hv']
        simp only [ho, hn, and_self, if_true, hgw]
        cases hne : K.arith.neq v' v with
        | true => left; simp [hv]
        | false =>
          right
          have hvv : v' = v := hK.neq old wids _ _ w v' v (hK.ok old) (hK.ok wids) (dget?_mem hv') (dget?_mem hv) hne
          rw [hv, hv', hvv]; simp
      · left
        simp only [ho, hn, and_false, and_true, if_false, if_true, not_true_eq_false, not_false_eq_true]
        symm; rw [dget?_none, hK.mem]; exact hn
    · by_cases hn : w ∈ wids
      · left; simp [ho, hn]
      · right
        simp only [ho, hn, and_false, if_false, not_true_eq_false, not_false_eq_true, true_and]
        rw [(dget?_none w (fr K old).1).2 (by rw [hK.mem]; exact ho)]
        rw [(dget?_none w (fr K wids).1).2 (by rw [hK.mem]; exact hn)]
        simp
  refine ⟨_, _, rfl, ?_, hch, ?_⟩
  · exact inv_store (d := d) (wids := wids) h hv g4 (hch.dom h.dom) s4.documentCount s4.total
      (by rw [hW, g4.documentCount]; simp)
  · show s4.total = _
    rw [g4.total, ← hs1]

theorem indexDoc_okP (hK : Lawful K) {s : Ix D R} {W : D → Option (List Int)} {P : D → Int → Option R} (h : InvP K s W P) (d : D)
    (wids : List Int) (hv : ∀ w ∈ wids, WidCode.Valid w) :
    ∃ s' P', indexDoc K d wids s = .ok s' ∧ InvP K s' (setDoc W d (some wids)) P' ∧ Changed K W d (some wids) P P' ∧
      s'.total = s.total + if K.hasTotal then wids.length - lenOf K W d else 0 := by
  unfold indexDoc
  rw [h.contains d]
  cases hW : W d with
  | some old =>
    simp only [Option.isSome_some, if_true]
    obtain ⟨s', P', e, hi, hc, ht⟩ := reindexDoc_okP hK h hW wids hv
    rw [e, bind_ok, changeDocLen_eq]
    refine ⟨_, P', rfl, invP_total hi _, hc, ?_⟩
    show s'.total + _ = _
    rw [ht]
    cases K.hasTotal
    · simp
    · simp; omega
  | none =>
    simp only [Option.isSome_none, Bool.false_eq_true, if_false]
    rw [hK.ok wids, bind_ok]
    rw [WidCode.encode_ok hv, bind_ok, changeDocLen_eq]
    have hg := massAdd_good K (inv_good h) d (fr K wids).1 (hK.nodup wids)
    have hch : Changed K W d (some wids) P (updAll P d (fr K wids).1) := by
      refine ⟨fun d' w hd => by unfold updAll; simp [hd], fun w => ?_⟩
      left
      have : P d w = none := (h.dom d w).2 (by unfold weights; rw [hW]; rfl)
      unfold updAll weights setDoc
      simp [this]
    refine ⟨_, _, rfl, ?_, hch, ?_⟩
    · exact inv_store (d := d) (wids := wids) h hv hg (hch.dom h.dom) _ _ (by rw [hW, hg.documentCount]; simp)
    · show (massAdd K (fr K wids).1 d s).total + _ = _
      rw [hg.total]
      unfold lenOf; rw [hW]
      cases K.hasTotal <;> simp

theorem unindexDoc_okP (hK : Lawful K) {s : Ix D R} {W : D → Option (List Int)} {P : D → Int → Option R} (h : InvP K s W P) (d : D) :
    ∃ s' P', unindexDoc K d s = .ok s' ∧ InvP K s' (setDoc W d none) P' ∧ Changed K W d none P P' ∧
      s'.total = s.total - if K.hasTotal then lenOf K W d else 0 := by
  unfold unindexDoc
  rw [h.contains d]
  cases hW : W d with
  | none =>
    simp only [Option.isSome_none, Bool.false_eq_true, if_false]
    have : setDoc W d none = W := by
      funext d'; unfold setDoc; by_cases hd : d' = d
      · simp [hd, hW]
      · simp [hd]
    refine ⟨s, P, rfl, ?_, ⟨fun _ _ _ => rfl, fun w => Or.inr ⟨rfl, by rw [this]⟩⟩, ?_⟩
    · rw [this]; exact h
    · unfold lenOf; rw [hW]; simp
  | some old =>
    simp only [Option.isSome_some, if_true]
    rw [subDocLen_ok h hW, bind_ok]
    have h := invP_total h (s.total - if K.hasTotal then lenOf K W d else 0)
    generalize hs1 : ({ s with total := s.total - if K.hasTotal then lenOf K W d else 0 } : Ix D R) = s1 at h ⊢
    rw [h.getWords hW, bind_ok]
    obtain ⟨s2, e2, g2⟩ := loop_good (A := K.arith) (s0 := s1) d (fun _ => none) (fun s wid => delWordinfo wid d s)
      (SSet.ofList old).toList (toList_nodup _) (inv_good h) (by
        intro w hw s Q hg hq
        refine delWordinfo_good hg w d ?_
        rw [hq, ne_eq, h.dom, ← ne_eq, ← Option.isSome_iff_ne_none, weights_isSome hK]
        exact ⟨old, hW, (mem_toList_ofList _ _).1 hw⟩)
    rw [e2, bind_ok]
    have hch : Changed K W d none P (fun d' w => if d' = d ∧ w ∈ (SSet.ofList old).toList then none else P d' w) := by
      refine ⟨fun d' w hd => by simp [hd], fun w => ?_⟩
      left
      simp only [mem_toList_ofList, true_and]
      have hz : weights K (setDoc W d none) d w = none := by unfold weights setDoc; simp
      rw [hz]
      split
      · rfl
      · rename_i hw
        rw [h.dom]
        unfold weights
        rw [hW, Option.bind_some, dget?_none, hK.mem]; exact hw
    refine ⟨_, _, rfl, ⟨?_, ?_, g2.info, hch.dom h.dom, g2.wordCount, ?_, ?_⟩, hch, ?_⟩
    · intro d'
      show (s2.docwords.del d).get? d' = _
      rw [SMap.get?_del, g2.docwords, h.docwords]
      unfold setDoc; by_cases hd : d' = d <;> simp [hd]
    · intro d'
      show (s2.docweight.del d).get? d' = _
      rw [SMap.get?_del, g2.docweight, h.docweight]
      unfold setDoc; by_cases hd : d' = d <;> simp [hd]
    · show s2.documentCount - 1 = ((s2.docwords.del d).len : Int)
      rw [SMap.len_del, g2.documentCount, g2.docwords, h.contains, hW, h.documentCount]
      have : 0 < s1.docwords.len := by
        have hm : d ∈ s1.docwords.keys := by rw [← SMap.contains_iff_mem, h.contains, hW]; rfl
        rw [← SMap.len_keys]; exact List.length_pos_of_mem hm
      simp only [Option.isSome_some, if_true]
      omega
    · intro d' ws hW' w hw
      unfold setDoc at hW'
      by_cases hd : d' = d
      · simp [hd] at hW'
      · simp [hd] at hW'; exact h.valid d' ws hW' w hw
    · show s2.total = _
      rw [g2.total, ← hs1]

theorem indexDoc_ok (hK : Lawful K) {s : Ix D R} {W : D → Option (List Int)} (h : Inv K s W) (d : D)
    (wids : List Int) (hv : ∀ w ∈ wids, WidCode.Valid w) :
    ∃ s', indexDoc K d wids s = .ok s' ∧ Inv K s' (setDoc W d (some wids)) ∧
      s'.total = s.total + if K.hasTotal then wids.length - lenOf K W d else 0 := by
  obtain ⟨s', P', e, hi, hc, ht⟩ := indexDoc_okP hK h.toP d wids hv
  exact ⟨s', e, hi.toInv hc.exact, ht⟩

theorem unindexDoc_ok (hK : Lawful K) {s : Ix D R} {W : D → Option (List Int)} (h : Inv K s W) (d : D) :
    ∃ s', unindexDoc K d s = .ok s' ∧ Inv K s' (setDoc W d none) ∧
      s'.total = s.total - if K.hasTotal then lenOf K W d else 0 := by
  obtain ⟨s', P', e, hi, hc, ht⟩ := unindexDoc_okP hK h.toP d
  exact ⟨s', e, hi.toInv hc.exact, ht⟩

end Verif.Text
