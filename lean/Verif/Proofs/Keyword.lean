import Verif.Proofs.Base
import Verif.Spec.Keyword

/-! Lemmas about `Verif.Model.Keyword`. -/

set_option autoImplicit false

namespace Verif.Keyword

open Spec.Keyword

variable {D W : Type} [LinearOrder D] [LinearOrder W]

/-- the forward map lists document `x` under word `w` -/
def Holds (fwd : SMap W (DocSet D)) (w : W) (x : D) : Prop := ∃ set, fwd.get? w = some set ∧ x ∈ set.ids.keys

/-- no empty sets -/
def NE (fwd : SMap W (DocSet D)) : Prop := ∀ w set, fwd.get? w = some set → ∃ x, x ∈ set.ids.keys

/-- the invariant, relative to the assignment of keywords -/
structure Inv (s : Keyword D W) (m : D → List W) : Prop where
  fwd : ∀ w d, Holds s.fwd w d ↔ w ∈ m d
  ne : NE s.fwd
  rev : ∀ d, (m d = [] → s.rev.get? d = none) ∧
    (m d ≠ [] → ∃ kws, s.rev.get? d = some kws ∧ ∀ w, w ∈ kws.keys ↔ w ∈ m d)
  count : s.numDocs = s.rev.len

theorem removeWord_ok {fwd : SMap W (DocSet D)} (hne : NE fwd) {d : D} {w : W} (h : Holds fwd w d) :
    ∃ fwd', removeWord fwd d w = some fwd' ∧ NE fwd' ∧
      ∀ w' x, Holds fwd' w' x ↔ Holds fwd w' x ∧ ¬ (x = d ∧ w' = w) := by
  obtain ⟨set, hset, hd⟩ := h
  unfold removeWord
  rw [hset]
  dsimp only
  rw [if_pos ((SMap.contains_iff_mem _ _).2 hd)]
  refine ⟨_, rfl, ?_, ?_⟩
  · intro w' set' h'
    by_cases he : (SMap.del set.ids d).isEmpty = true
    · rw [if_pos he] at h'
      by_cases hw : w' = w
      · subst hw; simp at h'
      · rw [SMap.get?_del_ne _ hw, SMap.get?_set_ne _ hw] at h'
        exact hne w' set' h'
    · rw [if_neg he] at h'
      by_cases hw : w' = w
      · subst hw
        rw [SMap.get?_set_self] at h'
        cases h'
        by_contra hc
        apply he
        rw [SSet.isEmpty_iff_keys]
        intro k hk
        exact hc ⟨k, hk⟩
      · rw [SMap.get?_set_ne _ hw] at h'
        exact hne w' set' h'
  · intro w' x
    by_cases hw : w' = w
    · subst hw
      have hR : Holds fwd w' x ↔ x ∈ set.ids.keys := by
        unfold Holds
        rw [hset]
        simp
      rw [hR]
      by_cases he : (SMap.del set.ids d).isEmpty = true
      · rw [if_pos he]
        have hno := (SSet.isEmpty_iff_keys _).1 he x
        rw [SSet.mem_keys_del] at hno
        constructor
        · rintro ⟨set', h', _⟩; simp at h'
        · rintro ⟨h1, h2⟩
          exact absurd ⟨h1, fun e => h2 ⟨e, rfl⟩⟩ hno
      · rw [if_neg he]
        unfold Holds
        rw [SMap.get?_set_self]
        constructor
        · rintro ⟨set', h', hx⟩
          cases h'
          rw [SSet.mem_keys_del] at hx
          exact ⟨hx.1, fun e => hx.2 e.1⟩
        · rintro ⟨h1, h2⟩
          exact ⟨_, rfl, (SSet.mem_keys_del _ _ _).2 ⟨h1, fun e => h2 ⟨e, rfl⟩⟩⟩
    · have : ∀ fwd' : SMap W (DocSet D), fwd'.get? w' = fwd.get? w' → (Holds fwd' w' x ↔ Holds fwd w' x) := by
        intro fwd' h; unfold Holds; rw [h]
      rw [this]
      · simp [hw]
      · split
        · rw [SMap.get?_del_ne _ hw, SMap.get?_set_ne _ hw]
        · rw [SMap.get?_set_ne _ hw]

theorem removeWords_ok (d : D) : ∀ (ws : List W) (fwd : SMap W (DocSet D)), NE fwd → ws.Nodup →
    (∀ w ∈ ws, Holds fwd w d) →
    (removeWords fwd d ws).2 = false ∧ NE (removeWords fwd d ws).1 ∧
      ∀ w x, Holds (removeWords fwd d ws).1 w x ↔ Holds fwd w x ∧ ¬ (x = d ∧ w ∈ ws) := by
  intro ws
  induction ws with
  | nil => intro fwd hne _ _; exact ⟨rfl, hne, by intro w x; simp [removeWords]⟩
  | cons a t ih =>
    intro fwd hne hnd hall
    rw [List.nodup_cons] at hnd
    obtain ⟨fwd1, h1, hne1, hh1⟩ := removeWord_ok hne (hall a List.mem_cons_self)
    unfold removeWords
    rw [h1]
    dsimp only
    obtain ⟨h2, hne2, hh2⟩ := ih fwd1 hne1 hnd.2 (by
      intro w hw
      rw [hh1]
      refine ⟨hall w (List.mem_cons_of_mem _ hw), ?_⟩
      rintro ⟨_, e⟩
      rw [e] at hw; exact hnd.1 hw)
    refine ⟨h2, hne2, ?_⟩
    intro w x
    rw [hh2, hh1, List.mem_cons]
    tauto

theorem insertWord_spec (th : Int) (d : D) (fwd : SMap W (DocSet D)) (hne : NE fwd) (w : W) :
    NE (insertWord th d fwd w) ∧
      ∀ w' x, Holds (insertWord th d fwd w) w' x ↔ Holds fwd w' x ∨ (x = d ∧ w' = w) := by
  have key : ∃ b, insertWord th d fwd w = fwd.set w
      { isTree := b, ids := SSet.insert (match fwd.get? w with | none => SMap.empty | some set => set.ids) d } := by
    unfold insertWord
    dsimp only
    cases fwd.get? w with
    | none => dsimp only; split <;> exact ⟨_, rfl⟩
    | some set => dsimp only; split <;> exact ⟨_, rfl⟩
  obtain ⟨b, hb⟩ := key
  rw [hb]
  constructor
  · intro w' set' h'
    by_cases hw : w' = w
    · subst hw
      rw [SMap.get?_set_self] at h'
      cases h'
      exact ⟨d, (SSet.mem_keys_insert _ _ _).2 (Or.inl rfl)⟩
    · rw [SMap.get?_set_ne _ hw] at h'
      exact hne w' set' h'
  · intro w' x
    by_cases hw : w' = w
    · subst hw
      unfold Holds
      rw [SMap.get?_set_self]
      constructor
      · rintro ⟨set', h', hx⟩
        cases h'
        rw [SSet.mem_keys_insert] at hx
        rcases hx with rfl | hx
        · exact Or.inr ⟨rfl, rfl⟩
        · left
          cases hg : fwd.get? w' with
          | none => rw [hg] at hx; simp at hx
          | some set => rw [hg] at hx; exact ⟨set, rfl, hx⟩
      · intro h
        refine ⟨_, rfl, ?_⟩
        rw [SSet.mem_keys_insert]
        rcases h with ⟨set, hs, hx⟩ | ⟨rfl, _⟩
        · right; rw [hs]; exact hx
        · exact Or.inl rfl
    · unfold Holds
      rw [SMap.get?_set_ne _ hw]
      simp [hw]

theorem insertForward_spec (th : Int) (d : D) : ∀ (ws : List W) (fwd : SMap W (DocSet D)), NE fwd →
    NE (insertForward th fwd d ws) ∧
      ∀ w x, Holds (insertForward th fwd d ws) w x ↔ Holds fwd w x ∨ (x = d ∧ w ∈ ws) := by
  intro ws
  induction ws with
  | nil => intro fwd hne; exact ⟨hne, by intro w x; simp [insertForward]⟩
  | cons a t ih =>
    intro fwd hne
    obtain ⟨hne1, h1⟩ := insertWord_spec th d fwd hne a
    obtain ⟨hne2, h2⟩ := ih _ hne1
    refine ⟨hne2, ?_⟩
    intro w x
    have : insertForward th fwd d (a :: t) = insertForward th (insertWord th d fwd a) d t := rfl
    rw [this, h2, h1, List.mem_cons]
    tauto

theorem inv_new : Inv (new : Keyword D W) (fun _ => []) := by
  refine ⟨?_, ?_, ?_, rfl⟩
  · intro w d; simp [Holds, new]
  · intro w set h; simp [new] at h
  · intro d; simp [new]

theorem inv_unindex {s : Keyword D W} {m : D → List W} (hi : Inv s m) (d : D) :
    Inv (s.unindexDoc d) (fun x => if x = d then [] else m x) := by
  unfold unindexDoc
  by_cases hm : m d = []
  · rw [(hi.rev d).1 hm]
    have : (fun x => if x = d then [] else m x) = m := by
      funext x; by_cases hx : x = d
      · rw [if_pos hx, hx, hm]
      · rw [if_neg hx]
    rw [this]; exact hi
  · obtain ⟨kws, hk, hkw⟩ := (hi.rev d).2 hm
    rw [hk]
    dsimp only
    obtain ⟨h1, hne, hh⟩ := removeWords_ok d kws.keys s.fwd hi.ne (SMap.keys_nodup _)
      (fun w hw => (hi.fwd w d).2 ((hkw w).1 hw))
    rw [if_neg (by simp [h1])]
    refine ⟨?_, hne, ?_, ?_⟩
    · intro w x
      show Holds _ w x ↔ _
      rw [hh, hi.fwd, hkw]
      by_cases hx : x = d
      · simp [hx]
      · simp [hx]
    · intro x
      show (_ → (s.rev.del d).get? x = _) ∧ (_ → ∃ kws, (s.rev.del d).get? x = _ ∧ _)
      rw [SMap.get?_del]
      by_cases hx : x = d
      · simp [hx]
      · simp only [if_neg hx]; exact hi.rev x
    · show s.numDocs - 1 = _
      have hc : s.rev.contains d = true := SMap.contains_of_get? hk
      have hpos : 1 ≤ s.rev.len := by
        rw [← SMap.len_keys]
        exact List.length_pos_of_mem ((SMap.contains_iff_mem _ _).1 hc)
      rw [SMap.len_del, if_pos hc, hi.count]
      omega

theorem inv_index {normalize : List W → List W} {s : Keyword D W} {m : D → List W} (hi : Inv s m) (d : D)
    (seq : SeqArg W) (hp : ∀ items, seq = .seq true items → normalize items ≠ []) :
    Inv (s.indexDoc normalize d seq).1 (update normalize m (.index d seq)) ∧
      ((s.indexDoc normalize d seq).2 = if seq matches .str then some .TypeError else none) := by
  cases seq with
  | str => exact ⟨hi, rfl⟩
  | seq truthy items =>
    cases truthy with
    | false =>
      show Inv (indexDoc normalize s d (.seq false items)).1 (fun x => if x = d then [] else m x) ∧ _
      unfold indexDoc
      simp only [Bool.not_false, if_true]
      by_cases hm : m d = []
      · rw [(hi.rev d).1 hm]
        have : (fun x => if x = d then [] else m x) = m := by
          funext x; by_cases hx : x = d
          · rw [if_pos hx, hx, hm]
          · rw [if_neg hx]
        rw [this]; exact ⟨hi, rfl⟩
      · obtain ⟨kws, hk, hkw⟩ := (hi.rev d).2 hm
        rw [hk]
        have : kws.isEmpty = false := by
          obtain ⟨w, hw⟩ := List.exists_mem_of_ne_nil _ hm
          rw [← Bool.not_eq_true, SSet.isEmpty_iff_keys]
          intro hc; exact hc w ((hkw w).2 hw)
        simp only [this, Bool.false_eq_true, if_false]
        exact ⟨inv_unindex hi d, trivial⟩
    | true =>
      have hn := hp items rfl
      show Inv (indexDoc normalize s d (.seq true items)).1
        (fun x => if x = d then normalize items else m x) ∧ _
      have hne' : (SSet.ofList (normalize items)).isEmpty = false := by
        obtain ⟨w, hw⟩ := List.exists_mem_of_ne_nil _ hn
        rw [← Bool.not_eq_true, SSet.isEmpty_iff_keys]
        intro hc; exact hc w ((SSet.mem_keys_ofList _ _).2 hw)
      unfold indexDoc
      simp only [Bool.not_true, Bool.false_eq_true, if_false]
      by_cases hm : m d = []
      · rw [(hi.rev d).1 hm]
        dsimp only
        obtain ⟨hne1, hh⟩ := insertForward_spec s.treeThreshold d (SSet.ofList (normalize items)).keys s.fwd hi.ne
        refine ⟨⟨?_, hne1, ?_, ?_⟩, rfl⟩
        · intro w x
          show Holds _ w x ↔ _
          rw [hh, hi.fwd, SSet.mem_keys_ofList]
          by_cases hx : x = d
          · simp [hx, hm]
          · simp [hx]
        · intro x
          simp only [insertReverse, hne', Bool.false_eq_true, if_false]
          rw [SMap.get?_set]
          by_cases hx : x = d
          · simp only [if_pos hx]
            refine ⟨fun h => absurd h hn, fun _ => ⟨_, rfl, fun w => ?_⟩⟩
            rw [SSet.mem_keys_ofList]
          · simp only [if_neg hx]; exact hi.rev x
        · have hc : s.rev.contains d = false := (SMap.contains_eq_false _ _).2 ((hi.rev d).1 hm)
          simp only [insertReverse, hne', Bool.false_eq_true, if_false]
          rw [SMap.len_set, hc, hi.count]
          simp
      · obtain ⟨kws, hk, hkw⟩ := (hi.rev d).2 hm
        rw [hk]
        dsimp only
        obtain ⟨h1, hne1, hh1⟩ := removeWords_ok d (SSet.diff kws (SSet.ofList (normalize items))).keys s.fwd hi.ne
          (SMap.keys_nodup _) (fun w hw => (hi.fwd w d).2 ((hkw w).1 ((SSet.mem_keys_diff _ _ _).1 hw).1))
        rw [if_neg (by simp [h1])]
        obtain ⟨hne2, hh2⟩ := insertForward_spec s.treeThreshold d
          (SSet.diff (SSet.ofList (normalize items)) kws).keys _ hne1
        refine ⟨⟨?_, hne2, ?_, ?_⟩, rfl⟩
        · intro w x
          show Holds _ w x ↔ _
          rw [hh2, hh1, hi.fwd, SSet.mem_keys_diff, SSet.mem_keys_diff, hkw, SSet.mem_keys_ofList]
          by_cases hx : x = d
          · subst hx
            simp only [true_and, if_true]
            tauto
          · simp [hx]
        · intro x
          simp only [insertReverse, hne', Bool.false_eq_true, if_false]
          rw [SMap.get?_set]
          by_cases hx : x = d
          · simp only [if_pos hx]
            refine ⟨fun h => absurd h hn, fun _ => ⟨_, rfl, fun w => ?_⟩⟩
            rw [SSet.mem_keys_ofList]
          · simp only [if_neg hx]; exact hi.rev x
        · have hc : s.rev.contains d = true := SMap.contains_of_get? hk
          simp only [insertReverse, hne', Bool.false_eq_true, if_false]
          rw [SMap.len_set, hc, hi.count]
          simp

theorem holds_optimize (s : Keyword D W) (w : W) (d : D) : Holds s.optimize.fwd w d ↔ Holds s.fwd w d := by
  unfold Holds optimize
  rw [SMap.get?_mapVals]
  have hids : ∀ (t : Int) (set : DocSet D), (optimizeSet t set).ids = set.ids := by
    intro t set; unfold optimizeSet; split <;> split <;> rfl
  cases s.fwd.get? w with
  | none => simp
  | some set => simp [hids]

theorem inv_step {normalize : List W → List W} {s : Keyword D W} {m : D → List W} (hi : Inv s m) (op : Op D W)
    (hp : ∀ d items, op = .index d (.seq true items) → normalize items ≠ []) :
    Inv (s.step normalize op).1 (update normalize m op) ∧
      ((s.step normalize op).2 = if op matches .index _ .str then some .TypeError else none) := by
  cases op with
  | index d seq =>
    obtain ⟨h1, h2⟩ := inv_index (normalize := normalize) hi d seq (fun items e => hp d items (by rw [e]))
    refine ⟨h1, ?_⟩
    show (indexDoc normalize s d seq).2 = _
    rw [h2]
    cases seq <;> rfl
  | unindex d => exact ⟨inv_unindex hi d, rfl⟩
  | clear => exact ⟨⟨inv_new.fwd, inv_new.ne, inv_new.rev, rfl⟩, rfl⟩
  | optimize =>
    refine ⟨⟨?_, ?_, hi.rev, hi.count⟩, rfl⟩
    · intro w d
      show Holds s.optimize.fwd w d ↔ _
      rw [holds_optimize]; exact hi.fwd w d
    · intro w set h
      have h' : (s.fwd.mapVals (fun _ set => optimizeSet s.treeThreshold set)).get? w = some set := h
      have hw : ∃ x, Holds s.optimize.fwd w x := by
        rw [SMap.get?_mapVals] at h'
        cases hg : s.fwd.get? w with
        | none => rw [hg] at h'; simp at h'
        | some set0 =>
          obtain ⟨x, hx⟩ := hi.ne w set0 hg
          exact ⟨x, (holds_optimize s w x).2 ⟨set0, hg, hx⟩⟩
      obtain ⟨x, set', hs', hx⟩ := hw
      have e : s.optimize.fwd.get? w = some set := h
      rw [e] at hs'
      cases hs'
      exact ⟨x, hx⟩
  | setThreshold n => exact ⟨⟨hi.fwd, hi.ne, hi.rev, hi.count⟩, rfl⟩

theorem run_inv (normalize : List W → List W) (ops : List (Op D W)) (hp : Plain normalize ops) :
    Inv (run normalize ops) (current normalize ops) := by
  unfold run current
  have : ∀ (s : Keyword D W) (m : D → List W), Inv s m →
      Inv (ops.foldl (fun s op => (step normalize s op).1) s) (ops.foldl (update normalize) m) := by
    induction ops with
    | nil => intro s m hi; exact hi
    | cons op t ih =>
      intro s m hi
      refine ih (fun d items h => hp d items (List.mem_cons_of_mem _ h)) _ _ (inv_step hi op ?_).1
      rintro d items rfl
      exact hp d items List.mem_cons_self
  exact this new _ inv_new

/-! ### search -/

theorem interLoop_spec (sets : List (SSet D)) : ∀ (rs : SSet D),
    ∃ r, interLoop (some rs) sets = some r ∧
      ∀ x, x ∈ r.keys ↔ x ∈ rs.keys ∧ ∀ set ∈ sets, x ∈ set.keys := by
  induction sets with
  | nil => intro rs; exact ⟨rs, rfl, by simp⟩
  | cons a t ih =>
    intro rs
    unfold interLoop
    dsimp only
    by_cases he : SMap.isEmpty (SSet.inter rs a) = true
    · rw [if_pos he]
      refine ⟨_, rfl, ?_⟩
      intro x
      have hno := (SSet.isEmpty_iff_keys _).1 he x
      constructor
      · intro h; exact absurd h hno
      · rintro ⟨h1, h2⟩
        exact absurd ((SSet.mem_keys_inter _ _ _).2 ⟨h1, h2 a List.mem_cons_self⟩) hno
    · rw [if_neg he]
      obtain ⟨r, hr, hx⟩ := ih (SSet.inter rs a)
      refine ⟨r, hr, ?_⟩
      intro x
      rw [hx, SSet.mem_keys_inter]
      simp only [List.mem_cons, forall_eq_or_imp]
      tauto

theorem interLoop_none (sets : List (SSet D)) (hne : sets ≠ []) :
    ∃ r, interLoop none sets = some r ∧ ∀ x, x ∈ r.keys ↔ ∀ set ∈ sets, x ∈ set.keys := by
  cases sets with
  | nil => exact absurd rfl hne
  | cons a t =>
    unfold interLoop
    dsimp only
    by_cases he : SMap.isEmpty a = true
    · rw [if_pos he]
      refine ⟨a, rfl, ?_⟩
      intro x
      have hno := (SSet.isEmpty_iff_keys _).1 he x
      constructor
      · intro h; exact absurd h hno
      · intro h; exact absurd (h a List.mem_cons_self) hno
    · rw [if_neg he]
      obtain ⟨r, hr, hx⟩ := interLoop_spec t a
      refine ⟨r, hr, ?_⟩
      intro x
      rw [hx]
      simp only [List.mem_cons, forall_eq_or_imp]

theorem finish_spec (rs : Option (SSet D)) :
    ∃ r, search.finish rs = .ok r ∧ ∀ x, x ∈ r.keys ↔ ∃ s, rs = some s ∧ x ∈ s.keys := by
  unfold search.finish
  cases rs with
  | none => exact ⟨_, rfl, by intro x; simp [SMap.empty, SMap.keys]⟩
  | some s =>
    dsimp only
    by_cases he : SMap.isEmpty s = true
    · rw [if_pos he]
      refine ⟨_, rfl, ?_⟩
      intro x
      have hno := (SSet.isEmpty_iff_keys _).1 he x
      constructor
      · intro h; simp [SMap.empty, SMap.keys] at h
      · rintro ⟨s', e, h⟩; cases e; exact absurd h hno
    · rw [if_neg he]
      exact ⟨_, rfl, by intro x; simp⟩

theorem mem_set (s : Keyword D W) (w : W) (x : D) :
    x ∈ (s.docidsOf w).keys ↔ Holds s.fwd w x := by
  unfold Holds docidsOf
  cases s.fwd.get? w with
  | none => simp [SMap.empty, SMap.keys]
  | some set => simp

/-! ### stored as Set or TreeSet -/

/-- equal up to how the sets are stored -/
structure Same (s t : Keyword D W) : Prop where
  rev : s.rev = t.rev
  numDocs : s.numDocs = t.numDocs
  fwd : ∀ w, (s.fwd.get? w).map (·.ids) = (t.fwd.get? w).map (·.ids)

theorem same_removeWord {f g : SMap W (DocSet D)} (h : ∀ w, (f.get? w).map (·.ids) = (g.get? w).map (·.ids))
    (d : D) (w : W) :
    (removeWord f d w = none ∧ removeWord g d w = none) ∨
    ∃ f' g', removeWord f d w = some f' ∧ removeWord g d w = some g' ∧
      ∀ w, (f'.get? w).map (·.ids) = (g'.get? w).map (·.ids) := by
  have hw := h w
  unfold removeWord
  cases hf : f.get? w with
  | none =>
    rw [hf] at hw
    cases hg : g.get? w with
    | none => exact Or.inl ⟨rfl, rfl⟩
    | some b => rw [hg] at hw; simp at hw
  | some a =>
    rw [hf] at hw
    cases hg : g.get? w with
    | none => rw [hg] at hw; simp at hw
    | some b =>
      rw [hg] at hw
      simp only [Option.map_some, Option.some.injEq] at hw
      dsimp only
      rw [hw]
      by_cases hc : SMap.contains b.ids d = true
      · rw [if_pos hc, if_pos hc]
        refine Or.inr ⟨_, _, rfl, rfl, ?_⟩
        intro w'
        by_cases hww : w' = w
        · subst hww
          split <;> simp
        · split
          · rw [SMap.get?_del_ne _ hww, SMap.get?_set_ne _ hww, SMap.get?_del_ne _ hww, SMap.get?_set_ne _ hww]
            exact h w'
          · rw [SMap.get?_set_ne _ hww, SMap.get?_set_ne _ hww]
            exact h w'
      · rw [if_neg hc, if_neg hc]
        exact Or.inl ⟨rfl, rfl⟩

theorem same_removeWords (d : D) : ∀ (ws : List W) (f g : SMap W (DocSet D)),
    (∀ w, (f.get? w).map (·.ids) = (g.get? w).map (·.ids)) →
    (removeWords f d ws).2 = (removeWords g d ws).2 ∧
      ∀ w, ((removeWords f d ws).1.get? w).map (·.ids) = ((removeWords g d ws).1.get? w).map (·.ids) := by
  intro ws
  induction ws with
  | nil => intro f g h; exact ⟨rfl, h⟩
  | cons a t ih =>
    intro f g h
    unfold removeWords
    rcases same_removeWord h d a with ⟨h1, h2⟩ | ⟨f', g', h1, h2, h3⟩
    · rw [h1, h2]; exact ⟨rfl, h⟩
    · rw [h1, h2]; exact ih f' g' h3

theorem insertWord_ids (th : Int) (d : D) (f : SMap W (DocSet D)) (a w : W) :
    ((insertWord th d f a).get? w).map (·.ids) = if w = a then
      some (SSet.insert (((f.get? a).map (·.ids)).getD SMap.empty) d) else (f.get? w).map (·.ids) := by
  unfold insertWord
  dsimp only
  by_cases hw : w = a
  · subst hw
    cases hg : f.get? w with
    | none => dsimp only; split <;> simp
    | some set => dsimp only; split <;> simp
  · cases hg : f.get? a with
    | none => dsimp only; rw [if_neg hw]; split <;> rw [SMap.get?_set_ne _ hw]
    | some set => dsimp only; rw [if_neg hw]; split <;> rw [SMap.get?_set_ne _ hw]

theorem same_insertForward (th th' : Int) (d : D) : ∀ (ws : List W) (f g : SMap W (DocSet D)),
    (∀ w, (f.get? w).map (·.ids) = (g.get? w).map (·.ids)) →
    ∀ w, ((insertForward th f d ws).get? w).map (·.ids) = ((insertForward th' g d ws).get? w).map (·.ids) := by
  intro ws
  induction ws with
  | nil => intro f g h; exact h
  | cons a t ih =>
    intro f g h
    apply ih
    intro w
    rw [insertWord_ids, insertWord_ids, h a, h w]

theorem same_unindex {s t : Keyword D W} (h : Same s t) (d : D) : Same (s.unindexDoc d) (t.unindexDoc d) := by
  unfold unindexDoc
  rw [h.rev]
  cases hg : t.rev.get? d with
  | none => exact h
  | some kws =>
    dsimp only
    obtain ⟨h1, h2⟩ := same_removeWords d kws.keys s.fwd t.fwd h.fwd
    rw [h1]
    split
    · exact ⟨rfl, h.numDocs, h2⟩
    · exact ⟨rfl, by simp only [h.numDocs], h2⟩

theorem same_index (normalize : List W → List W) {s t : Keyword D W} (h : Same s t) (d : D) (seq : SeqArg W) :
    Same (s.indexDoc normalize d seq).1 (t.indexDoc normalize d seq).1 ∧
      (s.indexDoc normalize d seq).2 = (t.indexDoc normalize d seq).2 := by
  cases seq with
  | str => exact ⟨h, rfl⟩
  | seq truthy items =>
    unfold indexDoc
    dsimp only
    rw [h.rev]
    cases truthy with
    | false =>
      simp only [Bool.not_false, if_true]
      cases hg : t.rev.get? d with
      | none => exact ⟨h, rfl⟩
      | some kws =>
        dsimp only
        split
        · exact ⟨h, rfl⟩
        · exact ⟨same_unindex h d, rfl⟩
    | true =>
      simp only [Bool.not_true, Bool.false_eq_true, if_false]
      cases hg : t.rev.get? d with
      | none =>
        exact ⟨⟨rfl, by simp only [h.numDocs], same_insertForward _ _ d _ _ _ h.fwd⟩, rfl⟩
      | some kws =>
        dsimp only
        obtain ⟨h1, h2⟩ := same_removeWords d (SSet.diff kws (SSet.ofList (normalize items))).keys s.fwd t.fwd h.fwd
        rw [h1]
        split
        · exact ⟨⟨rfl, h.numDocs, h2⟩, rfl⟩
        · exact ⟨⟨rfl, h.numDocs, same_insertForward _ _ d _ _ _ h2⟩, rfl⟩

theorem same_optimize (s : Keyword D W) : Same s.optimize s := by
  refine ⟨rfl, rfl, ?_⟩
  intro w
  unfold optimize
  rw [SMap.get?_mapVals]
  have hids : ∀ (t : Int) (set : DocSet D), (optimizeSet t set).ids = set.ids := by
    intro t set; unfold optimizeSet; split <;> split <;> rfl
  cases s.fwd.get? w with
  | none => rfl
  | some set => simp [hids]

theorem Same.trans {a b c : Keyword D W} (h : Same a b) (h' : Same b c) : Same a c :=
  ⟨h.rev.trans h'.rev, h.numDocs.trans h'.numDocs, fun w => (h.fwd w).trans (h'.fwd w)⟩

theorem Same.symm {a b : Keyword D W} (h : Same a b) : Same b a :=
  ⟨h.rev.symm, h.numDocs.symm, fun w => (h.fwd w).symm⟩

theorem Same.refl (a : Keyword D W) : Same a a := ⟨rfl, rfl, fun _ => rfl⟩

theorem same_search {s t : Keyword D W} (h : Same s t) (normalize : List W → List W) (q : QueryArg W)
    (op : Operator) : s.search normalize q op = t.search normalize q op := by
  have hset : s.docidsOf = t.docidsOf := by
    funext w
    unfold docidsOf
    have := h.fwd w
    cases hs : s.fwd.get? w <;> cases ht : t.fwd.get? w <;> rw [hs, ht] at this <;> simp_all
  unfold search
  rw [hset]

theorem same_wordCount {s t : Keyword D W} (h : Same s t) : s.wordCount = t.wordCount := by
  unfold wordCount
  apply SMap.len_eq_of_keys_iff
  intro w
  have := h.fwd w
  rw [SMap.mem_keys_iff, SMap.mem_keys_iff]
  cases hs : s.fwd.get? w <;> cases ht : t.fwd.get? w <;> rw [hs, ht] at this <;> simp_all

/-! ### `index_doc` and `search` look at their words only through `normalize` -/

theorem indexDoc_congr (normalize : List W → List W) (s : Keyword D W) (d : D) (t : Bool) {items items' : List W}
    (h : normalize items = normalize items') :
    s.indexDoc normalize d (.seq t items) = s.indexDoc normalize d (.seq t items') := by
  unfold indexDoc
  dsimp only
  rw [h]

theorem search_congr (normalize : List W → List W) (s : Keyword D W) {q q' : QueryArg W} (op : Operator)
    (h : normalize (Spec.Keyword.words q) = normalize (Spec.Keyword.words q')) :
    s.search normalize q op = s.search normalize q' op := by
  have e : ∀ p : QueryArg W, s.search normalize p op = s.search normalize (.seq (Spec.Keyword.words p)) op := by
    intro p; cases p <;> rfl
  rw [e q, e q']
  unfold search
  dsimp only
  rw [h]

/-! ### every history -/

theorem rev_len_le (normalize : List W → List W) (s : Keyword D W) (op : Op D W) (h : (s.rev.len : Int) ≤ s.numDocs) :
    ((s.step normalize op).1.rev.len : Int) ≤ (s.step normalize op).1.numDocs := by
  have hun : ∀ d, ((s.unindexDoc d).rev.len : Int) ≤ (s.unindexDoc d).numDocs := by
    intro d
    unfold unindexDoc
    cases hg : s.rev.get? d with
    | none => exact h
    | some kws =>
      dsimp only
      split
      · exact h
      · have hc : s.rev.contains d = true := SMap.contains_of_get? hg
        have hpos : 1 ≤ s.rev.len := by
          rw [← SMap.len_keys]
          exact List.length_pos_of_mem ((SMap.contains_iff_mem _ _).1 hc)
        show ((s.rev.del d).len : Int) ≤ s.numDocs - 1
        rw [SMap.len_del, if_pos hc]
        omega
  cases op with
  | index d seq =>
    show ((indexDoc normalize s d seq).1.rev.len : Int) ≤ (indexDoc normalize s d seq).1.numDocs
    cases seq with
    | str => exact h
    | seq truthy items =>
      unfold indexDoc
      dsimp only
      cases truthy with
      | false =>
        simp only [Bool.not_false, if_true]
        cases hg : s.rev.get? d with
        | none => exact h
        | some kws =>
          dsimp only
          split
          · exact h
          · exact hun d
      | true =>
        simp only [Bool.not_true, Bool.false_eq_true, if_false]
        cases hg : s.rev.get? d with
        | none =>
          show ((insertReverse s.rev d _).len : Int) ≤ s.numDocs + 1
          unfold insertReverse
          split
          · omega
          · rw [SMap.len_set, (SMap.contains_eq_false _ _).2 hg]
            simp; exact h
        | some kws =>
          dsimp only
          split
          · exact h
          · show ((insertReverse s.rev d _).len : Int) ≤ s.numDocs
            unfold insertReverse
            split
            · exact h
            · rw [SMap.len_set, SMap.contains_of_get? hg]
              simpa using h
  | unindex d => exact hun d
  | clear => simp [step, clear, SMap.len, SMap.empty]
  | optimize => exact h
  | setThreshold n => exact h

theorem search_and (normalize : List W → List W) (s : Keyword D W) (q : QueryArg W) :
    ∃ r, s.search normalize q .and = .ok r ∧
      ∀ x, x ∈ r.keys ↔ normalize (words q) ≠ [] ∧ ∀ w ∈ normalize (words q), Holds s.fwd w x := by
  have e : s.search normalize q .and = search.finish (interLoop none
      (((normalize (words q)).map s.docidsOf).insertionSort (fun a b => a.len ≤ b.len))) := by cases q <;> rfl
  rw [e]
  set sets := (normalize (words q)).map s.docidsOf with hsets
  obtain ⟨r, hr, hx⟩ := finish_spec (interLoop none (sets.insertionSort (fun a b => a.len ≤ b.len)))
  refine ⟨r, hr, ?_⟩
  intro x
  rw [hx]
  by_cases hn : normalize (words q) = []
  · have : sets = [] := by rw [hsets, hn]; rfl
    rw [this]
    simp [hn, interLoop]
  · have hsn : sets.insertionSort (fun a b => a.len ≤ b.len) ≠ [] := by
      intro hc
      have := congrArg List.length hc
      rw [List.length_insertionSort, hsets] at this
      simp at this
      exact hn this
    obtain ⟨r', hr', hx'⟩ := interLoop_none _ hsn
    rw [hr']
    simp only [Option.some.injEq, exists_eq_left', hx', List.mem_insertionSort]
    simp only [ne_eq, hn, not_false_eq_true, true_and]
    constructor
    · intro h w hw
      rw [← mem_set]
      exact h _ (List.mem_map.2 ⟨w, hw, rfl⟩)
    · intro h set hset
      obtain ⟨w, hw, rfl⟩ := List.mem_map.1 hset
      rw [mem_set]
      exact h w hw

theorem search_or (normalize : List W → List W) (s : Keyword D W) (q : QueryArg W) :
    ∃ r, s.search normalize q .or = .ok r ∧
      ∀ x, x ∈ r.keys ↔ ∃ w ∈ normalize (words q), Holds s.fwd w x := by
  have e : s.search normalize q .or = search.finish (some (SSet.multiunion ((normalize (words q)).map s.docidsOf))) := by
    cases q <;> rfl
  rw [e]
  obtain ⟨r, hr, hx⟩ := finish_spec (some (SSet.multiunion ((normalize (words q)).map s.docidsOf)))
  refine ⟨r, hr, ?_⟩
  intro x
  rw [hx]
  simp only [Option.some.injEq, exists_eq_left', SSet.mem_keys_multiunion]
  constructor
  · rintro ⟨set, hset, hxs⟩
    obtain ⟨w, hw, rfl⟩ := List.mem_map.1 hset
    rw [mem_set] at hxs
    exact ⟨w, hw, hxs⟩
  · rintro ⟨w, hw, h⟩
    exact ⟨_, List.mem_map.2 ⟨w, hw, rfl⟩, (mem_set s w x).2 h⟩

/-! ### calls for one document do not concern the others, whatever the state -/

theorem removeWord_others {fwd fwd' : SMap W (DocSet D)} {d x : D} {w : W} (hx : x ≠ d) (h : removeWord fwd d w = some fwd') (w' : W) :
    Holds fwd' w' x ↔ Holds fwd w' x := by
  unfold removeWord at h
  split at h
  · cases h
  · rename_i set hset
    split at h
    · cases h
      by_cases hw : w' = w
      · subst hw
        have hR : Holds fwd w' x ↔ x ∈ set.ids.keys := by
          unfold Holds
          rw [hset]
          simp
        rw [hR]
        by_cases he : (SMap.del set.ids d).isEmpty = true
        · rw [if_pos he]
          have hno := (SSet.isEmpty_iff_keys _).1 he x
          rw [SSet.mem_keys_del] at hno
          constructor
          · rintro ⟨set', h', _⟩; simp at h'
          · intro h1; exact absurd ⟨h1, hx⟩ hno
        · rw [if_neg he]
          unfold Holds
          rw [SMap.get?_set_self]
          constructor
          · rintro ⟨set', h', h1⟩
            cases h'
            exact ((SSet.mem_keys_del _ _ _).1 h1).1
          · intro h1
            exact ⟨_, rfl, (SSet.mem_keys_del _ _ _).2 ⟨h1, hx⟩⟩
      · have : ∀ fwd' : SMap W (DocSet D), fwd'.get? w' = fwd.get? w' → (Holds fwd' w' x ↔ Holds fwd w' x) := by
          intro fwd' h; unfold Holds; rw [h]
        apply this
        split
        · rw [SMap.get?_del_ne _ hw, SMap.get?_set_ne _ hw]
        · rw [SMap.get?_set_ne _ hw]
    · cases h

theorem removeWords_others {d x : D} (hx : x ≠ d) (w' : W) : ∀ (ws : List W) (fwd : SMap W (DocSet D)),
    Holds (removeWords fwd d ws).1 w' x ↔ Holds fwd w' x := by
  intro ws
  induction ws with
  | nil => intro fwd; rfl
  | cons a t ih =>
    intro fwd
    unfold removeWords
    cases h : removeWord fwd d a with
    | none => rfl
    | some fwd1 => exact (ih fwd1).trans (removeWord_others hx h w')

theorem insertForward_others (th : Int) {d x : D} (hx : x ≠ d) (w' : W) : ∀ (ws : List W) (fwd : SMap W (DocSet D)),
    Holds (insertForward th fwd d ws) w' x ↔ Holds fwd w' x := by
  intro ws
  induction ws with
  | nil => intro fwd; rfl
  | cons a t ih =>
    intro fwd
    refine (ih (insertWord th d fwd a)).trans ?_
    unfold Holds insertWord
    by_cases hw : w' = a
    · subst hw
      cases hg : fwd.get? w' with
      | none =>
        dsimp only
        have : x ∉ (SSet.insert (SMap.empty : SSet D) d).keys := by
          rw [SSet.mem_keys_insert]
          rintro (h | h)
          · exact hx h
          · simp [SMap.empty, SMap.keys] at h
        split <;> · rw [SMap.get?_set_self]; simp [this]
      | some set =>
        dsimp only
        have : x ∈ (SSet.insert set.ids d).keys ↔ x ∈ set.ids.keys := by
          rw [SSet.mem_keys_insert]; simp [hx]
        split <;> · rw [SMap.get?_set_self]; simp [this]
    · dsimp only
      split <;> split <;> rw [SMap.get?_set_ne _ hw]

theorem unindex_others (s : Keyword D W) {d x : D} (hx : x ≠ d) (w : W) : Holds (s.unindexDoc d).fwd w x ↔ Holds s.fwd w x := by
  unfold unindexDoc
  split
  · rfl
  · dsimp only
    split <;> exact removeWords_others hx w _ _

theorem index_others (normalize : List W → List W) (s : Keyword D W) {d x : D} (hx : x ≠ d) (seq : SeqArg W) (w : W) :
    Holds (s.indexDoc normalize d seq).1.fwd w x ↔ Holds s.fwd w x := by
  unfold indexDoc
  cases seq with
  | str => rfl
  | seq truthy items =>
    dsimp only
    split
    · split
      · rfl
      · split
        · rfl
        · exact unindex_others s hx w
    · split
      · exact insertForward_others _ hx w _ _
      · split
        · exact removeWords_others hx w _ _
        · exact (insertForward_others _ hx w _ _).trans (removeWords_others hx w _ _)

end Verif.Keyword
