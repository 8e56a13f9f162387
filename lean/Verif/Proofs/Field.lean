import Verif.Proofs.Base
import Verif.Spec.Field

/-! Lemmas about `Verif.Model.Field` (indexing part). -/

set_option autoImplicit false

namespace Verif.Field

open Spec.Field

variable {D V : Type} [LinearOrder D] [LinearOrder V]

/-- invariant of reachable states -/
structure Inv (s : Field D V) : Prop where
  agree : ∀ v d, (∃ set, s.fwd.get? v = some set ∧ d ∈ set.keys) ↔ s.rev.get? d = some v
  nonempty : ∀ v set, s.fwd.get? v = some set → ∃ d, d ∈ set.keys
  count : s.numDocs = s.rev.len

theorem inv_new : Inv (new : Field D V) := by
  refine ⟨?_, ?_, rfl⟩
  · intro v d; simp [new]
  · intro v set h; simp [new] at h

theorem rev_unindex (s : Field D V) (d : D) : (s.unindexDoc d).rev = s.rev.del d := by
  unfold unindexDoc
  cases h : s.rev.get? d with
  | none => simp only; rw [SMap.del_of_not_contains h]
  | some v => rfl

theorem unindex_absent {s : Field D V} {d : D} (h : s.rev.get? d = none) : s.unindexDoc d = s := by
  unfold unindexDoc; rw [h]

theorem fwd_unindex {s : Field D V} (hi : Inv s) {d : D} {v : V} (h : s.rev.get? d = some v) (w : V) :
    ((s.unindexDoc d).fwd.get? w) =
      if w = v then
        (match s.fwd.get? v with
         | some set => if (SMap.del set d).isEmpty then none else some (SMap.del set d)
         | none => none)
      else s.fwd.get? w := by
  obtain ⟨set, hset, hd⟩ := (hi.agree v d).2 h
  unfold unindexDoc
  rw [h]
  simp only [hset]
  rw [if_pos ((SMap.contains_iff_mem _ _).2 hd)]
  by_cases he : (SMap.del set d).isEmpty = true
  · simp only [he, if_true]
    by_cases hw : w = v
    · subst hw; simp
    · rw [SMap.get?_del_ne _ hw, SMap.get?_set_ne _ hw]; simp [hw]
  · simp only [he, Bool.false_eq_true, if_false]
    by_cases hw : w = v
    · subst hw; simp
    · rw [SMap.get?_set_ne _ hw]; simp [hw]

theorem inv_unindex {s : Field D V} (hi : Inv s) (d : D) : Inv (s.unindexDoc d) := by
  cases h : s.rev.get? d with
  | none => rw [unindex_absent h]; exact hi
  | some v =>
    obtain ⟨set, hset, hd⟩ := (hi.agree v d).2 h
    refine ⟨?_, ?_, ?_⟩
    · intro w x
      rw [rev_unindex, SMap.get?_del, fwd_unindex hi h]
      by_cases hw : w = v
      · subst hw
        simp only [if_true, hset]
        have hx := hi.agree w x
        rw [hset] at hx
        by_cases he : (SMap.del set d).isEmpty = true
        · simp only [he, if_true]
          have hno := (SSet.isEmpty_iff_keys _).1 he x
          rw [SSet.mem_keys_del] at hno
          by_cases hxd : x = d
          · simp [hxd]
          · simp only [if_neg hxd, reduceCtorEq, false_and, exists_false, false_iff]
            rw [← hx]
            rintro ⟨set', e, hm⟩
            cases e
            exact hno ⟨hm, hxd⟩
        · simp only [he, Bool.false_eq_true, if_false]
          by_cases hxd : x = d
          · subst hxd
            simp only [if_true]
            constructor
            · rintro ⟨set', e, hm⟩
              cases e
              rw [SSet.mem_keys_del] at hm
              exact absurd rfl hm.2
            · intro e; simp at e
          · simp only [if_neg hxd]
            rw [← hx]
            constructor
            · rintro ⟨set', e, hm⟩
              cases e
              rw [SSet.mem_keys_del] at hm
              exact ⟨set, rfl, hm.1⟩
            · rintro ⟨set', e, hm⟩
              cases e
              exact ⟨_, rfl, (SSet.mem_keys_del _ _ _).2 ⟨hm, hxd⟩⟩
      · simp only [if_neg hw]
        rw [hi.agree w x]
        by_cases hxd : x = d
        · subst hxd
          simp only [if_true]
          constructor
          · intro e; rw [h] at e; exact absurd (Option.some.inj e).symm hw
          · intro e; simp at e
        · simp only [if_neg hxd]
    · intro w set' hs
      rw [fwd_unindex hi h] at hs
      by_cases hw : w = v
      · subst hw
        simp only [if_true, hset] at hs
        by_cases he : (SMap.del set d).isEmpty = true
        · simp [he] at hs
        · simp only [he, Bool.false_eq_true, if_false] at hs
          cases hs
          by_contra hc
          apply he
          rw [SSet.isEmpty_iff_keys]
          intro k hk
          exact hc ⟨k, hk⟩
      · rw [if_neg hw] at hs
        exact hi.nonempty w set' hs
    · rw [rev_unindex, SMap.len_del]
      have hc : s.rev.contains d = true := SMap.contains_of_get? h
      have hlen : 1 ≤ s.rev.len := by
        rw [← SMap.len_keys]
        have := (SMap.contains_iff_mem _ _).1 hc
        exact List.length_pos_of_mem this
      rw [if_pos hc]
      have : (s.unindexDoc d).numDocs = s.numDocs - 1 := by
        unfold unindexDoc; rw [h]
      rw [this, hi.count]
      omega

theorem fwd_insert (s : Field D V) (d : D) (v w : V) :
    (insertDoc s d v).fwd.get? w = if w = v then
      some (SSet.insert (match s.fwd.get? v with | none => SMap.empty | some set => set) d)
      else s.fwd.get? w := by
  unfold insertDoc
  simp only
  rw [SMap.get?_set]
  cases s.fwd.get? v <;> rfl

theorem inv_insert {s : Field D V} (hi : Inv s) {d : D} (v : V) (h : s.rev.get? d = none) :
    Inv (insertDoc s d v) := by
  refine ⟨?_, ?_, ?_⟩
  · intro w x
    rw [fwd_insert]
    have hr : (insertDoc s d v).rev.get? x = if x = d then some v else s.rev.get? x := by
      unfold insertDoc; simp only; rw [SMap.get?_set]
    rw [hr]
    by_cases hw : w = v
    · subst hw
      simp only [if_true]
      constructor
      · rintro ⟨set', e, hm⟩
        cases e
        rw [SSet.mem_keys_insert] at hm
        rcases hm with rfl | hm
        · simp
        · have hx : s.rev.get? x = some w := by
            rw [← hi.agree]
            cases hf : s.fwd.get? w with
            | none => rw [hf] at hm; simp at hm
            | some set => rw [hf] at hm; exact ⟨set, rfl, hm⟩
          by_cases hxd : x = d
          · simp [hxd]
          · rw [if_neg hxd, hx]
      · intro e
        refine ⟨_, rfl, ?_⟩
        rw [SSet.mem_keys_insert]
        by_cases hxd : x = d
        · exact Or.inl hxd
        · rw [if_neg hxd] at e
          right
          obtain ⟨set, hs, hm⟩ := (hi.agree w x).2 e
          rw [hs]; exact hm
    · simp only [if_neg hw]
      rw [hi.agree]
      by_cases hxd : x = d
      · subst hxd
        rw [h]
        simp only [if_true, reduceCtorEq, false_iff, Option.some.injEq]
        exact fun e => hw e.symm
      · rw [if_neg hxd]
  · intro w set' hs
    rw [fwd_insert] at hs
    by_cases hw : w = v
    · rw [if_pos hw] at hs
      cases hs
      exact ⟨d, by rw [SSet.mem_keys_insert]; exact Or.inl rfl⟩
    · rw [if_neg hw] at hs
      exact hi.nonempty w set' hs
  · have hc : s.rev.contains d = false := (SMap.contains_eq_false _ _).2 h
    have : (insertDoc s d v).rev.len = s.rev.len + 1 := by
      unfold insertDoc; simp only; rw [SMap.len_set, hc]; simp
    rw [this]
    have : (insertDoc s d v).numDocs = s.numDocs + 1 := rfl
    rw [this, hi.count]
    simp

theorem upToDate_iff {s : Field D V} (hi : Inv s) (d : D) (v : V) :
    s.upToDate d v = true ↔ s.rev.get? d = some v := by
  rw [← hi.agree]
  unfold upToDate
  cases h : s.fwd.get? v with
  | none => simp
  | some set => simp [SMap.contains_iff_mem]

theorem rev_index {s : Field D V} (hi : Inv s) (d : D) (v : V) (x : D) :
    (s.indexDoc d v).rev.get? x = if x = d then some v else s.rev.get? x := by
  unfold indexDoc
  split
  · split
    · rename_i hc hu
      rw [upToDate_iff hi] at hu
      by_cases hx : x = d
      · subst hx; simp [hu]
      · simp [hx]
    · have : (insertDoc (s.unindexDoc d) d v).rev = (s.unindexDoc d).rev.set d v := rfl
      rw [this, SMap.get?_set, rev_unindex, SMap.get?_del]
      by_cases hx : x = d <;> simp [hx]
  · have : (insertDoc s d v).rev = s.rev.set d v := rfl
    rw [this, SMap.get?_set]

theorem inv_index {s : Field D V} (hi : Inv s) (d : D) (v : V) : Inv (s.indexDoc d v) := by
  unfold indexDoc
  split
  · split
    · exact hi
    · apply inv_insert (inv_unindex hi d)
      rw [rev_unindex]; simp
  · rename_i hc
    apply inv_insert hi
    rw [← SMap.contains_eq_false]; simpa using hc

theorem inv_step {s : Field D V} (hi : Inv s) (op : Op D V) : Inv (s.step op) := by
  cases op with
  | index d v => exact inv_index hi d v
  | unindex d => exact inv_unindex hi d
  | clear => exact inv_new

theorem rev_step {s : Field D V} (hi : Inv s) (op : Op D V) (m : D → Option V)
    (h : ∀ x, s.rev.get? x = m x) (x : D) : (s.step op).rev.get? x = update m op x := by
  cases op with
  | index d v => simp only [step, update]; rw [rev_index hi, h]
  | unindex d =>
    simp only [step, update]
    rw [rev_unindex, SMap.get?_del, h]
  | clear => rfl

theorem run_spec (ops : List (Op D V)) : Inv (run ops) ∧ ∀ x, (run ops).rev.get? x = current ops x := by
  unfold run current
  have : ∀ (s : Field D V) (m : D → Option V), Inv s → (∀ x, s.rev.get? x = m x) →
      Inv (ops.foldl step s) ∧ ∀ x, (ops.foldl step s).rev.get? x = ops.foldl update m x := by
    induction ops with
    | nil => intro s m hi h; exact ⟨hi, h⟩
    | cons op t ih =>
      intro s m hi h
      exact ih _ _ (inv_step hi op) (rev_step hi op m h)
  exact this new _ inv_new (fun x => rfl)

/-- the reverse map determines the whole state -/
theorem eq_of_rev {s t : Field D V} (hs : Inv s) (ht : Inv t) (h : ∀ d, s.rev.get? d = t.rev.get? d) : s = t := by
  have hr : s.rev = t.rev := SMap.ext h
  have hf : s.fwd = t.fwd := by
    apply SMap.ext
    intro v
    have key : ∀ {a b : Field D V}, Inv a → Inv b → a.rev = b.rev → ∀ set, a.fwd.get? v = some set →
        b.fwd.get? v = some set := by
      intro a b ha hb hab set hset
      obtain ⟨d, hd⟩ := ha.nonempty v set hset
      have h1 := (ha.agree v d).1 ⟨set, hset, hd⟩
      rw [hab] at h1
      obtain ⟨set', hset', _⟩ := (hb.agree v d).2 h1
      rw [hset']
      congr 1
      apply SSet.ext_mem
      intro x
      have e1 := ha.agree v x
      have e2 := hb.agree v x
      rw [hset] at e1
      rw [hset'] at e2
      rw [hab] at e1
      simp only [Option.some.injEq, exists_eq_left'] at e1 e2
      rw [e1, e2]
    cases h1 : s.fwd.get? v with
    | some set => exact (key hs ht hr set h1).symm
    | none =>
      cases h2 : t.fwd.get? v with
      | none => rfl
      | some set => rw [key ht hs hr.symm set h2] at h1; exact h1.symm
  have hn : s.numDocs = t.numDocs := by rw [hs.count, ht.count, hr]
  cases s; cases t
  simp_all

theorem mem_range (m : SMap V (SSet D)) (lo hi : Option V) (d : D) :
    d ∈ (SSet.multiunion (m.range lo hi).values).keys ↔
      ∃ v set, m.get? v = some set ∧ InRange lo hi v ∧ d ∈ set.keys := by
  rw [SSet.mem_keys_multiunion]
  have hb : ∀ v : V, ((match lo with | some l => decide (l ≤ v) | none => true) &&
      (match hi with | some h => decide (v ≤ h) | none => true)) = true ↔ InRange lo hi v := by
    intro v
    unfold InRange
    cases lo <;> cases hi <;> simp
  constructor
  · rintro ⟨set, hset, hd⟩
    unfold SMap.values at hset
    obtain ⟨p, hp, rfl⟩ := List.mem_map.1 hset
    unfold SMap.range SMap.filter at hp
    simp only [List.mem_filter] at hp
    exact ⟨p.1, p.2, (SMap.get?_eq_some_iff _ _ _).2 hp.1, (hb p.1).1 hp.2, hd⟩
  · rintro ⟨v, set, hg, hr, hd⟩
    refine ⟨set, ?_, hd⟩
    unfold SMap.values
    refine List.mem_map.2 ⟨(v, set), ?_, rfl⟩
    unfold SMap.range SMap.filter
    simp only [List.mem_filter]
    exact ⟨(SMap.get?_eq_some_iff _ _ _).1 hg, (hb v).2 hr⟩

end Verif.Field
