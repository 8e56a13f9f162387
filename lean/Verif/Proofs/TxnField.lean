import Verif.Proofs.TxnMerge
import Verif.Proofs.Field

/-! Concurrent transactions on a field index. -/

set_option autoImplicit false

namespace Verif.HField

open Txn Txn.View

variable {D V : Type} [LinearOrder D] [LinearOrder V]

/-- the view of a field index -/
def vw (s : HField D V) : View V D := viewOf id s.fwd s.heap

/-- invariant: `n` is above all addresses -/
structure Wf (n : Nat) (s : HField D V) : Prop where
  good : s.vw.Good
  agree : ∀ v d, s.vw.Bit v d ↔ s.rev.get? d = some v
  count : s.numDocs = s.rev.len
  below : ∀ a, s.vw.has a → a < n

/-- one state follows another within a transaction -/
structure Next (s t : HField D V) : Prop where
  wf : Wf t.heap.next t
  evo : Evo s.vw t.vw
  le : s.heap.next ≤ t.heap.next
  new : ∀ a, t.vw.has a → s.vw.has a ∨ s.heap.next ≤ a

theorem Next.refl {s : HField D V} (h : Wf s.heap.next s) : Next s s :=
  ⟨h, Evo.refl _, le_refl _, fun _ h => Or.inl h⟩

theorem Next.trans {s t u : HField D V} (h : Wf s.heap.next s) (h1 : Next s t) (h2 : Next t u) : Next s u where
  wf := h2.wf
  evo := Evo.trans h1.wf.good h1.evo h2.evo h.good
  le := h1.le.trans h2.le
  new a ha := by
    rcases h2.new a ha with h' | h'
    · exact h1.new a h'
    · exact Or.inr (h1.le.trans h')

theorem mem_iff {s : HField D V} {a : Nat} {set : SSet D} (h : s.heap.get? a = some set) (d : D) :
    s.vw.mem a d ↔ d ∈ set.keys := by
  constructor
  · rintro ⟨x, hx, hd⟩
    rw [h] at hx; cases hx; exact hd
  · intro hd; exact ⟨set, h, hd⟩

theorem mem_setAt (s : HField D V) (a : Nat) (d : D) : s.vw.mem a d ↔ d ∈ (s.setAt a).keys := by
  unfold setAt
  cases h : s.heap.get? a with
  | some set => exact mem_iff h d
  | none =>
    constructor
    · rintro ⟨x, hx, -⟩
      rw [h] at hx; cases hx
    · intro hd
      have := (SMap.mem_keys_iff _ _).1 hd
      simp at this

/-- what `put` does to the view -/
theorem mem_put (s : HField D V) (f : SMap V Nat) (a b : Nat) (set : SSet D) (d : D) (r : SMap D V) (n : Int) :
    (vw ⟨s.heap.put a set, f, r, n⟩).mem b d ↔ if b = a then d ∈ set.keys else s.vw.mem b d := by
  show (∃ x, (s.heap.put a set).get? b = some x ∧ d ∈ x.keys) ↔ _
  rw [Heap.get?_put]
  by_cases hb : b = a
  · rw [if_pos hb, if_pos hb]; simp
  · rw [if_neg hb, if_neg hb]; rfl

theorem has_put (s : HField D V) (f : SMap V Nat) (a b : Nat) (set : SSet D) (r : SMap D V) (n : Int) :
    (vw ⟨s.heap.put a set, f, r, n⟩).has b ↔ s.vw.has b ∨ b = a := by
  show (∃ x, (s.heap.put a set).get? b = some x) ↔ (∃ x, s.heap.get? b = some x) ∨ b = a
  rw [Heap.get?_put]
  by_cases hb : b = a
  · rw [if_pos hb]; simp [hb]
  · rw [if_neg hb]; simp [hb]

theorem mem_alloc (s : HField D V) (f : SMap V Nat) (b : Nat) (set : SSet D) (d : D) (r : SMap D V) (n : Int) :
    (vw ⟨s.heap.alloc set, f, r, n⟩).mem b d ↔ if b = s.heap.next then d ∈ set.keys else s.vw.mem b d := by
  show (∃ x, (s.heap.alloc set).get? b = some x ∧ d ∈ x.keys) ↔ _
  rw [Heap.get?_alloc]
  by_cases hb : b = s.heap.next
  · rw [if_pos hb, if_pos hb]; simp
  · rw [if_neg hb, if_neg hb]; rfl

theorem has_alloc (s : HField D V) (f : SMap V Nat) (b : Nat) (set : SSet D) (r : SMap D V) (n : Int) :
    (vw ⟨s.heap.alloc set, f, r, n⟩).has b ↔ s.vw.has b ∨ b = s.heap.next := by
  show (∃ x, (s.heap.alloc set).get? b = some x) ↔ (∃ x, s.heap.get? b = some x) ∨ b = s.heap.next
  rw [Heap.get?_alloc]
  by_cases hb : b = s.heap.next
  · rw [if_pos hb]; simp [hb]
  · rw [if_neg hb]; simp [hb]

theorem removeDoc_spec {s : HField D V} (hg : s.vw.Good) {d : D} {v : V} (h : s.vw.Bit v d) :
    (s.removeDoc d v).rev = s.rev ∧ (s.removeDoc d v).numDocs = s.numDocs ∧ (s.removeDoc d v).heap.next = s.heap.next ∧
    ∃ a, Removed s.vw (s.removeDoc d v).vw v a d := by
  obtain ⟨a, ha, hd⟩ := h
  have ha' : s.fwd.get? v = some a := ha
  have hc : (s.setAt a).contains d = true := (SMap.contains_iff_mem _ _).2 ((mem_setAt s a d).1 hd)
  unfold removeDoc
  rw [ha']
  dsimp only
  rw [if_pos hc]
  have hmem : ∀ (f : SMap V Nat) b e, (vw ⟨s.heap.put a (SMap.del (s.setAt a) d), f, s.rev, s.numDocs⟩).mem b e ↔
      s.vw.mem b e ∧ ¬ (b = a ∧ e = d) := by
    intro f b e
    rw [mem_put]
    by_cases hb : b = a
    · subst hb
      rw [if_pos rfl, SSet.mem_keys_del, mem_setAt]
      tauto
    · rw [if_neg hb]; tauto
  have hhas : ∀ (f : SMap V Nat) b, (vw ⟨s.heap.put a (SMap.del (s.setAt a) d), f, s.rev, s.numDocs⟩).has b ↔ s.vw.has b := by
    intro f b
    rw [has_put]
    constructor
    · rintro (h | rfl)
      · exact h
      · exact hg.refs v b ha
    · exact Or.inl
  by_cases he : (SMap.del (s.setAt a) d).isEmpty = true
  · rw [if_pos he]
    refine ⟨rfl, rfl, rfl, a, ha, fun b e => hmem _ b e, ?_, Or.inr ⟨?_, ?_⟩, fun b => hhas _ b⟩
    · intro k' hk
      exact SMap.get?_del_ne _ hk
    · exact SMap.get?_del_self _ _
    · intro e hm
      have hm := (mem_put s (s.fwd.del v) a a (SMap.del (s.setAt a) d) e s.rev s.numDocs).1 hm
      rw [if_pos rfl] at hm
      exact (SSet.isEmpty_iff_keys _).1 he e hm
  · rw [if_neg he]
    refine ⟨rfl, rfl, rfl, a, ha, fun b e => hmem _ b e, fun _ _ => rfl, Or.inl ⟨ha, ?_⟩, fun b => hhas _ b⟩
    have he : ¬ ∀ k, k ∉ (SMap.del (s.setAt a) d).keys := fun hq => he ((SSet.isEmpty_iff_keys _).2 hq)
    rw [not_forall] at he
    obtain ⟨e, he⟩ := he
    refine ⟨e, ?_⟩
    apply (mem_put s s.fwd a a (SMap.del (s.setAt a) d) e s.rev s.numDocs).2
    rw [if_pos rfl]
    exact not_not.1 he

theorem addDoc_spec {s : HField D V} (hg : s.vw.Good) (hb : ∀ a, s.vw.has a → a < s.heap.next) (d : D) (v : V) :
    (s.addDoc d v).rev = s.rev ∧ (s.addDoc d v).numDocs = s.numDocs ∧ s.heap.next ≤ (s.addDoc d v).heap.next ∧
    ∃ a, Added s.vw (s.addDoc d v).vw v a d ∧ a < (s.addDoc d v).heap.next ∧ (s.vw.has a ∨ a = s.heap.next) := by
  unfold addDoc
  cases ha : s.fwd.get? v with
  | none =>
    have hnew : ¬ s.vw.has s.heap.next := fun h => absurd (hb _ h) (lt_irrefl _)
    have hno : ∀ e, ¬ s.vw.mem s.heap.next e := fun e ⟨x, hx, _⟩ => hnew ⟨x, hx⟩
    refine ⟨rfl, rfl, Nat.le_succ _, s.heap.next, ⟨Or.inr ⟨ha, hnew, hno⟩, ?_, ?_, ?_, ?_⟩, Nat.lt_succ_self _, Or.inr rfl⟩
    · intro b e
      rw [mem_alloc]
      by_cases hbn : b = s.heap.next
      · subst hbn
        rw [if_pos rfl, SSet.mem_keys_insert]
        have := hno e
        constructor
        · rintro (h | h)
          · exact Or.inr ⟨rfl, h⟩
          · have := (SMap.mem_keys_iff _ _).1 h; simp at this
        · rintro (h | ⟨-, h⟩)
          · exact absurd h this
          · exact Or.inl h
      · rw [if_neg hbn]; tauto
    · intro k' hk
      show (s.fwd.set v s.heap.next).get? k' = _
      exact SMap.get?_set_ne _ hk _
    · exact SMap.get?_set_self _ _ _
    · intro b; exact has_alloc _ _ _ _ _ _
  | some a =>
    have hha := hg.refs v a ha
    refine ⟨rfl, rfl, le_refl _, a, ⟨Or.inl ha, ?_, fun _ _ => rfl, ha, ?_⟩, hb a hha, Or.inl hha⟩
    · intro b e
      rw [mem_put]
      by_cases hba : b = a
      · subst hba
        rw [if_pos rfl, SSet.mem_keys_insert, mem_setAt]
        tauto
      · rw [if_neg hba]; tauto
    · intro b; exact has_put _ _ _ _ _ _ _

theorem unindex_next {s : HField D V} (h : Wf s.heap.next s) (d : D) :
    Next s (s.unindexDoc d) ∧ (s.unindexDoc d).rev = s.rev.del d := by
  unfold unindexDoc
  cases hv : s.rev.get? d with
  | none => exact ⟨Next.refl h, (SMap.del_of_not_contains hv).symm⟩
  | some v =>
    dsimp only
    have hbit : (vw { s with rev := s.rev.del d }).Bit v d := (h.agree v d).2 hv
    obtain ⟨r1, r2, r3, a, hR⟩ := removeDoc_spec (s := { s with rev := s.rev.del d }) h.good hbit
    obtain ⟨g1, g2, g3⟩ := hR.spec h.good
    set t := removeDoc { s with rev := s.rev.del d } d v with ht
    refine ⟨⟨⟨g1, ?_, ?_, ?_⟩, g2, ?_, ?_⟩, r1⟩
    · intro w e
      show t.vw.Bit w e ↔ t.rev.get? e = some w
      rw [g3, r1]
      show s.vw.Bit w e ∧ _ ↔ (s.rev.del d).get? e = some w
      rw [h.agree, SMap.get?_del]
      by_cases he : e = d
      · subst he
        rw [if_pos rfl, hv]
        simp only [Option.some.injEq, and_true, reduceCtorEq, iff_false, not_and, not_not]
        exact Eq.symm
      · rw [if_neg he]; tauto
    · show t.numDocs - 1 = (t.rev.len : Int)
      rw [r2, r1]
      show s.numDocs - 1 = ((s.rev.del d).len : Int)
      have hl := SMap.len_del s.rev d
      rw [SMap.contains_of_get? hv] at hl
      rw [h.count]
      have : s.rev.len = (s.rev.del d).len + 1 := by
        have hp : 0 < s.rev.len := by
          rcases Nat.eq_zero_or_pos s.rev.len with h0 | h0
          · have := (SMap.isEmpty_iff _).1 ((SMap.isEmpty_iff_len _).2 h0) d
            rw [hv] at this; cases this
          · exact h0
        simp at hl
        omega
      omega
    · intro b hb
      have : t.heap.next = s.heap.next := r3
      show b < t.heap.next
      rw [this]
      exact h.below b ((hR.has b).1 hb)
    · show s.heap.next ≤ t.heap.next
      rw [r3]
    · intro b hb
      exact Or.inl ((hR.has b).1 hb)

theorem insert_next {s : HField D V} (h : Wf s.heap.next s) (d : D) (v : V) (hd : s.rev.get? d = none) :
    Next s (s.insertDoc d v) ∧ (s.insertDoc d v).rev = s.rev.set d v := by
  unfold insertDoc
  dsimp only
  obtain ⟨r1, r2, r3, a, hA, hlt, hor⟩ := addDoc_spec h.good h.below d v
  obtain ⟨g1, g2, g3⟩ := hA.spec h.good
  set t := addDoc s d v with ht
  refine ⟨⟨⟨g1, ?_, ?_, ?_⟩, g2, r3, ?_⟩, by rw [r1]⟩
  · intro w e
    show t.vw.Bit w e ↔ (t.rev.set d v).get? e = some w
    rw [g3, r1, SMap.get?_set, h.agree]
    by_cases he : e = d
    · subst he
      rw [if_pos rfl, hd]
      simp only [reduceCtorEq, and_true, false_or, Option.some.injEq]
      exact eq_comm
    · rw [if_neg he]; tauto
  · show t.numDocs + 1 = ((t.rev.set d v).len : Int)
    rw [r2, r1, h.count, SMap.len_set]
    simp [SMap.contains, hd]
  · intro b hb
    rcases (hA.has b).1 hb with h' | rfl
    · exact lt_of_lt_of_le (h.below b h') r3
    · exact hlt
  · intro b hb
    rcases (hA.has b).1 hb with h' | rfl
    · exact Or.inl h'
    · rcases hor with h' | h'
      · exact Or.inl h'
      · exact Or.inr h'.ge

theorem upToDate_iff {n : Nat} {s : HField D V} (h : Wf n s) (d : D) (v : V) : s.upToDate d v = true ↔ s.rev.get? d = some v := by
  rw [← h.agree]
  unfold upToDate
  cases ha : s.fwd.get? v with
  | none =>
    simp only [Bool.false_eq_true, false_iff]
    rintro ⟨a, ha', -⟩
    have ha' : s.fwd.get? v = some a := ha'
    rw [ha] at ha'; cases ha'
  | some a =>
    dsimp only
    rw [SMap.contains_iff_mem, ← mem_setAt]
    constructor
    · intro hm; exact ⟨a, ha, hm⟩
    · rintro ⟨b, hb, hm⟩
      have hb : s.fwd.get? v = some b := hb
      rw [ha] at hb; cases hb; exact hm

theorem step_next {s : HField D V} (h : Wf s.heap.next s) (op : Field.Op D V) (hop : op ≠ .clear) :
    Next s (s.step op) ∧ ∀ d, (s.step op).rev.get? d = Spec.Field.update s.rev.get? op d := by
  cases op with
  | clear => exact absurd rfl hop
  | unindex d =>
    obtain ⟨h1, h2⟩ := unindex_next h d
    refine ⟨h1, fun x => ?_⟩
    show (s.unindexDoc d).rev.get? x = if x = d then none else s.rev.get? x
    rw [h2, SMap.get?_del]
  | index d v =>
    show Next s (s.indexDoc d v) ∧ ∀ x, (s.indexDoc d v).rev.get? x = if x = d then some v else s.rev.get? x
    unfold indexDoc
    by_cases hc : s.rev.contains d = true
    · rw [if_pos hc]
      by_cases hu : s.upToDate d v = true
      · rw [if_pos hu]
        refine ⟨Next.refl h, fun x => ?_⟩
        have := (upToDate_iff h d v).1 hu
        by_cases hx : x = d
        · rw [if_pos hx, hx, this]
        · rw [if_neg hx]
      · rw [if_neg hu]
        obtain ⟨h1, h2⟩ := unindex_next h d
        obtain ⟨h3, h4⟩ := insert_next h1.wf d v (by rw [h2]; exact SMap.get?_del_self _ _)
        refine ⟨h1.trans h h3, fun x => ?_⟩
        rw [h4, SMap.get?_set, h2, SMap.get?_del]
        by_cases hx : x = d <;> simp [hx]
    · rw [if_neg hc]
      have hn : s.rev.get? d = none := by
        cases hg : s.rev.get? d with
        | none => rfl
        | some x => exact absurd (SMap.contains_of_get? hg) hc
      obtain ⟨h3, h4⟩ := insert_next h d v hn
      refine ⟨h3, fun x => ?_⟩
      rw [h4, SMap.get?_set]

theorem steps_next {s : HField D V} (h : Wf s.heap.next s) (ops : List (Field.Op D V)) (hop : ∀ op ∈ ops, op ≠ .clear) :
    Next s (ops.foldl step s) ∧ ∀ d, (ops.foldl step s).rev.get? d = ops.foldl Spec.Field.update s.rev.get? d := by
  induction ops generalizing s with
  | nil => exact ⟨Next.refl h, fun _ => rfl⟩
  | cons op ops ih =>
    obtain ⟨h1, h2⟩ := step_next h op (hop op (by simp))
    obtain ⟨h3, h4⟩ := ih h1.wf (fun o ho => hop o (by simp [ho]))
    refine ⟨h1.trans h h3, fun d => ?_⟩
    rw [List.foldl_cons, h4 d, List.foldl_cons, show (s.step op).rev.get? = _ from funext h2]

/-- the schedule theorem applies to field indexes -/
def sound : Txn.Sound (engine : Engine (HField D V) (Field.Op D V)) Spec.Field.update (· ≠ .clear) where
  abs s := s.rev.get?
  Wf := Wf
  Evo s t := Evo s.vw t.vw
  NewFrom n s t := ∀ a, t.vw.has a → s.vw.has a ∨ n ≤ a
  mono n m s hnm h := ⟨h.good, h.agree, h.count, fun a ha => lt_of_lt_of_le (h.below a ha) hnm⟩
  refl s := Evo.refl _
  trans n a b c ha hb h1 h2 := Evo.trans hb.good h1 h2 ha.good
  exec n s ops h hops := by
    have h' : Wf n ({ s with heap := { s.heap with next := n } } : HField D V) := ⟨h.good, h.agree, h.count, h.below⟩
    obtain ⟨h1, h2⟩ := steps_next (s := { s with heap := { s.heap with next := n } }) h' ops hops
    exact ⟨h1.le, fun _ => ⟨h1.wf, h1.evo, h1.new, h2⟩⟩
  merge n m o c x r ho hc hoc hnm hx hox hnew hmerge := by
    have hmerge : merge o c x = some r := hmerge
    unfold merge at hmerge
    cases hh : mergeHeap mergeTree o.heap c.heap x.heap with
    | none => rw [hh] at hmerge; cases hmerge
    | some heap =>
    cases hf : mergeTree o.fwd c.fwd x.fwd with
    | none => rw [hh, hf] at hmerge; cases hmerge
    | some fwd =>
    cases hr : mergeTree o.rev c.rev x.rev with
    | none => rw [hh, hf, hr] at hmerge; cases hmerge
    | some rev =>
    rw [hh, hf, hr] at hmerge
    cases hmerge
    have hM : Merged o.vw c.vw x.vw (viewOf id fwd heap) := merged_view (ids := id) (fun _ _ _ _ h => h) hh hf
    have fresh : ∀ a, c.vw.has a → x.vw.has a → o.vw.has a := by
      intro a h1 h2
      rcases hnew a h2 with h' | h'
      · exact h'
      · exact absurd (hc.below a h1) (not_lt.2 h')
    refine ⟨⟨hM.good hc.good hx.good ho.good hoc hox fresh, ?_, ?_, ?_⟩, hM.evo ho.good hx.good hoc hox fresh,
      fun d => mergeTree_keywise hr d⟩
    · intro v d
      show (viewOf id fwd heap).Bit v d ↔ rev.get? d = some v
      have hb := hM.bits ho.good hc.good hx.good hoc hox fresh v d
      rw [ho.agree, hc.agree, hx.agree] at hb
      rcases mergeTree_keywise hr d with ⟨e1, e2⟩ | ⟨e1, e2⟩ <;> rw [e2] <;> rw [e1] at hb <;> tauto
    · show c.numDocs + x.numDocs - o.numDocs = (rev.len : Int)
      have := mergeTree_len hr
      rw [ho.count, hc.count, hx.count]
      omega
    · intro a ha
      rcases (hM.has a).1 ha with h' | h'
      · exact lt_of_lt_of_le (hc.below a h') hnm
      · exact hx.below a h'

theorem wf_new : Wf 0 (new : HField D V) where
  good := ⟨by intro k a h; (cases h), by intro k a h; (cases h), by intro k k' a h; (cases h)⟩
  agree v d := by
    constructor
    · rintro ⟨a, h, -⟩; cases h
    · intro h; cases h
  count := rfl
  below a := by rintro ⟨s, hs⟩; cases hs

/-- a well-formed state is, addresses apart, a state of the single-threaded model -/
theorem inv_view {n : Nat} {s : HField D V} (h : Wf n s) : Field.Inv s.view where
  agree v d := by
    rw [show s.view.rev = s.rev from rfl, ← h.agree]
    show (∃ set, (s.fwd.mapVals _).get? v = some set ∧ _) ↔ _
    rw [SMap.get?_mapVals]
    constructor
    · rintro ⟨set, hs, hd⟩
      cases ha : s.fwd.get? v with
      | none => rw [ha] at hs; cases hs
      | some a =>
        rw [ha] at hs; cases hs
        exact ⟨a, ha, (mem_setAt s a d).2 hd⟩
    · rintro ⟨a, ha, hd⟩
      have ha : s.fwd.get? v = some a := ha
      rw [ha]
      exact ⟨_, rfl, (mem_setAt s a d).1 hd⟩
  nonempty v set := by
    show (s.fwd.mapVals _).get? v = some set → _
    rw [SMap.get?_mapVals]
    cases ha : s.fwd.get? v with
    | none => intro h; cases h
    | some a =>
      intro hs; cases hs
      obtain ⟨d, hd⟩ := h.good.ne v a ha
      exact ⟨d, (mem_setAt s a d).1 hd⟩
  count := h.count

end Verif.HField
