import Verif.Proofs.Base
import Mathlib.Data.List.Dedup
import Mathlib.Data.List.Induction
import Verif.Proofs.Txn
import Verif.Proofs.KeywordHeap
import Verif.Spec.Txn

/-! Lemmas about conflict resolution (`Verif.Model.Txn`), and the induction over a schedule. -/

set_option autoImplicit false

namespace Verif

section tree
variable {K V : Type} [LinearOrder K] [DecidableEq V]

/-- what a successful merge looks like -/
theorem mergeTree_cases {o c n r : SMap K V} (h : mergeTree o c n = some r) :
    (c = o ∧ r = n) ∨ (n = o ∧ r = c) ∨
    ((∀ k, (o.get? k = c.get? k ∧ r.get? k = n.get? k) ∨ (o.get? k = n.get? k ∧ r.get? k = c.get? k)) ∧
      c.isEmpty = false ∧ n.isEmpty = false ∧ r.isEmpty = false) := by
  unfold mergeTree at h
  by_cases h1 : c = o
  · rw [if_pos h1] at h; cases h; exact Or.inl ⟨h1, rfl⟩
  rw [if_neg h1] at h
  by_cases h2 : n = o
  · rw [if_pos h2] at h; cases h; exact Or.inr (Or.inl ⟨h2, rfl⟩)
  rw [if_neg h2] at h
  by_cases h3 : (c.isEmpty || n.isEmpty) = true
  · rw [if_pos h3] at h; cases h
  rw [if_neg h3] at h
  dsimp only at h
  split at h
  · rename_i h4
    split at h
    · cases h
    · rename_i h5
      cases h
      rw [Bool.or_eq_true, not_or] at h3
      refine Or.inr (Or.inr ⟨?_, by simpa using h3.1, by simpa using h3.2, by simpa using h5⟩)
      intro k
      rw [SMap.get?_build]
      by_cases hk : k ∈ o.keys ++ c.keys ++ n.keys
      · rw [if_pos hk]
        have := List.all_eq_true.1 h4 k hk
        simp only [Bool.or_eq_true, decide_eq_true_eq] at this
        by_cases hc : c.get? k = o.get? k
        · rw [if_pos hc]; exact Or.inl ⟨hc.symm, rfl⟩
        · rw [if_neg hc]
          exact Or.inr ⟨(this.resolve_left hc).symm, rfl⟩
      · rw [if_neg hk]
        simp only [List.mem_append, not_or] at hk
        obtain ⟨⟨a, b⟩, e⟩ := hk
        rw [← SMap.get?_eq_none_iff] at a b e
        rw [a, b, e]; exact Or.inl ⟨rfl, rfl⟩
  · cases h

theorem mergeTree_keywise {o c n r : SMap K V} (h : mergeTree o c n = some r) (k : K) :
    (o.get? k = c.get? k ∧ r.get? k = n.get? k) ∨ (o.get? k = n.get? k ∧ r.get? k = c.get? k) := by
  rcases mergeTree_cases h with ⟨rfl, rfl⟩ | ⟨rfl, rfl⟩ | ⟨h, -⟩
  · exact Or.inl ⟨rfl, rfl⟩
  · exact Or.inr ⟨rfl, rfl⟩
  · exact h k

/-- the size of a container, counted among any keys that include its own -/
theorem len_eq_countP (m : SMap K V) {ks : List K} (hn : ks.Nodup) (hs : ∀ k ∈ m.keys, k ∈ ks) :
    m.len = ks.countP m.contains := by
  rw [List.countP_eq_length_filter, ← SMap.len_keys]
  apply List.Perm.length_eq
  rw [List.perm_ext_iff_of_nodup m.keys_nodup (hn.filter _)]
  intro k
  rw [List.mem_filter, SMap.contains_iff_mem]
  exact ⟨fun h => ⟨hs k h, h⟩, fun h => h.2⟩

theorem mergeTree_len {o c n r : SMap K V} (h : mergeTree o c n = some r) : r.len + o.len = c.len + n.len := by
  classical
  let ks := (o.keys ++ c.keys ++ n.keys).dedup
  have hn : ks.Nodup := List.nodup_dedup _
  have hmem : ∀ k, k ∈ ks ↔ k ∈ o.keys ∨ k ∈ c.keys ∨ k ∈ n.keys := by
    intro k; simp [ks, List.mem_dedup, List.mem_append, or_assoc]
  have hr : ∀ k ∈ r.keys, k ∈ ks := by
    intro k hk
    rw [SMap.mem_keys_iff] at hk
    obtain ⟨v, hv⟩ := hk
    rw [hmem]
    rcases mergeTree_keywise h k with ⟨-, e⟩ | ⟨-, e⟩
    · exact Or.inr (Or.inr ((SMap.mem_keys_iff _ _).2 ⟨v, e ▸ hv⟩))
    · exact Or.inr (Or.inl ((SMap.mem_keys_iff _ _).2 ⟨v, e ▸ hv⟩))
  rw [len_eq_countP r hn hr, len_eq_countP o hn (fun k hk => (hmem k).2 (Or.inl hk)),
    len_eq_countP c hn (fun k hk => (hmem k).2 (Or.inr (Or.inl hk))),
    len_eq_countP n hn (fun k hk => (hmem k).2 (Or.inr (Or.inr hk)))]
  clear hr hmem hn
  induction ks with
  | nil => rfl
  | cons k t ih =>
    rw [List.countP_cons, List.countP_cons, List.countP_cons, List.countP_cons]
    have hc : ∀ {x y : SMap K V}, x.get? k = y.get? k → x.contains k = y.contains k := by
      intro x y e; unfold SMap.contains; rw [e]
    rcases mergeTree_keywise h k with ⟨e1, e2⟩ | ⟨e1, e2⟩ <;> rw [hc e1, hc e2] <;> omega

end tree

section heap
variable {S : Type}

theorem mergeHeap_spec {mergeV : S → S → S → Option S} {o c n r : Heap S} (h : mergeHeap mergeV o c n = some r) (a : Nat) :
    mergeCell mergeV (o.get? a) (c.get? a) (n.get? a) = some (r.get? a) := by
  unfold mergeHeap at h
  dsimp only at h
  split at h
  · rename_i hall
    cases h
    show _ = some ((SMap.build _ _).get? a)
    rw [SMap.get?_build]
    by_cases hk : a ∈ o.cells.keys ++ c.cells.keys ++ n.cells.keys
    · rw [if_pos hk]
      have := List.all_eq_true.1 hall a hk
      cases hm : mergeCell mergeV (o.get? a) (c.get? a) (n.get? a) with
      | none => rw [hm] at this; cases this
      | some x => rfl
    · rw [if_neg hk]
      simp only [List.mem_append, not_or] at hk
      obtain ⟨⟨x, y⟩, z⟩ := hk
      rw [← SMap.get?_eq_none_iff] at x y z
      unfold Heap.get?
      rw [x, y, z]; rfl
  · cases h

theorem mergeHeap_next {mergeV : S → S → S → Option S} {o c n r : Heap S} (h : mergeHeap mergeV o c n = some r) :
    r.next = n.next := by
  unfold mergeHeap at h
  dsimp only at h
  split at h <;> cases h
  rfl

/-- nothing to resolve -/
theorem mergeHeap_same {mergeV : S → S → S → Option S} (hv : ∀ o n, mergeV o o n = some n) {o n : Heap S}
    (hg : ∀ a s, o.get? a = some s → ∃ t, n.get? a = some t) : mergeHeap mergeV o o n = some n := by
  have hcell : ∀ a, mergeCell mergeV (o.get? a) (o.get? a) (n.get? a) = some (n.get? a) := by
    intro a
    cases ho : o.get? a with
    | none => cases n.get? a <;> rfl
    | some s =>
      obtain ⟨t, ht⟩ := hg a s ho
      rw [ht]
      simp only [mergeCell, hv, Option.map_some]
  unfold mergeHeap
  dsimp only
  rw [if_pos (by rw [List.all_eq_true]; intro a _; rw [hcell]; rfl)]
  have : SMap.build (o.cells.keys ++ o.cells.keys ++ n.cells.keys)
      (fun a => (mergeCell mergeV (o.get? a) (o.get? a) (n.get? a)).getD none) = n.cells := by
    ext1 a
    rw [SMap.get?_build, hcell]
    by_cases ha : a ∈ o.cells.keys ++ o.cells.keys ++ n.cells.keys
    · rw [if_pos ha]; rfl
    · rw [if_neg ha]
      simp only [List.mem_append, not_or] at ha
      exact ((SMap.get?_eq_none_iff _ _).2 ha.2).symm
  rw [this]

theorem mergeTree_same {K V : Type} [LinearOrder K] [DecidableEq V] (o n : SMap K V) : mergeTree o o n = some n := by
  unfold mergeTree; rw [if_pos rfl]

end heap

namespace Txn

open View

section views
variable {K D S : Type} [LinearOrder K] [LinearOrder D]

/-- the view of an index, from the members of an object -/
def viewBy (mem : S → D → Prop) (fwd : K → Option Nat) (heap : Heap S) : View K D where
  fwd := fwd
  mem a d := ∃ s, heap.get? a = some s ∧ mem s d
  has a := ∃ s, heap.get? a = some s

/-- what a merge of two objects is, as far as their members are concerned -/
def MergesBy (mem : S → D → Prop) (o c n r : S) : Prop :=
  ((∀ d, mem o d ↔ mem c d) ∧ ∀ d, mem r d ↔ mem n d) ∨
  ((∀ d, mem o d ↔ mem n d) ∧ ∀ d, mem r d ↔ mem c d) ∨
  ((∀ d, ((mem o d ↔ mem c d) ∧ (mem r d ↔ mem n d)) ∨ ((mem o d ↔ mem n d) ∧ (mem r d ↔ mem c d))) ∧
    (∃ d, mem c d) ∧ (∃ d, mem n d) ∧ ∃ d, mem r d)

theorem mergeTree_mergesBy {V : Type} [DecidableEq V] {o c n r : SMap D V} (h : mergeTree o c n = some r) :
    MergesBy (fun (m : SMap D V) d => d ∈ m.keys) o c n r := by
  have key : ∀ {x y : SMap D V} {d : D}, x.get? d = y.get? d → (d ∈ x.keys ↔ d ∈ y.keys) := by
    intro x y d hxy
    rw [SMap.mem_keys_iff, SMap.mem_keys_iff, hxy]
  rcases mergeTree_cases h with ⟨h1, h2⟩ | ⟨h1, h2⟩ | ⟨h1, h2, h3, h4⟩
  · exact Or.inl ⟨fun d => by rw [h1], fun d => by rw [h2]⟩
  · exact Or.inr (Or.inl ⟨fun d => by rw [h1], fun d => by rw [h2]⟩)
  · have ne : ∀ {x : SMap D V}, x.isEmpty = false → ∃ d, d ∈ x.keys := by
      intro x hx
      rw [SMap.isEmpty_eq_false_iff] at hx
      obtain ⟨d, v, hd⟩ := hx
      exact ⟨d, (SMap.mem_keys_iff _ _).2 ⟨v, hd⟩⟩
    refine Or.inr (Or.inr ⟨fun d => ?_, ne h2, ne h3, ne h4⟩)
    rcases h1 d with ⟨a1, a2⟩ | ⟨a1, a2⟩
    · exact Or.inl ⟨key a1, key a2⟩
    · exact Or.inr ⟨key a1, key a2⟩

theorem merged_by {mem : S → D → Prop} {mergeV : S → S → S → Option S}
    (hv : ∀ o c n r, mergeV o c n = some r → MergesBy mem o c n r)
    {fo fc fn fr : K → Option Nat} {ho hc hn hr : Heap S}
    (h : mergeHeap mergeV ho hc hn = some hr)
    (hf : ∀ k, (fo k = fc k ∧ fr k = fn k) ∨ (fo k = fn k ∧ fr k = fc k)) :
    Merged (viewBy mem fo ho) (viewBy mem fc hc) (viewBy mem fn hn) (viewBy mem fr hr) where
  fwd k := hf k
  cell a := by
    rintro ⟨so, hso⟩
    have hm := mergeHeap_spec h a
    rw [hso] at hm
    cases hca : hc.get? a with
    | none => rw [hca] at hm; cases hm
    | some sc =>
      cases hna : hn.get? a with
      | none => rw [hca, hna] at hm; cases hm
      | some sn =>
        rw [hca, hna] at hm
        simp only [mergeCell] at hm
        cases hmv : mergeV so sc sn with
        | none => rw [hmv] at hm; cases hm
        | some sr =>
          rw [hmv] at hm
          simp only [Option.map_some, Option.some.injEq] at hm
          have e : ∀ {h : Heap S} {s : S} {f : K → Option Nat}, h.get? a = some s →
              ∀ d, (viewBy mem f h).mem a d ↔ mem s d := by
            intro h s f hs d
            constructor
            · rintro ⟨s', hs', hd⟩
              rw [hs] at hs'; cases hs'; exact hd
            · intro hd; exact ⟨s, hs, hd⟩
          have eo := @e ho so fo hso
          have ec := @e hc sc fc hca
          have en := @e hn sn fn hna
          have er := @e hr sr fr hm.symm
          simp only [eo, ec, en, er]
          exact hv _ _ _ _ hmv
  newC a hna := by
    rintro ⟨sc, hsc⟩ d
    have hm := mergeHeap_spec h a
    cases hoa : ho.get? a with
    | some s => exact absurd ⟨s, hoa⟩ hna
    | none =>
      rw [hoa, hsc] at hm
      cases hn' : hn.get? a with
      | some s => rw [hn'] at hm; cases hm
      | none =>
        rw [hn'] at hm
        simp only [mergeCell, Option.some.injEq] at hm
        simp only [viewBy, hsc, ← hm]
  newN a hna := by
    rintro ⟨sn, hsn⟩ d
    have hm := mergeHeap_spec h a
    cases hoa : ho.get? a with
    | some s => exact absurd ⟨s, hoa⟩ hna
    | none =>
      rw [hoa, hsn] at hm
      cases hc' : hc.get? a with
      | some s => rw [hc'] at hm; cases hm
      | none =>
        rw [hc'] at hm
        simp only [mergeCell, Option.some.injEq] at hm
        simp only [viewBy, hsn, ← hm]
  has a := by
    have hm := mergeHeap_spec h a
    show (∃ s, hr.get? a = some s) ↔ (∃ s, hc.get? a = some s) ∨ ∃ s, hn.get? a = some s
    revert hm
    generalize hr.get? a = w
    cases ho.get? a <;> cases hc.get? a <;> cases hn.get? a <;> intro hm <;> simp only [mergeCell] at hm
    · simp only [Option.some.injEq] at hm; subst hm; simp
    · simp only [Option.some.injEq] at hm; subst hm; simp
    · simp only [Option.some.injEq] at hm; subst hm; simp
    · cases hm
    · cases hm
    · cases hm
    · cases hm
    · rename_i x y z
      cases hmv : mergeV x y z with
      | none => rw [hmv] at hm; cases hm
      | some v =>
        rw [hmv] at hm
        simp only [Option.map_some, Option.some.injEq] at hm
        subst hm; simp

/-- the view of an index -/
def viewOf (ids : S → SSet D) (fwd : SMap K Nat) (heap : Heap S) : View K D :=
  viewBy (fun s d => d ∈ (ids s).keys) fwd.get? heap

theorem merged_view {ids : S → SSet D} {mergeV : S → S → S → Option S}
    (hv : ∀ o c n r, mergeV o c n = some r → mergeTree (ids o) (ids c) (ids n) = some (ids r))
    {fo fc fn fr : SMap K Nat} {ho hc hn hr : Heap S}
    (h : mergeHeap mergeV ho hc hn = some hr) (hf : mergeTree fo fc fn = some fr) :
    Merged (viewOf ids fo ho) (viewOf ids fc hc) (viewOf ids fn hn) (viewOf ids fr hr) :=
  merged_by (mem := fun s d => d ∈ (ids s).keys)
    (fun o c n r e => by have := mergeTree_mergesBy (hv o c n r e); exact this) h (fun k => mergeTree_keywise hf k)

end views

/-! ### Schedules -/

/-- what a kind of index must satisfy for the schedule theorem -/
structure Sound {S O D X : Type} (E : Engine S O) (upd : (D → X) → O → D → X) (okOp : O → Prop) where
  /-- the assignment stored in a state -/
  abs : S → D → X
  /-- well-formed, with addresses below a bound -/
  Wf : Nat → S → Prop
  /-- a later state -/
  Evo : S → S → Prop
  /-- objects of the second state that the first lacks have addresses from a bound on -/
  NewFrom : Nat → S → S → Prop
  mono : ∀ n m s, n ≤ m → Wf n s → Wf m s
  refl : ∀ s, Evo s s
  trans : ∀ n a b c, Wf n a → Wf n b → Evo a b → Evo b c → Evo a c
  exec : ∀ n s ops, Wf n s → (∀ op ∈ ops, okOp op) → n ≤ (E.run n s ops).2 ∧ (E.fails n s ops = false →
    Wf (E.run n s ops).2 (E.run n s ops).1 ∧ Evo s (E.run n s ops).1 ∧
    NewFrom n s (E.run n s ops).1 ∧ ∀ d, abs (E.run n s ops).1 d = ops.foldl upd (abs s) d)
  merge : ∀ n m o c x r, Wf n o → Wf n c → Evo o c → n ≤ m → Wf m x → Evo o x → NewFrom n o x → E.merge o c x = some r →
    Wf m r ∧ Evo c r ∧
    ∀ d, (abs o d = abs c d ∧ abs r d = abs x d) ∨ (abs o d = abs x d ∧ abs r d = abs c d)

open Spec.Txn (History)

theorem Sound.history {S O D X : Type} {E : Engine S O} {upd : (D → X) → O → D → X} {okOp : O → Prop}
    (h : Sound E upd okOp) {s₀ : S} (h₀ : h.Wf 0 s₀) (ts : List (Txn O)) (hok : ∀ t ∈ ts, ∀ op ∈ t.ops, okOp op) :
    History upd (h.abs s₀) ts ((Db.run E s₀ ts).states.map h.abs) ∧
    (∀ s ∈ (Db.run E s₀ ts).states, h.Wf (Db.run E s₀ ts).next s) ∧
    (Db.run E s₀ ts).states.Pairwise (fun newer older => h.Evo older newer) := by
  induction ts using List.reverseRecOn with
  | nil =>
    refine ⟨History.start, ?_, ?_⟩
    · intro s hs
      simp [Db.run, Db.new, Db.states] at hs
      subst hs; exact h₀
    · simp [Db.run, Db.new, Db.states]
  | append_singleton ts t ih =>
    obtain ⟨i1, i2, i3⟩ := ih (fun t' ht => hok t' (by simp [ht]))
    have hrun : Db.run E s₀ (ts ++ [t]) = Db.commit E (Db.run E s₀ ts) t := by simp [Db.run]
    rw [hrun]
    generalize Db.run E s₀ ts = db at i1 i2 i3
    unfold Db.commit
    cases hb : db.states[t.back]? with
    | none => exact ⟨History.aborted i1, i2, i3⟩
    | some base =>
      dsimp only
      have hbm : base ∈ db.states := List.mem_of_getElem? hb
      obtain ⟨e1, he⟩ := h.exec db.next base t.ops (i2 base hbm) (hok t (by simp))
      cases hm : (if (t.refused || E.fails db.next base t.ops) = true then none else E.merge base db.latest (E.run db.next base t.ops).1) with
      | none =>
        exact ⟨History.aborted i1, fun s hs => h.mono _ _ _ e1 (i2 s hs), i3⟩
      | some r =>
        dsimp only
        have hm' : E.merge base db.latest (E.run db.next base t.ops).1 = some r := by
          split at hm
          · cases hm
          · exact hm
        obtain ⟨e2, e3, e4, e5⟩ := he (by
          split at hm
          · cases hm
          · rename_i hc
            rw [Bool.or_eq_true, not_or] at hc
            simpa using hc.2)
        have hlat : db.latest ∈ db.states := by simp [Db.states]
        have hbl : h.Evo base db.latest := by
          unfold Db.states at hbm i3
          rcases List.mem_cons.1 hbm with rfl | hb'
          · exact h.refl _
          · exact List.rel_of_pairwise_cons i3 hb'
        obtain ⟨m1, m2, m3⟩ := h.merge db.next _ base db.latest _ r (i2 base hbm) (i2 _ hlat) hbl e1 e2 e3 e4 hm'
        refine ⟨?_, ?_, ?_⟩
        · show History upd (h.abs s₀) (ts ++ [t]) (h.abs r :: h.abs db.latest :: db.older.map h.abs)
          refine History.committed (base := h.abs base) i1 ?_ ?_
          · show (db.states.map h.abs)[t.back]? = _
            rw [List.getElem?_map, hb]; rfl
          · intro d
            rw [← e5 d]
            rcases m3 d with ⟨x1, x2⟩ | ⟨x1, x2⟩
            · exact ⟨fun _ => ⟨x1.symm, x2⟩, fun hq => by rw [x2, hq, x1]⟩
            · exact ⟨fun hq => absurd x1.symm hq, fun _ => x2⟩
        · intro s hs
          have hs : s ∈ r :: db.states := hs
          rcases List.mem_cons.1 hs with rfl | hs
          · exact m1
          · exact h.mono _ _ _ e1 (i2 s hs)
        · show (r :: db.states).Pairwise _
          refine List.pairwise_cons.2 ⟨?_, i3⟩
          intro s hs
          have hsl : h.Evo s db.latest := by
            unfold Db.states at hs i3
            rcases List.mem_cons.1 hs with rfl | hb'
            · exact h.refl _
            · exact List.rel_of_pairwise_cons i3 hb'
          exact h.trans _ s db.latest r (i2 s hs) (i2 _ hlat) hsl m2

end Txn
end Verif
