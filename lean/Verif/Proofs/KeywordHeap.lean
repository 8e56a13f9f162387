import Verif.Proofs.Keyword
import Verif.Model.KeywordHeap

set_option autoImplicit false

namespace Verif.Heap

open Keyword (Operator)

variable {D : Type} [LinearOrder D]

theorem get?_put {V : Type} (h : Heap V) (a b : Nat) (v : V) :
    (h.put a v).get? b = if b = a then some v else h.get? b := SMap.get?_set _ _ _ _

theorem get?_alloc {V : Type} (h : Heap V) (b : Nat) (v : V) :
    (h.alloc v).get? b = if b = h.next then some v else h.get? b := SMap.get?_set _ _ _ _

theorem setAt_put (h : Heap (DocSet D)) (a b : Nat) (v : DocSet D) :
    (h.put a v).setAt b = if b = a then v else h.setAt b := by
  unfold setAt; rw [get?_put]; split <;> rfl

theorem setAt_alloc (h : Heap (DocSet D)) (b : Nat) (v : DocSet D) :
    (h.alloc v).setAt b = if b = h.next then v else h.setAt b := by
  unfold setAt; rw [get?_alloc]; split <;> rfl

theorem setAt_alloc_self (h : Heap (DocSet D)) (v : DocSet D) : (h.alloc v).setAt h.next = v := by
  rw [setAt_alloc, if_pos rfl]

/-- only new objects were created -/
structure Ext (h k : Heap (DocSet D)) : Prop where
  next : h.next ≤ k.next
  same : ∀ a, a < h.next → k.setAt a = h.setAt a

theorem Ext.refl (h : Heap (DocSet D)) : Ext h h := ⟨le_refl _, fun _ _ => rfl⟩

theorem Ext.trans {h k l : Heap (DocSet D)} (h1 : Ext h k) (h2 : Ext k l) : Ext h l :=
  ⟨h1.next.trans h2.next, fun a ha => (h2.same a (lt_of_lt_of_le ha h1.next)).trans (h1.same a ha)⟩

theorem ext_alloc (h : Heap (DocSet D)) (v : DocSet D) : Ext h (h.alloc v) :=
  ⟨Nat.le_succ _, fun a ha => by rw [setAt_alloc, if_neg ha.ne]⟩

theorem interLoop_some (l : List Nat) (h : Heap (DocSet D)) (x : Nat) (hx : x < h.next) (hl : ∀ a ∈ l, a < h.next) :
    ∃ y, (interLoop h (some x) l).2 = some y ∧ Ext h (interLoop h (some x) l).1 ∧
      y < (interLoop h (some x) l).1.next ∧ (l ≠ [] → h.next ≤ y) ∧ (l = [] → y = x) ∧
      Keyword.interLoop (some (h.setAt x).ids) (l.map (fun a => (h.setAt a).ids)) =
        some ((interLoop h (some x) l).1.setAt y).ids := by
  induction l generalizing h x with
  | nil => exact ⟨x, rfl, Ext.refl h, hx, by simp, fun _ => rfl, rfl⟩
  | cons a l ih =>
    unfold interLoop
    dsimp only
    rw [List.map_cons]
    unfold Keyword.interLoop
    dsimp only
    set ids := SSet.inter (h.setAt x).ids (h.setAt a).ids with hids
    have he := ext_alloc h ({ isTree := false, ids := ids } : DocSet D)
    by_cases hc : ids.isEmpty = true
    · rw [if_pos hc, if_pos hc]
      exact ⟨h.next, rfl, he, Nat.lt_succ_self _, fun _ => le_refl _, by simp, by rw [setAt_alloc_self]⟩
    · rw [if_neg hc, if_neg hc]
      obtain ⟨y, h1, h2, h3, h4, h5, h6⟩ := ih (h.alloc { isTree := false, ids := ids }) h.next
        (Nat.lt_succ_self _) (fun b hb => Nat.lt_succ_of_lt (hl b (by simp [hb])))
      refine ⟨y, h1, he.trans h2, h3, fun _ => ?_, by simp, ?_⟩
      · by_cases hn : l = []
        · rw [h5 hn]
        · exact (Nat.le_succ _).trans (h4 hn)
      · rw [← h6, setAt_alloc_self]
        congr 1
        apply List.map_congr_left
        intro b hb
        rw [he.same b (hl b (by simp [hb]))]

theorem finish_none (h : Heap (DocSet D)) :
    Ext h (finish h none).1 ∧ h.next ≤ (finish h none).2 ∧ (finish h none).2 < (finish h none).1.next ∧
    Keyword.search.finish none = .ok ((finish h none).1.setAt (finish h none).2).ids := by
  refine ⟨ext_alloc h emptySet, le_refl _, Nat.lt_succ_self _, ?_⟩
  show _ = Except.ok (DocSet.ids (setAt (h.alloc emptySet) h.next))
  rw [setAt_alloc_self]; rfl

theorem finish_some (h : Heap (DocSet D)) (a : Nat) (ha : a < h.next) :
    Ext h (finish h (some a)).1 ∧ (finish h (some a)).2 < (finish h (some a)).1.next ∧
    (h.next ≤ (finish h (some a)).2 ∨ ((finish h (some a)).2 = a ∧ (h.setAt a).ids.isEmpty = false)) ∧
    Keyword.search.finish (some (h.setAt a).ids) = .ok ((finish h (some a)).1.setAt (finish h (some a)).2).ids := by
  unfold finish Keyword.search.finish
  dsimp only
  by_cases hc : (h.setAt a).ids.isEmpty = true
  · rw [if_pos hc, if_pos hc]
    refine ⟨ext_alloc h emptySet, Nat.lt_succ_self _, Or.inl (le_refl _), ?_⟩
    dsimp only
    rw [setAt_alloc_self]; rfl
  · rw [if_neg hc, if_neg hc]
    exact ⟨Ext.refl h, ha, Or.inr ⟨rfl, by simpa using hc⟩, rfl⟩

theorem map_insertionSort_key {α β : Type} (f : α → β) (r : β → β → Prop) [DecidableRel r] (l : List α) :
    (l.insertionSort (fun a b => r (f a) (f b))).map f = (l.map f).insertionSort r := by
  induction l with
  | nil => rfl
  | cons a l ih =>
    rw [List.insertionSort_cons, List.map_cons, List.insertionSort_cons, ← ih]
    generalize l.insertionSort (fun a b => r (f a) (f b)) = m
    induction m with
    | nil => rfl
    | cons b m ihm =>
      rw [List.orderedInsert, List.map_cons, List.orderedInsert]
      split
      · rfl
      · rw [List.map_cons, ihm]

/-- the value-level counterpart of `combine` -/
def combineV (sets : List (SSet D)) : Operator → Except PyErr (SSet D)
  | .or => Keyword.search.finish (some (SSet.multiunion sets))
  | .and => Keyword.search.finish (Keyword.interLoop none (sets.insertionSort (fun a b => a.len ≤ b.len)))
  | .other => .error .TypeError

/-- what `combine` returns, and which object it is -/
theorem combine_spec (h : Heap (DocSet D)) (sets : List Nat) (hl : ∀ a ∈ sets, a < h.next) (op : Operator)
    (hop : op ≠ .other) :
    ∃ a, (h.combine sets op).2 = .ok a ∧ Ext h (h.combine sets op).1 ∧ a < (h.combine sets op).1.next ∧
      combineV (sets.map (fun a => (h.setAt a).ids)) op = .ok ((h.combine sets op).1.setAt a).ids ∧
      (h.next ≤ a ∨ (op = .and ∧ sets = [a])) := by
  cases op with
  | other => exact absurd rfl hop
  | or =>
    unfold combine combineV
    dsimp only
    set ids := SSet.multiunion (sets.map (fun a => (h.setAt a).ids)) with hids
    have he := ext_alloc h ({ isTree := false, ids := ids } : DocSet D)
    obtain ⟨f1, f2, f3, f4⟩ := finish_some (h.alloc { isTree := false, ids := ids }) h.next (Nat.lt_succ_self _)
    rw [setAt_alloc_self] at f4
    refine ⟨_, rfl, he.trans f1, f2, f4, Or.inl ?_⟩
    rcases f3 with f3 | ⟨f3, -⟩
    · exact he.next.trans f3
    · rw [f3]
  | and =>
    unfold combine combineV
    dsimp only
    rw [← map_insertionSort_key (fun a => (h.setAt a).ids) (fun x y : SSet D => x.len ≤ y.len) sets]
    set sorted := sets.insertionSort (fun a b => (h.setAt a).ids.len ≤ (h.setAt b).ids.len) with hsorted
    have hlt : ∀ a ∈ sorted, a < h.next := fun a ha => hl a ((List.mem_insertionSort _).1 ha)
    have hlen : sorted.length = sets.length := by rw [hsorted, List.length_insertionSort]
    cases hs : sorted with
    | nil =>
      obtain ⟨f1, f2, f3, f4⟩ := finish_none h
      exact ⟨_, rfl, f1, f3, f4, Or.inl f2⟩
    | cons a rest =>
      have ha : a < h.next := hlt a (by rw [hs]; simp)
      have key : ∃ y, (interLoop h none (a :: rest)).2 = some y ∧ Ext h (interLoop h none (a :: rest)).1 ∧
          y < (interLoop h none (a :: rest)).1.next ∧
          (h.next ≤ y ∨ (y = a ∧ (rest = [] ∨ (h.setAt a).ids.isEmpty = true))) ∧
          Keyword.interLoop none ((a :: rest).map (fun a => (h.setAt a).ids)) =
            some ((interLoop h none (a :: rest)).1.setAt y).ids := by
        unfold interLoop
        rw [List.map_cons]
        unfold Keyword.interLoop
        dsimp only
        by_cases hc : (h.setAt a).ids.isEmpty = true
        · rw [if_pos hc, if_pos hc]
          exact ⟨a, rfl, Ext.refl _, ha, Or.inr ⟨rfl, Or.inr hc⟩, rfl⟩
        · rw [if_neg hc, if_neg hc]
          obtain ⟨y, g1, g2, g3, g4, g5, g6⟩ := interLoop_some rest h a ha (fun b hb => hlt b (by rw [hs]; simp [hb]))
          refine ⟨y, g1, g2, g3, ?_, g6⟩
          by_cases hn : rest = []
          · exact Or.inr ⟨g5 hn, Or.inl hn⟩
          · exact Or.inl (g4 hn)
      obtain ⟨y, g1, g2, g3, g4, g5⟩ := key
      rw [g5, g1]
      obtain ⟨f1, f2, f3, f4⟩ := finish_some (interLoop h none (a :: rest)).1 y g3
      refine ⟨_, rfl, g2.trans f1, f2, f4, ?_⟩
      rcases f3 with f3 | ⟨f3, hne⟩
      · exact Or.inl (g2.next.trans f3)
      · rw [f3]
        rcases g4 with g4 | ⟨rfl, g4⟩
        · exact Or.inl g4
        · right
          have hrest : rest = [] := by
            rcases g4 with g4 | g4
            · exact g4
            · rw [g2.same y ha, g4] at hne; cases hne
          subst hrest
          rw [hs] at hlen
          have hmem : y ∈ sets := (List.mem_insertionSort (r := fun a b => (h.setAt a).ids.len ≤ (h.setAt b).ids.len)).1
            (by rw [← hsorted, hs]; simp)
          obtain ⟨w0, hw0⟩ := List.length_eq_one_iff.1 (by simpa using hlen.symm : sets.length = 1)
          rw [hw0] at hmem ⊢
          rw [List.mem_singleton] at hmem
          exact ⟨rfl, by rw [hmem]⟩

end Verif.Heap

namespace Verif.HKeyword

open Keyword (SeqArg QueryArg Operator Op insertReverse)

variable {D W : Type} [LinearOrder D] [LinearOrder W]

/-- forget the addresses -/
def view (s : HKeyword D W) : Keyword D W :=
  { fwd := s.fwd.mapVals (fun _ a => s.setAt a), rev := s.rev, numDocs := s.numDocs, treeThreshold := s.treeThreshold }

/-- the index uses the object at `a` -/
def Owned (s : HKeyword D W) (a : Nat) : Prop := ∃ w, s.fwd.get? w = some a

/-- different words have different set objects, all of them created -/
structure WF (s : HKeyword D W) : Prop where
  inj : ∀ w w' a, s.fwd.get? w = some a → s.fwd.get? w' = some a → w = w'
  lt : ∀ w a, s.fwd.get? w = some a → a < s.heap.next

/-- objects not used by the index in `s` are the same in `t`, and are not used in `t` -/
structure Frame (s t : HKeyword D W) : Prop where
  next : s.heap.next ≤ t.heap.next
  same : ∀ a, a < s.heap.next → ¬ Owned s a → t.setAt a = s.setAt a
  own : ∀ a, a < s.heap.next → ¬ Owned s a → ¬ Owned t a

theorem Frame.refl (s : HKeyword D W) : Frame s s := ⟨le_refl _, fun _ _ _ => rfl, fun _ _ h => h⟩

theorem Frame.trans {s t u : HKeyword D W} (h1 : Frame s t) (h2 : Frame t u) : Frame s u where
  next := h1.next.trans h2.next
  same a ha ho := (h2.same a (lt_of_lt_of_le ha h1.next) (h1.own a ha ho)).trans (h1.same a ha ho)
  own a ha ho := h2.own a (lt_of_lt_of_le ha h1.next) (h1.own a ha ho)

theorem get?_view (s : HKeyword D W) (w : W) : (view s).fwd.get? w = (s.fwd.get? w).map s.setAt :=
  SMap.get?_mapVals _ _ _

/-! ### the three ways the forward index changes -/

/-- the set object of a word changes -/
theorem put_spec {s : HKeyword D W} (hw : WF s) {w : W} {a : Nat} (ha : s.fwd.get? w = some a) (v : DocSet D) :
    view { s with heap := s.heap.put a v } = { view s with fwd := (view s).fwd.set w v } ∧
    WF { s with heap := s.heap.put a v } ∧ Frame s { s with heap := s.heap.put a v } := by
  refine ⟨?_, ⟨hw.inj, hw.lt⟩, ⟨le_refl _, ?_, fun _ _ h => h⟩⟩
  · have : (view { s with heap := s.heap.put a v }).fwd = (view s).fwd.set w v := by
      ext1 w'
      rw [get?_view, SMap.get?_set, get?_view]
      by_cases h : w' = w
      · subst h
        simp [ha, setAt, Heap.setAt_put]
      · rw [if_neg h]
        show (s.fwd.get? w').map _ = _
        cases hg : s.fwd.get? w' with
        | none => rfl
        | some b =>
          have hb : b ≠ a := by rintro rfl; exact h (hw.inj _ _ _ hg ha)
          simp [setAt, Heap.setAt_put, hb]
    exact congrArg (fun f => ({ view s with fwd := f } : Keyword D W)) this
  · intro b hb ho
    have hba : b ≠ a := by rintro rfl; exact ho ⟨w, ha⟩
    simp [setAt, Heap.setAt_put, hba]

/-- a word gets a new set object -/
theorem alloc_spec {s : HKeyword D W} (hw : WF s) (w : W) (v : DocSet D) :
    view { s with heap := s.heap.alloc v, fwd := s.fwd.set w s.heap.next } = { view s with fwd := (view s).fwd.set w v } ∧
    WF { s with heap := s.heap.alloc v, fwd := s.fwd.set w s.heap.next } ∧
    Frame s { s with heap := s.heap.alloc v, fwd := s.fwd.set w s.heap.next } := by
  refine ⟨?_, ⟨?_, ?_⟩, ⟨Nat.le_succ _, ?_, ?_⟩⟩
  · have : (view { s with heap := s.heap.alloc v, fwd := s.fwd.set w s.heap.next }).fwd = (view s).fwd.set w v := by
      ext1 w'
      rw [get?_view, SMap.get?_set, SMap.get?_set, get?_view]
      by_cases h : w' = w
      · subst h
        simp [setAt, Heap.setAt_alloc]
      · rw [if_neg h, if_neg h]
        cases hg : s.fwd.get? w' with
        | none => rfl
        | some b =>
          have hb : b ≠ s.heap.next := (hw.lt _ _ hg).ne
          simp [setAt, Heap.setAt_alloc, hb]
    exact congrArg (fun f => ({ view s with fwd := f } : Keyword D W)) this
  · intro x y a hx hy
    dsimp only at hx hy
    rw [SMap.get?_set] at hx hy
    by_cases h1 : x = w <;> by_cases h2 : y = w
    · rw [h1, h2]
    · rw [if_pos h1] at hx; rw [if_neg h2] at hy; cases hx; exact absurd (hw.lt _ _ hy) (lt_irrefl _)
    · rw [if_neg h1] at hx; rw [if_pos h2] at hy; cases hy; exact absurd (hw.lt _ _ hx) (lt_irrefl _)
    · rw [if_neg h1] at hx; rw [if_neg h2] at hy; exact hw.inj _ _ _ hx hy
  · intro x a hx
    dsimp only at hx
    rw [SMap.get?_set] at hx
    show a < s.heap.next + 1
    split at hx
    · cases hx; exact Nat.lt_succ_self _
    · exact Nat.lt_succ_of_lt (hw.lt _ _ hx)
  · intro b hb ho
    have : b ≠ s.heap.next := hb.ne
    simp [setAt, Heap.setAt_alloc, this]
  · rintro b hb ho ⟨x, hx⟩
    dsimp only at hx
    rw [SMap.get?_set] at hx
    split at hx
    · cases hx; exact lt_irrefl _ hb
    · exact ho ⟨x, hx⟩

/-- a word loses its set object -/
theorem del_spec {s : HKeyword D W} (hw : WF s) (w : W) :
    view { s with fwd := s.fwd.del w } = { view s with fwd := (view s).fwd.del w } ∧
    WF { s with fwd := s.fwd.del w } ∧ Frame s { s with fwd := s.fwd.del w } := by
  refine ⟨?_, ⟨?_, ?_⟩, ⟨le_refl _, fun _ _ _ => rfl, ?_⟩⟩
  · have : (view { s with fwd := s.fwd.del w }).fwd = (view s).fwd.del w := by
      ext1 w'
      rw [get?_view, SMap.get?_del, SMap.get?_del, get?_view]
      split <;> rfl
    exact congrArg (fun f => ({ view s with fwd := f } : Keyword D W)) this
  · intro x y a hx hy
    dsimp only at hx hy
    rw [SMap.get?_del] at hx hy
    split at hx
    · cases hx
    · split at hy
      · cases hy
      · exact hw.inj _ _ _ hx hy
  · intro x a hx
    dsimp only at hx
    rw [SMap.get?_del] at hx
    split at hx
    · cases hx
    · exact hw.lt _ _ hx
  · rintro b hb ho ⟨x, hx⟩
    dsimp only at hx
    rw [SMap.get?_del] at hx
    split at hx
    · cases hx
    · exact ho ⟨x, hx⟩

/-- `t` has the forward index `fwd` and is otherwise like `s` -/
structure Sim (s t : HKeyword D W) (fwd : SMap W (DocSet D)) : Prop where
  view : view t = { view s with fwd := fwd }
  wf : WF t
  frame : Frame s t

theorem Sim.trans {s t u : HKeyword D W} {f g : SMap W (DocSet D)} (h1 : Sim s t f) (h2 : Sim t u g) : Sim s u g where
  view := by rw [h2.view, h1.view]
  wf := h2.wf
  frame := h1.frame.trans h2.frame

theorem Sim.fwd {s t : HKeyword D W} {f : SMap W (DocSet D)} (h : Sim s t f) : (HKeyword.view t).fwd = f := by rw [h.view]

theorem Sim.rev {s t : HKeyword D W} {f : SMap W (DocSet D)} (h : Sim s t f) : t.rev = s.rev :=
  congrArg Keyword.rev h.view

theorem Sim.numDocs {s t : HKeyword D W} {f : SMap W (DocSet D)} (h : Sim s t f) : t.numDocs = s.numDocs :=
  congrArg Keyword.numDocs h.view

theorem Sim.threshold {s t : HKeyword D W} {f : SMap W (DocSet D)} (h : Sim s t f) : t.treeThreshold = s.treeThreshold :=
  congrArg Keyword.treeThreshold h.view

theorem Sim.refl {s : HKeyword D W} (hw : WF s) : Sim s s (HKeyword.view s).fwd := ⟨rfl, hw, Frame.refl s⟩

theorem removeWord_spec {s : HKeyword D W} (hw : WF s) (d : D) (w : W) :
    match removeWord s d w, Keyword.removeWord (view s).fwd d w with
    | some t, some f => Sim s t f
    | none, none => True
    | _, _ => False := by
  unfold removeWord Keyword.removeWord
  rw [get?_view]
  cases ha : s.fwd.get? w with
  | none => simp
  | some a =>
    dsimp only [Option.map_some]
    by_cases hc : (s.setAt a).ids.contains d = true
    · rw [if_pos hc, if_pos hc]
      dsimp only
      obtain ⟨p1, p2, p3⟩ := put_spec hw ha { s.setAt a with ids := SMap.del (s.setAt a).ids d }
      by_cases he : (SMap.del (s.setAt a).ids d).isEmpty = true
      · rw [if_pos he, if_pos he]
        obtain ⟨q1, q2, q3⟩ := del_spec p2 w
        exact ⟨by rw [q1, p1], q2, p3.trans q3⟩
      · rw [if_neg he, if_neg he]
        exact ⟨p1, p2, p3⟩
    · rw [if_neg hc, if_neg hc]
      trivial

theorem removeWords_spec {s : HKeyword D W} (hw : WF s) (d : D) (ws : List W) :
    Sim s (removeWords s d ws).1 (Keyword.removeWords (view s).fwd d ws).1 ∧
    (removeWords s d ws).2 = (Keyword.removeWords (view s).fwd d ws).2 := by
  induction ws generalizing s with
  | nil => exact ⟨Sim.refl hw, rfl⟩
  | cons w ws ih =>
    unfold removeWords Keyword.removeWords
    have h := removeWord_spec hw d w
    cases h1 : removeWord s d w with
    | none =>
      cases h2 : Keyword.removeWord (view s).fwd d w with
      | none => exact ⟨Sim.refl hw, rfl⟩
      | some f => rw [h1, h2] at h; exact h.elim
    | some t =>
      cases h2 : Keyword.removeWord (view s).fwd d w with
      | none => rw [h1, h2] at h; exact h.elim
      | some f =>
        rw [h1, h2] at h
        have h' : Sim s t f := h
        obtain ⟨i1, i2⟩ := ih h'.wf
        rw [h'.fwd] at i1 i2
        exact ⟨h'.trans i1, i2⟩

theorem insertWord_eq (threshold : Int) (d : D) (fwd : SMap W (DocSet D)) (w : W) :
    Keyword.insertWord threshold d fwd w =
      let set : DocSet D := (fwd.get? w).getD emptySet
      let set := { set with ids := SSet.insert set.ids d }
      if !set.isTree && decide ((set.ids.len : Int) ≥ threshold) then fwd.set w { isTree := true, ids := set.ids }
      else fwd.set w set := by
  unfold Keyword.insertWord
  cases fwd.get? w <;> rfl

theorem insertWord_spec {s : HKeyword D W} (hw : WF s) (d : D) (w : W) :
    Sim s (insertWord d s w) (Keyword.insertWord s.treeThreshold d (view s).fwd w) := by
  -- after `wordIdx` the word has an object
  obtain ⟨t, a, ht, hs, ha, hset⟩ : ∃ t a, s.wordIdx w = (t, a) ∧
      (Sim s t (view s).fwd ∨ Sim s t ((view s).fwd.set w emptySet)) ∧ t.fwd.get? w = some a ∧
      t.setAt a = ((view s).fwd.get? w).getD emptySet := by
    unfold wordIdx
    rw [get?_view]
    cases hg : s.fwd.get? w with
    | none =>
      obtain ⟨q1, q2, q3⟩ := alloc_spec hw w emptySet
      exact ⟨_, _, rfl, Or.inr ⟨q1, q2, q3⟩, by simp, by simp [setAt, Heap.setAt_alloc]⟩
    | some a => exact ⟨_, _, rfl, Or.inl (Sim.refl hw), hg, rfl⟩
  have hset2 : ∀ (f : SMap W (DocSet D)) (v : DocSet D), (f = (view s).fwd ∨ f = (view s).fwd.set w emptySet) →
      f.set w v = (view s).fwd.set w v := by
    rintro f v (rfl | rfl)
    · rfl
    · ext1 x
      rw [SMap.get?_set, SMap.get?_set, SMap.get?_set]
      split <;> rfl
  obtain ⟨f, hf, hs⟩ : ∃ f, (f = (view s).fwd ∨ f = (view s).fwd.set w emptySet) ∧ Sim s t f := by
    rcases hs with hs | hs
    · exact ⟨_, Or.inl rfl, hs⟩
    · exact ⟨_, Or.inr rfl, hs⟩
  rw [insertWord_eq, ← hs.threshold]
  unfold insertWord
  rw [ht]
  dsimp only
  rw [hset]
  generalize ((view s).fwd.get? w).getD emptySet = set
  obtain ⟨p1, p2, p3⟩ := put_spec hs.wf ha { set with ids := SSet.insert set.ids d }
  have hput : Sim s { t with heap := t.heap.put a { set with ids := SSet.insert set.ids d } }
      ((view s).fwd.set w { set with ids := SSet.insert set.ids d }) := by
    refine hs.trans ⟨?_, p2, p3⟩
    rw [p1, hs.fwd, hset2 f _ hf]
  by_cases hc : (!set.isTree && decide (((SSet.insert set.ids d).len : Int) ≥ t.treeThreshold)) = true
  · rw [if_pos hc, if_pos hc]
    obtain ⟨q1, q2, q3⟩ := alloc_spec hput.wf w { isTree := true, ids := SSet.insert set.ids d }
    refine hput.trans ⟨?_, q2, q3⟩
    rw [q1, hput.fwd]
    refine congrArg (fun f => ({ view _ with fwd := f } : Keyword D W)) ?_
    ext1 x
    rw [SMap.get?_set, SMap.get?_set, SMap.get?_set]
    split <;> rfl
  · rw [if_neg hc, if_neg hc]
    exact hput

theorem insertForward_spec {s : HKeyword D W} (hw : WF s) (d : D) (ws : List W) :
    Sim s (insertForward s d ws) (Keyword.insertForward s.treeThreshold (view s).fwd d ws) := by
  unfold insertForward Keyword.insertForward
  induction ws generalizing s with
  | nil => exact Sim.refl hw
  | cons w ws ih =>
    rw [List.foldl_cons, List.foldl_cons]
    have h := insertWord_spec hw d w
    have := ih h.wf
    rw [h.fwd, h.threshold] at this
    exact h.trans this

/-- `t` looks like `k`, and left the unused objects of `s` alone -/
structure Next (s t : HKeyword D W) (k : Keyword D W) : Prop where
  view : view t = k
  wf : WF t
  frame : Frame s t

theorem unindexDoc_next {s : HKeyword D W} (hw : WF s) (d : D) : Next s (s.unindexDoc d) ((view s).unindexDoc d) := by
  unfold unindexDoc Keyword.unindexDoc
  show Next s (match s.rev.get? d with | none => s | some words => _) (match s.rev.get? d with | none => _ | some words => _)
  cases hg : s.rev.get? d with
  | none => exact ⟨rfl, hw, Frame.refl s⟩
  | some words =>
    dsimp only
    obtain ⟨h1, h2⟩ := removeWords_spec hw d words.keys
    rw [h2]
    by_cases hc : (Keyword.removeWords (view s).fwd d words.keys).2 = true
    · rw [if_pos hc, if_pos hc]
      exact ⟨h1.view, h1.wf, h1.frame⟩
    · rw [if_neg hc, if_neg hc]
      refine ⟨?_, ⟨h1.wf.inj, h1.wf.lt⟩, ⟨h1.frame.next, h1.frame.same, h1.frame.own⟩⟩
      have := h1.fwd
      rw [h1.rev, h1.numDocs]
      show ({ fwd := (HKeyword.view (removeWords s d words.keys).1).fwd, rev := _, numDocs := _,
              treeThreshold := (removeWords s d words.keys).1.treeThreshold } : Keyword D W) = _
      rw [this, h1.threshold]
      rfl

theorem indexDoc_next (normalize : List W → List W) {s : HKeyword D W} (hw : WF s) (d : D) (seq : SeqArg W) :
    Next s (s.indexDoc normalize d seq).1 ((view s).indexDoc normalize d seq).1 ∧
    (s.indexDoc normalize d seq).2 = ((view s).indexDoc normalize d seq).2 := by
  have href : Next s s (view s) := ⟨rfl, hw, Frame.refl s⟩
  unfold indexDoc Keyword.indexDoc
  cases seq with
  | str => exact ⟨href, rfl⟩
  | seq truthy items =>
    dsimp only
    have er : (view s).rev = s.rev := rfl
    rw [er]
    cases truthy with
    | false =>
      simp only [Bool.not_false, if_true]
      cases hg : s.rev.get? d with
      | none => exact ⟨href, rfl⟩
      | some kw =>
        dsimp only
        by_cases hc : kw.isEmpty = true
        · rw [if_pos hc, if_pos hc]; exact ⟨href, rfl⟩
        · rw [if_neg hc, if_neg hc]; exact ⟨unindexDoc_next hw d, rfl⟩
    | true =>
      simp only [Bool.not_true, Bool.false_eq_true, if_false]
      cases hg : s.rev.get? d with
      | none =>
        dsimp only
        have h := insertForward_spec hw d (SSet.ofList (normalize items)).keys
        refine ⟨⟨?_, ⟨h.wf.inj, h.wf.lt⟩, ⟨h.frame.next, h.frame.same, h.frame.own⟩⟩, rfl⟩
        show ({ fwd := (HKeyword.view (insertForward s d (SSet.ofList (normalize items)).keys)).fwd, rev := _,
                numDocs := _, treeThreshold := (insertForward s d (SSet.ofList (normalize items)).keys).treeThreshold } :
                Keyword D W) = _
        dsimp only
        rw [h.fwd, h.rev, h.numDocs, h.threshold]
        rfl
      | some old =>
        dsimp only
        obtain ⟨h1, h2⟩ := removeWords_spec hw d (SSet.diff old (SSet.ofList (normalize items))).keys
        rw [h2]
        by_cases hc : (Keyword.removeWords (view s).fwd d (SSet.diff old (SSet.ofList (normalize items))).keys).2 = true
        · rw [if_pos hc, if_pos hc]
          exact ⟨⟨h1.view, h1.wf, h1.frame⟩, rfl⟩
        · rw [if_neg hc, if_neg hc]
          have h := insertForward_spec h1.wf d (SSet.diff (SSet.ofList (normalize items)) old).keys
          have h' := h1.trans h
          refine ⟨⟨?_, ⟨h.wf.inj, h.wf.lt⟩, ⟨h'.frame.next, h'.frame.same, h'.frame.own⟩⟩, rfl⟩
          show ({ fwd := (HKeyword.view (insertForward (removeWords s d _).1 d _)).fwd, rev := _,
                  numDocs := (insertForward (removeWords s d _).1 d _).numDocs,
                  treeThreshold := (insertForward (removeWords s d _).1 d _).treeThreshold } : Keyword D W) = _
          dsimp only
          rw [h'.fwd, h'.rev, h'.numDocs, h'.threshold, h1.fwd, h1.threshold]
          rfl

theorem optimizeWord_spec {s : HKeyword D W} (hw : WF s) (w : W) (a : Nat) (ha : s.fwd.get? w = some a) :
    Sim s (optimizeWord s (w, a)) ((view s).fwd.set w (Keyword.optimizeSet s.treeThreshold (s.setAt a))) ∧
    ∀ w', w' ≠ w → (optimizeWord s (w, a)).fwd.get? w' = s.fwd.get? w' := by
  have hself : Sim s s ((view s).fwd.set w (s.setAt a)) := by
    have : (view s).fwd.set w (s.setAt a) = (view s).fwd := by
      ext1 x
      rw [SMap.get?_set]
      split
      · rename_i h; rw [h, get?_view, ha]; rfl
      · rfl
    rw [this]; exact Sim.refl hw
  unfold optimizeWord Keyword.optimizeSet
  dsimp only
  by_cases hc : ((s.setAt a).ids.len : Int) ≥ s.treeThreshold
  · rw [if_pos hc, if_pos hc]
    by_cases ht : (!(s.setAt a).isTree) = true
    · rw [if_pos ht, if_pos ht]
      obtain ⟨q1, q2, q3⟩ := alloc_spec hw w { isTree := true, ids := (s.setAt a).ids }
      exact ⟨⟨q1, q2, q3⟩, fun w' h => SMap.get?_set_ne _ h _⟩
    · rw [if_neg ht, if_neg ht]; exact ⟨hself, fun _ _ => rfl⟩
  · rw [if_neg hc, if_neg hc]
    by_cases ht : (s.setAt a).isTree = true
    · rw [if_pos ht, if_pos ht]
      obtain ⟨q1, q2, q3⟩ := alloc_spec hw w { isTree := false, ids := (s.setAt a).ids }
      exact ⟨⟨q1, q2, q3⟩, fun w' h => SMap.get?_set_ne _ h _⟩
    · rw [if_neg ht, if_neg ht]; exact ⟨hself, fun _ _ => rfl⟩

theorem optimizeLoop_spec (l : List (W × Nat)) (hn : (l.map Prod.fst).Nodup) {s : HKeyword D W} (hw : WF s)
    (hl : ∀ p ∈ l, s.fwd.get? p.1 = some p.2) :
    ∃ f, Sim s (l.foldl optimizeWord s) f ∧
      ∀ w, f.get? w = if w ∈ l.map Prod.fst then ((view s).fwd.get? w).map (Keyword.optimizeSet s.treeThreshold)
        else (view s).fwd.get? w := by
  induction l generalizing s with
  | nil => exact ⟨_, Sim.refl hw, fun w => by simp⟩
  | cons p l ih =>
    obtain ⟨w0, a⟩ := p
    rw [List.map_cons, List.nodup_cons] at hn
    obtain ⟨h1, h2⟩ := optimizeWord_spec hw w0 a (hl (w0, a) (by simp))
    have hl' : ∀ p ∈ l, (optimizeWord s (w0, a)).fwd.get? p.1 = some p.2 := by
      intro p hp
      rw [h2 p.1 (by rintro rfl; exact hn.1 (List.mem_map.2 ⟨p, hp, rfl⟩))]
      exact hl p (by simp [hp])
    obtain ⟨f, hf, hg⟩ := ih hn.2 h1.wf hl'
    refine ⟨f, h1.trans hf, fun w => ?_⟩
    rw [hg, h1.threshold, h1.fwd, SMap.get?_set]
    by_cases hww : w = w0
    · subst hww
      have : w ∉ l.map Prod.fst := hn.1
      rw [if_neg this, if_pos rfl, List.map_cons, if_pos List.mem_cons_self, get?_view, hl (w, a) (by simp)]
      rfl
    · simp only [hww, if_false, List.map_cons, List.mem_cons, false_or]

theorem optimize_next {s : HKeyword D W} (hw : WF s) : Next s s.optimize (view s).optimize := by
  obtain ⟨f, hf, hg⟩ := optimizeLoop_spec s.fwd.items (SMap.keys_nodup s.fwd) hw
    (fun p hp => (SMap.get?_eq_some_iff _ _ _).2 hp)
  refine ⟨?_, hf.wf, hf.frame⟩
  have : f = ((view s).fwd.mapVals (fun _ set => Keyword.optimizeSet (view s).treeThreshold set)) := by
    ext1 w
    rw [hg, SMap.get?_mapVals]
    by_cases h : w ∈ s.fwd.items.map Prod.fst
    · rw [if_pos h]; rfl
    · rw [if_neg h]
      have : s.fwd.get? w = none := (SMap.get?_eq_none_iff _ _).2 h
      rw [get?_view, this]; rfl
  show HKeyword.view (s.fwd.items.foldl optimizeWord s) = _
  rw [hf.view, this]
  rfl

theorem step_next (normalize : List W → List W) {s : HKeyword D W} (hw : WF s) (op : Op D W) :
    Next s (s.step normalize op).1 ((view s).step normalize op).1 ∧
    (s.step normalize op).2 = ((view s).step normalize op).2 := by
  cases op with
  | index d seq => exact indexDoc_next normalize hw d seq
  | unindex d => exact ⟨unindexDoc_next hw d, rfl⟩
  | clear =>
    refine ⟨⟨rfl, ⟨?_, ?_⟩, ⟨le_refl _, fun _ _ _ => rfl, ?_⟩⟩, rfl⟩
    · intro w w' a h; cases h
    · intro w a h; cases h
    · rintro a _ _ ⟨w, h⟩; cases h
  | optimize => exact ⟨optimize_next hw, rfl⟩
  | setThreshold n => exact ⟨⟨rfl, ⟨hw.inj, hw.lt⟩, ⟨le_refl _, fun _ _ _ => rfl, fun _ _ h => h⟩⟩, rfl⟩

theorem runFrom_next (normalize : List W → List W) {s : HKeyword D W} (hw : WF s) (ops : List (Op D W)) :
    Next s (runFrom normalize s ops) (ops.foldl (fun s op => (Keyword.step normalize s op).1) (view s)) := by
  unfold runFrom
  induction ops generalizing s with
  | nil => exact ⟨rfl, hw, Frame.refl s⟩
  | cons op ops ih =>
    rw [List.foldl_cons, List.foldl_cons]
    have h := (step_next normalize hw op).1
    have h' := ih h.wf
    rw [h.view] at h'
    exact ⟨h'.view, h'.wf, h.frame.trans h'.frame⟩

theorem wf_new : WF (new : HKeyword D W) := ⟨by intro w w' a h; (cases h), by intro w a h; (cases h)⟩

theorem run_next (normalize : List W → List W) (ops : List (Op D W)) :
    WF (run normalize ops) ∧ view (run normalize ops) = Keyword.run normalize ops := by
  have h := runFrom_next normalize (wf_new (D := D) (W := W)) ops
  exact ⟨h.wf, h.view⟩

/-! ### search -/

/-- only new objects were created -/
theorem ext_wf {s : HKeyword D W} (hw : WF s) {h : Heap (DocSet D)} (he : Heap.Ext s.heap h) :
    WF { s with heap := h } ∧ view { s with heap := h } = view s ∧ Frame s { s with heap := h } := by
  refine ⟨⟨hw.inj, fun w a ha => lt_of_lt_of_le (hw.lt w a ha) he.next⟩, ?_, ⟨he.next, fun a ha _ => he.same a ha, fun _ _ h => h⟩⟩
  unfold HKeyword.view
  congr 1
  ext1 w
  rw [SMap.get?_mapVals, SMap.get?_mapVals]
  show (s.fwd.get? w).map _ = _
  cases hg : s.fwd.get? w with
  | none => rfl
  | some a => exact congrArg some (he.same a (hw.lt w a hg))

theorem docidsOf_view (s : HKeyword D W) (w : W) :
    (view s).docidsOf w = match s.fwd.get? w with | none => SMap.empty | some a => (s.setAt a).ids := by
  unfold Keyword.docidsOf
  rw [get?_view]
  cases s.fwd.get? w <;> rfl

theorem setsOf_spec (ws : List W) {s : HKeyword D W} (hw : WF s) :
    ∃ h, (s.setsOf ws).1 = { s with heap := h } ∧ Heap.Ext s.heap h ∧ (s.setsOf ws).2.length = ws.length ∧
    (∀ a ∈ (s.setsOf ws).2, a < h.next) ∧
    (s.setsOf ws).2.map (fun a => (h.setAt a).ids) = ws.map (view s).docidsOf ∧
    (∀ a ∈ (s.setsOf ws).2, a < s.heap.next → ∃ w ∈ ws, s.fwd.get? w = some a) := by
  induction ws generalizing s with
  | nil => exact ⟨s.heap, rfl, Heap.Ext.refl _, rfl, by simp [setsOf], rfl, by simp [setsOf]⟩
  | cons w ws ih =>
    unfold setsOf
    cases hg : s.fwd.get? w with
    | none =>
      dsimp only
      have he := Heap.ext_alloc s.heap (emptySet : DocSet D)
      obtain ⟨hw', hv', -⟩ := ext_wf hw he
      obtain ⟨h, h0, h1, h2, h3, h4, h5⟩ := ih hw'
      refine ⟨h, h0, he.trans h1, by simp [h2], ?_, ?_, ?_⟩
      · intro a ha
        rcases List.mem_cons.1 ha with rfl | ha
        · exact lt_of_lt_of_le (Nat.lt_succ_self _) h1.next
        · exact h3 a ha
      · rw [List.map_cons, List.map_cons, h4, hv', docidsOf_view, hg]
        congr 1
        rw [h1.same _ (Nat.lt_succ_self _), Heap.setAt_alloc_self]
        rfl
      · intro a ha hlt
        rcases List.mem_cons.1 ha with rfl | ha
        · exact absurd hlt (lt_irrefl _)
        · obtain ⟨w', hw1, hw2⟩ := h5 a ha (Nat.lt_succ_of_lt hlt)
          exact ⟨w', by simp [hw1], hw2⟩
    | some a0 =>
      dsimp only
      obtain ⟨h, h0, h1, h2, h3, h4, h5⟩ := ih hw
      refine ⟨h, h0, h1, by simp [h2], ?_, ?_, ?_⟩
      · intro a ha
        rcases List.mem_cons.1 ha with rfl | ha
        · exact lt_of_lt_of_le (hw.lt w a hg) h1.next
        · exact h3 a ha
      · rw [List.map_cons, List.map_cons, h4, docidsOf_view, hg]
        congr 1
        rw [h1.same _ (hw.lt w a0 hg)]
        rfl
      · intro a ha hlt
        rcases List.mem_cons.1 ha with rfl | ha
        · exact ⟨w, by simp, hg⟩
        · obtain ⟨w', hw1, hw2⟩ := h5 a ha hlt
          exact ⟨w', by simp [hw1], hw2⟩

/-- what a search returns, and which object it is -/
theorem search_spec (normalize : List W → List W) {s : HKeyword D W} (hw : WF s) (q : QueryArg W) (op : Operator)
    (hop : op ≠ .other) :
    ∃ a h, s.search normalize q op = ({ s with heap := h }, .ok a) ∧ Heap.Ext s.heap h ∧ a < h.next ∧
      (view s).search normalize q op = .ok (h.setAt a).ids ∧
      (s.heap.next ≤ a ∨ (op = .and ∧ ∃ w, normalize (Spec.Keyword.words q) = [w] ∧ s.fwd.get? w = some a)) := by
  have eq1 : ∀ q : QueryArg W, s.search normalize q op = s.search normalize (.seq (Spec.Keyword.words q)) op := by
    intro q; cases q <;> rfl
  have eq2 : ∀ q : QueryArg W, (view s).search normalize q op =
      Heap.combineV ((normalize (Spec.Keyword.words q)).map (view s).docidsOf) op := by
    intro q; cases q <;> cases op <;> rfl
  rw [eq1, eq2]
  generalize Spec.Keyword.words q = l
  obtain ⟨h, h0, h1, h2, h3, h4, h5⟩ := setsOf_spec (normalize l) hw
  obtain ⟨a, c1, c2, c3, c4, c5⟩ := Heap.combine_spec h (s.setsOf (normalize l)).2 h3 op hop
  refine ⟨a, (h.combine (s.setsOf (normalize l)).2 op).1, ?_, h1.trans c2, c3, ?_, ?_⟩
  · unfold search
    dsimp only
    rw [h0]
    dsimp only
    rw [← c1]
  · rw [← h4, c4]
  · rcases c5 with c5 | ⟨rfl, c5⟩
    · exact Or.inl (h1.next.trans c5)
    · by_cases hya : s.heap.next ≤ a
      · exact Or.inl hya
      · right
        refine ⟨rfl, ?_⟩
        obtain ⟨w, hw1, hw2⟩ := h5 a (by rw [c5]; simp) (not_le.1 hya)
        rw [c5] at h2
        obtain ⟨w0, hw0⟩ := List.length_eq_one_iff.1 (by simpa using h2.symm : (normalize l).length = 1)
        refine ⟨w, ?_, hw2⟩
        rw [hw0] at hw1 ⊢
        rw [List.mem_singleton] at hw1
        rw [hw1]

end Verif.HKeyword
