import Verif.Proofs.Topic
import Verif.Proofs.KeywordHeap
import Verif.Model.TopicHeap

set_option autoImplicit false

namespace Verif.HTopic

open Topic (Op QueryArg)

variable {F D E X : Type} [LinearOrder F] [LinearOrder D]

/-- a filter without its address -/
def viewFilter (h : Heap (DocSet D)) (f : HFilter E) : Filter D E :=
  { kind := f.kind, expr := f.expr, ids := (h.setAt f.ids).ids }

/-- the filters without addresses -/
def viewF (fs : SMap F (HFilter E)) (h : Heap (DocSet D)) : SMap F (Filter D E) := fs.mapVals (fun _ f => viewFilter h f)

/-- forget the addresses -/
def view (s : HTopic F D E) : Topic F D E := { filters := viewF s.filters s.heap }

/-- the index uses the object at `a` -/
def Owned (fs : SMap F (HFilter E)) (a : Nat) : Prop := ∃ i f, fs.get? i = some f ∧ f.ids = a

/-- different filters have different set objects, all of them created -/
structure WF (s : HTopic F D E) : Prop where
  inj : ∀ i j f g, s.filters.get? i = some f → s.filters.get? j = some g → f.ids = g.ids → i = j
  lt : ∀ i f, s.filters.get? i = some f → f.ids < s.heap.next

/-- objects not used by the index in `s` are the same in `t`, and are not used in `t` -/
structure Frame (s t : HTopic F D E) : Prop where
  next : s.heap.next ≤ t.heap.next
  same : ∀ a, a < s.heap.next → ¬ Owned s.filters a → t.heap.setAt a = s.heap.setAt a
  own : ∀ a, a < s.heap.next → ¬ Owned s.filters a → ¬ Owned t.filters a

theorem Frame.refl (s : HTopic F D E) : Frame s s := ⟨le_refl _, fun _ _ _ => rfl, fun _ _ h => h⟩

theorem Frame.trans {s t u : HTopic F D E} (h1 : Frame s t) (h2 : Frame t u) : Frame s u where
  next := h1.next.trans h2.next
  same a ha ho := (h2.same a (lt_of_lt_of_le ha h1.next) (h1.own a ha ho)).trans (h1.same a ha ho)
  own a ha ho := h2.own a (lt_of_lt_of_le ha h1.next) (h1.own a ha ho)

theorem get?_viewF (fs : SMap F (HFilter E)) (h : Heap (DocSet D)) (i : F) :
    (viewF fs h).get? i = (fs.get? i).map (viewFilter h) := SMap.get?_mapVals _ _ _

/-- the set object of a filter changes -/
theorem put_spec {s : HTopic F D E} (hw : WF s) {i : F} {f : HFilter E} (hf : s.filters.get? i = some f) (v : SSet D) :
    viewF s.filters (s.heap.put f.ids (mkSet v)) =
      (viewF s.filters s.heap).set i { kind := f.kind, expr := f.expr, ids := v } ∧
    WF { s with heap := s.heap.put f.ids (mkSet v) } ∧ Frame s { s with heap := s.heap.put f.ids (mkSet v) } := by
  refine ⟨?_, ⟨hw.inj, hw.lt⟩, ⟨le_refl _, ?_, fun _ _ h => h⟩⟩
  · ext1 j
    rw [get?_viewF, SMap.get?_set, get?_viewF]
    by_cases h : j = i
    · subst h
      rw [hf]
      simp [viewFilter, Heap.setAt_put, mkSet]
    · rw [if_neg h]
      cases hg : s.filters.get? j with
      | none => rfl
      | some g =>
        have hne : g.ids ≠ f.ids := fun e => h (hw.inj j i g f hg hf e)
        simp [viewFilter, Heap.setAt_put, hne]
  · intro a _ ho
    rw [Heap.setAt_put, if_neg]
    rintro rfl; exact ho ⟨i, f, hf, rfl⟩

/-- a filter gets a new set object -/
theorem alloc_spec {s : HTopic F D E} (hw : WF s) (i : F) (kind : FilterKind) (expr : E) (v : SSet D) :
    view { heap := s.heap.alloc (mkSet v), filters := s.filters.set i { kind := kind, expr := expr, ids := s.heap.next } } =
      { filters := (view s).filters.set i { kind := kind, expr := expr, ids := v } } ∧
    WF { heap := s.heap.alloc (mkSet v), filters := s.filters.set i { kind := kind, expr := expr, ids := s.heap.next } } ∧
    Frame s { heap := s.heap.alloc (mkSet v), filters := s.filters.set i { kind := kind, expr := expr, ids := s.heap.next } } := by
  refine ⟨?_, ⟨?_, ?_⟩, ⟨Nat.le_succ _, ?_, ?_⟩⟩
  · refine congrArg (fun f => ({ filters := f } : Topic F D E)) ?_
    dsimp only
    ext1 j
    show _ = (SMap.set (viewF s.filters s.heap) i _).get? j
    rw [get?_viewF, SMap.get?_set, SMap.get?_set, get?_viewF]
    by_cases h : j = i
    · subst h; simp [viewFilter, Heap.setAt_alloc_self, mkSet]
    · rw [if_neg h, if_neg h]
      cases hg : s.filters.get? j with
      | none => rfl
      | some g =>
        have := (hw.lt j g hg).ne
        simp [viewFilter, Heap.setAt_alloc, this]
  · intro j k f g hj hk he
    dsimp only at hj hk
    rw [SMap.get?_set] at hj hk
    by_cases h1 : j = i <;> by_cases h2 : k = i
    · rw [h1, h2]
    · rw [if_pos h1] at hj; rw [if_neg h2] at hk; cases hj
      exact absurd he.symm (hw.lt k g hk).ne
    · rw [if_neg h1] at hj; rw [if_pos h2] at hk; cases hk
      exact absurd he (hw.lt j f hj).ne
    · rw [if_neg h1] at hj; rw [if_neg h2] at hk; exact hw.inj j k f g hj hk he
  · intro j f hj
    dsimp only at hj
    rw [SMap.get?_set] at hj
    show f.ids < s.heap.next + 1
    split at hj
    · cases hj; exact Nat.lt_succ_self _
    · exact Nat.lt_succ_of_lt (hw.lt j f hj)
  · intro a ha _
    dsimp only
    rw [Heap.setAt_alloc, if_neg ha.ne]
  · rintro a ha ho ⟨j, f, hj, rfl⟩
    dsimp only at hj
    rw [SMap.get?_set] at hj
    split at hj
    · cases hj; exact lt_irrefl _ ha
    · exact ho ⟨j, f, hj, rfl⟩

/-- `t` looks like `k`, and left the unused objects of `s` alone -/
structure Next (s t : HTopic F D E) (k : Topic F D E) : Prop where
  view : view t = k
  wf : WF t
  frame : Frame s t

theorem Next.refl {s : HTopic F D E} (hw : WF s) : Next s s (HTopic.view s) := ⟨rfl, hw, Frame.refl s⟩

theorem clearLoop_spec (l : List (F × HFilter E)) {s : HTopic F D E} (hw : WF s)
    (hl : ∀ p ∈ l, s.filters.get? p.1 = some p.2) (hn : (l.map Prod.fst).Nodup) :
    ∃ k, Next s (l.foldl clearFilter s) k ∧ ∀ i, k.filters.get? i =
      if i ∈ l.map Prod.fst then ((HTopic.view s).filters.get? i).map Filter.clear else (HTopic.view s).filters.get? i := by
  induction l generalizing s with
  | nil => exact ⟨_, Next.refl hw, fun i => by simp⟩
  | cons p l ih =>
    rw [List.map_cons, List.nodup_cons] at hn
    obtain ⟨q1, q2, q3⟩ := alloc_spec hw p.1 p.2.kind p.2.expr SMap.empty
    have hl' : ∀ r ∈ l, (clearFilter s p).filters.get? r.1 = some r.2 := by
      intro r hr
      show (s.filters.set p.1 _).get? r.1 = _
      rw [SMap.get?_set_ne]
      · exact hl r (by simp [hr])
      · rintro h; exact hn.1 (List.mem_map.2 ⟨r, hr, h⟩)
    obtain ⟨k, h1, h2⟩ := ih (s := clearFilter s p) q2 hl' hn.2
    refine ⟨k, ⟨h1.view, h1.wf, Frame.trans q3 h1.frame⟩, fun i => ?_⟩
    rw [h2]
    have q1' : HTopic.view (clearFilter s p) = { filters := (HTopic.view s).filters.set p.1 { kind := p.2.kind, expr := p.2.expr, ids := SMap.empty } } := q1
    rw [q1']
    dsimp only
    rw [SMap.get?_set]
    by_cases hi : i = p.1
    · subst hi
      rw [if_neg hn.1, if_pos rfl, List.map_cons, if_pos List.mem_cons_self]
      show _ = ((viewF s.filters s.heap).get? p.1).map _
      rw [get?_viewF, hl p (by simp)]
      rfl
    · simp only [hi, if_false, List.map_cons, List.mem_cons, false_or]

theorem indexLoop_next (eval : E → D → X → Except Unit Bool) (d : D) (obj : X) (l : List (F × HFilter E))
    {s : HTopic F D E} (hw : WF s) (hl : ∀ p ∈ l, s.filters.get? p.1 = some p.2) (hn : (l.map Prod.fst).Nodup) :
    viewF s.filters (indexLoop eval d obj s.heap l).1 =
      (Topic.indexLoop eval d obj (viewF s.filters s.heap) (l.map Prod.fst)).1 ∧
    (indexLoop eval d obj s.heap l).2 = (Topic.indexLoop eval d obj (viewF s.filters s.heap) (l.map Prod.fst)).2 ∧
    WF { s with heap := (indexLoop eval d obj s.heap l).1 } ∧
    Frame s { s with heap := (indexLoop eval d obj s.heap l).1 } := by
  induction l generalizing s with
  | nil => exact ⟨rfl, rfl, ⟨hw.inj, hw.lt⟩, Frame.refl s⟩
  | cons p l ih =>
    rw [List.map_cons, List.nodup_cons] at hn
    have hp := hl p (by simp)
    rw [List.map_cons]
    unfold indexLoop Topic.indexLoop
    have hg : (viewF s.filters s.heap).get? p.1 = some (viewFilter s.heap p.2) := by rw [get?_viewF, hp]; rfl
    have hsame : (viewF s.filters s.heap).set p.1 (viewFilter s.heap p.2) = viewF s.filters s.heap := by
      ext1 j
      rw [SMap.get?_set]
      split
      · rename_i h; rw [h, hg]
      · rfl
    rw [hg]
    dsimp only
    unfold Filter.indexDoc
    have hk : (viewFilter s.heap p.2).kind = p.2.kind := rfl
    have hx : (viewFilter s.heap p.2).expr = p.2.expr := rfl
    rw [hk, hx]
    cases hkind : p.2.kind with
    | base =>
      dsimp only
      rw [hsame]
      exact ⟨rfl, rfl, ⟨hw.inj, hw.lt⟩, Frame.refl s⟩
    | python =>
      dsimp only
      have hrec := ih hw (fun r hr => hl r (by simp [hr])) hn.2
      cases hev : eval p.2.expr d obj with
      | error e =>
        dsimp only
        rw [hsame]
        exact hrec
      | ok b =>
        cases b with
        | false =>
          dsimp only
          rw [hsame]
          exact hrec
        | true =>
          dsimp only
          obtain ⟨q1, q2, q3⟩ := put_spec hw hp (SSet.insert (s.heap.setAt p.2.ids).ids d)
          obtain ⟨h1, h2, h3, h4⟩ := ih q2 (fun r hr => hl r (by simp [hr])) hn.2
          have e : ({ viewFilter s.heap p.2 with ids := SSet.insert (viewFilter s.heap p.2).ids d } : Filter D E) =
              { kind := p.2.kind, expr := p.2.expr, ids := SSet.insert (s.heap.setAt p.2.ids).ids d } := rfl
          dsimp only at h1 h2
          rw [q1] at h1 h2
          refine ⟨?_, ?_, ⟨h3.inj, h3.lt⟩, ?_⟩
          · rw [h1, ← hkind]; rfl
          · rw [h2, ← hkind]; rfl
          · exact q3.trans h4

theorem indexDoc_next (eval : E → D → X → Except Unit Bool) {s : HTopic F D E} (hw : WF s) (d : D) (obj : X) :
    Next s (s.indexDoc eval d obj).1 ((view s).indexDoc eval d obj).1 ∧
    (s.indexDoc eval d obj).2 = ((view s).indexDoc eval d obj).2 := by
  obtain ⟨h1, h2, h3, h4⟩ := indexLoop_next eval d obj s.filters.items hw
    (fun p hp => (SMap.get?_eq_some_iff _ _ _).2 hp) (SMap.keys_nodup s.filters)
  have hk : (viewF s.filters s.heap).keys = s.filters.items.map Prod.fst := SMap.keys_mapVals _ _
  unfold indexDoc Topic.indexDoc
  dsimp only
  refine ⟨⟨?_, h3, h4⟩, ?_⟩
  · show ({ filters := viewF s.filters (indexLoop eval d obj s.heap s.filters.items).1 } : Topic F D E) = _
    rw [h1]
    show _ = ({ filters := (Topic.indexLoop eval d obj (viewF s.filters s.heap) (viewF s.filters s.heap).keys).1 } : Topic F D E)
    rw [hk]
  · rw [h2]
    show _ = (Topic.indexLoop eval d obj (viewF s.filters s.heap) (viewF s.filters s.heap).keys).2
    rw [hk]

theorem unindexLoop_next (d : D) (l : List (F × HFilter E)) {s : HTopic F D E} (hw : WF s)
    (hl : ∀ p ∈ l, s.filters.get? p.1 = some p.2) (hn : (l.map Prod.fst).Nodup) :
    (∀ i, (viewF s.filters (l.foldl (unindexFilter d) s.heap)).get? i =
      if i ∈ l.map Prod.fst then ((viewF s.filters s.heap).get? i).map (Filter.unindexDoc · d)
      else (viewF s.filters s.heap).get? i) ∧
    WF { s with heap := l.foldl (unindexFilter d) s.heap } ∧ Frame s { s with heap := l.foldl (unindexFilter d) s.heap } := by
  induction l generalizing s with
  | nil => exact ⟨fun i => by simp, ⟨hw.inj, hw.lt⟩, Frame.refl s⟩
  | cons p l ih =>
    rw [List.map_cons, List.nodup_cons] at hn
    have hp := hl p (by simp)
    obtain ⟨q1, q2, q3⟩ := put_spec hw hp (SMap.del (s.heap.setAt p.2.ids).ids d)
    obtain ⟨h1, h2, h3⟩ := ih q2 (fun r hr => hl r (by simp [hr])) hn.2
    dsimp only at h1
    rw [q1] at h1
    refine ⟨fun i => ?_, ⟨h2.inj, h2.lt⟩, Frame.trans q3 h3⟩
    rw [List.foldl_cons]
    show (viewF s.filters (l.foldl (unindexFilter d) (s.heap.put p.2.ids _))).get? i = _
    rw [h1, SMap.get?_set]
    by_cases hi : i = p.1
    · subst hi
      rw [if_neg hn.1, if_pos rfl, if_pos (by simp), get?_viewF, hp]
      rfl
    · simp only [hi, if_false, List.map_cons, List.mem_cons, false_or]

theorem unindexDoc_next {s : HTopic F D E} (hw : WF s) (d : D) : Next s (s.unindexDoc d) ((view s).unindexDoc d) := by
  obtain ⟨h1, h2, h3⟩ := unindexLoop_next d s.filters.items hw
    (fun p hp => (SMap.get?_eq_some_iff _ _ _).2 hp) (SMap.keys_nodup s.filters)
  refine ⟨?_, h2, h3⟩
  show ({ filters := viewF s.filters (s.filters.items.foldl (unindexFilter d) s.heap) } : Topic F D E) =
    { filters := (viewF s.filters s.heap).mapVals (fun _ f => f.unindexDoc d) }
  congr 1
  ext1 i
  rw [h1, SMap.get?_mapVals]
  by_cases h : i ∈ s.filters.items.map Prod.fst
  · rw [if_pos h]
  · rw [if_neg h, get?_viewF, (SMap.get?_eq_none_iff _ _).2 h]; rfl

theorem step_next (eval : E → D → X → Except Unit Bool) {s : HTopic F D E} (hw : WF s) (op : Op F D E X) :
    Next s (s.step eval op).1 ((view s).step eval op).1 ∧ (s.step eval op).2 = ((view s).step eval op).2 := by
  cases op with
  | addFilter i f =>
    obtain ⟨q1, q2, q3⟩ := alloc_spec hw i f.kind f.expr f.ids
    exact ⟨⟨q1, q2, q3⟩, rfl⟩
  | delFilter i =>
    show Next s (s.delFilter i).1 ((view s).delFilter i).1 ∧ (s.delFilter i).2 = ((view s).delFilter i).2
    unfold delFilter Topic.delFilter
    have hc : (view s).filters.contains i = s.filters.contains i := by
      rw [Bool.eq_iff_iff, SMap.contains_iff, SMap.contains_iff]
      show (∃ v, (viewF s.filters s.heap).get? i = some v) ↔ _
      rw [get?_viewF]
      cases s.filters.get? i <;> simp
    rw [hc]
    by_cases h : s.filters.contains i = true
    · rw [if_pos h, if_pos h]
      refine ⟨⟨?_, ⟨?_, ?_⟩, ⟨le_refl _, fun _ _ _ => rfl, ?_⟩⟩, rfl⟩
      · show ({ filters := viewF (s.filters.del i) s.heap } : Topic F D E) = { filters := (viewF s.filters s.heap).del i }
        congr 1
        ext1 j
        rw [get?_viewF, SMap.get?_del, SMap.get?_del, get?_viewF]
        split <;> rfl
      · intro j k f g hj hk
        dsimp only at hj hk
        rw [SMap.get?_del] at hj hk
        split at hj
        · cases hj
        · split at hk
          · cases hk
          · exact hw.inj j k f g hj hk
      · intro j f hj
        dsimp only at hj
        rw [SMap.get?_del] at hj
        split at hj
        · cases hj
        · exact hw.lt j f hj
      · rintro a _ ho ⟨j, f, hj, rfl⟩
        dsimp only at hj
        rw [SMap.get?_del] at hj
        split at hj
        · cases hj
        · exact ho ⟨j, f, hj, rfl⟩
    · rw [if_neg h, if_neg h]
      exact ⟨Next.refl hw, rfl⟩
  | clearFilters =>
    obtain ⟨k, h1, h2⟩ := clearLoop_spec s.filters.items hw (fun p hp => (SMap.get?_eq_some_iff _ _ _).2 hp)
      (SMap.keys_nodup s.filters)
    refine ⟨⟨?_, h1.wf, h1.frame⟩, rfl⟩
    show view (s.filters.items.foldl clearFilter s) = (view s).clearFilters
    rw [h1.view]
    show (k : Topic F D E) = { filters := (viewF s.filters s.heap).mapVals (fun _ f => f.clear) }
    have : k.filters = (viewF s.filters s.heap).mapVals (fun _ f => f.clear) := by
      ext1 i
      rw [h2, SMap.get?_mapVals]
      by_cases h : i ∈ s.filters.items.map Prod.fst
      · rw [if_pos h]; rfl
      · rw [if_neg h]
        show (viewF s.filters s.heap).get? i = _
        rw [get?_viewF, (SMap.get?_eq_none_iff _ _).2 h]; rfl
    rw [← this]
  | clear =>
    refine ⟨⟨rfl, ⟨?_, ?_⟩, ⟨le_refl _, fun _ _ _ => rfl, ?_⟩⟩, rfl⟩
    · intro i j f g h; cases h
    · intro i f h; cases h
    · rintro a _ _ ⟨i, f, h, -⟩; cases h
  | index d obj => exact indexDoc_next eval hw d obj
  | unindex d => exact ⟨unindexDoc_next hw d, rfl⟩
  | setExpression i e =>
    refine ⟨?_, rfl⟩
    unfold step Topic.step
    dsimp only
    have hg : (view s).filters.get? i = (s.filters.get? i).map (viewFilter s.heap) := get?_viewF _ _ _
    rw [hg]
    cases hf : s.filters.get? i with
    | none => exact Next.refl hw
    | some f =>
      dsimp only [Option.map_some]
      refine ⟨?_, ⟨?_, ?_⟩, ⟨le_refl _, fun _ _ _ => rfl, ?_⟩⟩
      · show ({ filters := viewF (s.filters.set i { f with expr := e }) s.heap } : Topic F D E) =
          { filters := (viewF s.filters s.heap).set i ((viewFilter s.heap f).setExpression e) }
        congr 1
        ext1 j
        rw [get?_viewF, SMap.get?_set, SMap.get?_set, get?_viewF]
        split <;> rfl
      · intro j k g g' hj hk he
        dsimp only at hj hk
        rw [SMap.get?_set] at hj hk
        by_cases h1 : j = i <;> by_cases h2 : k = i
        · rw [h1, h2]
        · rw [if_pos h1] at hj; rw [if_neg h2] at hk; cases hj
          rw [h1]; exact hw.inj i k f g' hf hk he
        · rw [if_neg h1] at hj; rw [if_pos h2] at hk; cases hk
          rw [h2]; exact hw.inj j i g f hj hf he
        · rw [if_neg h1] at hj; rw [if_neg h2] at hk; exact hw.inj j k g g' hj hk he
      · intro j g hj
        dsimp only at hj
        rw [SMap.get?_set] at hj
        split at hj
        · cases hj; exact hw.lt i f hf
        · exact hw.lt j g hj
      · rintro a _ ho ⟨j, g, hj, rfl⟩
        dsimp only at hj
        rw [SMap.get?_set] at hj
        split at hj
        · cases hj; exact ho ⟨i, f, hf, rfl⟩
        · exact ho ⟨j, g, hj, rfl⟩

theorem runFrom_next (eval : E → D → X → Except Unit Bool) {s : HTopic F D E} (hw : WF s) (ops : List (Op F D E X)) :
    Next s (runFrom eval s ops) (ops.foldl (fun s op => (Topic.step eval s op).1) (view s)) := by
  unfold runFrom
  induction ops generalizing s with
  | nil => exact Next.refl hw
  | cons op ops ih =>
    rw [List.foldl_cons, List.foldl_cons]
    have h := (step_next eval hw op).1
    have h' := ih h.wf
    rw [h.view] at h'
    exact ⟨h'.view, h'.wf, h.frame.trans h'.frame⟩

theorem wf_new : WF (new : HTopic F D E) := ⟨by intro i j f g h; (cases h), by intro i f h; (cases h)⟩

theorem run_next (eval : E → D → X → Except Unit Bool) (ops : List (Op F D E X)) :
    WF (run eval ops) ∧ view (run eval ops) = Topic.run eval ops := by
  have h := runFrom_next eval (wf_new (F := F) (D := D) (E := E)) ops
  exact ⟨h.wf, h.view⟩

theorem ext_wf {s : HTopic F D E} (hw : WF s) {h : Heap (DocSet D)} (he : Heap.Ext s.heap h) :
    WF { s with heap := h } ∧ view { s with heap := h } = view s ∧ Frame s { s with heap := h } := by
  refine ⟨⟨hw.inj, fun w a ha => lt_of_lt_of_le (hw.lt w a ha) he.next⟩, ?_, ⟨he.next, fun a ha _ => he.same a ha, fun _ _ h => h⟩⟩
  unfold HTopic.view
  congr 1
  ext1 i
  rw [get?_viewF, get?_viewF]
  cases hg : s.filters.get? i with
  | none => rfl
  | some f =>
    show some (viewFilter h f) = some (viewFilter s.heap f)
    unfold viewFilter
    rw [he.same f.ids (hw.lt i f hg)]

theorem filter_map_items (s : HTopic F D E) (q : List F) :
    ((view s).filters.items.filter (fun p => decide (p.1 ∈ q))).map (fun p => p.2.getIds) =
      (s.setsOf q).map (fun a => (s.heap.setAt a).ids) := by
  show ((s.filters.items.map (fun p => (p.1, viewFilter s.heap p.2))).filter (fun p => decide (p.1 ∈ q))).map _ = _
  unfold setsOf
  rw [List.filter_map, List.map_map, List.map_map]
  rfl

/-- what a search returns, and which object it is -/
theorem search_spec {s : HTopic F D E} (hw : WF s) (q : QueryArg F) (hq : q ≠ .other) (op : Keyword.Operator)
    (hop : op ≠ .other) :
    ∃ a h, s.search q op = ({ s with heap := h }, .ok a) ∧ Heap.Ext s.heap h ∧ a < h.next ∧
      (view s).search q op = .ok (h.setAt a).ids ∧
      (s.heap.next ≤ a ∨ (op = .and ∧ Owned s.filters a ∧ s.setsOf (Spec.Topic.ids q) = [a])) := by
  have eq1 : s.search q op = search.searchList s (Spec.Topic.ids q) op := by
    cases q with
    | other => exact absurd rfl hq
    | _ => rfl
  have eq2 : (view s).search q op = Heap.combineV
      (((view s).filters.items.filter (fun p => decide (p.1 ∈ Spec.Topic.ids q))).map (fun p => p.2.getIds)) op := by
    cases q with
    | other => exact absurd rfl hq
    | _ => cases op <;> rfl
  rw [eq1, eq2, filter_map_items]
  have hown : ∀ a ∈ s.setsOf (Spec.Topic.ids q), Owned s.filters a := by
    intro a ha
    obtain ⟨p, hp, rfl⟩ := List.mem_map.1 ha
    exact ⟨p.1, p.2, (SMap.get?_eq_some_iff _ _ _).2 (List.mem_filter.1 hp).1, rfl⟩
  have hlt : ∀ a ∈ s.setsOf (Spec.Topic.ids q), a < s.heap.next := by
    intro a ha
    obtain ⟨i, f, hf, rfl⟩ := hown a ha
    exact hw.lt i f hf
  obtain ⟨a, c1, c2, c3, c4, c5⟩ := Heap.combine_spec s.heap _ hlt op hop
  refine ⟨a, (s.heap.combine (s.setsOf (Spec.Topic.ids q)) op).1, ?_, c2, c3, c4, ?_⟩
  · unfold search.searchList
    dsimp only
    rw [← c1]
  · rcases c5 with c5 | ⟨h1, h2⟩
    · exact Or.inl c5
    · exact Or.inr ⟨h1, hown a (by rw [h2]; simp), h2⟩

end Verif.HTopic

namespace Verif.TopicDb

open Topic (Op)

variable {F D E X : Type} [LinearOrder F] [LinearOrder D]

/-- calls that do not assign to attributes of filters -/
def Noticed : Step F D E X → Prop
  | .call .clearFilters => False
  | .call (.setExpression _ _) => False
  | _ => True

theorem commit_filters (eval : E → D → X → Except Unit Bool) (t : TopicDb F D E) (nb : F → Bool) (j : F) :
    (t.step eval (.commit nb)).saved.filters.get? j =
      if t.touched j || nb j then t.live.filters.get? j else t.saved.filters.get? j := by
  show (SMap.build _ _).get? j = _
  rw [SMap.get?_build]
  by_cases h : j ∈ t.live.filters.keys ++ t.saved.filters.keys
  · rw [if_pos h]
  · rw [if_neg h]
    rw [List.mem_append, not_or] at h
    rw [(SMap.get?_eq_none_iff _ _).2 h.1, (SMap.get?_eq_none_iff _ _).2 h.2]
    split <;> rfl

theorem untouched (eval : E → D → X → Except Unit Bool) (steps : List (Step F D E X)) (h : ∀ st ∈ steps, Noticed st) (j : F)
    (ht : (run eval steps).touched j = false) :
    (run eval steps).saved.filters.get? j = (run eval steps).live.filters.get? j := by
  induction steps using List.reverseRecOn with
  | nil => rfl
  | append_singleton steps st ih =>
    have e : run eval (steps ++ [st]) = (run eval steps).step eval st := by simp [run]
    rw [e] at ht ⊢
    replace ih := ih (fun x hx => h x (List.mem_append_left _ hx))
    have hst := h st (by simp)
    generalize run eval steps = t at ih ht
    cases st with
    | call op =>
      have ht' : (t.touched j || touches op j) = false := ht
      rw [Bool.or_eq_false_iff] at ht'
      replace ih := ih ht'.1
      show t.saved.filters.get? j = (t.live.step eval op).1.filters.get? j
      rw [ih]
      cases op with
      | addFilter i f =>
        have : j ≠ i := by simpa [touches] using ht'.2
        exact (SMap.get?_set_ne _ this _).symm
      | delFilter i =>
        have : j ≠ i := by simpa [touches] using ht'.2
        show _ = (t.live.delFilter i).1.filters.get? j
        unfold HTopic.delFilter
        split
        · exact (SMap.get?_del_ne _ this).symm
        · rfl
      | clearFilters => exact hst.elim
      | clear => simp [touches] at ht'
      | index d obj => rfl
      | unindex d => rfl
      | setExpression i e => exact hst.elim
    | commit nb =>
      rw [commit_filters]
      show _ = t.live.filters.get? j
      by_cases hc : (t.touched j || nb j) = true
      · rw [if_pos hc]
      · rw [if_neg hc]
        refine ih ?_
        have : (t.touched j || nb j) = false := by simpa using hc
        rw [Bool.or_eq_false_iff] at this
        exact this.1
    | reload => rfl

end Verif.TopicDb
