import Verif.Model.TxnTopic
import Verif.Spec.TxnTopic
import Verif.Proofs.TxnMerge
import Verif.Proofs.TopicHeap

set_option autoImplicit false

namespace Verif.HTopic

open Topic (Op)
open Spec.Topic Spec.Txn

variable {F D E X : Type} [LinearOrder F] [LinearOrder D]

/-- which filter holds which document -/
def holds (s : HTopic F D E) (p : F × D) : Prop := p.2 ∈ contents (view s) p.1

theorem holds_iff (s : HTopic F D E) (i : F) (d : D) :
    s.holds (i, d) ↔ ∃ f, s.filters.get? i = some f ∧ d ∈ (s.heap.setAt f.ids).ids.keys := by
  unfold holds
  rw [Topic.mem_contents]
  show (∃ f, (viewF s.filters s.heap).get? i = some f ∧ _) ↔ _
  rw [get?_viewF]
  cases s.filters.get? i with
  | none => simp
  | some f => simp [viewFilter]

/-- all filters are Python filters, with these expressions -/
structure Shape (exprs : F → Option E) (s : HTopic F D E) : Prop where
  wf : WF s
  py : Topic.Py (view s).filters
  expr : ∀ i, (s.filters.get? i).map (·.expr) = exprs i

theorem step_filters (eval : E → D → X → Except Unit Bool) (s : HTopic F D E) {op : Op F D E X} {d : D} (h : DocCall op d) :
    (step eval s op).1.filters = s.filters := by cases h <;> rfl

theorem py_iff (s : HTopic F D E) : Topic.Py (view s).filters ↔ ∀ i f, s.filters.get? i = some f → f.kind = .python := by
  constructor
  · intro h i f hf
    have := h i (viewFilter s.heap f) (by show (viewF _ _).get? i = _; rw [get?_viewF, hf]; rfl)
    exact this
  · intro h i f hf
    have hf : (viewF s.filters s.heap).get? i = some f := hf
    rw [get?_viewF] at hf
    obtain ⟨g, hg, rfl⟩ := Option.map_eq_some_iff.1 hf
    exact h i g hg

theorem step_holds (eval : E → D → X → Except Unit Bool) {exprs : F → Option E} {s : HTopic F D E} (h : Shape exprs s)
    {op : Op F D E X} {d : D} (hop : DocCall op d) :
    Shape exprs (step eval s op).1 ∧ (step eval s op).2 = none ∧ (step eval s op).1.holds = topicUpdate eval exprs s.holds op := by
  have hf := step_filters eval s hop
  obtain ⟨hn, he⟩ := step_next eval h.wf op
  have hsh : Shape exprs (step eval s op).1 :=
    ⟨hn.wf, (py_iff _).2 (by rw [hf]; exact (py_iff _).1 h.py), by rw [hf]; exact h.expr⟩
  have hexpr : ∀ i, ((view s).filters.get? i).map (·.expr) = exprs i := by
    intro i
    rw [← h.expr i]
    show ((viewF s.filters s.heap).get? i).map _ = _
    rw [get?_viewF, Option.map_map]; rfl
  refine ⟨hsh, ?_, ?_⟩
  · rw [he]
    cases hop with
    | index d obj => exact (Topic.indexDoc_spec eval (view s) d obj h.py).1
    | unindex d => rfl
  · funext ⟨i, x⟩
    apply propext
    show x ∈ contents (view (step eval s op).1) i ↔ _
    rw [hn.view, Topic.mem_contents]
    cases hop with
    | index d obj =>
      obtain ⟨-, h2⟩ := Topic.indexDoc_spec eval (view s) d obj h.py
      show (∃ f, ((view s).indexDoc eval d obj).1.filters.get? i = some f ∧ _) ↔
        (x ∈ contents (view s) i ∨ (x = d ∧ ∃ e, exprs i = some e ∧ eval e d obj = .ok true))
      rw [h2, Topic.mem_contents, ← hexpr i]
      cases hg : (view s).filters.get? i with
      | none => simp
      | some f =>
        have := Topic.mem_indexDoc eval f d obj (h.py i f hg) x
        simp [this]
    | unindex d =>
      show (∃ f, ((view s).filters.mapVals (fun _ f => f.unindexDoc d)).get? i = some f ∧ _) ↔
        (x ∈ contents (view s) i ∧ x ≠ d)
      rw [SMap.get?_mapVals, Topic.mem_contents]
      cases hg : (view s).filters.get? i with
      | none => simp
      | some f =>
        simp only [Option.map_some, Option.some.injEq, exists_eq_left', Filter.unindexDoc]
        rw [SMap.mem_keys_iff, SMap.mem_keys_iff, SMap.get?_del]
        by_cases hx : x = d <;> simp [hx]

theorem runFrom_holds (eval : E → D → X → Except Unit Bool) {exprs : F → Option E} {s : HTopic F D E} (h : Shape exprs s)
    {ops : List (Op F D E X)} (hops : ∀ op ∈ ops, ∃ d, DocCall op d) :
    Shape exprs (runFrom eval s ops) ∧ (runFrom eval s ops).filters = s.filters ∧ raises eval s ops = false ∧
      (runFrom eval s ops).holds = ops.foldl (topicUpdate eval exprs) s.holds := by
  induction ops generalizing s with
  | nil => exact ⟨h, rfl, rfl, rfl⟩
  | cons op ops ih =>
    obtain ⟨d, hd⟩ := hops op (by simp)
    obtain ⟨h1, h2, h3⟩ := step_holds eval h hd
    obtain ⟨i1, i2, i3, i4⟩ := ih h1 (fun o ho => hops o (by simp [ho]))
    refine ⟨i1, i2.trans (step_filters eval s hd), ?_, ?_⟩
    · rw [raises, h2, i3]; rfl
    · rw [List.foldl_cons, ← h3]; exact i4

theorem merge_holds [DecidableEq E] {exprs : F → Option E} {o c n r : HTopic F D E} (ho : Shape exprs o) (hn : Shape exprs n)
    (hc : c.filters = o.filters) (hnf : n.filters = o.filters) (h : merge o c n = some r) :
    Shape exprs r ∧ r.filters = o.filters ∧
    ∀ p, (o.holds p = c.holds p ∧ r.holds p = n.holds p) ∨ (o.holds p = n.holds p ∧ r.holds p = c.holds p) := by
  unfold merge at h
  rw [hc, hnf, mergeTree_same] at h
  obtain ⟨heap, hh, h⟩ := Option.bind_eq_some_iff.1 h
  have h : some ({ heap := heap, filters := o.filters } : HTopic F D E) = some r := h
  cases h
  refine ⟨⟨⟨ho.wf.inj, ?_⟩, (py_iff _).2 ((py_iff o).1 ho.py), ho.expr⟩, rfl, ?_⟩
  · intro i f hf
    show f.ids < heap.next
    rw [mergeHeap_next hh]
    exact hn.wf.lt i f (by rw [hnf]; exact hf)
  · rintro ⟨i, d⟩
    have hr : (⟨heap, o.filters⟩ : HTopic F D E).filters = o.filters := rfl
    simp only [eq_iff_iff, holds_iff, hc, hnf]
    cases hf : o.filters.get? i with
    | none => left; simp
    | some f =>
      simp only [Option.some.injEq, exists_eq_left']
      have hs := mergeHeap_spec hh f.ids
      unfold Heap.setAt
      cases e1 : o.heap.get? f.ids <;> cases e2 : c.heap.get? f.ids <;> cases e3 : n.heap.get? f.ids <;>
        rw [e1, e2, e3] at hs <;> simp only [mergeCell, Option.some.injEq, reduceCtorEq, Option.map_eq_some_iff] at hs
      · rw [← hs]; left; simp
      · rw [← hs]; left; simp
      · rw [← hs]; right; simp
      · obtain ⟨x, hx, hx'⟩ := hs
        rw [← hx']
        unfold mergeDocSet at hx
        obtain ⟨ids, hids, rfl⟩ := Option.map_eq_some_iff.1 hx
        have key : ∀ {x y : SSet D} {d : D}, x.get? d = y.get? d → (d ∈ x.keys ↔ d ∈ y.keys) := by
          intro x y d hxy
          rw [SMap.mem_keys_iff, SMap.mem_keys_iff, hxy]
        rcases mergeTree_keywise hids d with ⟨a, b⟩ | ⟨a, b⟩
        · left; exact ⟨key a, key b⟩
        · right; exact ⟨key a, key b⟩

/-- `index_doc` and `unindex_doc` delete no objects -/
theorem step_keeps (eval : E → D → X → Except Unit Bool) (s : HTopic F D E) {op : Op F D E X} {d : D} (h : DocCall op d)
    (a : Nat) (x : DocSet D) (hx : s.heap.get? a = some x) : ∃ y, (step eval s op).1.heap.get? a = some y := by
  have hput : ∀ (h : Heap (DocSet D)) b v, (∃ y, h.get? a = some y) → ∃ y, (h.put b v).get? a = some y := by
    intro h b v ⟨y, hy⟩
    rw [Heap.get?_put]
    by_cases hab : a = b
    · rw [if_pos hab]; exact ⟨_, rfl⟩
    · rw [if_neg hab]; exact ⟨y, hy⟩
  cases h with
  | index _ obj =>
    show ∃ y, (indexLoop eval d obj s.heap s.filters.items).1.get? a = some y
    have hx : ∃ y, s.heap.get? a = some y := ⟨x, hx⟩
    generalize s.heap = h at hx ⊢
    induction s.filters.items generalizing h with
    | nil => exact hx
    | cons p ps ih =>
      unfold indexLoop
      split
      · exact hx
      · split
        · exact ih _ (hput _ _ _ hx)
        · exact ih _ hx
  | unindex _ =>
    show ∃ y, (s.filters.items.foldl (unindexFilter d) s.heap).get? a = some y
    have hx : ∃ y, s.heap.get? a = some y := ⟨x, hx⟩
    generalize s.heap = h at hx ⊢
    induction s.filters.items generalizing h with
    | nil => exact hx
    | cons p ps ih => exact ih _ (hput _ _ _ hx)

theorem runFrom_keeps (eval : E → D → X → Except Unit Bool) (s : HTopic F D E) {ops : List (Op F D E X)}
    (hops : ∀ op ∈ ops, ∃ d, DocCall op d) (a : Nat) (x : DocSet D) (hx : s.heap.get? a = some x) :
    ∃ y, (runFrom eval s ops).heap.get? a = some y := by
  induction ops generalizing s x with
  | nil => exact ⟨x, hx⟩
  | cons op ops ih =>
    obtain ⟨d, hd⟩ := hops op (by simp)
    obtain ⟨y, hy⟩ := step_keeps eval s hd a x hx
    exact ih _ (fun o ho => hops o (by simp [ho])) y hy

/-- the schedule theorem applies to topic indexes with the filters of `s₀` -/
def sound [DecidableEq E] (eval : E → D → X → Except Unit Bool) (exprs : F → Option E) (s₀ : HTopic F D E) :
    Txn.Sound (engine eval) (topicUpdate eval exprs) (fun op => ∃ d, DocCall op d) where
  abs := holds
  Wf _ s := Shape exprs s ∧ s.filters = s₀.filters
  Evo _ _ := True
  NewFrom _ _ _ := True
  mono _ _ _ _ h := h
  refl _ := trivial
  trans _ _ _ _ _ _ _ _ := trivial
  exec n s ops h hops := by
    obtain ⟨h1, h2, -, h4⟩ := runFrom_holds eval h.1 hops
    exact ⟨le_refl _, fun _ => ⟨⟨h1, h2.trans h.2⟩, trivial, trivial, fun d => congrFun h4 d⟩⟩
  merge n m o c x r ho hc _ _ hx _ _ h := by
    obtain ⟨h1, h2, h3⟩ := merge_holds ho.1 hx.1 (hc.2.trans ho.2.symm) (hx.2.trans ho.2.symm) h
    exact ⟨⟨h1, h2.trans ho.2⟩, trivial, h3⟩

end Verif.HTopic

namespace Verif

open Spec.Topic Spec.Txn

section
variable {F D E X : Type} [LinearOrder D]

/-- what a call does to a document depends only on the filters that have it -/
theorem topicUpdate_local (eval : E → D → X → Except Unit Bool) (exprs : F → Option E) (ops : List (Topic.Op F D E X))
    {m m' : F × D → Prop} {i : F} {d : D} (h : m (i, d) ↔ m' (i, d)) :
    ops.foldl (topicUpdate eval exprs) m (i, d) ↔ ops.foldl (topicUpdate eval exprs) m' (i, d) := by
  induction ops generalizing m m' with
  | nil => exact h
  | cons op ops ih =>
    rw [List.foldl_cons, List.foldl_cons]
    apply ih
    cases op <;> simp only [topicUpdate, h]

/-- calls on other documents leave a document alone -/
theorem topicUpdate_other (eval : E → D → X → Except Unit Bool) (exprs : F → Option E) (ops : List (Topic.Op F D E X))
    (m : F × D → Prop) (i : F) {d : D} (hd : ∀ op ∈ ops, ∃ x, DocCall op x ∧ x ≠ d) :
    ops.foldl (topicUpdate eval exprs) m (i, d) ↔ m (i, d) := by
  induction ops generalizing m with
  | nil => exact Iff.rfl
  | cons op ops ih =>
    rw [List.foldl_cons, ih _ (fun o ho => hd o (by simp [ho]))]
    obtain ⟨x, hx, hne⟩ := hd op (by simp)
    have hne : d ≠ x := fun e => hne e.symm
    cases hx <;> simp [topicUpdate, hne]

end

variable {F D E X : Type} [LinearOrder F] [LinearOrder D]

/-- the state after the filters were registered -/
theorem HTopic.shape_run (eval : E → D → X → Except Unit Bool) (setup : List (Topic.Op F D E X)) (hp : AllPython setup) :
    HTopic.Shape (exprAt setup) (HTopic.run eval setup) ∧ ∀ i d, (HTopic.run eval setup).holds (i, d) ↔ Held eval setup i d := by
  obtain ⟨hw, hv⟩ := HTopic.run_next eval setup
  have hi := Topic.run_inv eval setup hp
  rw [← hv] at hi
  refine ⟨⟨hw, hi.py, fun i => ?_⟩, hi.held⟩
  rw [← hi.expr i]
  show _ = ((HTopic.viewF (HTopic.run eval setup).filters (HTopic.run eval setup).heap).get? i).map _
  rw [HTopic.get?_viewF, Option.map_map]; rfl

/-- nothing to resolve: no conflict -/
theorem HTopic.merge_same [DecidableEq E] (eval : E → D → X → Except Unit Bool) (s : HTopic F D E) (ops : List (Topic.Op F D E X))
    (hops : ∀ op ∈ ops, ∃ d, DocCall op d) : ∃ r, HTopic.merge s s (HTopic.runFrom eval s ops) = some r := by
  have hk := HTopic.runFrom_keeps eval s hops
  have hh : ∃ h, mergeHeap mergeDocSet s.heap s.heap (HTopic.runFrom eval s ops).heap = some h := by
    unfold mergeHeap
    dsimp only
    rw [if_pos]
    · exact ⟨_, rfl⟩
    · rw [List.all_eq_true]
      intro a _
      cases ho : s.heap.get? a with
      | none => cases (HTopic.runFrom eval s ops).heap.get? a <;> rfl
      | some x =>
        obtain ⟨t, ht⟩ := hk a x ho
        rw [ht]
        simp [mergeCell, mergeDocSet, mergeTree_same]
  obtain ⟨h, hh⟩ := hh
  unfold HTopic.merge
  rw [hh, mergeTree_same]
  exact ⟨_, rfl⟩

end Verif
