import Verif.Proofs.TopicHeap
import Verif.Props.Keyword
import Verif.Props.Topic

/-!
# Properties C18 (search results as objects) and C24 (commit and reload)

`HKeyword` and `HTopic` are the indexes with mutable set objects named by addresses; a search returns an address.
-/

set_option autoImplicit false

namespace Verif

/-! ## C18: keyword index -/

section keyword

variable {D W : Type} [LinearOrder D] [LinearOrder W]

/-- the model with objects answers like the model without -/
theorem C18_keyword_same_answers (normalize : List W → List W) (ops : List (Keyword.Op D W)) (q : Keyword.QueryArg W)
    (op : Keyword.Operator) :
    (match (HKeyword.run normalize ops).search normalize q op with
      | (t, .ok a) => .ok (t.setAt a).ids
      | (_, .error e) => .error e) = (Keyword.run normalize ops).search normalize q op := by
  obtain ⟨hw, hv⟩ := HKeyword.run_next normalize ops
  by_cases hop : op = .other
  · subst hop; rfl
  · obtain ⟨a, h, e1, -, -, e4, -⟩ := HKeyword.search_spec normalize hw q op hop
    rw [e1, ← hv, e4]
    rfl

/-- C18 is false of the code.  The object returned for a one-word `and` query is the index's own set: here indexing a
document later adds it to the result, and clearing the result empties the index. -/
theorem C18_keyword_fails :
    let s := HKeyword.run id [.index 1 (.list [10]), .index 2 (.list [10])] (D := Nat) (W := Nat)
    let r := s.search id (.str 10) .and
    r.2.toOption = some 0 ∧ (r.1.setAt 0).ids.toList = [1, 2] ∧
    ((HKeyword.runFrom id r.1 [.index 3 (.list [10])]).setAt 0).ids.toList = [1, 2, 3] ∧
    ((HKeyword.view (r.1.mutate 0 emptySet)).search id (.str 10) .and).toOption.map (·.toList) = some [] := by
  decide

/-- C18 for `or` queries and for queries that are not a single indexed word: no later history changes the object returned, and
changing that object changes no later answer.  Missing: one-word `and` queries, for which it is false. -/
theorem C18_keyword_partial (normalize : List W → List W) (ops : List (Keyword.Op D W)) (q : Keyword.QueryArg W)
    (op : Keyword.Operator)
    (hq : op = .and → ∀ w, normalize (Spec.Keyword.words q) = [w] →
      ((Keyword.run normalize ops).docidsOf w).toList = [])
    (t : HKeyword D W) (a : Nat) (hs : (HKeyword.run normalize ops).search normalize q op = (t, .ok a))
    (later : List (Keyword.Op D W)) (v : DocSet D) :
    (HKeyword.runFrom normalize t later).setAt a = t.setAt a ∧
    ∀ q' op', (HKeyword.view (HKeyword.runFrom normalize (t.mutate a v) later)).search normalize q' op' =
      (HKeyword.view (HKeyword.runFrom normalize t later)).search normalize q' op' := by
  obtain ⟨hw, hv⟩ := HKeyword.run_next normalize ops
  have hop : op ≠ .other := by
    rintro rfl
    have : ((HKeyword.run normalize ops).search normalize q .other).2 = .error .TypeError := by cases q <;> rfl
    rw [hs] at this; cases this
  obtain ⟨a', h, e1, e2, e3, e4, e5⟩ := HKeyword.search_spec normalize hw q op hop
  rw [hs] at e1
  obtain ⟨rfl, hae⟩ := Prod.mk.inj e1
  cases hae
  obtain ⟨w1, w2, -⟩ := HKeyword.ext_wf hw e2
  have hfresh : ¬ HKeyword.Owned { HKeyword.run normalize ops with heap := h } a := by
    rintro ⟨w, hown⟩
    have hown' : (HKeyword.run normalize ops).fwd.get? w = some a := hown
    rcases e5 with e5 | ⟨rfl, w', hw', hg⟩
    · exact absurd (hw.lt w a hown') (not_lt.2 e5)
    · have hempty := hq rfl w' hw'
      rw [← hv, HKeyword.docidsOf_view, hg] at hempty
      -- an indexed word of the run has a non-empty set or the answer would be a new object
      have hnew : (HKeyword.run normalize ops).heap.next ≤ a := by
        have hse : ((HKeyword.run normalize ops).setAt a).ids = SMap.empty := by
          rw [← SMap.isEmpty_iff_eq, SSet.isEmpty_iff_keys]
          intro k hk
          have : k ∈ ((HKeyword.run normalize ops).setAt a).ids.toList := hk
          rw [hempty] at this; simp at this
        have : ((HKeyword.run normalize ops).search normalize q .and).2 = .ok (HKeyword.run normalize ops).heap.next := by
          have e : (HKeyword.run normalize ops).search normalize q .and =
              (HKeyword.run normalize ops).search normalize (.seq (Spec.Keyword.words q)) .and := by cases q <;> rfl
          rw [e]
          unfold HKeyword.search
          dsimp only
          rw [hw']
          simp only [HKeyword.setsOf, hg, Heap.combine, List.insertionSort, List.orderedInsert, List.foldr, Heap.interLoop,
            Heap.finish]
          have : ((HKeyword.run normalize ops).heap.setAt a).ids.isEmpty = true := by
            rw [SMap.isEmpty_iff_eq]; exact hse
          simp [this]
        rw [hs] at this
        cases this
        exact le_refl _
      exact absurd (hw.lt w a hown') (not_lt.2 hnew)
  have hn := HKeyword.runFrom_next normalize w1 later
  refine ⟨hn.frame.same a e3 hfresh, fun q' op' => ?_⟩
  have wm : HKeyword.WF (HKeyword.mutate { HKeyword.run normalize ops with heap := h } a v) := ⟨w1.inj, w1.lt⟩
  have hvm : HKeyword.view (HKeyword.mutate { HKeyword.run normalize ops with heap := h } a v) =
      HKeyword.view { HKeyword.run normalize ops with heap := h } := by
    unfold HKeyword.view
    congr 1
    ext1 w
    rw [SMap.get?_mapVals, SMap.get?_mapVals]
    show ((HKeyword.run normalize ops).fwd.get? w).map _ = ((HKeyword.run normalize ops).fwd.get? w).map _
    cases hg : (HKeyword.run normalize ops).fwd.get? w with
    | none => rfl
    | some b =>
      have : b ≠ a := by rintro rfl; exact hfresh ⟨w, hg⟩
      show some (Heap.setAt (h.put a v) b) = some (Heap.setAt h b)
      rw [Heap.setAt_put, if_neg this]
  have hn' := HKeyword.runFrom_next normalize wm later
  rw [hn.view, hn'.view, hvm]

example : ∃ t a, (HKeyword.run id [.index 1 (.list [10]), .index 2 (.list [10, 20])] (D := Nat) (W := Nat)).search id
    (.seq [10, 20]) .and = (t, .ok a) ∧ (t.setAt a).ids.toList = [2] := ⟨_, _, rfl, by decide⟩

end keyword

/-! ## C18: topic index -/

section topic

variable {F D E X : Type} [LinearOrder F] [LinearOrder D]

/-- the model with objects answers like the model without -/
theorem C18_topic_same_answers (eval : E → D → X → Except Unit Bool) (ops : List (Topic.Op F D E X)) (q : Topic.QueryArg F)
    (op : Keyword.Operator) :
    (match (HTopic.run eval ops).search q op with
      | (t, .ok a) => .ok (t.heap.setAt a).ids
      | (_, .error e) => .error e) = (Topic.run eval ops).search q op := by
  obtain ⟨hw, hv⟩ := HTopic.run_next eval ops
  by_cases hq : q = .other
  · subst hq; rfl
  by_cases hop : op = .other
  · subst hop; cases q <;> rfl
  · obtain ⟨a, h, e1, -, -, e4, -⟩ := HTopic.search_spec hw q hq op hop
    rw [e1, ← hv, e4]

/-- C18 is false of the code for a one-filter `and` query -/
theorem C18_topic_fails :
    let s := HTopic.run exEval [.addFilter 5 (Filter.new .python 2), .index 1 6] (F := Nat)
    let r := s.search (.str 5) .and
    r.2.toOption = some 0 ∧ (r.1.heap.setAt 0).ids.toList = [1] ∧
    ((HTopic.runFrom exEval r.1 [.index 3 8]).heap.setAt 0).ids.toList = [1, 3] ∧
    ((HTopic.view (r.1.mutate 0 emptySet)).search (.str 5) .and).toOption.map (·.toList) = some [] := by
  decide

/-- C18 for `or` queries and for queries that do not name exactly one registered filter.  Missing: `and` queries that do, for
which it is false. -/
theorem C18_topic_partial (eval : E → D → X → Except Unit Bool) (ops : List (Topic.Op F D E X)) (q : Topic.QueryArg F)
    (op : Keyword.Operator)
    (hq : op = .and → ((Topic.run eval ops).filters.keys.filter (fun i => decide (i ∈ Spec.Topic.ids q))).length ≠ 1)
    (t : HTopic F D E) (a : Nat) (hs : (HTopic.run eval ops).search q op = (t, .ok a))
    (later : List (Topic.Op F D E X)) (v : DocSet D) :
    (HTopic.runFrom eval t later).heap.setAt a = t.heap.setAt a ∧
    ∀ q' op', (HTopic.view (HTopic.runFrom eval (t.mutate a v) later)).search q' op' =
      (HTopic.view (HTopic.runFrom eval t later)).search q' op' := by
  obtain ⟨hw, hv⟩ := HTopic.run_next eval ops
  have hqo : q ≠ .other := by
    rintro rfl
    have : ((HTopic.run eval ops).search .other op).2 = .error .TypeError := rfl
    rw [hs] at this; cases this
  have hop : op ≠ .other := by
    rintro rfl
    have : ((HTopic.run eval ops).search q .other).2 = .error .TypeError := by cases q <;> rfl
    rw [hs] at this; cases this
  obtain ⟨a', h, e1, e2, e3, e4, e5⟩ := HTopic.search_spec hw q hqo op hop
  rw [hs] at e1
  obtain ⟨rfl, hae⟩ := Prod.mk.inj e1
  cases hae
  obtain ⟨w1, w2, -⟩ := HTopic.ext_wf hw e2
  have hfresh : ¬ HTopic.Owned (HTopic.run eval ops).filters a := by
    rintro ⟨i, f, hf, rfl⟩
    rcases e5 with e5 | ⟨hand, -, e5⟩
    · exact absurd (hw.lt i f hf) (not_lt.2 e5)
    · apply hq hand
      rw [← hv]
      have hk : (HTopic.view (HTopic.run eval ops)).filters.keys = (HTopic.run eval ops).filters.items.map Prod.fst :=
        SMap.keys_mapVals _ _
      rw [hk, List.filter_map, List.length_map]
      have := congrArg List.length e5
      unfold HTopic.setsOf at this
      rw [List.length_map] at this
      exact this
  have hn := HTopic.runFrom_next eval w1 later
  refine ⟨hn.frame.same a e3 hfresh, fun q' op' => ?_⟩
  have wm : HTopic.WF (HTopic.mutate { HTopic.run eval ops with heap := h } a v) := ⟨w1.inj, w1.lt⟩
  have hvm : HTopic.view (HTopic.mutate { HTopic.run eval ops with heap := h } a v) =
      HTopic.view { HTopic.run eval ops with heap := h } := by
    unfold HTopic.view
    congr 1
    ext1 i
    rw [HTopic.get?_viewF, HTopic.get?_viewF]
    show ((HTopic.run eval ops).filters.get? i).map _ = ((HTopic.run eval ops).filters.get? i).map _
    cases hg : (HTopic.run eval ops).filters.get? i with
    | none => rfl
    | some f =>
      have : f.ids ≠ a := by rintro e; exact hfresh ⟨i, f, hg, e⟩
      show some (HTopic.viewFilter (h.put a v) f) = some (HTopic.viewFilter h f)
      unfold HTopic.viewFilter
      rw [Heap.setAt_put, if_neg this]
  have hn' := HTopic.runFrom_next eval wm later
  rw [hn.view, hn'.view, hvm]

example : ((Topic.run exEval topicOps).filters.keys.filter (fun i => decide (i ∈ Spec.Topic.ids (.seq [5, 6])))).length ≠ 1 := by
  decide

/-! ## C24 -/

/-- what a program sees after a commit and a fresh load -/
def TopicDb.reloaded (eval : E → D → X → Except Unit Bool) (t : TopicDb F D E) (neighbours : F → Bool) : TopicDb F D E :=
  (t.step eval (.commit neighbours)).step eval .reload

/-- C24 is false of the code: `clearFilters` (and `setExpression`) on a committed index is lost, and so is what is indexed
after it -/
theorem C24_fails :
    let add : TopicDb.Step Nat Nat Nat Nat := .call (.addFilter 5 (Filter.new .python 2))
    let none : Nat → Bool := fun _ => false
    let t := TopicDb.run exEval [add, .call (.index 1 6), .commit none, .call .clearFilters, .call (.index 2 8)]
    let u := TopicDb.run exEval [add, .commit none, .call (.setExpression 5 3)]
    ((HTopic.view t.live).search (.str 5) .and).toOption.map (·.toList) = some [2] ∧
    ((HTopic.view (t.reloaded exEval none).live).search (.str 5) .and).toOption.map (·.toList) = some [1] ∧
    (u.live.filters.get? 5).map (·.expr) = some 3 ∧
    ((u.reloaded exEval none).live.filters.get? 5).map (·.expr) = some 2 := by
  decide

/-- C24 for programs that do not call `clearFilters` or `setExpression`: after any history of calls, commits and reloads, a
commit followed by a fresh load gives the committed index, whatever other entries are written with it.  Missing: the
two calls, for which it is false. -/
theorem C24_reload_partial (eval : E → D → X → Except Unit Bool) (steps : List (TopicDb.Step F D E X))
    (h : ∀ st ∈ steps, st ≠ .call .clearFilters ∧ ∀ i e, st ≠ .call (.setExpression i e)) (neighbours : F → Bool) :
    ((TopicDb.run eval steps).reloaded eval neighbours).live = (TopicDb.run eval steps).live := by
  have h' : ∀ st ∈ steps, TopicDb.Noticed st := by
    intro st hst
    obtain ⟨h1, h2⟩ := h st hst
    cases st with
    | call op =>
      cases op with
      | clearFilters => exact h1 rfl
      | setExpression i e => exact h2 i e rfl
      | _ => trivial
    | _ => trivial
  have hf : ((TopicDb.run eval steps).step eval (.commit neighbours)).saved.filters = (TopicDb.run eval steps).live.filters := by
    ext1 j
    rw [TopicDb.commit_filters]
    split
    · rfl
    · rename_i hc
      refine TopicDb.untouched eval steps h' j ?_
      have : ((TopicDb.run eval steps).touched j || neighbours j) = false := by simpa using hc
      rw [Bool.or_eq_false_iff] at this
      exact this.1
  show ({ heap := { cells := (TopicDb.run eval steps).live.heap.cells, next := (TopicDb.run eval steps).live.heap.next },
          filters := ((TopicDb.run eval steps).step eval (.commit neighbours)).saved.filters } : HTopic F D E) = _
  rw [hf]

example : let steps : List (TopicDb.Step Nat Nat Nat Nat) :=
    [.call (.addFilter 5 (Filter.new .python 2)), .commit (fun _ => false), .call (.index 1 6), .reload, .call (.index 2 8),
     .call (.unindex 1)]
    ((HTopic.view ((TopicDb.run exEval steps).reloaded exEval (fun _ => false)).live).search (.str 5) .and).toOption.map
      (·.toList) = some [2] := by decide

end topic

end Verif
