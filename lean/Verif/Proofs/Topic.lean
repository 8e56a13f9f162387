import Verif.Proofs.Keyword
import Verif.Spec.Topic
import Mathlib.Data.List.Induction

set_option autoImplicit false

namespace Verif.Topic

open Verif.Spec.Topic

variable {F D E X : Type} [LinearOrder F] [LinearOrder D]

/-! ### the loop of `index_doc` -/

/-- every registered filter is a Python filter -/
def Py (fs : SMap F (Filter D E)) : Prop := ∀ i f, fs.get? i = some f → f.kind = .python

theorem indexDoc_py (eval : E → D → X → Except Unit Bool) (f : Filter D E) (d : D) (obj : X) (h : f.kind = .python) :
    (f.indexDoc eval d obj).2 = none ∧ (f.indexDoc eval d obj).1.kind = .python ∧
    (f.indexDoc eval d obj).1.expr = f.expr := by
  unfold Filter.indexDoc
  rw [h]
  dsimp only
  cases he : eval f.expr d obj with
  | error e => exact ⟨rfl, h, rfl⟩
  | ok b => cases b <;> first | exact ⟨rfl, h, rfl⟩ | exact ⟨rfl, rfl, rfl⟩

theorem mem_indexDoc (eval : E → D → X → Except Unit Bool) (f : Filter D E) (d : D) (obj : X) (h : f.kind = .python)
    (x : D) : x ∈ (f.indexDoc eval d obj).1.ids.keys ↔ x ∈ f.ids.keys ∨ (x = d ∧ eval f.expr d obj = .ok true) := by
  unfold Filter.indexDoc
  rw [h]
  dsimp only
  cases he : eval f.expr d obj with
  | error e => simp
  | ok b =>
    cases b
    · simp
    · simp [or_comm]

theorem indexLoop_spec (eval : E → D → X → Except Unit Bool) (d : D) (obj : X) (is : List F) (hn : is.Nodup)
    (fs : SMap F (Filter D E)) (hp : Py fs) :
    (indexLoop eval d obj fs is).2 = none ∧
    ∀ i, (indexLoop eval d obj fs is).1.get? i =
      if i ∈ is then (fs.get? i).map (fun f => (f.indexDoc eval d obj).1) else fs.get? i := by
  induction is generalizing fs with
  | nil => exact ⟨rfl, fun i => by simp [indexLoop]⟩
  | cons j is ih =>
    rw [List.nodup_cons] at hn
    unfold indexLoop
    cases hg : fs.get? j with
    | none =>
      dsimp only
      obtain ⟨h1, h2⟩ := ih hn.2 fs hp
      refine ⟨h1, fun i => ?_⟩
      rw [h2]
      by_cases hi : i = j
      · subst hi; simp [hn.1, hg]
      · simp [hi]
    | some f =>
      have hk := hp j f hg
      obtain ⟨e1, e2, e3⟩ := indexDoc_py eval f d obj hk
      have hpair : f.indexDoc eval d obj = ((f.indexDoc eval d obj).1, none) := by rw [← e1]
      dsimp only
      rw [hpair]
      dsimp only
      have hp' : Py (fs.set j (f.indexDoc eval d obj).1) := by
        intro i g hig
        rw [SMap.get?_set] at hig
        split at hig
        · cases hig; exact e2
        · exact hp i g hig
      obtain ⟨h1, h2⟩ := ih hn.2 _ hp'
      refine ⟨h1, fun i => ?_⟩
      rw [h2]
      by_cases hi : i = j
      · subst hi; simp [hn.1, hg]
      · rw [SMap.get?_set_ne _ hi]; simp [hi]

theorem indexDoc_spec (eval : E → D → X → Except Unit Bool) (s : Topic F D E) (d : D) (obj : X) (hp : Py s.filters) :
    (s.indexDoc eval d obj).2 = none ∧
    ∀ i, (s.indexDoc eval d obj).1.filters.get? i = (s.filters.get? i).map (fun f => (f.indexDoc eval d obj).1) := by
  obtain ⟨h1, h2⟩ := indexLoop_spec eval d obj s.filters.keys (SMap.keys_nodup _) s.filters hp
  refine ⟨h1, fun i => ?_⟩
  show (indexLoop eval d obj s.filters s.filters.keys).1.get? i = _
  rw [h2]
  by_cases hi : i ∈ s.filters.keys
  · rw [if_pos hi]
  · rw [if_neg hi, (SMap.get?_eq_none_iff _ _).2 hi]; rfl

/-! ### histories -/

theorem held_append (eval : E → D → X → Except Unit Bool) (ops : List (Op F D E X)) (op : Op F D E X) (i : F) (d : D) :
    Held eval (ops ++ [op]) i d ↔ Enters eval ops i d op ∨ (Held eval ops i d ∧ ¬ Leaves i d op) := by
  constructor
  · rintro ⟨pre, o, post, he, hen, hl⟩
    rcases List.eq_nil_or_concat post with rfl | ⟨post', o', rfl⟩
    · have : ops = pre ∧ op = o := by
        have := List.append_inj' he (by simp)
        exact ⟨this.1, by simpa using this.2⟩
      obtain ⟨rfl, rfl⟩ := this
      exact Or.inl hen
    · rw [List.concat_eq_append] at he hl
      have he' : ops ++ [op] = (pre ++ o :: post') ++ [o'] := by rw [he]; simp
      have := List.append_inj' he' (by simp)
      obtain ⟨rfl, h2⟩ := this
      have h3 : op = o' := by simpa using h2
      subst h3
      exact Or.inr ⟨⟨pre, o, post', rfl, hen, fun x hx => hl x (List.mem_append_left _ hx)⟩, hl op (by simp)⟩
  · rintro (h | ⟨⟨pre, o, post, rfl, hen, hl⟩, hnl⟩)
    · exact ⟨ops, op, [], rfl, h, by simp⟩
    · refine ⟨pre, o, post ++ [op], by simp, hen, ?_⟩
      intro x hx
      rcases List.mem_append.1 hx with hx | hx
      · exact hl x hx
      · rw [List.mem_singleton] at hx; subst hx; exact hnl

/-- what the filters look like -/
structure Inv (eval : E → D → X → Except Unit Bool) (ops : List (Op F D E X)) (s : Topic F D E) : Prop where
  py : Py s.filters
  expr : ∀ i, (s.filters.get? i).map (·.expr) = exprAt ops i
  held : ∀ i d, d ∈ contents s i ↔ Held eval ops i d

theorem mem_contents (s : Topic F D E) (i : F) (d : D) :
    d ∈ contents s i ↔ ∃ f, s.filters.get? i = some f ∧ d ∈ f.ids.keys := by
  unfold contents
  cases h : s.filters.get? i with
  | none => simp
  | some f => simp [Filter.getIds, SSet.toList]

theorem exprAt_append (ops : List (Op F D E X)) (op : Op F D E X) (i : F) :
    exprAt (ops ++ [op]) i = exprStep i (exprAt ops i) op := by simp [exprAt]

theorem inv_step (eval : E → D → X → Except Unit Bool) (ops : List (Op F D E X)) (s : Topic F D E)
    (h : Inv eval ops s) (op : Op F D E X) (hop : ∀ i f, op = .addFilter i f → f.kind = .python) :
    Inv eval (ops ++ [op]) (s.step eval op).1 := by
  cases op with
  | addFilter j f =>
    have hg : ∀ i, (s.addFilter j f).filters.get? i = if i = j then some f else s.filters.get? i :=
      fun i => SMap.get?_set _ _ _ _
    refine ⟨?_, ?_, ?_⟩
    · intro i g hi
      rw [show ((s.step eval (.addFilter j f)).1) = s.addFilter j f from rfl, hg] at hi
      split at hi
      · cases hi; exact hop j f rfl
      · exact h.py i g hi
    · intro i
      rw [show ((s.step eval (.addFilter j f)).1) = s.addFilter j f from rfl, hg, exprAt_append]
      simp only [exprStep]
      by_cases hi : i = j
      · simp [hi]
      · rw [if_neg hi, if_neg (Ne.symm hi)]; exact h.expr i
    · intro i d
      rw [held_append, mem_contents, show ((s.step eval (.addFilter j f)).1) = s.addFilter j f from rfl, hg]
      by_cases hi : i = j
      · subst hi
        simp only [if_true, Option.some.injEq, exists_eq_left']
        constructor
        · intro hd; exact Or.inl (Or.inr ⟨f, rfl, hd⟩)
        · rintro (hen | ⟨-, hl⟩)
          · rcases hen with ⟨obj, e, h1, -⟩ | ⟨f', h1, h2⟩
            · cases h1
            · cases h1; exact h2
          · exact absurd (Or.inr (Or.inr (Or.inr (Or.inr ⟨f, rfl⟩)))) hl
      · rw [if_neg hi, ← mem_contents, h.held]
        constructor
        · intro hh
          refine Or.inr ⟨hh, ?_⟩
          rintro (h1 | h1 | h1 | h1 | ⟨f', h1⟩)
          · cases h1
          · cases h1
          · cases h1
          · cases h1
          · cases h1; exact hi rfl
        · rintro (hen | ⟨hh, -⟩)
          · rcases hen with ⟨obj, e, h1, -⟩ | ⟨f', h1, h2⟩
            · cases h1
            · cases h1; exact absurd rfl hi
          · exact hh
  | delFilter j =>
    have hg : ∀ i, (s.delFilter j).1.filters.get? i = if i = j then none else s.filters.get? i := by
      intro i
      unfold delFilter
      by_cases hc : s.filters.contains j = true
      · rw [if_pos hc]; exact SMap.get?_del _ _ _
      · rw [if_neg hc]
        have := (SMap.contains_eq_false s.filters j).1 (by simpa using hc)
        by_cases hi : i = j
        · subst hi; rw [if_pos rfl]; exact this
        · rw [if_neg hi]
    have e : (s.step eval (.delFilter j)).1 = (s.delFilter j).1 := rfl
    rw [e]
    refine ⟨?_, ?_, ?_⟩
    · intro i g hi
      rw [hg] at hi
      split at hi
      · cases hi
      · exact h.py i g hi
    · intro i
      rw [hg, exprAt_append]
      simp only [exprStep]
      by_cases hi : i = j
      · simp [hi]
      · rw [if_neg hi, if_neg (Ne.symm hi)]; exact h.expr i
    · intro i d
      rw [held_append, mem_contents, hg]
      by_cases hi : i = j
      · subst hi
        simp only [if_true, reduceCtorEq, false_and, exists_false, false_iff]
        rintro (hen | ⟨-, hl⟩)
        · rcases hen with ⟨obj, e, h1, -⟩ | ⟨f', h1, h2⟩ <;> cases h1
        · exact hl (Or.inr (Or.inr (Or.inr (Or.inl rfl))))
      · rw [if_neg hi, ← mem_contents, h.held]
        constructor
        · intro hh
          refine Or.inr ⟨hh, ?_⟩
          rintro (h1 | h1 | h1 | h1 | ⟨f', h1⟩)
          · cases h1
          · cases h1
          · cases h1
          · cases h1; exact hi rfl
          · cases h1
        · rintro (hen | ⟨hh, -⟩)
          · rcases hen with ⟨obj, e, h1, -⟩ | ⟨f', h1, h2⟩ <;> cases h1
          · exact hh
  | clearFilters =>
    have hg : ∀ i, (s.clearFilters).filters.get? i = (s.filters.get? i).map (·.clear) :=
      fun i => SMap.get?_mapVals _ _ _
    have e : (s.step eval (.clearFilters : Op F D E X)).1 = s.clearFilters := rfl
    rw [e]
    refine ⟨?_, ?_, ?_⟩
    · intro i g hi
      rw [hg] at hi
      obtain ⟨f, hf, rfl⟩ := Option.map_eq_some_iff.1 hi
      exact h.py i f hf
    · intro i
      rw [hg, exprAt_append, Option.map_map]
      exact h.expr i
    · intro i d
      rw [held_append, mem_contents, hg]
      constructor
      · rintro ⟨f, hf, hd⟩
        obtain ⟨f', hf', rfl⟩ := Option.map_eq_some_iff.1 hf
        simp [Filter.clear] at hd
      · rintro (hen | ⟨-, hl⟩)
        · rcases hen with ⟨obj, e, h1, -⟩ | ⟨f', h1, h2⟩ <;> cases h1
        · exact absurd (Or.inr (Or.inl rfl)) hl
  | clear =>
    have e : (s.step eval (.clear : Op F D E X)).1 = new := rfl
    rw [e]
    refine ⟨?_, ?_, ?_⟩
    · intro i g hi; cases hi
    · intro i; rw [exprAt_append]; rfl
    · intro i d
      rw [held_append, mem_contents]
      constructor
      · rintro ⟨f, hf, hd⟩; cases hf
      · rintro (hen | ⟨-, hl⟩)
        · rcases hen with ⟨obj, e, h1, -⟩ | ⟨f', h1, h2⟩ <;> cases h1
        · exact absurd (Or.inr (Or.inr (Or.inl rfl))) hl
  | index d obj =>
    obtain ⟨-, hg⟩ := indexDoc_spec eval s d obj h.py
    have e : (s.step eval (.index d obj)).1 = (s.indexDoc eval d obj).1 := rfl
    rw [e]
    refine ⟨?_, ?_, ?_⟩
    · intro i g hi
      rw [hg] at hi
      obtain ⟨f, hf, rfl⟩ := Option.map_eq_some_iff.1 hi
      exact (indexDoc_py eval f d obj (h.py i f hf)).2.1
    · intro i
      rw [hg, exprAt_append, Option.map_map]
      show _ = exprAt ops i
      rw [← h.expr i]
      cases hf : s.filters.get? i with
      | none => rfl
      | some f => simp [(indexDoc_py eval f d obj (h.py i f hf)).2.2]
    · intro i x
      rw [held_append, mem_contents, hg]
      constructor
      · rintro ⟨g, hg', hx⟩
        obtain ⟨f, hf, rfl⟩ := Option.map_eq_some_iff.1 hg'
        rw [mem_indexDoc eval f d obj (h.py i f hf)] at hx
        rcases hx with hx | ⟨rfl, hx⟩
        · refine Or.inr ⟨(h.held i x).1 ((mem_contents s i x).2 ⟨f, hf, hx⟩), ?_⟩
          rintro (h1 | h1 | h1 | h1 | ⟨f', h1⟩) <;> cases h1
        · refine Or.inl (Or.inl ⟨obj, f.expr, rfl, ?_, hx⟩)
          rw [← h.expr i, hf]; rfl
      · rintro (hen | ⟨hh, -⟩)
        · rcases hen with ⟨obj', e, h1, h2, h3⟩ | ⟨f', h1, h2⟩
          · cases h1
            rw [← h.expr i] at h2
            obtain ⟨f, hf, rfl⟩ := Option.map_eq_some_iff.1 h2
            exact ⟨_, by rw [hf]; rfl, (mem_indexDoc eval f d obj (h.py i f hf) d).2 (Or.inr ⟨rfl, h3⟩)⟩
          · cases h1
        · obtain ⟨f, hf, hx⟩ := (mem_contents s i x).1 ((h.held i x).2 hh)
          exact ⟨_, by rw [hf]; rfl, (mem_indexDoc eval f d obj (h.py i f hf) x).2 (Or.inl hx)⟩
  | unindex d =>
    have hg : ∀ i, (s.unindexDoc d).filters.get? i = (s.filters.get? i).map (·.unindexDoc d) :=
      fun i => SMap.get?_mapVals _ _ _
    have e : (s.step eval (.unindex d : Op F D E X)).1 = s.unindexDoc d := rfl
    rw [e]
    refine ⟨?_, ?_, ?_⟩
    · intro i g hi
      rw [hg] at hi
      obtain ⟨f, hf, rfl⟩ := Option.map_eq_some_iff.1 hi
      exact h.py i f hf
    · intro i
      rw [hg, exprAt_append, Option.map_map]
      exact h.expr i
    · intro i x
      rw [held_append, mem_contents, hg]
      constructor
      · rintro ⟨g, hg', hx⟩
        obtain ⟨f, hf, rfl⟩ := Option.map_eq_some_iff.1 hg'
        have hx' : x ∈ SMap.keys (SMap.del f.ids d) := hx
        rw [SSet.mem_keys_del] at hx'
        refine Or.inr ⟨(h.held i x).1 ((mem_contents s i x).2 ⟨f, hf, hx'.1⟩), ?_⟩
        rintro (h1 | h1 | h1 | h1 | ⟨f', h1⟩)
        · cases h1; exact hx'.2 rfl
        all_goals cases h1
      · rintro (hen | ⟨hh, hl⟩)
        · rcases hen with ⟨obj, e, h1, -⟩ | ⟨f', h1, h2⟩ <;> cases h1
        · obtain ⟨f, hf, hx⟩ := (mem_contents s i x).1 ((h.held i x).2 hh)
          refine ⟨_, by rw [hf]; rfl, ?_⟩
          show x ∈ SMap.keys (SMap.del f.ids d)
          rw [SSet.mem_keys_del]
          refine ⟨hx, ?_⟩
          rintro rfl
          exact hl (Or.inl rfl)
  | setExpression j e' =>
    have hg : ∀ i, (s.step eval (.setExpression j e' : Op F D E X)).1.filters.get? i =
        if i = j then (s.filters.get? j).map (·.setExpression e') else s.filters.get? i := by
      intro i
      unfold step
      dsimp only
      cases hj : s.filters.get? j with
      | none =>
        dsimp only
        by_cases hi : i = j
        · subst hi; rw [if_pos rfl, hj]; rfl
        · rw [if_neg hi]
      | some f =>
        dsimp only
        rw [SMap.get?_set]; rfl
    have hcon : ∀ i d, d ∈ contents (s.step eval (.setExpression j e' : Op F D E X)).1 i ↔ d ∈ contents s i := by
      intro i d
      rw [mem_contents, mem_contents, hg]
      by_cases hi : i = j
      · subst hi
        rw [if_pos rfl]
        cases hf : s.filters.get? i with
        | none => simp
        | some f => simp [Filter.setExpression]
      · rw [if_neg hi]
    refine ⟨?_, ?_, ?_⟩
    · intro i g hi
      rw [hg] at hi
      split at hi
      · obtain ⟨f, hf, rfl⟩ := Option.map_eq_some_iff.1 hi
        exact h.py j f hf
      · exact h.py i g hi
    · intro i
      rw [hg, exprAt_append]
      simp only [exprStep]
      by_cases hi : i = j
      · subst hi
        rw [if_pos rfl, if_pos rfl, ← h.expr i, Option.map_map, Option.map_map]
        rfl
      · rw [if_neg hi, if_neg (Ne.symm hi)]; exact h.expr i
    · intro i d
      rw [held_append, hcon, h.held]
      constructor
      · intro hh
        refine Or.inr ⟨hh, ?_⟩
        rintro (h1 | h1 | h1 | h1 | ⟨f', h1⟩) <;> cases h1
      · rintro (hen | ⟨hh, -⟩)
        · rcases hen with ⟨obj, e, h1, -⟩ | ⟨f', h1, h2⟩ <;> cases h1
        · exact hh

theorem run_append (eval : E → D → X → Except Unit Bool) (ops : List (Op F D E X)) (op : Op F D E X) :
    run eval (ops ++ [op]) = ((run eval ops).step eval op).1 := by simp [run]

theorem run_inv (eval : E → D → X → Except Unit Bool) (ops : List (Op F D E X)) (hp : AllPython ops) :
    Inv eval ops (run eval ops) := by
  induction ops using List.reverseRecOn with
  | nil =>
    refine ⟨?_, fun i => rfl, ?_⟩
    · intro i g hi; cases hi
    · intro i d
      rw [mem_contents]
      constructor
      · rintro ⟨f, hf, -⟩; cases hf
      · rintro ⟨pre, o, post, he, -⟩; simp at he
  | append_singleton ops op ih =>
    rw [run_append]
    exact inv_step eval ops _ (ih (fun i f hf => hp i f (List.mem_append_left _ hf))) op
      (fun i f hf => hp i f (by rw [hf]; simp))

/-! ### search -/

theorem searchList_sets (s : Topic F D E) (q : List F) (set : SSet D) :
    set ∈ (s.filters.items.filter (fun p => decide (p.1 ∈ q))).map (fun p => p.2.getIds) ↔
      ∃ i f, i ∈ q ∧ s.filters.get? i = some f ∧ set = f.ids := by
  constructor
  · intro h
    obtain ⟨p, hp, rfl⟩ := List.mem_map.1 h
    rw [List.mem_filter] at hp
    exact ⟨p.1, p.2, by simpa using hp.2, (SMap.get?_eq_some_iff _ _ _).2 hp.1, rfl⟩
  · rintro ⟨i, f, hi, hf, rfl⟩
    exact List.mem_map.2 ⟨(i, f), List.mem_filter.2 ⟨(SMap.get?_eq_some_iff _ _ _).1 hf, by simpa using hi⟩, rfl⟩

theorem search_or (s : Topic F D E) (q : List F) :
    ∃ r, search.searchList s q .or = .ok r ∧
      ∀ d, d ∈ r.keys ↔ ∃ i ∈ q, ∃ f, s.filters.get? i = some f ∧ d ∈ f.ids.keys := by
  unfold search.searchList
  dsimp only
  obtain ⟨r, hr, hx⟩ := Keyword.finish_spec (some (SSet.multiunion
    ((s.filters.items.filter (fun p => decide (p.1 ∈ q))).map (fun p => p.2.getIds))))
  refine ⟨r, hr, fun d => ?_⟩
  rw [hx]
  simp only [Option.some.injEq, exists_eq_left', SSet.mem_keys_multiunion, searchList_sets]
  constructor
  · rintro ⟨set, ⟨i, f, hi, hf, rfl⟩, hd⟩; exact ⟨i, hi, f, hf, hd⟩
  · rintro ⟨i, hi, f, hf, hd⟩; exact ⟨_, ⟨i, f, hi, hf, rfl⟩, hd⟩

theorem search_and (s : Topic F D E) (q : List F) :
    ∃ r, search.searchList s q .and = .ok r ∧
      ∀ d, d ∈ r.keys ↔ (∃ i ∈ q, ∃ f, s.filters.get? i = some f) ∧
        ∀ i ∈ q, ∀ f, s.filters.get? i = some f → d ∈ f.ids.keys := by
  unfold search.searchList
  dsimp only
  set sets := (s.filters.items.filter (fun p => decide (p.1 ∈ q))).map (fun p => p.2.getIds) with hsets
  obtain ⟨r, hr, hx⟩ := Keyword.finish_spec (Keyword.interLoop none (sets.insertionSort (fun a b => a.len ≤ b.len)))
  refine ⟨r, hr, fun d => ?_⟩
  rw [hx]
  by_cases hn : sets = []
  · rw [hn]
    simp only [List.insertionSort_nil, Keyword.interLoop, reduceCtorEq, false_and, exists_false, false_iff, not_and]
    rintro ⟨i, hi, f, hf⟩
    have : f.ids ∈ sets := (searchList_sets s q f.ids).2 ⟨i, f, hi, hf, rfl⟩
    rw [hn] at this; simp at this
  · have hsn : sets.insertionSort (fun a b => a.len ≤ b.len) ≠ [] := by
      intro hc
      have := congrArg List.length hc
      rw [List.length_insertionSort] at this
      exact hn (List.length_eq_zero_iff.1 this)
    obtain ⟨r', hr', hx'⟩ := Keyword.interLoop_none _ hsn
    rw [hr']
    simp only [Option.some.injEq, exists_eq_left', hx', List.mem_insertionSort]
    constructor
    · intro h
      obtain ⟨set, hset⟩ := List.exists_mem_of_ne_nil _ hn
      obtain ⟨i, f, hi, hf, -⟩ := (searchList_sets s q set).1 hset
      refine ⟨⟨i, hi, f, hf⟩, fun i hi f hf => ?_⟩
      exact h _ ((searchList_sets s q f.ids).2 ⟨i, f, hi, hf, rfl⟩)
    · rintro ⟨-, h⟩ set hset
      obtain ⟨i, f, hi, hf, rfl⟩ := (searchList_sets s q set).1 hset
      exact h i hi f hf

end Verif.Topic
