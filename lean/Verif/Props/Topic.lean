import Verif.Proofs.Topic

/-!
# Properties C19 - C23: the topic index

The specification is in `Verif.Spec.Topic`: `Held` says which docids entered a filter and did not leave it since.
-/

set_option autoImplicit false

namespace Verif

open Topic Spec.Topic

variable {F D E X : Type} [LinearOrder F] [LinearOrder D]

/-- `eval` of the examples: expression `0` raises, expression `e` matches the multiples of `e` -/
def exEval (e : Nat) (_ : Nat) (x : Nat) : Except Unit Bool := if e = 0 then .error () else .ok (x % e == 0)

/-- a history used in the examples; filter 7 raises -/
def topicOps : List (Topic.Op Nat Nat Nat Nat) :=
  [.addFilter 5 (Filter.new .python 2), .addFilter 6 (Filter.new .python 3), .addFilter 7 (Filter.new .python 0),
   .index 1 6, .index 2 4, .index 3 3, .unindex 2, .index 2 9, .index 4 8]

theorem topicOps_python : AllPython topicOps := by
  intro i f h
  simp only [topicOps, List.mem_cons, Topic.Op.addFilter.injEq, List.not_mem_nil, or_false, reduceCtorEq, false_or] at h
  rcases h with ⟨-, rfl⟩ | ⟨-, rfl⟩ | ⟨-, rfl⟩ <;> rfl

/-! ## C19 -/

/-- C19: a filter holds `d` iff `d` entered it at some point of the history and did not leave it since -/
theorem C19_contents (eval : E → D → X → Except Unit Bool) (ops : List (Topic.Op F D E X)) (hp : AllPython ops) (i : F)
    (d : D) : d ∈ contents (run eval ops) i ↔ Held eval ops i d :=
  (run_inv eval ops hp).held i d

example : contents (run exEval topicOps) 5 = [1, 4] ∧ contents (run exEval topicOps) 6 = [1, 2, 3] ∧
    contents (run exEval topicOps) 7 = [] := by decide

/-! ## C20 -/

/-- C20 is false of the code: document 1 is indexed with an object that matches, then again with one that does not, and the
filter still holds it -/
theorem C20_fails :
    let ops : List (Topic.Op Nat Nat Nat Nat) := [.addFilter 5 (Filter.new .python 2), .index 1 6, .index 1 7]
    exEval 2 1 7 = .ok false ∧ 1 ∈ contents (run exEval ops) 5 := by decide

/-- what `index_doc` does: afterwards filter `i` holds `d` iff the object matches or the filter held `d` before; so the English
claim holds when `d` was not in the filter.  Missing: it fails for `d` in the filter. -/
theorem C20_reindex_partial (eval : E → D → X → Except Unit Bool) (ops : List (Topic.Op F D E X)) (hp : AllPython ops) (i : F)
    (d : D) (obj : X) :
    d ∈ contents (run eval (ops ++ [.index d obj])) i ↔
      (∃ e, exprAt ops i = some e ∧ eval e d obj = .ok true) ∨ d ∈ contents (run eval ops) i := by
  have hp' : AllPython (ops ++ [.index d obj]) := by
    intro j f h
    rcases List.mem_append.1 h with h | h
    · exact hp j f h
    · simp at h
  rw [C19_contents eval _ hp', C19_contents eval _ hp, held_append]
  constructor
  · rintro ((⟨obj', e, h1, h2, h3⟩ | ⟨f, h1, -⟩) | ⟨h, -⟩)
    · cases h1; exact Or.inl ⟨e, h2, h3⟩
    · cases h1
    · exact Or.inr h
  · rintro (⟨e, h2, h3⟩ | h)
    · exact Or.inl (Or.inl ⟨obj, e, rfl, h2, h3⟩)
    · refine Or.inr ⟨h, ?_⟩
      rintro (h1 | h1 | h1 | h1 | ⟨f', h1⟩) <;> cases h1

/-- with `unindex_doc` first, reindexing is exact -/
theorem C20_unindex_first_partial (eval : E → D → X → Except Unit Bool) (ops : List (Topic.Op F D E X)) (hp : AllPython ops)
    (i : F) (d : D) (obj : X) :
    d ∈ contents (run eval (ops ++ [.unindex d] ++ [.index d obj])) i ↔
      ∃ e, exprAt ops i = some e ∧ eval e d obj = .ok true := by
  have hp' : AllPython (ops ++ [.unindex d]) := by
    intro j f h
    rcases List.mem_append.1 h with h | h
    · exact hp j f h
    · simp at h
  rw [C20_reindex_partial eval _ hp', C19_contents eval _ hp', held_append, exprAt_append]
  constructor
  · rintro (h | (⟨obj', e, h1, -⟩ | ⟨f, h1, -⟩) | ⟨-, hl⟩)
    · exact h
    · cases h1
    · cases h1
    · exact absurd (Or.inl rfl) hl
  · exact Or.inl

/-! ## C21 -/

/-- C21: `or` is the union of the registered filters among those asked for -/
theorem C21_or (s : Topic F D E) (q : QueryArg F) (hq : q ≠ .other) :
    ∃ r, s.search q .or = .ok r ∧ ∀ d, d ∈ r.toList ↔ ∃ i ∈ ids q, d ∈ contents s i := by
  have e : s.search q .or = search.searchList s (ids q) .or := by
    cases q with
    | other => exact absurd rfl hq
    | _ => rfl
  rw [e]
  obtain ⟨r, hr, hx⟩ := search_or s (ids q)
  refine ⟨r, hr, fun d => ?_⟩
  show d ∈ SMap.keys r ↔ _
  rw [hx]
  simp only [mem_contents]

/-- C21: `and` is the intersection of the registered filters among those asked for; no docid if there are none -/
theorem C21_and (s : Topic F D E) (q : QueryArg F) (hq : q ≠ .other) :
    ∃ r, s.search q .and = .ok r ∧
      ∀ d, d ∈ r.toList ↔ (∃ i ∈ ids q, s.filters.contains i = true) ∧
        ∀ i ∈ ids q, s.filters.contains i = true → d ∈ contents s i := by
  have e : s.search q .and = search.searchList s (ids q) .and := by
    cases q with
    | other => exact absurd rfl hq
    | _ => rfl
  rw [e]
  obtain ⟨r, hr, hx⟩ := search_and s (ids q)
  refine ⟨r, hr, fun d => ?_⟩
  show d ∈ SMap.keys r ↔ _
  rw [hx]
  simp only [mem_contents, SMap.contains_iff]
  constructor
  · rintro ⟨h1, h2⟩
    exact ⟨h1, fun i hi ⟨f, hf⟩ => ⟨f, hf, h2 i hi f hf⟩⟩
  · rintro ⟨h1, h2⟩
    refine ⟨h1, fun i hi f hf => ?_⟩
    obtain ⟨f', hf', hd⟩ := h2 i hi ⟨f, hf⟩
    rw [hf] at hf'; cases hf'; exact hd

/-- C21: other operators, and queries of another type, raise `TypeError` -/
theorem C21_raises (s : Topic F D E) :
    (∀ op, s.search .other op = .error .TypeError) ∧ (∀ q, s.search q .other = .error .TypeError) := by
  refine ⟨fun _ => rfl, fun q => ?_⟩
  cases q <;> rfl

example : ((run exEval topicOps).search (.seq [6, 5, 9]) .and).toOption.map (·.toList) = some [1] := by decide
example : ((run exEval topicOps).search (.seq [6, 5, 9]) .or).toOption.map (·.toList) = some [1, 2, 3, 4] := by decide

/-! ## C22 -/

/-- C22 is false of the code: applying the same dict object again answers `and` instead of `or` -/
theorem C22_fails :
    let s := run exEval topicOps
    let a : Topic.ApplyArg Nat := .dict (some (.seq [5, 6])) (some .or)
    (s.apply a).1.toOption.map (·.toList) = some [1, 2, 3, 4] ∧
    (s.apply (s.apply a).2).1.toOption.map (·.toList) = some [1] := by decide

/-- C22 for queries without an operator, or with the default one, or that are no dicts.  Missing: dicts with the operator
`or`, for which it is false. -/
theorem C22_repeat_partial (s : Topic F D E) (a : Topic.ApplyArg F)
    (h : ∀ q op, a = .dict q (some op) → op = .and) : (s.apply (s.apply a).2).1 = (s.apply a).1 := by
  cases a with
  | plain q => rfl
  | dict q op =>
    cases op with
    | none => cases q <;> rfl
    | some op =>
      have := h q op rfl
      subst this
      cases q <;> rfl

/-- the first call of `apply` answers like `search` -/
theorem C22_first_partial (s : Topic F D E) :
    (∀ q, (s.apply (.plain q)).1 = s.search q .and) ∧
    (∀ q, (s.apply (.dict (some q) none)).1 = s.search q .and) ∧
    (∀ q op, (s.apply (.dict (some q) (some op))).1 = s.search q op) ∧
    (∀ op, (s.apply (.dict none op)).1 = .error .KeyError) :=
  ⟨fun _ => rfl, fun _ => rfl, fun _ _ => rfl, fun op => by cases op <;> rfl⟩

/-! ## C23 -/

/-- C23: no exception escapes `index_doc`, and a filter whose evaluation raises keeps its contents -/
theorem C23_contained (eval : E → D → X → Except Unit Bool) (ops : List (Topic.Op F D E X)) (hp : AllPython ops) (d : D)
    (obj : X) :
    ((run eval ops).indexDoc eval d obj).2 = none ∧
    ∀ i e err, exprAt ops i = some e → eval e d obj = .error err →
      contents ((run eval ops).indexDoc eval d obj).1 i = contents (run eval ops) i := by
  have hi := run_inv eval ops hp
  obtain ⟨h1, h2⟩ := indexDoc_spec eval (run eval ops) d obj hi.py
  refine ⟨h1, fun i e err he herr => ?_⟩
  unfold contents
  rw [h2]
  rw [← hi.expr i] at he
  obtain ⟨f, hf, rfl⟩ := Option.map_eq_some_iff.1 he
  rw [hf]
  have hk := hi.py i f hf
  simp [Filter.indexDoc, hk, herr]

/-- C23: every other filter is updated as if filter `j` did not exist -/
theorem C23_independent (eval : E → D → X → Except Unit Bool) (ops : List (Topic.Op F D E X)) (hp : AllPython ops) (d : D)
    (obj : X) (i j : F) (h : i ≠ j) :
    contents ((run eval ops).indexDoc eval d obj).1 i =
      contents ((run eval (ops ++ [.delFilter j])).indexDoc eval d obj).1 i := by
  have hp' : AllPython (ops ++ [.delFilter j]) := by
    intro k f hk
    rcases List.mem_append.1 hk with hk | hk
    · exact hp k f hk
    · simp at hk
  have hi := run_inv eval ops hp
  have hi' := run_inv eval _ hp'
  have h1 := (indexDoc_spec eval _ d obj hi.py).2 i
  have h2 := (indexDoc_spec eval _ d obj hi'.py).2 i
  have h3 : (run eval (ops ++ [.delFilter j])).filters.get? i = (run eval ops).filters.get? i := by
    rw [run_append]
    show (delFilter _ j).1.filters.get? i = _
    unfold delFilter
    split
    · exact SMap.get?_del_ne _ h
    · rfl
  unfold contents
  rw [h1, h2, h3]

example : exprAt topicOps 7 = some 0 ∧ exEval 0 8 1 = .error () := by
  constructor <;> rfl
/-- a filter of the abstract base class does let `NotImplementedError` escape, and stops the loop -/
example : ((run exEval [.addFilter 1 (Filter.new .base 2), .addFilter 5 (Filter.new .python 2)]).indexDoc exEval 1 6).2
    = some .NotImplementedError := by decide

end Verif
