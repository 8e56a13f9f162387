import Verif.Proofs.Keyword

/-!
# Properties C11 - C17: the keyword index

The specification is in `Verif.Spec.Keyword`: `current normalize ops d` are the keywords of document `d` after the
calls `ops`.  `Plain` says that no sequence given to `index_doc` was truthy and yet without keywords.
-/

set_option autoImplicit false

namespace Verif

open Keyword Spec Spec.Keyword

variable {D W : Type} [LinearOrder D] [LinearOrder W]

/-- a history used in the examples: reindexing, an empty list, removal, a lowered threshold, optimize -/
def kwOps : List (Op Nat Nat) :=
  [.setThreshold 2, .index 1 (.list [10, 20]), .index 2 (.list [20, 30]), .index 3 (.list [20]), .optimize,
   .index 1 (.list [20, 30]), .index 3 (.list []), .index 4 (.list [10]), .unindex 4]

/-- an example history is plain -/
theorem kwOps_plain : Plain id kwOps := by
  intro d items h
  simp only [kwOps, SeqArg.list, List.mem_cons] at h
  simp at h
  rintro rfl
  simp at h

/-! ## C11 -/

/-- C11: `and` returns the docids that carry every query word; an empty query returns none -/
theorem C11_and (normalize : List W → List W) (ops : List (Op D W)) (hp : Plain normalize ops) (q : QueryArg W) :
    ∃ r, (run normalize ops).search normalize q .and = .ok r ∧
      ∀ d, d ∈ r.toList ↔ normalize (words q) ≠ [] ∧ ∀ w ∈ normalize (words q), w ∈ current normalize ops d := by
  have hi := run_inv normalize ops hp
  obtain ⟨r, hr, hx⟩ := search_and normalize (run normalize ops) q
  refine ⟨r, hr, fun d => ?_⟩
  show d ∈ SMap.keys r ↔ _
  rw [hx]
  simp only [hi.fwd]

/-- C11: `or` returns the docids that carry at least one query word -/
theorem C11_or (normalize : List W → List W) (ops : List (Op D W)) (hp : Plain normalize ops) (q : QueryArg W) :
    ∃ r, (run normalize ops).search normalize q .or = .ok r ∧
      ∀ d, d ∈ r.toList ↔ ∃ w ∈ normalize (words q), w ∈ current normalize ops d := by
  have hi := run_inv normalize ops hp
  obtain ⟨r, hr, hx⟩ := search_or normalize (run normalize ops) q
  refine ⟨r, hr, fun d => ?_⟩
  show d ∈ SMap.keys r ↔ _
  rw [hx]
  simp only [hi.fwd]

/-- C11: any other operator raises `TypeError` -/
theorem C11_operator (normalize : List W → List W) (ops : List (Op D W)) (q : QueryArg W) :
    (run normalize ops).search normalize q .other = .error .TypeError := rfl

example : current id kwOps 1 = [20, 30] ∧ current id kwOps 3 = [] ∧ current id kwOps 4 = [] := by decide
example : ((run id kwOps).search id (.seq [30, 20]) .and).toOption.map (·.toList) = some [1, 2] := by decide
example : ((run id kwOps).search id (.seq [10, 30]) .or).toOption.map (·.toList) = some [1, 2] := by decide

/-! ## C12 -/

/-- C12: `documentCount()` counts the documents with keywords -/
theorem C12_document_count (normalize : List W → List W) (ops : List (Op D W)) (hp : Plain normalize ops) :
    ∃ n : Nat, (run normalize ops).documentCount = n ∧ CountIs (fun d => current normalize ops d ≠ []) n := by
  have hi := run_inv normalize ops hp
  refine ⟨(run normalize ops).rev.len, hi.count, (run normalize ops).rev.keys, SMap.keys_nodup _, ?_, SMap.len_keys _⟩
  intro d
  rw [SMap.mem_keys_iff]
  constructor
  · rintro ⟨kws, hk⟩ hc
    rw [(hi.rev d).1 hc] at hk; cases hk
  · intro h
    obtain ⟨kws, hk, -⟩ := (hi.rev d).2 h
    exact ⟨kws, hk⟩

/-- C12: `wordCount()` counts the keywords carried by some document -/
theorem C12_word_count (normalize : List W → List W) (ops : List (Op D W)) (hp : Plain normalize ops) :
    CountIs (fun w => ∃ d, w ∈ current normalize ops d) (run normalize ops).wordCount := by
  have hi := run_inv normalize ops hp
  refine ⟨(run normalize ops).fwd.keys, SMap.keys_nodup _, ?_, SMap.len_keys _⟩
  intro w
  rw [SMap.mem_keys_iff]
  constructor
  · rintro ⟨set, hs⟩
    obtain ⟨d, hd⟩ := hi.ne w set hs
    exact ⟨d, (hi.fwd w d).1 ⟨set, hs, hd⟩⟩
  · rintro ⟨d, hd⟩
    obtain ⟨set, hs, -⟩ := (hi.fwd w d).2 hd
    exact ⟨set, hs⟩

/-- C12: `has_doc(d)` tells whether `d` has keywords -/
theorem C12_has_doc (normalize : List W → List W) (ops : List (Op D W)) (hp : Plain normalize ops) (d : D) :
    (run normalize ops).hasDoc d = true ↔ current normalize ops d ≠ [] := by
  have hi := run_inv normalize ops hp
  unfold hasDoc
  rw [SMap.contains_iff]
  constructor
  · rintro ⟨kws, hk⟩ hc
    rw [(hi.rev d).1 hc] at hk; cases hk
  · intro h
    obtain ⟨kws, hk, -⟩ := (hi.rev d).2 h
    exact ⟨kws, hk⟩

example : (run id kwOps).documentCount = 2 ∧ (run id kwOps).wordCount = 2 ∧ (run id kwOps).hasDoc 2 = true := by
  decide

/-! ## C13 -/

/-- C13, for plain histories: `unindex_doc(d)`, or `index_doc(d, seq)` with a falsy `seq`, removes `d` from every answer and
changes nothing for the others -/
theorem C13_unindex_partial (normalize : List W → List W) (ops : List (Op D W)) (hp : Plain normalize ops) (d : D)
    (op : Op D W) (hop : op = .unindex d ∨ ∃ items, op = .index d (.seq false items)) (q : QueryArg W) (o : Operator)
    (ho : o ≠ .other) :
    ∃ before after, (run normalize ops).search normalize q o = .ok before ∧
      ((run normalize ops).step normalize op).1.search normalize q o = .ok after ∧
      ∀ x, x ∈ after.toList ↔ x ∈ before.toList ∧ x ≠ d := by
  have e : run normalize (ops ++ [op]) = ((run normalize ops).step normalize op).1 := by simp [run]
  have hp' : Plain normalize (ops ++ [op]) := by
    intro x items h
    rcases List.mem_append.1 h with h | h
    · exact hp x items h
    · rw [List.mem_singleton] at h
      rcases hop with rfl | ⟨i, rfl⟩ <;> simp at h
  have hc : ∀ x, current normalize (ops ++ [op]) x = if x = d then [] else current normalize ops x := by
    intro x
    rcases hop with rfl | ⟨i, rfl⟩ <;> simp [current, update]
  rw [← e]
  cases o with
  | and =>
    obtain ⟨r, hr, hx⟩ := C11_and normalize ops hp q
    obtain ⟨r', hr', hx'⟩ := C11_and normalize _ hp' q
    refine ⟨r, r', hr, hr', fun x => ?_⟩
    rw [hx, hx']
    simp only [hc]
    by_cases h : x = d
    · simp only [h, if_true, List.not_mem_nil, ne_eq, not_true_eq_false, and_false, iff_false, not_and]
      intro h1 h2
      obtain ⟨w, hw⟩ := List.exists_mem_of_ne_nil _ h1
      exact h2 w hw
    · simp [h]
  | or =>
    obtain ⟨r, hr, hx⟩ := C11_or normalize ops hp q
    obtain ⟨r', hr', hx'⟩ := C11_or normalize _ hp' q
    refine ⟨r, r', hr, hr', fun x => ?_⟩
    rw [hx, hx']
    simp only [hc]
    by_cases h : x = d <;> simp [h]
  | other => exact absurd rfl ho

/-- C13, for plain histories: it is a no-op when `d` is not indexed -/
theorem C13_unknown_partial (normalize : List W → List W) (ops : List (Op D W)) (hp : Plain normalize ops) (d : D)
    (h : current normalize ops d = []) (items : List W) :
    (run normalize ops).unindexDoc d = run normalize ops ∧
      (run normalize ops).indexDoc normalize d (.seq false items) = (run normalize ops, none) := by
  have hi := run_inv normalize ops hp
  have hr := (hi.rev d).1 h
  constructor
  · unfold unindexDoc; rw [hr]
  · unfold indexDoc; dsimp only; rw [hr]; rfl

/-- C13: after `clear()` the index is like new (`tree_threshold` is not touched) -/
theorem C13_clear (normalize : List W → List W) (ops : List (Op D W)) :
    (run normalize (ops ++ [.clear])) = { (new : Keyword D W) with treeThreshold := (run normalize ops).treeThreshold } := by
  simp [run, step, Keyword.clear, new]

/-- C13, for plain histories: a `str` raises `TypeError` and changes nothing; no other call of such a history raises -/
theorem C13_raises_partial (normalize : List W → List W) (ops : List (Op D W)) (op : Op D W)
    (hp : Plain normalize (ops ++ [op])) :
    (∀ d, op = .index d .str → (run normalize ops).step normalize op = (run normalize ops, some .TypeError)) ∧
    ((∀ d, op ≠ .index d .str) → ((run normalize ops).step normalize op).2 = none) := by
  have hi := run_inv normalize ops (fun d items h => hp d items (List.mem_append_left _ h))
  have h2 := (inv_step (normalize := normalize) hi op
    (fun d items h => hp d items (List.mem_append_right _ (by rw [h]; simp)))).2
  constructor
  · rintro d rfl; rfl
  · intro h
    rw [h2]
    cases op with
    | index d seq =>
      cases seq with
      | str => exact absurd rfl (h d)
      | seq t i => rfl
    | _ => rfl

example : Plain id (kwOps ++ [.index 1 .str]) := by
  intro d items h
  rcases List.mem_append.1 h with h | h
  · exact kwOps_plain d items h
  · simp at h

/-- C13: in every state whatsoever, `unindex_doc(d)` and `index_doc(d, seq)`, whether they raise or not, change nothing for the
other documents -/
theorem C13_others (normalize : List W → List W) (s : Keyword D W) (d : D) (op : Op D W)
    (hop : op = .unindex d ∨ ∃ seq, op = .index d seq) (q : QueryArg W) (o : Operator) (ho : o ≠ .other) :
    ∃ before after, s.search normalize q o = .ok before ∧ (s.step normalize op).1.search normalize q o = .ok after ∧
      ∀ x, x ≠ d → (x ∈ after.toList ↔ x ∈ before.toList) := by
  have h : ∀ x, x ≠ d → ∀ w, Keyword.Holds (s.step normalize op).1.fwd w x ↔ Keyword.Holds s.fwd w x := by
    intro x hx w
    rcases hop with rfl | ⟨seq, rfl⟩
    · exact unindex_others s hx w
    · exact index_others normalize s hx seq w
  cases o with
  | and =>
    obtain ⟨r, e, hr⟩ := search_and normalize s q
    obtain ⟨r', e', hr'⟩ := search_and normalize (s.step normalize op).1 q
    refine ⟨r, r', e, e', fun x hx => ?_⟩
    exact (hr' x).trans (Iff.trans (by simp only [h x hx]) (hr x).symm)
  | or =>
    obtain ⟨r, e, hr⟩ := search_or normalize s q
    obtain ⟨r', e', hr'⟩ := search_or normalize (s.step normalize op).1 q
    refine ⟨r, r', e, e', fun x hx => ?_⟩
    exact (hr' x).trans (Iff.trans (by simp only [h x hx]) (hr x).symm)
  | other => exact absurd rfl ho

/-- C13 in full is false of the code: an iterator over nothing (`C16_fails`) leaves document 1 in the reverse map with its old
keyword 7; given the keywords 7 and 8 next it is listed under 8 only, and `unindex_doc(1)` stops at 7: a search for 8 still finds
document 1.  A second witness: `index_doc` raises `KeyError`. -/
theorem C13_fails :
    ((run id [.index 1 (.list [7]), .index 1 (.seq true []), .index 1 (.list [7, 8]), .unindex 1] : Keyword Nat Nat).search id
      (.str 8) .or).toOption.map (·.toList) = some [1] ∧
    ((run id [.index 1 (.list [7]), .index 1 (.seq true [])] : Keyword Nat Nat).step id (.index 1 (.list [8]))).2 = some .KeyError := by
  decide

/-! ## C14 -/

/-- two calls that differ at most in the case of keywords -/
def SameUpToCase (lower : W → W) : Op D W → Op D W → Prop
  | .index d (.seq t items), .index d' (.seq t' items') => d = d' ∧ t = t' ∧ items.map lower = items'.map lower
  | a, b => a = b

/-- C14: histories and queries that differ only in case give the same answers -/
theorem C14_case (lower : W → W) (ops ops' : List (Op D W)) (h : List.Forall₂ (SameUpToCase lower) ops ops')
    (q q' : QueryArg W) (hq : (words q).map lower = (words q').map lower) (op : Operator) :
    (run (normalizeLower lower) ops).search (normalizeLower lower) q op =
      (run (normalizeLower lower) ops').search (normalizeLower lower) q' op := by
  have hrun : run (normalizeLower lower) ops = run (normalizeLower lower) ops' := by
    unfold run
    generalize (new : Keyword D W) = s
    induction h generalizing s with
    | nil => rfl
    | cons hab ht ih =>
      rename_i a b l l'
      rw [List.foldl_cons, List.foldl_cons]
      have : step (normalizeLower lower) s a = step (normalizeLower lower) s b := by
        unfold SameUpToCase at hab
        split at hab
        · obtain ⟨rfl, rfl, hi⟩ := hab
          exact indexDoc_congr _ s _ _ hi
        · rw [hab]
      rw [this]
      exact ih _
  rw [hrun]
  exact search_congr _ _ _ hq

/-- lower case of a code point, for the example -/
def exLower (c : Nat) : Nat := if 65 ≤ c ∧ c ≤ 90 then c + 32 else c

example : List.Forall₂ (SameUpToCase exLower) [.index 1 (.list [65, 98]), .unindex 2] [.index 1 (.list [97, 66]), .unindex 2] :=
  .cons ⟨rfl, rfl, rfl⟩ (.cons rfl .nil)
example : ((run (normalizeLower exLower) [.index 1 (.list [65, 98])]).search (normalizeLower exLower) (.str 66) .and).toOption.map
    (·.toList) = some [1] := by decide

/-! ## C15 -/

/-- not a call of `optimize` and not a change of the threshold -/
def notStorage : Op D W → Bool
  | .optimize => false
  | .setThreshold _ => false
  | _ => true

/-- the histories agree up to storage -/
theorem same_run (normalize : List W → List W) (ops : List (Op D W)) :
    Same (run normalize ops) (run normalize (ops.filter notStorage)) := by
  unfold run
  have : ∀ s t : Keyword D W, Same s t → Same (ops.foldl (fun s op => (step normalize s op).1) s)
      ((ops.filter notStorage).foldl (fun s op => (step normalize s op).1) t) := by
    induction ops with
    | nil => intro s t h; exact h
    | cons op l ih =>
      intro s t h
      cases op with
      | index d seq => exact ih _ _ (same_index normalize h d seq).1
      | unindex d => exact ih _ _ (same_unindex h d)
      | clear => exact ih _ _ ⟨rfl, rfl, fun _ => rfl⟩
      | optimize => exact ih _ _ ((same_optimize s).trans h)
      | setThreshold n => exact ih _ _ ⟨h.rev, h.numDocs, h.fwd⟩
  exact this new new (Same.refl _)

/-- C15: leaving out every `optimize()` and every change of `tree_threshold` changes no answer and no statistic
(for every history, plain or not) -/
theorem C15_transparent (normalize : List W → List W) (ops : List (Op D W)) :
    (∀ q op, (run normalize ops).search normalize q op =
      (run normalize (ops.filter notStorage)).search normalize q op) ∧
    (run normalize ops).documentCount = (run normalize (ops.filter notStorage)).documentCount ∧
    (run normalize ops).wordCount = (run normalize (ops.filter notStorage)).wordCount ∧
    (∀ d, (run normalize ops).hasDoc d = (run normalize (ops.filter notStorage)).hasDoc d) := by
  have h := same_run normalize ops
  refine ⟨fun q op => same_search h normalize q op, h.numDocs, same_wordCount h, fun d => ?_⟩
  unfold hasDoc; rw [h.rev]

/-- C15: after `optimize()` a keyword is stored in a TreeSet iff it has at least `tree_threshold` docids -/
theorem C15_optimized (normalize : List W → List W) (ops : List (Op D W)) (w : W) (set : DocSet D)
    (h : (run normalize ops).optimize.fwd.get? w = some set) :
    set.isTree = true ↔ (set.ids.len : Int) ≥ (run normalize ops).optimize.treeThreshold := by
  have h' : ((run normalize ops).fwd.mapVals
    (fun _ set => optimizeSet (run normalize ops).treeThreshold set)).get? w = some set := h
  rw [SMap.get?_mapVals] at h'
  obtain ⟨set0, -, hs⟩ := Option.map_eq_some_iff.1 h'
  subst hs
  show (optimizeSet (run normalize ops).treeThreshold set0).isTree = true ↔
    ((optimizeSet (run normalize ops).treeThreshold set0).ids.len : Int) ≥ (run normalize ops).treeThreshold
  unfold optimizeSet
  by_cases hc : (set0.ids.len : Int) ≥ (run normalize ops).treeThreshold
  · rw [if_pos hc]
    cases hb : set0.isTree
    · simpa using hc
    · simp only [Bool.not_true, Bool.false_eq_true, if_false, hb, true_iff]; exact hc
  · rw [if_neg hc]
    cases hb : set0.isTree
    · simp only [Bool.false_eq_true, if_false, hb, false_iff]; exact hc
    · simp only [if_true, Bool.false_eq_true, false_iff]; exact hc

example : ((run id kwOps).fwd.get? 20).map (·.isTree) = some true ∧
    ((run id (kwOps ++ [.setThreshold 9, .optimize])).fwd.get? 20).map (·.isTree) = some false := by decide

/-! ## C16 -/

/-- C16 for plain histories: `documentCount()` is the number of docids `has_doc` accepts, and a docid is accepted iff
some keyword finds it.  Missing: sequences that are truthy and yield no keyword, for which it is false (`C16_fails`). -/
theorem C16_plain_partial (normalize : List W → List W) (ops : List (Op D W)) (hp : Plain normalize ops) :
    (∃ n : Nat, (run normalize ops).documentCount = n ∧ CountIs (fun d => (run normalize ops).hasDoc d = true) n) ∧
    (∀ d, (run normalize ops).hasDoc d = true ↔
      ∃ w r, (run normalize ops).search id (.seq [w]) .or = .ok r ∧ d ∈ r.toList) := by
  have hi := run_inv normalize ops hp
  constructor
  · obtain ⟨n, hn, hc⟩ := C12_document_count normalize ops hp
    refine ⟨n, hn, ?_⟩
    obtain ⟨l, h1, h2, h3⟩ := hc
    exact ⟨l, h1, fun x => (h2 x).trans (C12_has_doc normalize ops hp x).symm, h3⟩
  · intro d
    rw [C12_has_doc normalize ops hp]
    constructor
    · intro h
      obtain ⟨w, hw⟩ := List.exists_mem_of_ne_nil _ h
      obtain ⟨r, hr, hx⟩ := search_or id (run normalize ops) (.seq [w])
      refine ⟨w, r, hr, ?_⟩
      show d ∈ SMap.keys r
      rw [hx]
      exact ⟨w, by simp [words], (hi.fwd w d).2 hw⟩
    · rintro ⟨w, r, hr, hd⟩ hc
      obtain ⟨r', hr', hx⟩ := search_or id (run normalize ops) (.seq [w])
      rw [hr] at hr'
      cases hr'
      have hd' : d ∈ SMap.keys r := hd
      rw [hx] at hd'
      obtain ⟨w', -, hh⟩ := hd'
      rw [hi.fwd, hc] at hh
      simp at hh

/-- C16 for every history: `documentCount()` never falls below the number of docids `has_doc` accepts -/
theorem C16_lower_bound_partial (normalize : List W → List W) (ops : List (Op D W)) :
    ∃ n : Nat, CountIs (fun d => (run normalize ops).hasDoc d = true) n ∧ (n : Int) ≤ (run normalize ops).documentCount := by
  refine ⟨(run normalize ops).rev.len, ⟨(run normalize ops).rev.keys, SMap.keys_nodup _,
    fun d => (SMap.contains_iff_mem _ d).symm, SMap.len_keys _⟩, ?_⟩
  unfold run documentCount
  have : ∀ s : Keyword D W, (s.rev.len : Int) ≤ s.numDocs →
      ((ops.foldl (fun s op => (step normalize s op).1) s).rev.len : Int) ≤
        (ops.foldl (fun s op => (step normalize s op).1) s).numDocs := by
    induction ops with
    | nil => intro s h; exact h
    | cons op l ih => intro s h; exact ih _ (rev_len_le normalize s op h)
  exact this new (by simp [new, SMap.len, SMap.empty])

/-- C16 is false of the code.  An iterator over nothing is truthy: the document is counted and not indexed.  Given for a document
already indexed, it is removed from the forward map only: `has_doc` accepts it, its old keyword does not find it, and indexing
it again raises `KeyError`. -/
theorem C16_fails :
    (run id [.index 1 (.seq true [])] : Keyword Nat Nat).documentCount = 1 ∧
    (run id [.index 1 (.seq true [])] : Keyword Nat Nat).hasDoc 1 = false ∧
    (run id [.index 1 (.list [7]), .index 1 (.seq true [])] : Keyword Nat Nat).hasDoc 1 = true ∧
    ((run id [.index 1 (.list [7]), .index 1 (.seq true [])] : Keyword Nat Nat).search id (.str 7) .or).toOption.map
      (·.toList) = some [] ∧
    ((run id [.index 1 (.list [7]), .index 1 (.seq true [])] : Keyword Nat Nat).indexDoc id 1 (.list [8])).2
      = some .KeyError := by
  decide

/-! ## C17 -/

/-- C17: `apply` is `search` with the operator taken from the dict, `and` by default, and leaves its argument alone -/
theorem C17_apply (normalize : List W → List W) (s : Keyword D W) :
    (∀ q, s.apply normalize (.plain q) = (s.search normalize q .and, .plain q)) ∧
    (∀ q, s.apply normalize (.dict (some q) none) = (s.search normalize q .and, .dict (some q) none)) ∧
    (∀ q op, s.apply normalize (.dict (some q) (some op)) = (s.search normalize q op, .dict (some q) (some op))) ∧
    (∀ op, s.apply normalize (.dict none op) = (.error .KeyError, .dict none op)) :=
  ⟨fun _ => rfl, fun _ => rfl, fun _ _ => rfl, fun _ => rfl⟩

/-- C17: applying the same argument object again gives the same answer -/
theorem C17_repeat (normalize : List W → List W) (s : Keyword D W) (a : ApplyArg W) :
    s.apply normalize (s.apply normalize a).2 = s.apply normalize a := by
  cases a with
  | plain q => rfl
  | dict q op => cases q <;> cases op <;> rfl

example : ((run id kwOps).apply id (.dict (some (.seq [10, 30])) (some .or))).1.toOption.map (·.toList) = some [1, 2] := by
  decide

end Verif
