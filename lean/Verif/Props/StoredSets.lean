import Verif.Proofs.StoredSets
import Verif.Props.Field
import Verif.Props.Keyword

/-! # C92: committed changes of field and keyword indexes are stored completely -/

set_option autoImplicit false

namespace Verif

open Spec Spec.StoredSets

section
variable {D V W : Type} [LinearOrder D] [LinearOrder V] [LinearOrder W]

/-- C92: a program uses a field index through a connection to a database that writes, at a commit, only what is marked as changed,
and that may drop whatever is not marked and load it again, at any time between calls.  What the program sees is an index on which
the committed calls and the calls since then were made; what the database holds is an index on which exactly the committed calls
were made.  For every sequence of calls (`clear()` included), commits, aborts and reloads -/
theorem C92_field (steps : List (StoreStep (Field.Op D V) D V)) :
    (fieldDb true steps).live.st.field.view = Field.run ((history steps).1 ++ (history steps).2) ∧
    (fieldDb true steps).saved.field.view = Field.run (history steps).1 := by
  have h := StoreDb.history_ok (f := MField.step true) field_marking (MField.new : SetStore D V (SSet D) V)
    (R := fun st ops => HField.Sep st.field ∧ st.field.view = Field.run ops)
    ⟨⟨by intro v v' a h; (cases h), by intro v a h; (cases h)⟩, rfl⟩
    (by
      rintro l ops op ⟨h1, h2⟩
      obtain ⟨-, e⟩ := MField.step_ok (StoreDb.run_agrees field_marking MField.new l) op
      obtain ⟨h3, h4⟩ := HField.step_view h1 op
      rw [e]
      refine ⟨h3, ?_⟩
      rw [h4, h2]
      simp [Field.run])
    steps
  exact ⟨h.1.2, h.2.2⟩

/-- C92: the same for a keyword index, with `optimize()` and changes of `tree_threshold` among the calls.  A call that raises an
exception counts like any other: what it changed in memory before is committed, unless the program aborts -/
theorem C92_keyword (normalize : List W → List W) (steps : List (StoreStep (Keyword.Op D W) D W)) :
    (keywordDb true normalize steps).live.st.keyword.view = Keyword.run normalize ((history steps).1 ++ (history steps).2) ∧
    (keywordDb true normalize steps).saved.keyword.view = Keyword.run normalize (history steps).1 := by
  have h := StoreDb.history_ok (f := MKeyword.step true normalize) (keyword_marking normalize)
    (MKeyword.new : SetStore D W (DocSet D) (SSet W))
    (R := fun st ops => HKeyword.WF st.keyword ∧ st.keyword.view = Keyword.run normalize ops)
    ⟨HKeyword.wf_new, rfl⟩
    (by
      rintro l ops op ⟨h1, h2⟩
      obtain ⟨-, e⟩ := MKeyword.step_ok normalize (StoreDb.run_agrees (keyword_marking normalize) MKeyword.new l) op
      have h3 := (HKeyword.step_next normalize h1 op).1
      rw [e]
      refine ⟨h3.wf, ?_⟩
      rw [h3.view, h2]
      simp [Keyword.run])
    steps
  exact ⟨h.1.2, h.2.2⟩

/-- C92: nothing at all is lost: after a commit and a reload a program sees what it saw before, down to the representation -/
theorem C92_field_durable (steps : List (StoreStep (Field.Op D V) D V)) (w : SetMarks D V) :
    (fieldDb true (steps ++ [.commit w, .abort])).live.st = (fieldDb true steps).live.st := by
  rw [show steps ++ [StoreStep.commit w, .abort] = (steps ++ [.commit w]) ++ [.abort] by simp]
  unfold fieldDb
  rw [StoreDb.run_snoc]
  exact StoreDb.commit_saved field_marking _ steps w

/-- C92: the same for keyword indexes -/
theorem C92_keyword_durable (normalize : List W → List W) (steps : List (StoreStep (Keyword.Op D W) D W)) (w : SetMarks D W) :
    (keywordDb true normalize (steps ++ [.commit w, .abort])).live.st = (keywordDb true normalize steps).live.st := by
  rw [show steps ++ [StoreStep.commit w, .abort] = (steps ++ [.commit w]) ++ [.abort] by simp]
  unfold keywordDb
  rw [StoreDb.run_snoc]
  exact StoreDb.commit_saved (keyword_marking normalize) _ steps w

/-- C92: a reload in the middle of a transaction undoes nothing -/
theorem C92_field_reload (steps : List (StoreStep (Field.Op D V) D V)) (w : SetMarks D V) :
    fieldDb true (steps ++ [.evict w]) = fieldDb true steps := StoreDb.evict_eq field_marking _ steps w

/-- C92: the same for keyword indexes -/
theorem C92_keyword_reload (normalize : List W → List W) (steps : List (StoreStep (Keyword.Op D W) D W)) (w : SetMarks D W) :
    keywordDb true normalize (steps ++ [.evict w]) = keywordDb true normalize steps :=
  StoreDb.evict_eq (keyword_marking normalize) _ steps w

/-- C92: so whoever opens the database finds, with a range of values, exactly the documents whose committed value is in it -/
theorem C92_field_search (steps : List (StoreStep (Field.Op D V) D V)) (lo hi : Option V) :
    ∃ r, (fieldDb true steps).saved.field.view.apply (.tuple [lo, hi]) = .ok r ∧
      ∀ d, d ∈ r.toList ↔ ∃ v, Spec.Field.current (history steps).1 d = some v ∧ Spec.Field.InRange lo hi v := by
  rw [(C92_field steps).2]
  exact C01_range_query _ lo hi

/-- C92: and, with a keyword, exactly the documents with this committed keyword -/
theorem C92_keyword_search (normalize : List W → List W) (steps : List (StoreStep (Keyword.Op D W) D W))
    (hp : Spec.Keyword.Plain normalize (history steps).1) (q : Keyword.QueryArg W) :
    ∃ r, (keywordDb true normalize steps).saved.keyword.view.search normalize q .or = .ok r ∧
      ∀ d, d ∈ r.toList ↔ ∃ w ∈ normalize (Spec.Keyword.words q), w ∈ Spec.Keyword.current normalize (history steps).1 d := by
  rw [(C92_keyword normalize steps).2]
  exact C11_or normalize _ hp q

end

/-! ## Examples -/

/-- two documents are indexed and committed, a third one is added and the first one changed, and this is committed; a fourth one is
indexed and the transaction is aborted -/
def exFieldSteps : List (StoreStep (Field.Op Nat Nat) Nat Nat) :=
  [.call (.index 1 10), .call (.index 2 10), .commit SetMarks.none, .call (.index 3 10), .evict SetMarks.none, .call (.index 1 20),
   .commit SetMarks.none, .call (.index 4 10), .abort]

/-- the same with keywords; the threshold is lowered, so that trees are created -/
def exKeywordSteps : List (StoreStep (Keyword.Op Nat Nat) Nat Nat) :=
  [.call (.setThreshold 2), .call (.index 1 (.list [10, 20])), .call (.index 2 (.list [10])), .commit SetMarks.none,
   .call (.index 3 (.list [10, 30])), .evict SetMarks.none, .call (.index 1 (.list [20])), .call (.index 5 .str),
   .commit SetMarks.none, .call .clear, .call (.index 4 (.list [10])), .abort]

example : (history exFieldSteps).1.length = 4 ∧ (history exFieldSteps).2.length = 0 := by decide
example : (fieldDb true exFieldSteps).saved.field.view.fwd.items.map (fun e => (e.1, e.2.keys)) = [(10, [2, 3]), (20, [1])] := by
  decide +kernel
/-- in the middle, nothing of the second transaction is in the database -/
example : (fieldDb true (exFieldSteps.take 6)).saved.field.view.fwd.items.map (fun e => (e.1, e.2.keys)) = [(10, [1, 2])] ∧
    (fieldDb true (exFieldSteps.take 6)).live.st.field.view.fwd.items.map (fun e => (e.1, e.2.keys)) = [(10, [2, 3]), (20, [1])] := by
  decide +kernel
example : (keywordDb true id exKeywordSteps).saved.keyword.view.fwd.items.map (fun e => (e.1, e.2.isTree, e.2.ids.keys)) =
    [(10, true, [2, 3]), (20, false, [1]), (30, false, [3])] ∧ (keywordDb true id exKeywordSteps).saved.threshold = 2 := by
  decide +kernel
example : (keywordDb true id (exKeywordSteps.take 11)).live.st.keyword.view.fwd.items.map (fun e => (e.1, e.2.ids.keys)) =
    [(10, [4])] := by decide +kernel
example : Spec.Keyword.Plain id (history exKeywordSteps).1 := by
  intro d items h
  simp only [history, historyStep, exKeywordSteps, Keyword.SeqArg.list, List.foldl, List.nil_append, List.cons_append,
    List.mem_cons] at h
  simp at h
  rintro rfl
  simp at h

/-- C92 depends on sets that mark themselves when they are changed.  With sets that do not (plain Python sets in the tree, say), the
third document has been committed, and counted, but is not found -/
theorem C92_needs_marks :
    (fieldDb false exFieldSteps).saved.rev.keys = [1, 2, 3] ∧ (fieldDb false exFieldSteps).saved.numDocs = 3 ∧
    ((fieldDb false exFieldSteps).saved.field.view.apply (.tuple [some 10, some 10])).toOption.map (·.toList) = some [1, 2] ∧
    ((keywordDb false id exKeywordSteps).saved.keyword.view.search id (.str 10) .or).toOption.map (·.toList) = some [1, 2] ∧
    ((keywordDb true id exKeywordSteps).saved.keyword.view.search id (.str 10) .or).toOption.map (·.toList) = some [2, 3] ∧
    ¬ ∀ steps : List (StoreStep (Field.Op Nat Nat) Nat Nat), (fieldDb false steps).saved.field.view = Field.run (history steps).1 := by
  refine ⟨by decide +kernel, by decide +kernel, by decide +kernel, by decide +kernel, by decide +kernel, fun h => ?_⟩
  have h1 := congrArg (fun x => (Field.fwd x).items.map (fun e => (e.1, SMap.keys e.2))) (h exFieldSteps)
  revert h1
  decide +kernel

end Verif
