import Verif.Proofs.Stored
import Verif.Props.TextSearch
import Verif.Props.TextIndex

/-! # C72: what was committed is what is loaded again -/

set_option autoImplicit false

namespace Verif

open Spec Spec.Stored Text

section
variable {D R : Type} [LinearOrder D]

/-- C72: a program uses a text index and its lexicon through a connection to a database that writes, at a commit, only what is
marked as changed, and that may drop whatever is not marked and load it again, at any time between calls.  What the program sees is
an index on which the committed calls and the calls since then were made; what the database holds, and so what is there after a
crash, an abort or a restart, is an index on which exactly the committed calls were made.  For every scoring, every pipeline and
every sequence of calls (`clear()` included), commits, aborts and reloads -/
theorem C72_text (K : Kind D R) (pipeline : List Element) (steps : List (DbStep D)) :
    Text.run K pipeline ((history K pipeline steps).1 ++ (history K pipeline steps).2) =
      .ok (TextDb.run true K pipeline steps).live.view ∧
    Text.run K pipeline (history K pipeline steps).1 = .ok (TextDb.run true K pipeline steps).saved.view :=
  TextDb.history_ok K pipeline steps

/-- C72: nothing at all is lost: after a commit and a reload the program sees what it saw before, down to the representation -/
theorem C72_durable (K : Kind D R) (pipeline : List Element) (steps : List (DbStep D)) (wi : IxMarks D) (wl : LexMarks) :
    (TextDb.run true K pipeline (steps ++ [.commit wi wl, .abort])).live = (TextDb.run true K pipeline steps).live := by
  have h := (TextDb.commit_ok K pipeline (TextDb.run_inv K pipeline steps) wi wl).2.2
  rw [show steps ++ [DbStep.commit wi wl, .abort] = (steps ++ [.commit wi wl]) ++ [.abort] by simp, TextDb.run_snoc,
    TextDb.run_snoc]
  exact h

/-- C72: and a call makes no difference that a reload, in the middle of a transaction, would undo -/
theorem C72_reload (K : Kind D R) (pipeline : List Element) (steps : List (DbStep D)) (wi : IxMarks D) (wl : LexMarks) :
    TextDb.run true K pipeline (steps ++ [.evict wi wl]) = TextDb.run true K pipeline steps := by
  rw [TextDb.run_snoc, TextDb.evict_eq K pipeline (TextDb.run_inv K pipeline steps)]

/-- C72: so whoever opens the database finds exactly the committed documents with the words searched for -/
theorem C72_search {A : Arith R} {Pos : R → Prop} {K : Kind D R} (hA : Positive A Pos) (hK : Ranked A Pos K)
    (pipeline : List Element) (steps : List (DbStep D)) (hs : SmallLexicon pipeline (history K pipeline steps).1)
    (he : K.hasTotal = true → LengthsExact A pipeline (history K pipeline steps).1) (t : TextArg) (ht : t ≠ .none)
    (hne : wordsOf pipeline t ≠ []) :
    ∃ r, search K pipeline (TextDb.run true K pipeline steps).saved.view.lex (TextDb.run true K pipeline steps).saved.view.ix t =
        .ok (some r) ∧
      ∀ d, d ∈ r.keys ↔ ∃ w ∈ wordsOf pipeline t, ∃ ws, docWords pipeline (history K pipeline steps).1 d = some ws ∧ w ∈ ws :=
  (C56_search hA hK pipeline _ hs he _ (C72_text K pipeline steps).2 t ht).2 hne

end

/-! ## Examples -/

/-- two documents are indexed and committed, a third one is added and the first one changed, and this is committed; a fourth one is
indexed and the transaction is aborted -/
def exSteps : List (DbStep Nat) :=
  [.call (.index 1 (.list [['d', 'o', 'g'], ['c', 'a', 't']])), .call (.index 2 (.list [['d', 'o', 'g']])),
   .commit IxMarks.none LexMarks.none,
   .call (.index 3 (.list [['d', 'o', 'g'], ['e', 'e', 'l']])), .evict IxMarks.none LexMarks.none,
   .call (.index 1 (.list [['c', 'a', 't']])), .commit IxMarks.none LexMarks.none,
   .call (.index 4 (.list [['d', 'o', 'g']])), .abort]

example : (TextDb.run true (cosine exPosArith) [] exSteps).live.view.ix.wordinfo.items.map (fun e => (e.1, e.2.map.keys)) =
    [(1, [2, 3]), (2, [1]), (3, [3])] := by decide +kernel
example : ((history (cosine exPosArith) [] exSteps).1.map fun | .index d _ => d | _ => 0) = [1, 2, 3, 1] ∧
    (history (cosine exPosArith) [] exSteps).2.length = 0 := by decide +kernel
/-- in the middle, nothing of the second transaction is in the database -/
example : (TextDb.run true (cosine exPosArith) [] (exSteps.take 6)).saved.view.ix.docwords.keys = [1, 2] ∧
    (TextDb.run true (cosine exPosArith) [] (exSteps.take 6)).live.view.ix.docwords.keys = [1, 2, 3] := by decide +kernel
/-- further calls on the index as it was loaded again -/
example : (TextDb.run true (cosine exPosArith) [] (exSteps ++ [.call (.unindex 7), .call (.unindex 2)])).live.view.ix.docwords.keys =
    [1, 3] := by decide +kernel
example : (TextDb.run true (cosine exPosArith) [] (exSteps ++ [.call .clear, .evict IxMarks.none LexMarks.none])).live.view.ix.docwords.keys = [] ∧
    (TextDb.run true (cosine exPosArith) [] (exSteps ++ [.call .clear])).saved.view.ix.docwords.keys = [1, 2, 3] := by decide +kernel

/-- C72 depends on the assignments that look redundant: with a tree that does not mark its bucket when the object assigned is
already there (or without the assignments), the third document is in the committed index, but is not found by its words -/
theorem C72_needs_marks :
    (TextDb.run false (cosine exPosArith) [] exSteps).saved.view.ix.docwords.keys = [1, 2, 3] ∧
    (search (cosine exPosArith) [] (TextDb.run true (cosine exPosArith) [] exSteps).saved.view.lex
      (TextDb.run true (cosine exPosArith) [] exSteps).saved.view.ix (.list [['d', 'o', 'g']])).toOption.map (fun r => r.map (·.keys)) =
      some (some [2, 3]) ∧
    (search (cosine exPosArith) [] (TextDb.run false (cosine exPosArith) [] exSteps).saved.view.lex
      (TextDb.run false (cosine exPosArith) [] exSteps).saved.view.ix (.list [['d', 'o', 'g']])).toOption.map (fun r => r.map (·.keys)) =
      some (some [1, 2]) ∧
    ¬ ∀ steps : List (DbStep Nat), Text.run (cosine exPosArith) [] (history (cosine exPosArith) [] steps).1 =
      .ok (TextDb.run false (cosine exPosArith) [] steps).saved.view := by
  refine ⟨by decide +kernel, by decide +kernel, by decide +kernel, fun h => ?_⟩
  have h1 := (C72_text (cosine exPosArith) [] exSteps).2
  rw [h exSteps] at h1
  have h2 := congrArg (fun x => (TI.ix x).wordinfo.items.map (fun e => (e.1, e.2.map.keys))) (Except.ok.inj h1)
  revert h2
  decide +kernel

end Verif
