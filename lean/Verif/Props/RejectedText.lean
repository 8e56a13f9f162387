import Verif.Proofs.RejectedText
import Verif.Props.Reject

/-!
# C96: a text the pipeline rejects changes nothing

`index_doc` with something that is not a text raises an exception.  `runAttempts` runs a history of calls in which the caller catches
the exceptions of such calls and goes on; `accepted` are its other calls.
-/

set_option autoImplicit false

namespace Verif.Text

open Verif.Spec

variable {D R : Type} [LinearOrder D]

/-- a history for the examples: rejected calls for a new docid, and for an indexed one -/
def exAttempts : List (Attempt Nat) :=
  [.rejected 7 .TypeError, .made (.index 1 exDog), .made (.index 2 (.str ['b', 'i', 'g', ' ', 'd', 'o', 'g'])), .rejected 3 .TypeError,
   .rejected 2 .TypeError, .made (.unindex 1), .made (.index 2 exDog), .rejected 2 .ValueError]

theorem exAttempts_small : SmallLexicon exPipeline (accepted exAttempts) := by
  refine ⟨by intro n hn; exact absurd hn (by simp [lexCalls, accepted, exAttempts]), ?_⟩
  have h : ∀ p ∈ (lexAfter exPipeline (accepted exAttempts)).wids.items, p.2 < 2 ^ 28 := by decide +kernel
  intro w
  unfold Lexicon.getWid
  cases hg : (lexAfter exPipeline (accepted exAttempts)).wids.get? w with
  | none => simp
  | some n => exact h (w, n) ((SMap.get?_eq_some_iff _ _ _).1 hg)

/-- C96: the exception of the pipeline reaches the caller of `index_doc`, whatever calls came before -/
theorem C96_raises (K : Kind D R) (hK : Lawful K) (pipeline : List Element) (calls : List (Attempt D))
    (hs : SmallLexicon pipeline (accepted calls)) (s : TI D R) (hr : runAttempts K pipeline calls = .ok s) (d : D) (e : PyErr) :
    (rejectedDoc K d e s.ix).2 = e := by
  obtain ⟨s1, h1, h2⟩ := attempts_state hK pipeline calls hs
  obtain ⟨s2, h3, -, hi⟩ := run_ok hK pipeline (accepted calls) hs
  obtain rfl : s2 = s1 := Except.ok.inj (h3.symm.trans h1)
  obtain rfl := Except.ok.inj (h2.symm.trans hr)
  show (rejectedDoc K d e (shift _ s2.ix)).2 = e
  rw [rejected_ok hK hi]

example : ∃ s, runAttempts exOkapi exPipeline exAttempts = .ok s := by
  obtain ⟨s, -, h⟩ := attempts_state exOkapi_lawful exPipeline exAttempts exAttempts_small
  exact ⟨_, h⟩

/-- C96 for CosineIndex: rejected calls leave no trace -/
theorem C96_cosine (A : Arith R) (pipeline : List Element) (calls : List (Attempt D)) :
    runAttempts (cosine A) pipeline calls = run (cosine A) pipeline (accepted calls) := by
  unfold runAttempts run
  generalize ({ lex := Lexicon.new, ix := Text.new } : TI D R) = s
  induction calls generalizing s with
  | nil => rfl
  | cons call calls ih =>
    cases call with
    | made op =>
      show (step (cosine A) pipeline s op >>= _) = (step (cosine A) pipeline s op >>= _)
      cases step (cosine A) pipeline s op with
      | error e => rfl
      | ok s' => exact ih s'
    | rejected d e =>
      have hix : (rejectedDoc (cosine A) d e s.ix).1 = s.ix := by
        unfold rejectedDoc
        split
        · have hsub : subDocLen (cosine A) d s.ix = .ok s.ix := rfl
          rw [hsub]
          dsimp only
          split
          · rfl
          · split <;> rfl
        · rfl
      show calls.foldlM (stepAttempt (cosine A) pipeline) { s with ix := (rejectedDoc (cosine A) d e s.ix).1 } = _
      rw [hix]
      exact ih s

/-- C96 for every class of index, in part: rejected calls leave no trace if none of them was for a document indexed at the time.
Missing: rejected calls for indexed documents, of which the property is false for OkapiIndex (`C96_okapi_fails`). -/
theorem C96_new_partial (K : Kind D R) (hK : Lawful K) (pipeline : List Element) (calls : List (Attempt D))
    (hs : SmallLexicon pipeline (accepted calls)) (hn : RejectedNew [] calls) :
    runAttempts K pipeline calls = run K pipeline (accepted calls) := by
  obtain ⟨s, h1, h2⟩ := attempts_state hK pipeline calls hs
  have : ∀ calls done, RejectedNew (D := D) done calls → totalLoss K pipeline done calls = 0 := by
    intro calls
    induction calls with
    | nil => intro done _; rfl
    | cons call calls ih =>
      intro done h
      cases call with
      | made op => exact ih _ h
      | rejected d e =>
        show lossOf K pipeline done d + totalLoss K pipeline done calls = 0
        rw [ih _ h.2]
        unfold lossOf lenOf docWids docWords
        rw [h.1]
        simp
  rw [h1, h2, this _ _ hn, sub_zero, TI.shift_zero]

example : RejectedNew [] (exAttempts.take 4) ∧ (exAttempts.take 4).length = 4 := ⟨⟨rfl, rfl, trivial⟩, rfl⟩
example : SmallLexicon exPipeline (accepted exAttempts) := exAttempts_small

/-- C96 for OkapiIndex, what is true instead: a rejected call changes the index only in that the total length is less by the length
of the document, and no later call makes up for it -/
theorem C96_okapi (A : Arith R) (P : Bm25 R) (hA : CountsCompare A) (pipeline : List Element) (calls : List (Attempt D))
    (hs : SmallLexicon pipeline (accepted calls)) (he : LengthsExact A pipeline (accepted calls)) :
    ∃ s, run (okapi A P) pipeline (accepted calls) = .ok s ∧
      runAttempts (okapi A P) pipeline calls =
        .ok { s with ix := { s.ix with total := s.ix.total - lostWords pipeline [] calls } } := by
  obtain ⟨s, h1, h2⟩ := attempts_state (okapi_lawful A P hA) pipeline calls hs
  refine ⟨s, h1, ?_⟩
  have : ∀ calls done, LengthsExact A pipeline (done ++ accepted calls) →
      totalLoss (okapi A P : Kind D R) pipeline done calls = lostWords pipeline done calls := by
    intro calls
    induction calls with
    | nil => intro done _; rfl
    | cons call calls ih =>
      intro done h
      cases call with
      | made op => exact ih _ (by rw [List.append_assoc]; exact h)
      | rejected d e =>
        show lossOf (okapi A P) pipeline done d + totalLoss (okapi A P) pipeline done calls =
          ((((docWords pipeline done d).map List.length).getD 0 + lostWords pipeline done calls : Nat) : Int)
        rw [ih done h]
        have h' : LengthsExact A pipeline done := fun d t hm => h d t (List.mem_append_left _ hm)
        have hl := lenOf_exact (okapi_weight A P) h' d
        have ht : (okapi A P : Kind D R).hasTotal = true := rfl
        unfold lossOf
        rw [if_pos ht, hl]
        cases docWords pipeline done d <;> simp
  rw [h2, this calls [] he]
  unfold TI.shift shift
  rw [zero_sub, ← sub_eq_add_neg]

example : LengthsExact exArith exPipeline (accepted exAttempts) ∧ lostWords exPipeline [] exAttempts = 3 := by
  refine ⟨?_, by decide +kernel⟩
  intro d t h
  have h : Text.Op.index d t ∈ ([.index 1 exDog, .index 2 (.str ['b', 'i', 'g', ' ', 'd', 'o', 'g']), .unindex 1, .index 2 exDog] : List (Text.Op Nat)) := h
  simp only [List.mem_cons, Text.Op.index.injEq, List.not_mem_nil, or_false, reduceCtorEq, false_or] at h
  rcases h with ⟨-, rfl⟩ | ⟨-, rfl⟩ | ⟨-, rfl⟩ <;> decide +kernel

/-- C96 is false of OkapiIndex: an index of one document is left with a total length of 0, so that searching its word raises; indexing
the document again does not help, nor does removing and adding it -/
theorem C96_okapi_fails :
    (∀ more ∈ [[], [Attempt.made (.index 1 exDog)], [.made (.unindex 1), .made (.index 1 exDog)]],
      (match run exOkapi exPipeline (accepted (.made (.index 1 exDog) :: .rejected 1 .TypeError :: more)) with
        | .ok s => (match search exOkapi exPipeline s.lex s.ix exDog with | .ok (some r) => r.keys | _ => [])
        | .error _ => []) = [1] ∧
      (match runAttempts exOkapi exPipeline (.made (.index 1 exDog) :: .rejected 1 .TypeError :: more) with
        | .ok s => (match search exOkapi exPipeline s.lex s.ix exDog with | .error e => some e | .ok _ => none)
        | .error _ => none) = some .ZeroDivisionError) := by
  decide +kernel

end Verif.Text
