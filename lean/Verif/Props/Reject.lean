import Verif.Proofs.Reject
import Verif.Proofs.RejectText
import Verif.Props.TextSearch

/-!
# C68: calls that fail change nothing

A call of `index_doc` with a docid the trees do not accept raises `TypeError`.  `runChecked` runs a history in which the caller
catches exceptions and goes on; `fieldSucceeded` and `keywordSucceeded` are the calls of that history that did not raise.
-/

set_option autoImplicit false

namespace Verif

open Spec

section field

open Field

variable {D V : Type} [LinearOrder D] [LinearOrder V]

/-- C68: `index_doc` of a field index raises exactly for docids that are not accepted, in every state a history leads to -/
theorem C68_field_raises (ok : D → Bool) (ops : List (Field.Op D V)) (d : D) (v : V) :
    (indexChecked ok (Field.runChecked ok ops) d v).2 = if ok d then none else some .TypeError := by
  have hs := onlyOk_run ok ops
  unfold indexChecked
  by_cases hc : (Field.runChecked ok ops).rev.contains d = true
  · rw [if_pos hc]
    obtain ⟨w, hw⟩ := (SMap.contains_iff _ _).1 hc
    rw [hs d w hw]
    split
    · rfl
    · rw [insertChecked_ok _ v (hs d w hw)]; rfl
  · rw [if_neg hc]
    cases hd : ok d with
    | true => rw [insertChecked_ok _ v hd]; rfl
    | false => rw [(insertChecked_reject _ v hd).1]; rfl

/-- C68, partial: after any history, range queries and `documentCount()` answer as if the calls that raised had not been made.
Missing: `wordCount()`, see `C68_field_fails`. -/
theorem C68_field_partial (ok : D → Bool) (ops : List (Field.Op D V)) :
    (∀ q, (Field.runChecked ok ops).apply q = (Field.run (fieldSucceeded ok Field.new ops)).apply q) ∧
    (Field.runChecked ok ops).documentCount = (Field.run (fieldSucceeded ok Field.new ops)).documentCount :=
  ⟨fun q => alike_apply (alike_run ok ops) q, (alike_run ok ops).numDocs⟩

/-- C68, partial: and so does sorting -/
theorem C68_field_sort_partial {V : Type} [PyValue V] (ok : D → Bool) (ops : List (Field.Op D V)) (lz nb : Bool) (docids : List D)
    (reverse : Bool) (limit : Option Int) :
    (Field.runChecked ok ops).sort lz nb docids reverse limit =
      (Field.run (fieldSucceeded ok Field.new ops)).sort lz nb docids reverse limit :=
  alike_sort (alike_run ok ops) lz nb docids reverse limit

/-- C68 is false of `wordCount()`: after a failed call it counts a value no document has -/
theorem C68_field_fails : (Field.runChecked (fun d => d != 99) [.index 1 10, .index 99 20] : Field Nat Nat).wordCount = 2 ∧
    fieldSucceeded (fun d => d != 99) Field.new [.index 1 10, .index (99 : Nat) (20 : Nat)] = [.index 1 10] ∧
    (Field.run [.index 1 10] : Field Nat Nat).wordCount = 1 := ⟨by decide, rfl, by decide⟩

example : ((Field.runChecked (fun d => d != 99) [.index 1 10, .index 99 20, .index 2 20, .index 99 10, .unindex 2] :
    Field Nat Nat).apply (.tuple [none, none])).toOption.map (·.toList) = some [1] := by decide

end field

section keyword

open Keyword

variable {D W : Type} [LinearOrder D] [LinearOrder W]

/-- C68, partial: after any history, searches, `documentCount()` and `has_doc` of a keyword index answer as if the calls that raised
`TypeError` (a docid that is not accepted, a `str` instead of a sequence) had not been made.
Missing: `wordCount()`, see `C68_keyword_fails`. -/
theorem C68_keyword_partial (ok : D → Bool) (normalize : List W → List W) (ops : List (Keyword.Op D W)) :
    (∀ q op, (Keyword.runChecked ok normalize ops).search normalize q op =
      (Keyword.run normalize (keywordSucceeded ok normalize Keyword.new ops)).search normalize q op) ∧
    (Keyword.runChecked ok normalize ops).documentCount =
      (Keyword.run normalize (keywordSucceeded ok normalize Keyword.new ops)).documentCount ∧
    (∀ d, (Keyword.runChecked ok normalize ops).hasDoc d =
      (Keyword.run normalize (keywordSucceeded ok normalize Keyword.new ops)).hasDoc d) :=
  ⟨fun q op => alike_search (Keyword.alike_run ok normalize ops) normalize q op, (Keyword.alike_run ok normalize ops).numDocs,
    fun d => by unfold Keyword.hasDoc; rw [(Keyword.alike_run ok normalize ops).rev]⟩

/-- C68: a docid that is not accepted is never in the index -/
theorem C68_keyword_rejected (ok : D → Bool) (normalize : List W → List W) (ops : List (Keyword.Op D W)) (d : D) (h : ok d = false) :
    (Keyword.runChecked ok normalize ops).hasDoc d = false := by
  unfold Keyword.hasDoc
  rw [SMap.contains_eq_false]
  cases hg : (Keyword.runChecked ok normalize ops).rev.get? d with
  | none => rfl
  | some ws => rw [Keyword.onlyOk_run ok normalize ops d ws hg] at h; cases h

/-- C68 is false of `wordCount()`: after a failed call it counts a keyword no document has -/
theorem C68_keyword_fails :
    (Keyword.runChecked (fun d => d != 99) id [.index 1 (.list [10]), .index 99 (.list [20])] : Keyword Nat Nat).wordCount = 2 ∧
    keywordSucceeded (fun d => d != 99) id Keyword.new [.index 1 (.list [10]), .index (99 : Nat) (.list [(20 : Nat)])] =
      [.index 1 (.list [10])] ∧
    (Keyword.run id [.index 1 (.list [10])] : Keyword Nat Nat).wordCount = 1 := ⟨by decide, rfl, by decide⟩

example : ((Keyword.runChecked (fun d => d != 99) id
    [.index 1 (.list [10, 20]), .index 99 (.list [30, 10]), .index 2 (.list [30]), .index 99 .str, .unindex 2] :
    Keyword Nat Nat).search id (.seq [10, 30]) .or).toOption.map (·.toList) = some [1] := by decide

end keyword

section text

open Text

variable {D R : Type} [LinearOrder D]

/-- C68, partial: in every state a history leads to, a call of `index_doc` of a text index with a docid that is not accepted raises
`TypeError`, and leaves the documents, their words and `documentCount()` as they were; a search finds what it found before unless it asks for a word
of the text given.  Missing: searches for words of that text, see `C68_text_fails`. -/
theorem C68_text_partial (K : Kind D R) (hK : Lawful K) (hL : Local K) (ok : D → Bool) (pipeline : List Element)
    (ops : List (Text.Op D)) (hs : SmallLexicon pipeline ops) (s : TI D R) (hr : run K pipeline ops = .ok s) (docid : D)
    (hd : ok docid = false) (text : TextArg) :
    (s.indexNewChecked ok K pipeline docid text).2 = some .TypeError ∧
    (s.indexNewChecked ok K pipeline docid text).1.documentCount = s.documentCount ∧
    (∀ d, hasDoc (s.indexNewChecked ok K pipeline docid text).1.ix d = hasDoc s.ix d) ∧
    (∀ d, getWords (s.indexNewChecked ok K pipeline docid text).1.ix d = getWords s.ix d) ∧
    ∀ term, (∀ w ∈ wordsOf pipeline term, w ∉ wordsOf pipeline text) →
      search K pipeline (s.indexNewChecked ok K pipeline docid text).1.lex (s.indexNewChecked ok K pipeline docid text).1.ix term =
        search K pipeline s.lex s.ix term := by
  obtain ⟨s', e, hl, -⟩ := run_ok hK pipeline ops hs
  obtain rfl : s' = s := Except.ok.inj (e.symm.trans hr)
  obtain ⟨h0, h1, h2, h3, h4, h5⟩ := indexNewChecked_reject (K := K) hd (s'.lex.sourceToWordIds pipeline text).2 s'.ix
  refine ⟨h0 ⟨_, hK.ok _⟩, h3, fun d => ?_, fun d => ?_, fun term hw => ?_⟩
  · show SMap.contains _ d = _
    unfold TI.indexNewChecked
    dsimp only
    rw [h2]; rfl
  · unfold getWords TI.indexNewChecked
    dsimp only
    rw [h2]
  · refine search_other hK hL hd ?_ ?_ pipeline text term hw
    · rw [hl]; exact Lexicon.run_inv pipeline (lexCalls ops)
    · rw [hl]; exact Lexicon.run_noZero pipeline (lexCalls ops) hs.1

/-- C68: when all docids are accepted, this is the `index_doc` of the other properties -/
theorem C68_text_accepted (K : Kind D R) (ok : D → Bool) (hok : ∀ d, ok d = true) (docid : D) (wids : List Int) (s s' : Ix D R)
    (hn : hasDoc s docid = false) : Text.indexNewChecked ok K docid wids s = (s', none) ↔ Text.indexDoc K docid wids s = .ok s' :=
  indexNewChecked_all hok K docid wids s hn s'

/-- C68: the hypothesis `Local` holds of both classes of index -/
theorem C68_text_local (A : Arith R) (P : Bm25 R) : Local (okapi A P : Kind D R) ∧ Local (cosine A : Kind D R) :=
  ⟨okapi_local A P, cosine_local A⟩

/-- `"dog"` -/
def exDog : TextArg := .str ['d', 'o', 'g']

/-- an index of one document `1` = `dog` -/
def exOneDog : TI Nat Int := (({ lex := Lexicon.new, ix := Text.new } : TI Nat Int).indexNewChecked (fun d => d != 99) exOkapi exPipeline 1 exDog).1

/-- C68 is false of text indexes: after the failed call, searching a word of the text raises, and the document that was found
before is not found -/
theorem C68_text_fails :
    (match search exOkapi exPipeline exOneDog.lex exOneDog.ix exDog with | .ok (some r) => r.keys | _ => []) = [1] ∧
    (exOneDog.indexNewChecked (fun d => d != 99) exOkapi exPipeline 99 exDog).2 = some .TypeError ∧
    (let s := (exOneDog.indexNewChecked (fun d => d != 99) exOkapi exPipeline 99 exDog).1
     (match search exOkapi exPipeline s.lex s.ix exDog with | .error e => some e | .ok _ => none) = some .KeyError) := by
  decide +kernel

/-- C68 is false of text indexes: after nine documents with the word and one failed call, no further document with that word can be
indexed -/
theorem C68_text_poisons :
    (let nine := (List.range 9).foldl (fun s d => (s.indexNewChecked (fun d => d != 99) exOkapi exPipeline d exDog).1)
       ({ lex := Lexicon.new, ix := Text.new } : TI Nat Int)
     let s := (nine.indexNewChecked (fun d => d != 99) exOkapi exPipeline 99 exDog).1
     nine.documentCount = 9 ∧ (nine.indexNewChecked (fun d => d != 99) exOkapi exPipeline 50 exDog).2 = none ∧
     (s.indexNewChecked (fun d => d != 99) exOkapi exPipeline 50 exDog).2 = some .TypeError) := by
  decide +kernel

example : ∀ w ∈ wordsOf exPipeline (.str ['b', 'i', 'g']), w ∉ wordsOf exPipeline exDog := by decide
example : SmallLexicon exPipeline exTextOps := exText_small

end text
end Verif
