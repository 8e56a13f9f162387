import Verif.Proofs.TxnAlone
import Verif.Props.TxnClear

/-!
# C70, C80: a transaction that overlaps no other commits

`C70_field`, `C80_field` and the like say what committed states look like.  These theorems say that a transaction does commit when no
other one committed since it began (`back = 0`), the application does not abort it, and none of its calls raises.
-/

set_option autoImplicit false

namespace Verif

open Spec Spec.Txn

section keyword
variable {D W : Type} [LinearOrder D] [LinearOrder W]

/-- C70, for keyword indexes on which no keyword is ever given to 64 documents: a transaction that no other committed transaction
overlapped commits (and `C70_keyword_partial` says what it has then done) -/
theorem C70_keyword_alone_partial (normalize : List W → List W) (ts : List (Txn (Keyword.Op D W))) (t : Txn (Keyword.Op D W))
    (hu : ∀ t' ∈ ts ++ [t], ∀ op ∈ t'.ops, IsUpdate op) (hp : ∀ t' ∈ ts ++ [t], Spec.Keyword.Plain normalize t'.ops)
    (hf : FewerThan 64 normalize (ts ++ [t])) (hb : t.back = 0) (hr : t.refused = false) :
    (Db.run (HKeyword.engine normalize) HKeyword.new (ts ++ [t])).older = (Db.run (HKeyword.engine normalize) HKeyword.new ts).states := by
  have hok : ∀ t' ∈ ts ++ [t], ∀ op ∈ t'.ops, HKeyword.OkOp normalize (Given normalize (ts ++ [t])) op := by
    intro t' ht op hop
    refine ⟨hu t' ht op hop, ?_⟩
    rintro d items rfl
    exact ⟨hp t' ht d items hop, fun w hw => ⟨t', ht, items, hop, hw⟩⟩
  exact ((HKeyword.sound normalize (Given normalize (ts ++ [t])) hf).alone HKeyword.wfTxn_new (HKeyword.merge_alone normalize _ hf) ts t
    hok hb hr rfl).1

/-- C80, for keyword indexes on which no keyword is ever given to 64 documents -/
theorem C80_keyword_alone_partial (normalize : List W → List W) (ts : List (Txn (Keyword.Op D W))) (t : Txn (Keyword.Op D W))
    (hu : ∀ t' ∈ ts ++ [t], ∀ op ∈ t'.ops, IsUpdate op ∨ op = .clear) (hp : ∀ t' ∈ ts ++ [t], Spec.Keyword.Plain normalize t'.ops)
    (hf : FewerThan 64 normalize (ts ++ [t])) (hb : t.back = 0) (hr : t.refused = false) :
    (Db.run (Housed.engine (HKeyword.engine normalize) HKeyword.clearing) ⟨0, HKeyword.new⟩ (ts ++ [t])).older =
        (Db.run (Housed.engine (HKeyword.engine normalize) HKeyword.clearing) ⟨0, HKeyword.new⟩ ts).states := by
  have hok : ∀ t' ∈ ts ++ [t], ∀ c ∈ t'.ops, ∀ op, HKeyword.clearing.keeps c = some op →
      HKeyword.OkOp normalize (Given normalize (ts ++ [t])) op := by
    intro t' ht c hc op hop
    have hco : c = op ∧ c ≠ .clear := by cases c <;> cases hop <;> exact ⟨rfl, by simp⟩
    obtain ⟨rfl, hne⟩ := hco
    refine ⟨(hu t' ht c hc).resolve_right hne, ?_⟩
    rintro d items rfl
    exact ⟨hp t' ht d items hc, fun w hw => ⟨t', ht, items, hc, hw⟩⟩
  refine ((HKeyword.clearSound normalize (Given normalize (ts ++ [t])) hf).alone HKeyword.wfTxn_new ?_
    (HKeyword.merge_alone normalize _ hf) (fun a b => ⟨b, rfl, rfl⟩) ts t hok hb hr ?_).1
  · intro d
    funext w
    show (∃ ks, (SMap.empty : SMap D (SSet W)).get? d = some ks ∧ _) = _
    simp
  · exact Housed.exec_ok (E := HKeyword.engine normalize) (fun _ _ _ => rfl) _ _ _

/-- the hypotheses met by two transactions, the second of which clears the index -/
example : FewerThan 64 id ([⟨0, [.index 1 (.seq true [7, 8])], false⟩] ++ [⟨0, [.clear, .index 2 (.seq true [7])], false⟩] :
    List (Txn (Keyword.Op Nat Nat))) := by
  intro w docs hn hd
  have : docs ⊆ [1, 2] := by
    intro d hd'
    obtain ⟨t, ht, items, hop, -⟩ := hd d hd'
    simp only [List.cons_append, List.nil_append, List.mem_cons, List.not_mem_nil, or_false] at ht
    rcases ht with rfl | rfl <;> simp at hop <;> simp [hop.1]
  have := List.Subperm.length_le (hn.subperm this)
  simp only [List.length_cons, List.length_nil] at this
  omega

end keyword

/-- 62 documents get the keyword 7; documents 100 and 101 get it too, while document 200 gets the keywords 7 and 8; later document 200 is removed -/
def exKeywordLost : List (Txn (Keyword.Op Nat Nat)) :=
  [⟨0, (List.range 62).map (fun d => .index d (.seq true [7])), false⟩,
   ⟨0, [.index 100 (.seq true [7]), .index 101 (.seq true [7])], false⟩,
   ⟨1, [.index 200 (.seq true [7, 8])], false⟩,
   ⟨0, [.unindex 200], false⟩]

/-- C70: what the conversion of a set loses (see `C70_keyword_fails`) is not repaired by later calls.  The third transaction commits, but
document 200 is not found by the keyword 7; `unindex_doc` then meets a KeyError and returns silently (keyword/index.py:124-126): the last
transaction commits too, and the document is still there, and still found by the keyword 8; `index_doc` raises KeyError for it -/
theorem C70_keyword_stuck :
    (Db.run (HKeyword.engine id) HKeyword.new exKeywordLost).older.length = 4 ∧
    ((Db.run (HKeyword.engine id) HKeyword.new (exKeywordLost.take 3)).latest.view.search id (.seq [7]) .and).toOption.map
      (fun r => r.toList.contains 200) = some false ∧
    (Db.run (HKeyword.engine id) HKeyword.new exKeywordLost).latest.view.hasDoc 200 = true ∧
    (Db.run (HKeyword.engine id) HKeyword.new exKeywordLost).latest.view.documentCount = 65 ∧
    ((Db.run (HKeyword.engine id) HKeyword.new exKeywordLost).latest.view.search id (.seq [8]) .and).toOption.map
      (fun r => r.toList.contains 200) = some true ∧
    ((Db.run (HKeyword.engine id) HKeyword.new exKeywordLost).latest.indexDoc id 200 (.seq true [9])).2 = some .KeyError := by
  refine ⟨by decide +kernel, by decide +kernel, by decide +kernel, by decide +kernel, by decide +kernel, by decide +kernel⟩

section field
variable {D V : Type} [LinearOrder D] [LinearOrder V]

/-- C80: a transaction on a field index that no other committed transaction overlapped commits, whether it calls `clear()` or not and
whatever happened before, and then documents have the values its calls gave them -/
theorem C80_field_alone (ts : List (Txn (Field.Op D V))) (t : Txn (Field.Op D V)) (hb : t.back = 0) (hr : t.refused = false) :
    (Db.run (Housed.engine HField.engine HField.clearing) ⟨0, HField.new⟩ (ts ++ [t])).older =
        (Db.run (Housed.engine HField.engine HField.clearing) ⟨0, HField.new⟩ ts).states ∧
      (Db.run (Housed.engine HField.engine HField.clearing) ⟨0, HField.new⟩ (ts ++ [t])).latest.inner.rev.get? =
        t.ops.foldl Spec.Field.update
          (Db.run (Housed.engine HField.engine HField.clearing) ⟨0, HField.new⟩ ts).latest.inner.rev.get? :=
  HField.clearSound.alone (HField.wf_new (D := D) (V := V)) (fun _ => rfl) HField.merge_alone (fun _ b => ⟨b, rfl, rfl⟩) ts t
    (fun t ht c hc op hop => by rintro rfl; cases c <;> cases hop) hb hr
    (Housed.exec_ok (E := HField.engine) (fun _ _ _ => rfl) _ _ _)

/-- the sixth of these transactions is one that no other overlapped -/
example : exClearTxns.take 6 = exClearTxns.take 5 ++ [⟨0, [.index 7 50], false⟩] := rfl

end field

/-- C70: a transaction on a lexicon that no other committed transaction overlapped commits, and the lexicon is then the one it made -/
theorem C70_lexicon_alone (pipeline : List Element) (ts : List (Txn (Int × TextArg))) (t : Txn (Int × TextArg))
    (hb : t.back = 0) (hr : t.refused = false) :
    (Db.run (Lexicon.engine pipeline) Lexicon.new (ts ++ [t])).states =
      t.ops.foldl (fun s p => (Lexicon.sourceToWordIds pipeline { s with count := p.1 } p.2).1)
          (Db.run (Lexicon.engine pipeline) Lexicon.new ts).latest ::
        (Db.run (Lexicon.engine pipeline) Lexicon.new ts).states := by
  have hrun : Db.run (Lexicon.engine pipeline) Lexicon.new (ts ++ [t]) =
      Db.commit (Lexicon.engine pipeline) (Db.run (Lexicon.engine pipeline) Lexicon.new ts) t := by simp [Db.run]
  rw [hrun]
  obtain ⟨h1, h2⟩ := Db.commit_alone (E := Lexicon.engine pipeline) (db := Db.run (Lexicon.engine pipeline) Lexicon.new ts) hb hr rfl
    (Lexicon.merge_alone _ _)
  show Db.latest _ :: Db.older _ = _
  rw [h1, h2]
  rfl

namespace Text

variable {D R : Type} [LinearOrder D] {A : Arith R} {Pos : R → Prop} {K : Kind D R}

/-- C80, for text indexes with a scoring that keeps no total document length: a transaction that no other committed transaction
overlapped, and none of whose calls raises, commits -/
theorem C80_text_alone_partial [DecidableEq R] (hA : Positive A Pos) (hK : Ranked A Pos K) (ht : K.hasTotal = false)
    (pipeline : List Element) (ts : List (Txn (Option (TOp D)))) (t : Txn (Option (TOp D)))
    (hc : ∀ t' ∈ ts ++ [t], ∀ d tx c, some (TOp.index d tx c) ∈ t'.ops → 0 ≤ c) (hb : t.back = 0) (hr : t.refused = false)
    (hf : (Housed.engine (HTI.engine K pipeline) HTI.clearing).fails
      (Db.run (Housed.engine (HTI.engine K pipeline) HTI.clearing) ⟨0, HTI.new⟩ ts).next
      (Db.run (Housed.engine (HTI.engine K pipeline) HTI.clearing) ⟨0, HTI.new⟩ ts).latest t.ops = false) :
    (Db.run (Housed.engine (HTI.engine K pipeline) HTI.clearing) ⟨0, HTI.new⟩ (ts ++ [t])).older =
        (Db.run (Housed.engine (HTI.engine K pipeline) HTI.clearing) ⟨0, HTI.new⟩ ts).states := by
  have ha := hK.arith
  subst ha
  have hL := hK.lawful hA
  refine ((HTI.clearSound (pipeline := pipeline) hL hK.counted ht).alone HTI.wf_new (fun _ => rfl)
    (fun a b h => ⟨b, HTI.merge_alone hL hK.counted a b h, rfl⟩) ?_ ts t ?_ hb hr hf).1
  · intro a b
    refine ⟨b, ?_, rfl⟩
    show ((Lexicon.merge a.lex a.lex b.lex).map fun lex =>
      ({ lex := lex, ix := { b.ix with total := mergeLength a.ix.total a.ix.total b.ix.total } } : HTI D R)) = some b
    rw [Lexicon.merge_alone, mergeLength_same]; rfl
  · intro t' htm c hcm op hop
    cases hop
    cases op with
    | index d tx c => exact ⟨hc t' htm d tx c hcm, fun h => by rw [ht] at h; cases h⟩
    | unindex d => trivial

/-- the fourth of the transactions in the example of `C80_text_partial`: none of its calls raises -/
example : (Housed.engine (HTI.engine (cosine exPosArith) []) HTI.clearing).fails 9
    (⟨0, HTI.new⟩ : Housed (HTI Nat Int)) [some (.index 4 (.list [['e', 'e', 'l']]) 3), none, some (.unindex 4)] = false := by decide +kernel

end Text
end Verif
