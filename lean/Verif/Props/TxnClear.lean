import Verif.Proofs.TxnClear
import Verif.Props.Txn
import Verif.Props.TxnText

/-!
# C80: `clear()` in concurrent transactions
-/

set_option autoImplicit false

namespace Verif

open Spec Spec.Txn

section field
variable {D V : Type} [LinearOrder D] [LinearOrder V]

/-- C80: transactions index and unindex documents of a field index and clear it.  However they overlap, the committed assignments
follow `ClearHistory`, and every committed state is exactly the state of an index used by one thread to which these documents were
given -/
theorem C80_field (ts : List (Txn (Field.Op D V))) :
    ∃ ms, ClearHistory Spec.Field.update (· = .clear) (fun _ => none) ts ms ∧
      List.Forall₂ (fun (s : Housed (HField D V)) m => ∃ ops, Spec.Field.current ops = m.1 ∧ s.inner.view = Field.run ops)
        (Db.run (Housed.engine HField.engine HField.clearing) ⟨0, HField.new⟩ ts).states ms := by
  obtain ⟨ms, h1, h2, h3, -⟩ := HField.clearSound.history (HField.wf_new (D := D) (V := V)) (fun _ => rfl) ts
    (fun t ht c hc op hop => by rintro rfl; cases c <;> cases hop)
  have hcl : (fun c : Field.Op D V => HField.clearing.keeps c = none) = (· = .clear) := by
    funext c
    cases c <;> simp [HField.clearing]
  rw [hcl] at h1
  refine ⟨ms, h1, ?_⟩
  rw [List.forall₂_iff_get] at h2 ⊢
  refine ⟨h2.1, fun i hi hj => ?_⟩
  rw [← h2.2 i hi hj]
  exact HField.Wf.rebuilt (h3 _ (List.get_mem _ _)).1

/-- the third transaction clears the index while the second one commits; the fourth began before that, and leaves nothing; the fifth
began before that too, clears the index again, and is aborted; then the index is used as before -/
def exClearTxns : List (Txn (Field.Op Nat Nat)) :=
  [⟨0, [.index 1 10, .index 2 20], false⟩,
   ⟨0, [.index 3 30], false⟩,
   ⟨1, [.index 4 40, .clear, .index 5 50], false⟩,
   ⟨2, [.unindex 1, .index 6 60], false⟩,
   ⟨3, [.clear], false⟩,
   ⟨0, [.index 7 50], false⟩,
   ⟨1, [.index 8 80], false⟩]

example : (Db.run (Housed.engine HField.engine HField.clearing) ⟨0, HField.new⟩ exClearTxns).states.map (fun s => s.inner.rev.items) =
    [[(5, 50), (7, 50), (8, 80)], [(5, 50), (7, 50)], [(5, 50)], [(5, 50)], [(1, 10), (2, 20), (3, 30)], [(1, 10), (2, 20)], []] := by
  decide +kernel

end field

section keyword
variable {D W : Type} [LinearOrder D] [LinearOrder W]

/-- C80, for keyword indexes: the same, as long as no keyword is ever given to 64 documents (see `C70_keyword_fails`) -/
theorem C80_keyword_partial (normalize : List W → List W) (ts : List (Txn (Keyword.Op D W)))
    (hu : ∀ t ∈ ts, ∀ op ∈ t.ops, IsUpdate op ∨ op = .clear) (hp : ∀ t ∈ ts, Spec.Keyword.Plain normalize t.ops)
    (hf : FewerThan 64 normalize ts) :
    ∃ ms, ClearHistory (kwUpdateC normalize) (· = .clear) (fun _ _ => False) ts ms ∧
      List.Forall₂ (fun (s : Housed (HKeyword D W)) m => ∃ ops, Spec.Keyword.Plain id ops ∧
          (∀ d w, w ∈ Spec.Keyword.current id ops d ↔ m.1 d w) ∧
          (∀ q op, s.inner.view.search normalize q op = (Keyword.run id ops).search normalize q op) ∧
          s.inner.view.documentCount = (Keyword.run id ops).documentCount ∧
          s.inner.view.wordCount = (Keyword.run id ops).wordCount ∧
          ∀ d, s.inner.view.hasDoc d = (Keyword.run id ops).hasDoc d)
        (Db.run (Housed.engine (HKeyword.engine normalize) HKeyword.clearing) ⟨0, HKeyword.new⟩ ts).states ms := by
  have hok : ∀ t ∈ ts, ∀ c ∈ t.ops, ∀ op, HKeyword.clearing.keeps c = some op → HKeyword.OkOp normalize (Given normalize ts) op := by
    intro t ht c hc op hop
    have hco : c = op ∧ c ≠ .clear := by cases c <;> cases hop <;> exact ⟨rfl, by simp⟩
    obtain ⟨rfl, hne⟩ := hco
    refine ⟨(hu t ht c hc).resolve_right hne, ?_⟩
    rintro d items rfl
    exact ⟨hp t ht d items hc, fun w hw => ⟨t, ht, items, hc, hw⟩⟩
  obtain ⟨ms, h1, h2, h3, -⟩ := (HKeyword.clearSound normalize (Given normalize ts) hf).history HKeyword.wfTxn_new (by
    intro d
    funext w
    show (∃ ks, (SMap.empty : SMap D (SSet W)).get? d = some ks ∧ _) = _
    simp) ts hok
  have hcl : (fun c : Keyword.Op D W => HKeyword.clearing.keeps c = none) = (· = .clear) := by
    funext c
    cases c <;> simp [HKeyword.clearing]
  rw [hcl] at h1
  refine ⟨ms, h1, ?_⟩
  rw [List.forall₂_iff_get] at h2 ⊢
  refine ⟨h2.1, fun i hi hj => ?_⟩
  rw [← h2.2 i hi hj]
  exact HKeyword.Wf.rebuilt (h3 _ (List.get_mem _ _)).1 normalize

example : (Db.run (Housed.engine (HKeyword.engine id) HKeyword.clearing) ⟨0, HKeyword.new⟩
    ([⟨0, [.index 1 (.seq true [7, 8])], false⟩, ⟨0, [.clear, .index 2 (.seq true [7])], false⟩, ⟨1, [.index 3 (.seq true [7])], false⟩,
      ⟨0, [.index 4 (.seq true [7])], false⟩] : List (Txn (Keyword.Op Nat Nat)))).states.map
      (fun s => s.inner.rev.items.map (fun p => (p.1, p.2.keys))) =
    [[(2, [7]), (4, [7])], [(2, [7])], [(2, [7])], [(1, [7, 8])], []] := by decide +kernel

end keyword

namespace Text

variable {D R : Type} [LinearOrder D] {A : Arith R} {Pos : R → Prop} {K : Kind D R}

/-- C80, for text indexes with a scoring that keeps no total document length, such as `CosineIndex`: the lexicon is not cleared, and
keeps what all transactions added to it.  (`OkapiIndex` keeps its total document length when it is cleared: see
`C55_okapi_fails`.) -/
theorem C80_text_partial [DecidableEq R] (hA : Positive A Pos) (hK : Ranked A Pos K) (ht : K.hasTotal = false)
    (pipeline : List Element) (ts : List (Txn (Option (TOp D))))
    (hc : ∀ t ∈ ts, ∀ d tx c, some (TOp.index d tx c) ∈ t.ops → 0 ≤ c) :
    ∃ ms, ClearHistory (textUpdateC pipeline) (· = none) (fun _ => none) ts ms ∧
      List.Forall₂ (fun (s : Housed (HTI D R)) m => ∃ (ops : List (Text.Op D)) (s1 : TI D R), docWords pipeline ops = m.1 ∧
          SmallLexicon pipeline ops ∧ NoClear ops ∧ run K pipeline ops = .ok s1 ∧ SameAnswers K pipeline s.inner.view s1)
        (Db.run (Housed.engine (HTI.engine K pipeline) HTI.clearing) ⟨0, HTI.new⟩ ts).states ms := by
  have ha := hK.arith
  subst ha
  have hL := hK.lawful hA
  obtain ⟨ms, h1, h2, h3, -⟩ := (HTI.clearSound (pipeline := pipeline) hL hK.counted ht).history HTI.wf_new (fun _ => rfl) ts (by
    intro t htm c hcm op hop
    cases hop
    cases op with
    | index d tx c => exact ⟨hc t htm d tx c hcm, fun h => by rw [ht] at h; cases h⟩
    | unindex d => trivial)
  refine ⟨ms, h1, ?_⟩
  rw [List.forall₂_iff_get] at h2 ⊢
  refine ⟨h2.1, fun i hi hj => ?_⟩
  rw [← h2.2 i hi hj]
  obtain ⟨ops, s1, a1, a2, a3, a4, a5, a6⟩ := (h3 _ (List.get_mem _ _)).1.rebuilt hL hK.counted
  exact ⟨ops, s1, a1, a2, a3, a5, a6.answers hK.reads pipeline⟩

example : (cosine exPosArith : Kind Nat Int).hasTotal = false := rfl

/-- the second transaction clears the index; the third began before that: its word stays in the lexicon, its document does not -/
example : (Db.run (Housed.engine (HTI.engine (cosine exPosArith) []) HTI.clearing) ⟨0, HTI.new⟩
    ([⟨0, [some (.index 1 (.list [['d', 'o', 'g']]) 0)], false⟩, ⟨0, [none, some (.index 2 (.list [['c', 'a', 't']]) 1)], false⟩,
      ⟨1, [some (.index 3 (.list [['e', 'e', 'l']]) 2)], false⟩, ⟨0, [some (.index 4 (.list [['e', 'e', 'l']]) 3)], false⟩] :
      List (Txn (Option (TOp Nat))))).states.map (fun s => (s.inner.ix.docwords.items, s.inner.lex.wids.items.map (·.2))) =
    [([(2, [130]), (4, [131])], [2, 1, 3]), ([(2, [130])], [2, 1, 3]), ([(2, [130])], [2, 1]), ([(1, [129])], [1]), ([], [])] := by
  decide +kernel

end Text
end Verif
