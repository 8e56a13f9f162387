import Verif.Proofs.TxnTopic
import Verif.Props.Topic

/-! # C78: concurrent transactions on a topic index -/

set_option autoImplicit false

namespace Verif

open Spec.Topic Spec.Txn

variable {F D E X : Type} [LinearOrder F] [LinearOrder D] [DecidableEq E]

/-- C78, one filter and one document at a time: filters are registered (`setup`, any calls), then any number of transactions, each
working on the state that was the latest when it began, index and unindex documents and commit.  However they overlap: when a commit is
accepted, no filter's having a document was changed both by it and by others since it began, and every change is kept.
Missing: the same for all filters of a document together, which is false (`C78_fails`). -/
theorem C78_filters_partial (eval : E → D → X → Except Unit Bool) (setup : List (Topic.Op F D E X)) (hp : AllPython setup)
    (ts : List (Txn (Topic.Op F D E X))) (hd : ∀ t ∈ ts, ∀ op ∈ t.ops, ∃ d, DocCall op d) :
    ∃ ms, History (topicUpdate eval (exprAt setup)) (fun p => Held eval setup p.1 p.2) ts ms ∧
      List.Forall₂ (fun (s : HTopic F D E) m => ∀ i d, d ∈ contents s.view i ↔ m (i, d))
        (Db.run (HTopic.engine eval) (HTopic.run eval setup) ts).states ms := by
  obtain ⟨h1, h2⟩ := HTopic.shape_run eval setup hp
  obtain ⟨h3, -, -⟩ := (HTopic.sound eval (exprAt setup) (HTopic.run eval setup)).history (s₀ := HTopic.run eval setup) ⟨h1, rfl⟩ ts hd
  have he : (HTopic.sound eval (exprAt setup) (HTopic.run eval setup)).abs (HTopic.run eval setup) = fun p => Held eval setup p.1 p.2 := by
    funext ⟨i, d⟩
    exact propext (h2 i d)
  rw [he] at h3
  refine ⟨_, h3, ?_⟩
  rw [List.forall₂_map_right_iff, List.forall₂_same]
  intro s _ i d
  exact Iff.rfl

/-- C78, whole transactions: if the documents a transaction names are in the same filters in its snapshot and in the latest committed
state, and the transaction commits, then the result is what the transaction would have made of the latest committed state: it is as if
the transactions had been run one after the other.  Missing: transactions that name the same documents (`C78_fails`). -/
theorem C78_serial_partial (eval : E → D → X → Except Unit Bool) (setup : List (Topic.Op F D E X)) (hp : AllPython setup)
    (ts : List (Txn (Topic.Op F D E X))) (t : Txn (Topic.Op F D E X)) (hd : ∀ t' ∈ ts ++ [t], ∀ op ∈ t'.ops, ∃ d, DocCall op d)
    (db db' : Db (HTopic F D E)) (hdb : db = Db.run (HTopic.engine eval) (HTopic.run eval setup) ts)
    (hdb' : db' = Db.run (HTopic.engine eval) (HTopic.run eval setup) (ts ++ [t])) (base : HTopic F D E)
    (hb : db.states[t.back]? = some base)
    (hsame : ∀ op ∈ t.ops, ∀ d, DocCall op d → ∀ i, d ∈ contents base.view i ↔ d ∈ contents db.latest.view i)
    (hcommit : db'.older = db.states) :
    ∀ i d, d ∈ contents db'.latest.view i ↔ d ∈ contents (HTopic.runFrom eval db.latest t.ops).view i := by
  obtain ⟨h1, -⟩ := HTopic.shape_run eval setup hp
  obtain ⟨-, h4, -⟩ := (HTopic.sound eval (exprAt setup) (HTopic.run eval setup)).history (s₀ := HTopic.run eval setup) ⟨h1, rfl⟩ ts
    (fun t' ht => hd t' (by simp [ht]))
  have hrun : db' = Db.commit (HTopic.engine eval) db t := by rw [hdb', hdb]; simp [Db.run]
  rw [← hdb] at h4
  have hops := hd t (by simp)
  obtain ⟨w1, w2⟩ := h4 base (List.mem_of_getElem? hb)
  obtain ⟨l1, l2⟩ := h4 db.latest (by simp [Db.states])
  obtain ⟨b1, b2, b3, b4⟩ := HTopic.runFrom_holds eval w1 hops
  obtain ⟨-, -, -, c4⟩ := HTopic.runFrom_holds eval l1 hops
  rw [hrun] at hcommit ⊢
  unfold Db.commit at hcommit ⊢
  rw [hb] at hcommit ⊢
  dsimp only at hcommit ⊢
  cases hm : (if (t.refused || (HTopic.engine eval).fails db.next base t.ops) = true then none
      else (HTopic.engine eval).merge base db.latest ((HTopic.engine eval).run db.next base t.ops).1) with
  | none =>
    rw [hm] at hcommit
    have := congrArg List.length hcommit
    simp [Db.states] at this
  | some r =>
    dsimp only
    have hm' : HTopic.merge base db.latest (HTopic.runFrom eval base t.ops) = some r := by
      split at hm
      · cases hm
      · exact hm
    obtain ⟨-, -, r3⟩ := HTopic.merge_holds w1 b1 (l2.trans w2.symm) b2 hm'
    intro i d
    show r.holds (i, d) ↔ (HTopic.runFrom eval db.latest t.ops).holds (i, d)
    rw [c4]
    have r3 := r3 (i, d)
    rw [b4] at r3
    by_cases hn : ∃ op ∈ t.ops, DocCall op d
    · obtain ⟨op, hop, hcall⟩ := hn
      have hs : base.holds (i, d) ↔ db.latest.holds (i, d) := hsame op hop d hcall i
      have hl := topicUpdate_local eval (exprAt setup) t.ops hs
      rcases r3 with ⟨-, x2⟩ | ⟨x1, x2⟩
      · rw [x2]; exact hl
      · rw [x2, ← hl, ← x1]; exact hs.symm
    · have ho : ∀ m, t.ops.foldl (topicUpdate eval (exprAt setup)) m (i, d) ↔ m (i, d) := by
        intro m
        apply topicUpdate_other
        intro op hop
        obtain ⟨x, hx⟩ := hops op hop
        exact ⟨x, hx, fun e => hn ⟨op, hop, e ▸ hx⟩⟩
      rw [ho]
      rw [ho] at r3
      rcases r3 with ⟨x1, x2⟩ | ⟨-, x2⟩
      · rw [x2, x1]
      · rw [x2]

/-- C78: a transaction that no other committed transaction overlapped is not aborted by conflict resolution, and the result is what it
made of the latest state -/
theorem C78_alone (eval : E → D → X → Except Unit Bool) (setup : List (Topic.Op F D E X)) (hp : AllPython setup)
    (ts : List (Txn (Topic.Op F D E X))) (t : Txn (Topic.Op F D E X)) (hd : ∀ t' ∈ ts ++ [t], ∀ op ∈ t'.ops, ∃ d, DocCall op d)
    (hb : t.back = 0) (hr : t.refused = false) (db db' : Db (HTopic F D E))
    (hdb : db = Db.run (HTopic.engine eval) (HTopic.run eval setup) ts)
    (hdb' : db' = Db.run (HTopic.engine eval) (HTopic.run eval setup) (ts ++ [t])) :
    db'.older = db.states ∧ ∀ i d, d ∈ contents db'.latest.view i ↔ d ∈ contents (HTopic.runFrom eval db.latest t.ops).view i := by
  have hs : db.states[t.back]? = some db.latest := by rw [hb]; rfl
  have hc : db'.older = db.states := by
    obtain ⟨h1, -⟩ := HTopic.shape_run eval setup hp
    obtain ⟨-, h4, -⟩ := (HTopic.sound eval (exprAt setup) (HTopic.run eval setup)).history (s₀ := HTopic.run eval setup) ⟨h1, rfl⟩ ts
      (fun t' ht => hd t' (by simp [ht]))
    have hrun : db' = Db.commit (HTopic.engine eval) db t := by rw [hdb', hdb]; simp [Db.run]
    rw [← hdb] at h4
    have hops := hd t (by simp)
    obtain ⟨l1, -⟩ := h4 db.latest (by simp [Db.states])
    obtain ⟨-, -, b3, -⟩ := HTopic.runFrom_holds eval l1 hops
    obtain ⟨r, hm⟩ := HTopic.merge_same eval db.latest t.ops hops
    have b3 : (HTopic.engine eval).fails db.next db.latest t.ops = false := b3
    have hm : (HTopic.engine eval).merge db.latest db.latest ((HTopic.engine eval).run db.next db.latest t.ops).1 = some r := hm
    rw [hrun]
    unfold Db.commit
    rw [hs]
    dsimp only
    rw [hr, b3, if_neg (by simp), hm]
  exact ⟨hc, C78_serial_partial eval setup hp ts t hd db db' hdb hdb' db.latest hs (fun _ _ _ _ _ => Iff.rfl) hc⟩

/-- C78, whatever filters there are: a transaction one of whose calls raises an exception leaves the database as it was -/
theorem C78_abort (eval : E → D → X → Except Unit Bool) (s : HTopic F D E) (ts : List (Txn (Topic.Op F D E X)))
    (t : Txn (Topic.Op F D E X)) (base : HTopic F D E) (hb : (Db.run (HTopic.engine eval) s ts).states[t.back]? = some base)
    (before : List (Topic.Op F D E X)) (op : Topic.Op F D E X) (after : List (Topic.Op F D E X)) (ht : t.ops = before ++ op :: after)
    (hr : (HTopic.step eval (HTopic.runFrom eval base before) op).2 ≠ none) :
    Db.run (HTopic.engine eval) s (ts ++ [t]) = Db.run (HTopic.engine eval) s ts := by
  have key : ∀ (base : HTopic F D E), (HTopic.step eval (HTopic.runFrom eval base before) op).2 ≠ none →
      HTopic.raises eval base (before ++ op :: after) = true := by
    clear ht hr
    induction before with
    | nil =>
      intro base h
      rw [List.nil_append, HTopic.raises]
      have h : (HTopic.step eval base op).2 ≠ none := h
      rw [Option.isSome_iff_ne_none.2 h, Bool.true_or]
    | cons op' before ih =>
      intro base h
      rw [List.cons_append, HTopic.raises, ih (HTopic.step eval base op').1 h, Bool.or_true]
  have hsplit : Db.run (HTopic.engine eval) s (ts ++ [t]) = (Db.run (HTopic.engine eval) s ts).commit (HTopic.engine eval) t := by
    unfold Db.run
    rw [List.foldl_append, List.foldl_cons, List.foldl_nil]
  rw [hsplit]
  unfold Db.commit
  rw [hb]
  have : (HTopic.engine eval).fails (Db.run (HTopic.engine eval) s ts).next base t.ops = true := by
    show HTopic.raises eval base t.ops = true
    rw [ht]
    exact key base hr
  simp only [this, Bool.or_true, if_true]
  rfl

/-- two filters (multiples of 2, multiples of 3) and documents 1 (number 2), 2 (number 6), 3 (number 3) -/
def exTopicSetup : List (Topic.Op Nat Nat Nat Nat) :=
  [.addFilter 5 (Filter.new .python 2), .addFilter 6 (Filter.new .python 3), .index 1 2, .index 2 6, .index 3 3]

/-- two transactions that overlap, both naming document 1 -/
def exTopicSkew : List (Txn (Topic.Op Nat Nat Nat Nat)) := [⟨0, [.index 1 6], false⟩, ⟨1, [.unindex 1], false⟩]

/-- C78 for whole documents is false of the code: document 1 is in filter 5 only.  One transaction indexes it with a number that is
in both filters, and adds it to filter 6; an overlapping one unindexes it, and removes it from filter 5.  Both commit, and document 1
is in filter 6 and not in filter 5: no order of the two gives that, and no object it was ever indexed with. -/
theorem C78_fails :
    let start := HTopic.run exEval exTopicSetup
    let after := Db.run (HTopic.engine exEval) start exTopicSkew
    let places (s : HTopic Nat Nat Nat) := (contents s.view 5, contents s.view 6)
    AllPython exTopicSetup ∧ (∀ t ∈ exTopicSkew, ∀ op ∈ t.ops, ∃ d, DocCall op d) ∧
    after.older.length = 2 ∧
    places start = ([1, 2], [2, 3]) ∧
    places after.latest = ([2], [1, 2, 3]) ∧
    places (HTopic.runFrom exEval start [.index 1 6, .unindex 1]) = ([2], [2, 3]) ∧
    places (HTopic.runFrom exEval start [.unindex 1, .index 1 6]) = ([1, 2], [1, 2, 3]) := by
  refine ⟨?_, ?_, ?_⟩
  · intro i f hf
    simp only [exTopicSetup, List.mem_cons, List.not_mem_nil, or_false, reduceCtorEq, Topic.Op.addFilter.injEq] at hf
    rcases hf with ⟨-, rfl⟩ | ⟨-, rfl⟩ <;> rfl
  · intro t ht op hop
    simp only [exTopicSkew, List.mem_cons, List.not_mem_nil, or_false] at ht
    rcases ht with rfl | rfl <;> rw [List.mem_singleton] at hop <;> subst hop
    · exact ⟨1, .index _ _⟩
    · exact ⟨1, .unindex _⟩
  · decide +kernel

/-- transactions that meet the hypotheses: the second and the third overlap, and name different documents; the fourth overlaps both,
and is refused, because it would add document 1 to filter 6, which the second has done -/
def exTopicTxns : List (Txn (Topic.Op Nat Nat Nat Nat)) :=
  [⟨0, [.index 4 12], false⟩, ⟨0, [.index 1 6], false⟩, ⟨1, [.unindex 2, .index 5 10], false⟩, ⟨2, [.index 1 9], false⟩]

example : AllPython exTopicSetup := C78_fails.1

example : ∀ t ∈ exTopicTxns, ∀ op ∈ t.ops, ∃ d, DocCall op d := by
  intro t ht op hop
  simp only [exTopicTxns, List.mem_cons, List.not_mem_nil, or_false] at ht
  rcases ht with rfl | rfl | rfl | rfl <;> simp only [List.mem_cons, List.not_mem_nil, or_false] at hop
  · subst hop; exact ⟨4, .index _ _⟩
  · subst hop; exact ⟨1, .index _ _⟩
  · rcases hop with rfl | rfl
    · exact ⟨2, .unindex _⟩
    · exact ⟨5, .index _ _⟩
  · subst hop; exact ⟨1, .index _ _⟩

example : (Db.run (HTopic.engine exEval) (HTopic.run exEval exTopicSetup) exTopicTxns).states.map
      (fun s => (contents s.view 5, contents s.view 6)) =
    [([1, 4, 5], [1, 3, 4]), ([1, 2, 4], [1, 2, 3, 4]), ([1, 2, 4], [2, 3, 4]), ([1, 2], [2, 3])] := by decide +kernel

/-- the third transaction: its documents are in the same filters in its snapshot and in the latest state, though these differ -/
example :
    let db := Db.run (HTopic.engine exEval) (HTopic.run exEval exTopicSetup) (exTopicTxns.take 2)
    ∃ base, db.states[1]? = some base ∧ contents base.view 6 ≠ contents db.latest.view 6 ∧
      (∀ d ∈ [2, 5], ∀ i ∈ [5, 6], d ∈ contents base.view i ↔ d ∈ contents db.latest.view i) ∧
      db.latest.filters.keys = [5, 6] :=
  ⟨_, rfl, by decide +kernel, by decide +kernel, by decide +kernel⟩

/-- a filter of the abstract class: indexing a document raises `NotImplementedError`, and the transaction, which unindexed another
document before, is aborted -/
example :
    let s := HTopic.run exEval (exTopicSetup ++ [.addFilter 9 (Filter.new .base 2)])
    (HTopic.step exEval (HTopic.runFrom exEval s [.unindex 3]) (.index 4 6)).2 ≠ none ∧
    (Db.run (HTopic.engine exEval) s [⟨0, [.unindex 3, .index 4 6, .unindex 2], false⟩]).states.map (fun s => contents s.view 6) = [[2, 3]] := by
  decide +kernel

end Verif
