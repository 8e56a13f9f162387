import Verif.Proofs.TxnField
import Verif.Proofs.TxnKeyword
import Verif.Proofs.TxnLexicon
import Verif.Props.Field
import Verif.Props.Keyword
import Verif.Props.Lexicon

/-! # C70: concurrent transactions -/

set_option autoImplicit false

namespace Verif

open Spec Spec.Txn

/-! ## The field index -/

section field
variable {D V : Type} [LinearOrder D] [LinearOrder V]

/-- a committed state is, addresses apart, the state of an index used by one thread -/
theorem HField.Wf.rebuilt {n : Nat} {s : HField D V} (hw : HField.Wf n s) :
    ∃ ops, Spec.Field.current ops = s.rev.get? ∧ s.view = Field.run ops := by
  have hi := HField.inv_view hw
  let ops : List (Field.Op D V) := s.rev.items.map (fun p => .index p.1 p.2)
  have hcur : ∀ (l : List (D × V)) (m : D → Option V) (d : D), (l.map Prod.fst).Nodup →
      (l.map (fun p => Field.Op.index p.1 p.2)).foldl Spec.Field.update m d =
        match l.find? (fun p => decide (p.1 = d)) with | some p => some p.2 | none => m d := by
    intro l
    induction l with
    | nil => intro m d _; rfl
    | cons p l ih =>
      intro m d hn
      rw [List.map_cons, List.nodup_cons] at hn
      rw [List.map_cons, List.foldl_cons, ih _ _ hn.2, List.find?_cons]
      by_cases hp : p.1 = d
      · have : l.find? (fun p => decide (p.1 = d)) = none := by
          rw [List.find?_eq_none]
          intro q hq he
          apply hn.1
          rw [hp, ← of_decide_eq_true he]
          exact List.mem_map_of_mem hq
        rw [this]
        simp [Spec.Field.update, hp]
      · have hpd : ¬ d = p.1 := fun e => hp e.symm
        cases l.find? (fun p => decide (p.1 = d)) <;> simp [Spec.Field.update, hp, hpd]
  have hops : Spec.Field.current ops = s.rev.get? := by
    funext d
    have := hcur s.rev.items (fun _ => none) d (SMap.keys_nodup s.rev)
    unfold Spec.Field.current
    rw [this]
    show _ = (s.rev.items.find? _).map _
    cases s.rev.items.find? (fun p => decide (p.1 = d)) <;> rfl
  refine ⟨ops, hops, ?_⟩
  obtain ⟨hi', hr'⟩ := Field.run_spec ops
  exact Field.eq_of_rev hi hi' (fun d => by rw [hr', hops]; rfl)

/-- C70: any number of transactions, each working on the state that was the latest when it began, index and unindex documents of a
field index and commit.  However they overlap, the committed assignments follow `History`, and every committed state is exactly the
state of an index used by one thread to which these documents were given -/
theorem C70_field (ts : List (Txn (Field.Op D V))) (hc : ∀ t ∈ ts, Field.Op.clear ∉ t.ops) :
    ∃ ms, History Spec.Field.update (fun _ => none) ts ms ∧
      List.Forall₂ (fun (s : HField D V) m => ∃ ops, Spec.Field.current ops = m ∧ s.view = Field.run ops)
        (Db.run HField.engine HField.new ts).states ms := by
  obtain ⟨h1, h2, -⟩ := HField.sound.history (HField.wf_new (D := D) (V := V)) ts
    (fun t ht op hop he => hc t ht (he ▸ hop))
  refine ⟨_, h1, ?_⟩
  rw [List.forall₂_map_right_iff, List.forall₂_same]
  intro s hs
  exact HField.Wf.rebuilt (h2 s hs)

/-- C70: so the answers of every committed state are right: a range query finds the documents whose value is in the range, and
the documents are counted -/
theorem C70_field_answers (ts : List (Txn (Field.Op D V))) (hc : ∀ t ∈ ts, Field.Op.clear ∉ t.ops) :
    ∃ ms, History Spec.Field.update (fun _ => none) ts ms ∧
      List.Forall₂ (fun (s : HField D V) m =>
          (∀ lo hi, ∃ r, s.view.apply (.tuple [lo, hi]) = .ok r ∧
            ∀ d, d ∈ r.toList ↔ ∃ v, m d = some v ∧ Spec.Field.InRange lo hi v) ∧
          ∃ n : Nat, s.view.documentCount = n ∧ CountIs (fun d => (m d).isSome) n)
        (Db.run HField.engine HField.new ts).states ms := by
  obtain ⟨ms, h1, h2⟩ := C70_field ts hc
  refine ⟨ms, h1, h2.imp ?_⟩
  rintro s m ⟨ops, rfl, h⟩
  rw [h]
  exact ⟨fun lo hi => C01_range_query ops lo hi, C02_document_count ops⟩

/-- C70: a transaction that no other committed transaction overlapped is not aborted by conflict resolution: the latest state is then
the one it made -/
theorem C70_field_alone (ts : List (Txn (Field.Op D V))) (t : Txn (Field.Op D V))
    (hc : ∀ t' ∈ ts ++ [t], Field.Op.clear ∉ t'.ops) (hb : t.back = 0) (hr : t.refused = false) :
    (Db.run HField.engine HField.new (ts ++ [t])).states =
      HField.exec (Db.run HField.engine HField.new ts).next (Db.run HField.engine HField.new ts).latest t.ops ::
        (Db.run HField.engine HField.new ts).states := by
  obtain ⟨-, h2, -⟩ := HField.sound.history (HField.wf_new (D := D) (V := V)) ts
    (fun t ht op hop he => hc t (by simp [ht]) (he ▸ hop))
  have hrun : Db.run HField.engine HField.new (ts ++ [t]) =
      Db.commit HField.engine (Db.run HField.engine (HField.new : HField D V) ts) t := by simp [Db.run]
  rw [hrun]
  generalize Db.run HField.engine (HField.new : HField D V) ts = db at h2
  have hw := h2 db.latest (by simp [Db.states])
  obtain ⟨-, he⟩ := HField.sound.exec db.next db.latest t.ops hw (fun op hop he => hc t (by simp) (he ▸ hop))
  obtain ⟨-, he, -⟩ := he rfl
  have hgrow : ∀ a s, db.latest.heap.get? a = some s → ∃ t', (HField.exec db.next db.latest t.ops).heap.get? a = some t' :=
    fun a s hs => he.has a ⟨s, hs⟩
  have hm : HField.merge db.latest db.latest (HField.exec db.next db.latest t.ops) =
      some (HField.exec db.next db.latest t.ops) := by
    unfold HField.merge
    rw [mergeHeap_same mergeTree_same hgrow, mergeTree_same, mergeTree_same]
    have : mergeLength db.latest.numDocs db.latest.numDocs (HField.exec db.next db.latest t.ops).numDocs =
        (HField.exec db.next db.latest t.ops).numDocs := by unfold mergeLength; omega
    rw [this]; rfl
  unfold Db.commit
  have hs : db.states[t.back]? = some db.latest := by rw [hb]; rfl
  rw [hs, hr]
  dsimp only
  rw [show (HField.engine : Engine (HField D V) _).fails db.next db.latest t.ops = false from rfl]
  simp only [Bool.or_self, Bool.false_eq_true, if_false]
  rw [show (HField.engine : Engine (HField D V) _).merge db.latest db.latest
    ((HField.engine : Engine (HField D V) _).run db.next db.latest t.ops).1 = _ from hm]
  rfl

end field

/-- two overlapping transactions after a first one: document 3 is moved while document 1 is removed and document 4 is added -/
def exFieldTxns : List (Txn (Field.Op Nat Nat)) :=
  [⟨0, [.index 1 10, .index 2 10, .index 3 20], false⟩,
   ⟨0, [.index 3 10], false⟩,                      -- begins after the first commit
   ⟨1, [.unindex 1, .index 4 30], false⟩,          -- so does this one
   ⟨2, [.index 3 40], false⟩]                      -- and this one, which is aborted: document 3 was changed twice

example : ∀ t ∈ exFieldTxns, Field.Op.clear ∉ t.ops := by
  intro t ht
  simp only [exFieldTxns, List.mem_cons, List.not_mem_nil, or_false] at ht
  rcases ht with rfl | rfl | rfl | rfl <;> simp
example : ((Db.run HField.engine HField.new exFieldTxns).states.map (fun s => s.rev.items)) =
    [[(2, 10), (3, 10), (4, 30)], [(1, 10), (2, 10), (3, 10)], [(1, 10), (2, 10), (3, 20)], []] := by decide +kernel
example : ((Db.run HField.engine HField.new exFieldTxns).latest.view.apply (.tuple [some 10, some 20])).toOption.map (·.toList) =
    some [2, 3] := by decide +kernel

/-- a conflict the containers detect: document 1 is the last one with value 10, one transaction removes it, the other adds
document 2 to the same set -/
example : ((Db.run HField.engine HField.new
    ([⟨0, [.index 1 10], false⟩, ⟨0, [.unindex 1], false⟩, ⟨1, [.index 2 10], false⟩] : List (Txn (Field.Op Nat Nat)))).states.map
      (fun s => s.rev.items)) = [[], [(1, 10)], []] := by decide +kernel

/-! ## The keyword index -/

section keyword
variable {D W : Type} [LinearOrder D] [LinearOrder W]

/-- a committed state answers like an index used by one thread -/
theorem HKeyword.Wf.rebuilt {P : W → D → Prop} {n : Nat} {s : HKeyword D W} (hw : HKeyword.Wf P n s) (normalize : List W → List W) :
    ∃ ops, Spec.Keyword.Plain id ops ∧
      (∀ d w, w ∈ Spec.Keyword.current id ops d ↔ s.kws d w) ∧
      (∀ q op, s.view.search normalize q op = (Keyword.run id ops).search normalize q op) ∧
      s.view.documentCount = (Keyword.run id ops).documentCount ∧ s.view.wordCount = (Keyword.run id ops).wordCount ∧
      ∀ d, s.view.hasDoc d = (Keyword.run id ops).hasDoc d := by
  have hi := HKeyword.inv_view hw
  let ops : List (Keyword.Op D W) := s.rev.items.map (fun p => .index p.1 (.seq true p.2.keys))
  have hplain : Spec.Keyword.Plain id ops := by
    intro d items hmem
    obtain ⟨p, hp, he⟩ := List.mem_map.1 hmem
    injection he with e1 e2
    injection e2 with e2 e3
    subst e3
    obtain ⟨w, hw'⟩ := hw.ne p.1 p.2 ((SMap.get?_eq_some_iff _ _ _).2 hp)
    intro hnil
    have hnil : p.2.keys = [] := hnil
    rw [hnil] at hw'; cases hw'
  have hcur : ∀ (l : List (D × SSet W)) (m : D → List W) (d : D), (l.map Prod.fst).Nodup →
      (l.map (fun p => Keyword.Op.index p.1 (.seq true p.2.keys))).foldl (Spec.Keyword.update id) m d =
        match l.find? (fun p => decide (p.1 = d)) with | some p => p.2.keys | none => m d := by
    intro l
    induction l with
    | nil => intro m d _; rfl
    | cons p l ih =>
      intro m d hn
      rw [List.map_cons, List.nodup_cons] at hn
      rw [List.map_cons, List.foldl_cons, ih _ _ hn.2, List.find?_cons]
      by_cases hp : p.1 = d
      · have : l.find? (fun p => decide (p.1 = d)) = none := by
          rw [List.find?_eq_none]
          intro q hq he
          apply hn.1
          rw [hp, ← of_decide_eq_true he]
          exact List.mem_map_of_mem hq
        rw [this]
        simp [Spec.Keyword.update, hp]
      · have hpd : ¬ d = p.1 := fun e => hp e.symm
        cases l.find? (fun p => decide (p.1 = d)) <;> simp [Spec.Keyword.update, hp, hpd]
  have hops : ∀ d, Spec.Keyword.current id ops d = ((s.rev.get? d).map SMap.keys).getD [] := by
    intro d
    have := hcur s.rev.items (fun _ => []) d (SMap.keys_nodup s.rev)
    unfold Spec.Keyword.current
    rw [this]
    show _ = (((s.rev.items.find? _).map _).map _).getD []
    cases s.rev.items.find? (fun p => decide (p.1 = d)) <;> rfl
  have hsame := Keyword.same_of_inv hi (Keyword.run_inv id ops hplain) (fun d w => by rw [hops])
  refine ⟨ops, hplain, ?_, fun q op => Keyword.same_search hsame normalize q op, hsame.numDocs, Keyword.same_wordCount hsame, ?_⟩
  · intro d w
    rw [hops]
    show _ ↔ ∃ ks, s.rev.get? d = some ks ∧ w ∈ ks.keys
    cases s.rev.get? d with
    | none => simp
    | some ks => simp
  · intro d
    unfold Keyword.hasDoc
    rw [hsame.rev]

/-- C70, for keyword indexes: the same, as long as no keyword is ever given to 64 documents (`C70_keyword_fails` shows that this
cannot be dropped).  Every committed state answers all queries, and counts, like an index used by one thread to which these
keywords were given -/
theorem C70_keyword_partial (normalize : List W → List W) (ts : List (Txn (Keyword.Op D W)))
    (hu : ∀ t ∈ ts, ∀ op ∈ t.ops, IsUpdate op) (hp : ∀ t ∈ ts, Spec.Keyword.Plain normalize t.ops)
    (hf : FewerThan 64 normalize ts) :
    ∃ ms, History (kwUpdate normalize) (fun _ _ => False) ts ms ∧
      List.Forall₂ (fun (s : HKeyword D W) m => ∃ ops, Spec.Keyword.Plain id ops ∧
          (∀ d w, w ∈ Spec.Keyword.current id ops d ↔ m d w) ∧
          (∀ q op, s.view.search normalize q op = (Keyword.run id ops).search normalize q op) ∧
          s.view.documentCount = (Keyword.run id ops).documentCount ∧ s.view.wordCount = (Keyword.run id ops).wordCount ∧
          ∀ d, s.view.hasDoc d = (Keyword.run id ops).hasDoc d)
        (Db.run (HKeyword.engine normalize) HKeyword.new ts).states ms := by
  have hok : ∀ t ∈ ts, ∀ op ∈ t.ops, HKeyword.OkOp normalize (Given normalize ts) op := by
    intro t ht op hop
    refine ⟨hu t ht op hop, ?_⟩
    rintro d items rfl
    exact ⟨hp t ht d items hop, fun w hw => ⟨t, ht, items, hop, hw⟩⟩
  obtain ⟨h1, h2, -⟩ := (HKeyword.sound normalize (Given normalize ts) hf).history HKeyword.wfTxn_new ts hok
  have habs : (HKeyword.sound normalize (Given normalize ts) hf).abs (HKeyword.new : HKeyword D W) = fun _ _ => False := by
    funext d w
    show (∃ ks, (SMap.empty : SMap D (SSet W)).get? d = some ks ∧ _) = _
    simp
  rw [habs] at h1
  refine ⟨_, h1, ?_⟩
  rw [List.forall₂_map_right_iff, List.forall₂_same]
  intro s hs
  exact HKeyword.Wf.rebuilt (h2 s hs) normalize

end keyword

/-- three transactions: 63 documents get the keyword 7, then document 100 gets it too while document 0 is removed -/
def exKeywordTxns : List (Txn (Keyword.Op Nat Nat)) :=
  [⟨0, (List.range 63).map (fun d => .index d (.seq true [7])), false⟩,
   ⟨0, [.index 100 (.seq true [7])], false⟩,
   ⟨1, [.unindex 0], false⟩]

/-- C70 is false of keyword indexes in general: when a set of documents reaches 64 members it is replaced by another object
(keyword/index.py:149-152), and what a concurrent transaction did to the old object is lost.  Here both transactions commit,
document 0 is removed, and is still found -/
theorem C70_keyword_fails :
    (∀ t ∈ exKeywordTxns, ∀ op ∈ t.ops, IsUpdate op) ∧ (∀ t ∈ exKeywordTxns, Spec.Keyword.Plain id t.ops) ∧
    (Db.run (HKeyword.engine id) HKeyword.new exKeywordTxns).older.length = 3 ∧
    (Db.run (HKeyword.engine id) HKeyword.new exKeywordTxns).latest.view.hasDoc 0 = false ∧
    ((Db.run (HKeyword.engine id) HKeyword.new exKeywordTxns).latest.view.search id (.seq [7]) .and).toOption.map
      (fun r => r.toList.contains 0) = some true := by
  refine ⟨?_, ?_, by decide +kernel, by decide +kernel, by decide +kernel⟩
  · intro t ht op hop
    simp only [exKeywordTxns, List.mem_cons, List.not_mem_nil, or_false] at ht
    rcases ht with rfl | rfl | rfl
    · obtain ⟨d, -, rfl⟩ := List.mem_map.1 hop; trivial
    · rw [List.mem_singleton] at hop; subst hop; trivial
    · rw [List.mem_singleton] at hop; subst hop; trivial
  · intro t ht d items hop
    simp only [exKeywordTxns, List.mem_cons, List.not_mem_nil, or_false] at ht
    rcases ht with rfl | rfl | rfl
    · obtain ⟨x, -, he⟩ := List.mem_map.1 hop
      cases he; simp
    · rw [List.mem_singleton] at hop; cases hop; simp
    · rw [List.mem_singleton] at hop; cases hop

/-- the hypotheses of `C70_keyword_partial` met by overlapping transactions -/
def exKeywordSmall : List (Txn (Keyword.Op Nat Nat)) :=
  [⟨0, [.index 1 (.seq true [7, 8]), .index 2 (.seq true [7])], false⟩,
   ⟨0, [.index 3 (.seq true [7])], false⟩,
   ⟨1, [.index 1 (.seq true [9])], false⟩]

theorem exKeywordSmall_few : FewerThan 64 id exKeywordSmall := by
  intro w docs hn hd
  have : docs ⊆ [1, 2, 3] := by
    intro d hd'
    obtain ⟨t, ht, items, hop, -⟩ := hd d hd'
    simp only [exKeywordSmall, List.mem_cons, List.not_mem_nil, or_false] at ht
    rcases ht with rfl | rfl | rfl <;> simp only [List.mem_cons, List.not_mem_nil, or_false, Keyword.Op.index.injEq,
      Keyword.SeqArg.seq.injEq] at hop
    · rcases hop with ⟨rfl, -⟩ | ⟨rfl, -⟩ <;> simp
    · rcases hop with ⟨rfl, -⟩; simp
    · rcases hop with ⟨rfl, -⟩; simp
  have := (hn.subperm this).length_le
  simp at this
  omega
example : ((Db.run (HKeyword.engine id) HKeyword.new exKeywordSmall).states.map
    (fun s => s.rev.items.map (fun p => (p.1, p.2.keys)))) =
    [[(1, [9]), (2, [7]), (3, [7])], [(1, [7, 8]), (2, [7]), (3, [7])], [(1, [7, 8]), (2, [7])], []] := by decide +kernel
example : ((Db.run (HKeyword.engine id) HKeyword.new exKeywordSmall).latest.view.search id (.seq [7]) .and).toOption.map (·.toList) =
    some [2, 3] := by decide +kernel

/-! ## The lexicon -/

/-- C70: transactions pass texts to a lexicon, the counter being any number whenever it is loaded.  In every committed state word ids
and words correspond one to one, and every word keeps the id it has in all later states -/
theorem C70_lexicon (pipeline : List Element) (ts : List (Txn (Int × TextArg))) :
    (∀ s ∈ (Db.run (Lexicon.engine pipeline) Lexicon.new ts).states,
      ∀ w n, s.wids.get? w = some n ↔ s.words.get? n = some w) ∧
    (Db.run (Lexicon.engine pipeline) Lexicon.new ts).states.Pairwise
      (fun newer older => ∀ w n, older.wids.get? w = some n → newer.wids.get? w = some n) := by
  obtain ⟨-, h2, h3⟩ := (Lexicon.sound pipeline).history Lexicon.inv_new ts (fun _ _ _ _ => trivial)
  exact ⟨h2, h3⟩

/-- C70: the word ids a transaction was given are valid after its commit: if the transaction commits, every word it saw has in the
committed lexicon the id it had in the transaction -/
theorem C70_lexicon_ids (pipeline : List Element) (ts : List (Txn (Int × TextArg))) (t : Txn (Int × TextArg)) (base : Lexicon)
    (hb : (Db.run (Lexicon.engine pipeline) Lexicon.new ts).states[t.back]? = some base)
    (hcommit : (Db.run (Lexicon.engine pipeline) Lexicon.new (ts ++ [t])).older =
      (Db.run (Lexicon.engine pipeline) Lexicon.new ts).states) :
    ∀ w n, (t.ops.foldl (fun s p => (Lexicon.sourceToWordIds pipeline { s with count := p.1 } p.2).1) base).wids.get? w = some n →
      (Db.run (Lexicon.engine pipeline) Lexicon.new (ts ++ [t])).latest.wids.get? w = some n := by
  obtain ⟨h2, h3⟩ := C70_lexicon pipeline ts
  have hrun : Db.run (Lexicon.engine pipeline) Lexicon.new (ts ++ [t]) =
      Db.commit (Lexicon.engine pipeline) (Db.run (Lexicon.engine pipeline) Lexicon.new ts) t := by simp [Db.run]
  rw [hrun] at hcommit ⊢
  generalize Db.run (Lexicon.engine pipeline) Lexicon.new ts = db at h2 h3 hb hcommit
  have hbase := List.mem_of_getElem? hb
  have hle : Lexicon.Le base db.latest := by
    unfold Db.states at hbase h3
    rcases List.mem_cons.1 hbase with rfl | hb'
    · exact Lexicon.Le.refl _
    · exact List.rel_of_pairwise_cons h3 hb'
  obtain ⟨e1, e2⟩ := Lexicon.exec_spec pipeline t.ops (h2 base hbase)
  unfold Db.commit at hcommit ⊢
  rw [hb] at hcommit ⊢
  dsimp only at hcommit ⊢
  cases hm : (if (t.refused || (Lexicon.engine pipeline).fails db.next base t.ops) = true then none
      else (Lexicon.engine pipeline).merge base db.latest ((Lexicon.engine pipeline).run db.next base t.ops).1) with
  | none =>
    rw [hm] at hcommit
    have := congrArg List.length hcommit
    simp [Db.states] at this
  | some r =>
    dsimp only
    have hm' : Lexicon.merge base db.latest
        (t.ops.foldl (fun s p => (Lexicon.sourceToWordIds pipeline { s with count := p.1 } p.2).1) base) = some r := by
      split at hm
      · cases hm
      · exact hm
    exact (Lexicon.merge_spec (h2 base hbase) (h2 _ (by simp [Db.states])) e1 hle e2 hm').2.2

/-- C70: the lexicon is serializable: in the latest state words and ids are those of a lexicon used by one thread, to which the
texts of the transactions that committed were passed one transaction after the other -/
theorem C70_lexicon_serial (pipeline : List Element) (ts : List (Txn (Int × TextArg))) :
    ∃ cs : List (Txn (Int × TextArg)), cs.Sublist ts ∧
      cs.length = (Db.run (Lexicon.engine pipeline) Lexicon.new ts).older.length ∧
      (Db.run (Lexicon.engine pipeline) Lexicon.new ts).latest.wids =
        (Lexicon.run pipeline ((cs.flatMap (·.ops)).flatMap (fun p => [.reload p.1, .source p.2]))).wids ∧
      (Db.run (Lexicon.engine pipeline) Lexicon.new ts).latest.words =
        (Lexicon.run pipeline ((cs.flatMap (·.ops)).flatMap (fun p => [.reload p.1, .source p.2]))).words := by
  induction ts using List.reverseRecOn with
  | nil => exact ⟨[], List.Sublist.refl _, rfl, rfl, rfl⟩
  | append_singleton ts t ih =>
    obtain ⟨cs, i1, i2, i3⟩ := ih
    obtain ⟨h2, h3⟩ := C70_lexicon pipeline ts
    have hrun : Db.run (Lexicon.engine pipeline) Lexicon.new (ts ++ [t]) =
        Db.commit (Lexicon.engine pipeline) (Db.run (Lexicon.engine pipeline) Lexicon.new ts) t := by simp [Db.run]
    rw [hrun]
    generalize Db.run (Lexicon.engine pipeline) Lexicon.new ts = db at h2 h3 i2 i3
    have stay : ∃ cs : List (Txn (Int × TextArg)), cs.Sublist (ts ++ [t]) ∧ cs.length = db.older.length ∧
        db.latest.wids = (Lexicon.run pipeline ((cs.flatMap (·.ops)).flatMap (fun p => [.reload p.1, .source p.2]))).wids ∧
        db.latest.words = (Lexicon.run pipeline ((cs.flatMap (·.ops)).flatMap (fun p => [.reload p.1, .source p.2]))).words :=
      ⟨cs, i1.trans (List.sublist_append_left _ _), i2, i3⟩
    unfold Db.commit
    cases hb : db.states[t.back]? with
    | none => exact stay
    | some base =>
      dsimp only
      cases hm : (if (t.refused || (Lexicon.engine pipeline).fails db.next base t.ops) = true then none
          else (Lexicon.engine pipeline).merge base db.latest ((Lexicon.engine pipeline).run db.next base t.ops).1) with
      | none => exact stay
      | some r =>
        dsimp only
        have hbase := List.mem_of_getElem? hb
        have hle : Lexicon.Le base db.latest := by
          unfold Db.states at hbase h3
          rcases List.mem_cons.1 hbase with rfl | hb'
          · exact Lexicon.Le.refl _
          · exact List.rel_of_pairwise_cons h3 hb'
        obtain ⟨e1, e2⟩ := Lexicon.exec_spec pipeline t.ops (h2 base hbase)
        have hm' : Lexicon.merge base db.latest
            (t.ops.foldl (fun s p => (Lexicon.sourceToWordIds pipeline { s with count := p.1 } p.2).1) base) = some r := by
          split at hm
          · cases hm
          · exact hm
        have hs := Lexicon.merge_serial (h2 base hbase) (h2 _ (by simp [Db.states])) e1 hle e2 hm' pipeline t.ops (Lexicon.Same.refl _)
        have i3' : Lexicon.Same db.latest (Lexicon.replay pipeline Lexicon.new (cs.flatMap (·.ops))) := by
          rw [← Lexicon.run_calls]; exact i3
        refine ⟨cs ++ [t], i1.append (List.Sublist.refl _), by simp [Db.states, i2], ?_⟩
        have := hs.trans (i3'.replay pipeline t.ops)
        rw [← Lexicon.replay_append, ← Lexicon.run_calls] at this
        rw [List.flatMap_append, show [t].flatMap (·.ops) = t.ops by simp]
        exact this

/-- two overlapping transactions that both meet new words; the second one found the counter as the first left it -/
def exLexiconTxns (counter : Int) : List (Txn (Int × TextArg)) :=
  [⟨0, [(0, .list [['d', 'o', 'g']])], false⟩,
   ⟨0, [(1, .list [['c', 'a', 't']])], false⟩,
   ⟨1, [(counter, .list [['e', 'e', 'l'], ['d', 'o', 'g']])], false⟩]

example : (Db.run (Lexicon.engine []) Lexicon.new (exLexiconTxns 2)).latest.wids.items =
    [(['c', 'a', 't'], 2), (['d', 'o', 'g'], 1), (['e', 'e', 'l'], 3)] := by decide +kernel
/-- with the counter as it was when the transaction began it would have got the same id, and is aborted -/
example : (Db.run (Lexicon.engine []) Lexicon.new (exLexiconTxns 1)).latest.wids.items =
    [(['c', 'a', 't'], 2), (['d', 'o', 'g'], 1)] := by decide +kernel

end Verif
