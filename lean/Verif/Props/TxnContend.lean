import Verif.Props.TxnReplace
import Verif.Proofs.TxnContend

/-! # C70, C87: concurrent transactions on keyword indexes in which no large set is contended -/

set_option autoImplicit false

namespace Verif

open Spec.Txn

section contend
variable {D W : Type} [LinearOrder D] [LinearOrder W]

theorem updateOrOptimize {op : Keyword.Op D W} (h : IsUpdate op) : IsUpdateOrOptimize op := by
  cases op <;> first | trivial | exact h

/-- C70, for keyword indexes: the same, as long as each keyword is given to fewer than 64 documents, or no two overlapping transactions
that commit index or unindex documents to which it is given.  Which objects the index consists of does not matter here -/
theorem C70_keyword_uncontended_partial (normalize : List W → List W) (ts : List (Txn (Keyword.Op D W)))
    (hu : ∀ t ∈ ts, ∀ op ∈ t.ops, IsUpdate op) (hp : ∀ t ∈ ts, Spec.Keyword.Plain normalize t.ops)
    (hl : LargeUncontended normalize ts) :
    ∃ ms, History (kwUpdate normalize) (fun _ _ => False) ts ms ∧
      List.Forall₂ (fun (s : HKeyword D W) m => ∃ ops, Spec.Keyword.Plain id ops ∧
          (∀ d w, w ∈ Spec.Keyword.current id ops d ↔ m d w) ∧
          (∀ q op, s.view.search normalize q op = (Keyword.run id ops).search normalize q op) ∧
          s.view.documentCount = (Keyword.run id ops).documentCount ∧ s.view.wordCount = (Keyword.run id ops).wordCount ∧
          ∀ d, s.view.hasDoc d = (Keyword.run id ops).hasDoc d)
        (Db.run (HKeyword.engine normalize) HKeyword.new ts).states ms :=
  C70_keyword_replaced_partial normalize ts (fun t ht op hop => updateOrOptimize (hu t ht op hop)) hp
    (HKeyword.replacedApart_of_uncontended normalize ts hu hp hl)

/-- C70, under the same hypothesis: a transaction that no other committed transaction overlapped commits -/
theorem C70_keyword_alone_uncontended_partial (normalize : List W → List W) (ts : List (Txn (Keyword.Op D W))) (t : Txn (Keyword.Op D W))
    (hu : ∀ t' ∈ ts ++ [t], ∀ op ∈ t'.ops, IsUpdate op) (hp : ∀ t' ∈ ts ++ [t], Spec.Keyword.Plain normalize t'.ops)
    (hl : LargeUncontended normalize ts) (hb : t.back = 0) (hr : t.refused = false) :
    (Db.run (HKeyword.engine normalize) HKeyword.new (ts ++ [t])).older = (Db.run (HKeyword.engine normalize) HKeyword.new ts).states :=
  C70_keyword_alone_replaced_partial normalize ts t (fun t' ht op hop => updateOrOptimize (hu t' ht op hop)) hp
    (HKeyword.replacedApart_of_uncontended normalize ts (fun t' ht => hu t' (List.mem_append_left _ ht))
      (fun t' ht => hp t' (List.mem_append_left _ ht)) hl) hb hr

/-- C87, for keyword indexes: under the same hypothesis, when no transaction names a document changed by others while it ran, the
transactions have the effect of being run one after the other -/
theorem C87_keyword_uncontended_partial (normalize : List W → List W) (ts : List (Txn (Keyword.Op D W)))
    (hu : ∀ t ∈ ts, ∀ op ∈ t.ops, IsUpdate op) (hp : ∀ t ∈ ts, Spec.Keyword.Plain normalize t.ops)
    (hl : LargeUncontended normalize ts)
    (hn : NamedUntouched (HKeyword.engine normalize) HKeyword.new keywordNames (fun s t d => keywordAlike s.view t.view d) ts) :
    List.Forall₂ (fun (s : HKeyword D W) done =>
        (∀ q op, s.view.search normalize q op = (Keyword.run normalize (calls done)).search normalize q op) ∧
        s.view.documentCount = (Keyword.run normalize (calls done)).documentCount ∧
        s.view.wordCount = (Keyword.run normalize (calls done)).wordCount ∧
        ∀ d, s.view.hasDoc d = (Keyword.run normalize (calls done)).hasDoc d)
      (Db.run (HKeyword.engine normalize) HKeyword.new ts).states.reverse
      (committed (HKeyword.engine normalize) (HKeyword.new : HKeyword D W) ts).inits :=
  C87_keyword_replaced_partial normalize ts (fun t ht op hop => updateOrOptimize (hu t ht op hop)) hp
    (HKeyword.replacedApart_of_uncontended normalize ts hu hp hl) hn

/-- the hypothesis is weaker than that of `C70_keyword_partial` -/
theorem largeUncontended_of_few {normalize : List W → List W} {ts : List (Txn (Keyword.Op D W))} (h : FewerThan 64 normalize ts) :
    LargeUncontended normalize ts := fun w => Or.inl (h w)

theorem few_of_subset {n : Nat} {normalize : List W → List W} {ts : List (Txn (Keyword.Op D W))} {w : W} (l : List D)
    (h : ∀ d, Given normalize ts w d → d ∈ l) (hl : l.length < n) : FewDocs n normalize ts w := by
  intro docs hn hd
  exact lt_of_le_of_lt (hn.subperm (fun d hd' => h d (hd d hd'))).length_le hl

end contend

/-- 63 documents get the keyword 7, and document 199 the keyword 8; then document 100 gets it, which replaces the `Set` by a `TreeSet`, while other transactions, which
overlap each other too, give the keyword 8 to two more documents; then document 0 is removed -/
def exKeywordUncontended : List (Txn (Keyword.Op Nat Nat)) :=
  [⟨0, (List.range 63).map (fun d => .index d (.seq true [7])) ++ [.index 199 (.seq true [8])], false⟩,
   ⟨0, [.index 100 (.seq true [7])], false⟩,
   ⟨1, [.index 200 (.seq true [8])], false⟩,
   ⟨1, [.index 201 (.seq true [8])], false⟩,
   ⟨0, [.unindex 0], false⟩]

theorem exKeywordUncontended_plain :
    (∀ t ∈ exKeywordUncontended, ∀ op ∈ t.ops, IsUpdate op) ∧ (∀ t ∈ exKeywordUncontended, Spec.Keyword.Plain id t.ops) := by
  constructor
  · intro t ht op hop
    simp only [exKeywordUncontended, List.mem_cons, List.not_mem_nil, or_false] at ht
    rcases ht with rfl | rfl | rfl | rfl | rfl
    · rcases List.mem_append.1 hop with hop | hop
      · obtain ⟨d, -, rfl⟩ := List.mem_map.1 hop; trivial
      · rw [List.mem_singleton] at hop; subst hop; trivial
    all_goals
      rw [List.mem_singleton] at hop
      subst hop
      trivial
  · intro t ht d items hop
    simp only [exKeywordUncontended, List.mem_cons, List.not_mem_nil, or_false] at ht
    rcases ht with rfl | rfl | rfl | rfl | rfl
    · rcases List.mem_append.1 hop with hop | hop
      · obtain ⟨x, -, he⟩ := List.mem_map.1 hop
        cases he; simp
      · rw [List.mem_singleton] at hop; cases hop; simp
    all_goals
      intro h0
      have h0 : items = [] := h0
      subst h0
      simp at hop

theorem exKeywordUncontended_given {w d : Nat} (h : Given id exKeywordUncontended w d) : (w = 7 ∧ d ≤ 100) ∨ (w = 8 ∧ d ∈ [199, 200, 201]) := by
  obtain ⟨t, ht, items, hop, hw⟩ := h
  simp only [exKeywordUncontended, List.mem_cons, List.not_mem_nil, or_false] at ht
  rcases ht with rfl | rfl | rfl | rfl | rfl
  · rcases List.mem_append.1 hop with hop | hop
    · obtain ⟨x, hx, he⟩ := List.mem_map.1 hop
      rw [List.mem_range] at hx
      cases he
      obtain rfl : w = 7 := by simpa using hw
      exact Or.inl ⟨rfl, by omega⟩
    · rw [List.mem_singleton] at hop
      cases hop
      obtain rfl : w = 8 := by simpa using hw
      exact Or.inr ⟨rfl, by simp⟩
  all_goals
    rw [List.mem_singleton] at hop
    cases hop
    try
      have hw : w = _ := List.mem_singleton.1 hw
      subst hw
      simp

/-- the number of committed states after `k` transactions -/
def exKeywordUncontended_count (k : Nat) : Nat :=
  (Db.run (HKeyword.engine id) (HKeyword.new : HKeyword Nat Nat) (exKeywordUncontended.take k)).states.length

theorem exKeywordUncontended_unseen : ∀ j < 5, ∀ i < j,
    exKeywordUncontended_count j ≤ ((exKeywordUncontended[j]?).map (·.back)).getD 0 + exKeywordUncontended_count i → i = 2 ∨ j = 2 := by
  decide +kernel

/-- the hypotheses are met -/
theorem exKeywordUncontended_ok : LargeUncontended id exKeywordUncontended := by
  intro w
  by_cases h7 : w = 7
  · subst h7
    right
    rintro before t₁ between t after he ⟨-, -, hlen⟩ ⟨hc1, hc2⟩
    have hno : ¬ Concerns id exKeywordUncontended ⟨1, [.index 200 (.seq true [8])], false⟩ 7 := by
      rintro ⟨d, hg, op, hop, hd⟩
      rw [List.mem_singleton] at hop
      subst hop
      obtain rfl : d = 200 := hd
      rcases exKeywordUncontended_given hg with ⟨-, h⟩ | ⟨h, -⟩ <;> omega
    have ei : exKeywordUncontended.take before.length = before := by rw [he]; simp
    have ej : exKeywordUncontended.take (before ++ t₁ :: between).length = before ++ t₁ :: between := by rw [he]; exact List.take_left
    have gi : exKeywordUncontended[before.length]? = some t₁ := by rw [he]; simp
    have gj : exKeywordUncontended[(before ++ t₁ :: between).length]? = some t := by rw [he]; simp
    have hlt : before.length < (before ++ t₁ :: between).length := by simp
    have hj : (before ++ t₁ :: between).length < 5 := by
      have : exKeywordUncontended.length = 5 := rfl
      rw [he] at this
      simp at this ⊢
      omega
    have h := exKeywordUncontended_unseen _ hj _ hlt (by
      rw [gj]
      unfold exKeywordUncontended_count
      rw [ei, ej]
      exact hlen)
    rcases h with h | h
    · rw [h] at gi
      obtain rfl := Option.some.inj gi
      exact hno hc1
    · rw [h] at gj
      obtain rfl := Option.some.inj gj
      exact hno hc2
  · left
    refine few_of_subset [199, 200, 201] (fun d hg => ?_) (by simp)
    rcases exKeywordUncontended_given hg with ⟨h, -⟩ | ⟨-, h⟩
    · exact absurd h h7
    · exact h

example : NamedUntouched (HKeyword.engine id) HKeyword.new keywordNames (fun s t d => keywordAlike s.view t.view d) exKeywordUncontended :=
  named_of_bool (fun t ht op hop => updateOrOptimize (exKeywordUncontended_plain.1 t ht op hop)) exKeywordUncontended_plain.2
    (HKeyword.replacedApart_of_uncontended id _ exKeywordUncontended_plain.1 exKeywordUncontended_plain.2 exKeywordUncontended_ok)
    (by decide +kernel)

/-- all five transactions commit, the set of the keyword 7 has become a `TreeSet`; more than 64 documents were given the keyword 7 -/
example : (Db.run (HKeyword.engine id) HKeyword.new exKeywordUncontended).older.length = 5 ∧
    ((Db.run (HKeyword.engine id) HKeyword.new exKeywordUncontended).latest.view.fwd.get? 7).map (fun s => (s.isTree, s.ids.len)) =
      some (true, 63) ∧
    (((Db.run (HKeyword.engine id) HKeyword.new exKeywordUncontended).latest.view.search id (.seq [8]) .and).toOption.map (·.toList)) =
      some [199, 200, 201] := by decide +kernel

/-- the transactions of `C70_keyword_fails` do not meet the hypothesis -/
example : ¬ LargeUncontended id exKeywordTxns := by
  intro h
  have given : ∀ d ∈ 100 :: List.range 63, Given id exKeywordTxns 7 d := by
    intro d hd
    rcases List.mem_cons.1 hd with rfl | hd
    · exact ⟨⟨0, [.index 100 (.seq true [7])], false⟩, by simp [exKeywordTxns], [7], by simp, by simp⟩
    · exact ⟨_, List.mem_cons_self, [7], List.mem_map.2 ⟨d, hd, rfl⟩, by simp⟩
  rcases h 7 with h | h
  · have := h (100 :: List.range 63) (List.nodup_cons.2 ⟨by simp, List.nodup_range⟩) given
    simp at this
  · refine h (exKeywordTxns.take 1) ⟨0, [.index 100 (.seq true [7])], false⟩ [] ⟨1, [.unindex 0], false⟩ [] rfl ⟨?_, ?_, ?_⟩ ⟨?_, ?_⟩
    · exact older_of_length _ _ _ _ (by decide +kernel)
    · exact older_of_length _ _ _ _ (by decide +kernel)
    · decide +kernel
    · exact ⟨100, given 100 (by simp), _, List.mem_singleton.2 rfl, rfl⟩
    · exact ⟨0, given 0 (by simp), _, List.mem_singleton.2 rfl, rfl⟩

end Verif
