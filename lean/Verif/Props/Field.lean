import Verif.Proofs.FieldSort

/-!
# Properties C01 - C10: the field index and its sorting

The specification is in `Verif.Spec.Field`: `current ops d` is the value document `d` has after the
calls `ops`, if any.
-/

set_option autoImplicit false

namespace Verif

open Field Spec Spec.Field

section core
variable {D V : Type} [LinearOrder D] [LinearOrder V]

/-! ## C01 -/

/-- C01: after any history a range query returns exactly the docids whose current value is in the range -/
theorem C01_range_query (ops : List (Op D V)) (lo hi : Option V) :
    ∃ r, (run ops).apply (.tuple [lo, hi]) = .ok r ∧
      ∀ d, d ∈ r.toList ↔ ∃ v, current ops d = some v ∧ InRange lo hi v := by
  obtain ⟨hi', hr⟩ := run_spec ops
  refine ⟨_, rfl, ?_⟩
  intro d
  show d ∈ SMap.keys _ ↔ _
  rw [mem_range]
  constructor
  · rintro ⟨v, set, hset, hrng, hd⟩
    exact ⟨v, by rw [← hr]; exact (hi'.agree v d).1 ⟨set, hset, hd⟩, hrng⟩
  · rintro ⟨v, hv, hrng⟩
    rw [← hr] at hv
    obtain ⟨set, hset, hd⟩ := (hi'.agree v d).2 hv
    exact ⟨v, set, hset, hrng, hd⟩

/-- C01: anything but a tuple of two raises `TypeError` -/
theorem C01_bad_query (ops : List (Op D V)) (q : Query V) (h : ∀ lo hi, q ≠ .tuple [lo, hi]) :
    (run ops).apply q = .error .TypeError := by
  unfold Field.apply
  match q, h with
  | .tuple [], _ => rfl
  | .tuple [_], _ => rfl
  | .tuple [a, b], h => exact absurd rfl (h a b)
  | .tuple (_ :: _ :: _ :: _), _ => rfl
  | .sized _, _ => rfl
  | .unsized, _ => rfl

example : ((run [.index 1 10, .index 2 20, .index 1 15, .index 3 30, .unindex 3] : Field Nat Nat).apply
    (.tuple [some 11, none])).toOption.map (·.toList) = some [1, 2] := by decide
example : ∀ lo hi, (Query.sized 2 : Query Nat) ≠ .tuple [lo, hi] := by intros; simp

/-! ## C02 -/

/-- C02: after any history `documentCount()` is the number of docids that have a value -/
theorem C02_document_count (ops : List (Op D V)) :
    ∃ n : Nat, (run ops).documentCount = n ∧ CountIs (fun d => (current ops d).isSome) n := by
  obtain ⟨hi, hr⟩ := run_spec ops
  refine ⟨(run ops).rev.len, hi.count, (run ops).rev.keys, SMap.keys_nodup _, ?_, SMap.len_keys _⟩
  intro d
  show _ ↔ (current ops d).isSome = true
  rw [SMap.mem_keys_iff, ← hr, Option.isSome_iff_exists]

/-- C02: and `wordCount()` the number of distinct values -/
theorem C02_word_count (ops : List (Op D V)) :
    CountIs (fun v => ∃ d, current ops d = some v) (run ops).wordCount := by
  obtain ⟨hi, hr⟩ := run_spec ops
  refine ⟨(run ops).fwd.keys, SMap.keys_nodup _, ?_, SMap.len_keys _⟩
  intro v
  rw [SMap.mem_keys_iff]
  constructor
  · rintro ⟨set, hset⟩
    obtain ⟨d, hd⟩ := hi.nonempty v set hset
    exact ⟨d, by rw [← hr]; exact (hi.agree v d).1 ⟨set, hset, hd⟩⟩
  · rintro ⟨d, hd⟩
    rw [← hr] at hd
    obtain ⟨set, hset, _⟩ := (hi.agree v d).2 hd
    exact ⟨set, hset⟩

/-- `CountIs` determines the number -/
theorem C02_count_unique {α : Type} (P : α → Prop) (n m : Nat) (hn : CountIs P n) (hm : CountIs P m) : n = m := by
  obtain ⟨l, hl, hl', rfl⟩ := hn
  obtain ⟨k, hk, hk', rfl⟩ := hm
  exact ((List.perm_ext_iff_of_nodup hl hk).2 (fun x => (hl' x).trans (hk' x).symm)).length_eq

example : (run [.index 1 10, .index 2 10, .index 3 20, .index 3 10] : Field Nat Nat).documentCount = 3 ∧
    (run [.index 1 10, .index 2 10, .index 3 20, .index 3 10] : Field Nat Nat).wordCount = 1 := by decide

/-! ## C03 -/

/-- C03: removing `d` takes it out of every answer and changes nothing about the others -/
theorem C03_unindex (ops : List (Op D V)) (d : D) (lo hi : Option V) :
    ∃ before after, (run ops).apply (.tuple [lo, hi]) = .ok before ∧
      ((run ops).unindexDoc d).apply (.tuple [lo, hi]) = .ok after ∧
      ∀ x, x ∈ after.toList ↔ x ∈ before.toList ∧ x ≠ d := by
  obtain ⟨r, hr, hr'⟩ := C01_range_query ops lo hi
  obtain ⟨r2, hr2, hr2'⟩ := C01_range_query (ops ++ [.unindex d]) lo hi
  have e : run (ops ++ [.unindex d]) = (run ops).unindexDoc d := by simp [run, Field.step]
  rw [e] at hr2
  refine ⟨r, r2, hr, hr2, ?_⟩
  intro x
  rw [hr2', hr']
  have : current (ops ++ [.unindex d]) x = if x = d then none else current ops x := by
    simp [current, update]
  rw [this]
  by_cases hx : x = d <;> simp [hx]

/-- C03: removing an unknown docid changes nothing -/
theorem C03_unknown (ops : List (Op D V)) (d : D) (h : current ops d = none) :
    (run ops).unindexDoc d = run ops := by
  obtain ⟨-, hr⟩ := run_spec ops
  exact unindex_absent (by rw [hr]; exact h)

/-- C03: after `clear()` the index is a new one -/
theorem C03_clear (ops more : List (Op D V)) : run (ops ++ .clear :: more) = run more := by
  simp [run, Field.step, Field.clear]

example : current ([.index 1 10, .unindex 1] : List (Op Nat Nat)) 1 = none := by decide
example : current ([.index 1 10, .unindex 2] : List (Op Nat Nat)) 1 = some 10 := by decide

/-! ## C04 -/

/-- C04: histories with the same final assignment leave the same index, so all answers agree -/
theorem C04_history_independent (ops ops' : List (Op D V)) (h : ∀ d, current ops d = current ops' d) :
    run ops = run ops' := by
  obtain ⟨hi, hr⟩ := run_spec ops
  obtain ⟨hi', hr'⟩ := run_spec ops'
  exact eq_of_rev hi hi' (fun d => by rw [hr, hr', h])

/-- C04: reindexing with the current value is a no-op -/
theorem C04_reindex_same (ops : List (Op D V)) (d : D) (v : V) (h : current ops d = some v) :
    (run ops).indexDoc d v = run ops := by
  have e : run (ops ++ [.index d v]) = (run ops).indexDoc d v := by simp [run, Field.step]
  rw [← e]
  apply C04_history_independent
  intro x
  have : current (ops ++ [.index d v]) x = if x = d then some v else current ops x := by
    simp [current, update]
  rw [this]
  by_cases hx : x = d
  · rw [if_pos hx, hx, h]
  · rw [if_neg hx]

/-- C04: calls about different docids commute -/
theorem C04_commute (ops : List (Op D V)) (d e : D) (v w : V) (h : d ≠ e) :
    run (ops ++ [.index d v, .index e w]) = run (ops ++ [.index e w, .index d v]) ∧
    run (ops ++ [.index d v, .unindex e]) = run (ops ++ [.unindex e, .index d v]) ∧
    run (ops ++ [.unindex d, .unindex e]) = run (ops ++ [.unindex e, .unindex d]) := by
  refine ⟨?_, ?_, ?_⟩
  all_goals
    apply C04_history_independent
    intro x
    simp only [current, List.foldl_append, List.foldl_cons, List.foldl_nil, update]
    by_cases h1 : x = d <;> by_cases h2 : x = e <;> simp_all

example : ∀ d : Nat, current ([.index 1 10, .index 1 20] : List (Op Nat Nat)) d = current [.index 1 20] d := by
  intro d; simp [current, update]; split <;> rfl

/-! ## C10 -/

/-- C10: for every state, consistent or not, `unindex_doc` raises nothing, removes the docid from the
reverse map and keeps the other docids -/
theorem C10_never_raises (s : Field D V) (d : D) :
    (s.unindexDocRaw d).2 = none ∧ (s.unindexDocRaw d).1.rev.get? d = none ∧
      (∀ x, x ≠ d → (s.unindexDocRaw d).1.rev.get? x = s.rev.get? x) ∧
      (s.unindexDocRaw d).1 = s.unindexDoc d := by
  have key : s.unindexDocRaw d = (s.unindexDoc d, none) := by
    unfold unindexDocRaw unindexDoc
    cases h : s.rev.get? d with
    | none => rfl
    | some v =>
      have hc : s.rev.contains d = true := SMap.contains_of_get? h
      simp only [hc, Bool.not_true, Bool.false_eq_true, if_false]
      cases hf : s.fwd.get? v with
      | none => simp
      | some set =>
        simp only
        by_cases hd : set.contains d = true
        · simp only [hd, if_true]
          by_cases he : (SMap.del set d).isEmpty = true
          · simp only [he, if_true]
            simp [SMap.contains_set]
          · simp [he]
        · simp [hd]
  rw [key]
  refine ⟨rfl, ?_, ?_, rfl⟩
  · rw [rev_unindex]; simp
  · intro x hx; rw [rev_unindex, SMap.get?_del_ne _ hx]

/-- a damaged state: document 1 has a value, but the forward map does not know it -/
example : ((⟨SMap.empty, SMap.ofList [(1, 7)], 5⟩ : Field Nat Nat).unindexDocRaw 1).2 = none := by decide

end core

/-! ## Sorting -/

section sorting
variable {D V : Type} [LinearOrder D] [PyValue V]

/-- values for the examples: `(0, _)` is `None`, `(1, i)` the int `i`, `(2, c)` the string `chr(c)` -/
abbrev ExV := Nat ×ₗ Int

instance : PyValue ExV where
  kind v := if (ofLex v).1 = 0 then none else some (ofLex v).1
  negOne := toLex (1, -1)

/-- a listing is unique -/
theorem C05_listing_unique (m : D → Option V) (docids L L' : List D) (h : IsListing m docids L)
    (h' : IsListing m docids L') : L = L' := by
  have hval : ∀ M, IsListing m docids M → ∀ d ∈ M, ∃ v, m d = some v := by
    intro M hM d hd
    exact Option.isSome_iff_exists.1 ((hM.1 d).1 hd).2
  have hnd : ∀ M, IsListing m docids M → M.Nodup := by
    intro M hM
    refine List.Pairwise.imp_of_mem ?_ hM.2
    intro a b ha hb hab e
    subst e
    obtain ⟨v, hv⟩ := hval M hM a ha
    rcases hab v v hv hv with h | h
    · exact lt_irrefl _ h
    · exact lt_irrefl _ h.2
  have hp : L.Perm L' := (List.perm_ext_iff_of_nodup (hnd L h) (hnd L' h')).2
    (fun x => (h.1 x).trans (h'.1 x).symm)
  refine List.Perm.eq_of_pairwise ?_ h.2 h'.2 hp
  intro a b ha hb hab hba
  obtain ⟨va, hva⟩ := hval L h a ha
  obtain ⟨vb, hvb⟩ := hval L' h' b hb
  rcases hab va vb hva hvb with h1 | h1 <;> rcases hba vb va hvb hva with h2 | h2
  · exact absurd h1 (lt_asymm h2)
  · exact absurd h1 (by rw [h2.1]; exact lt_irrefl _)
  · exact absurd h2 (by rw [h1.1]; exact lt_irrefl _)
  · exact absurd h1.2 (lt_asymm h2.2)

/-- the model's listing is the specified one -/
theorem isListing_listing (ops : List (Op D V)) (docids : List D) :
    IsListing (current ops) docids (listing (run ops) (SSet.ofList docids)) := by
  obtain ⟨hi, hr⟩ := run_spec ops
  constructor
  · intro d
    rw [mem_listing, mem_ofList, hr, Option.isSome_iff_exists]
  · refine (listing_sorted (run ops) (SSet.ofList docids)).imp ?_
    intro a b h va vb ha hb
    exact h va vb (by rw [hr]; exact ha) (by rw [hr]; exact hb)

/-- C05: an ascending sort yields the first `n` of the listing by `(value, docid)`, for every choice of
strategy -/
theorem C05_ascending (ops : List (Op D V)) (lz nb : Bool) (docids : List D) (limit : Option Int)
    (hl : ∀ n, limit = some n → 1 ≤ n) (hs : Sortable (current ops) docids) :
    ∃ L, IsListing (current ops) docids L ∧ (run ops).sort lz nb docids false limit = .ok (cut limit L) := by
  obtain ⟨hi, hr⟩ := run_spec ops
  obtain ⟨hk, ho⟩ := sortable_facts hr hs
  exact ⟨_, isListing_listing ops docids, sort_asc hi lz nb docids limit hl hk ho⟩

/-- C05: a limit below one raises `ValueError`, in both directions -/
theorem C05_bad_limit (ops : List (Op D V)) (lz nb rv : Bool) (docids : List D) (n : Int) (hn : n < 1) :
    (run ops).sort lz nb docids rv (some n) = .error .ValueError := by
  unfold Field.sort; simp only; rw [if_pos hn]

/-- C05, the two other strategies need less: the n-best strategy needs the values of the indexed docids to be orderable, and
the lazy one needs nothing at all -/
theorem C05_strategies (ops : List (Op D V)) (lz : Bool) (docids : List D) (limit : Option Nat)
    (hl : ∀ n, limit = some n → 1 ≤ n) :
    (ValuesOrderable (current ops) docids → ∃ L, IsListing (current ops) docids L ∧
      (run ops).sortWith lz true (SSet.ofList docids) false limit = .ok (cut (limit.map (fun n => (n : Int))) L)) ∧
    (∃ L, IsListing (current ops) docids L ∧
      (run ops).sortWith true false (SSet.ofList docids) false limit = .ok (cut (limit.map (fun n => (n : Int))) L)) := by
  obtain ⟨hi, hr⟩ := run_spec ops
  have hc : ∀ L : List D, cut (limit.map (fun n => (n : Int))) L = cutN limit L := by
    intro L; cases limit <;> simp [cut, cutN]
  constructor
  · rintro ⟨k, hk⟩
    refine ⟨_, isListing_listing ops docids, ?_⟩
    rw [hc]
    apply nbest_asc_ok _ _ _ _ hl
    apply allOk_of_orderable (k := k)
    intro d hd v hv
    rw [mem_ofList] at hd
    exact hk d hd v (by rw [← hr]; exact hv)
  · refine ⟨_, isListing_listing ops docids, ?_⟩
    rw [hc]
    exact lazy_ok hi _ _ hl

/-- a history with ties, a removed document and an unindexed docid in the request -/
def exOps : List (Op Nat ExV) :=
  [.index 1 (toLex (1, 5)), .index 2 (toLex (1, 3)), .index 3 (toLex (1, 5)), .index 4 (toLex (1, 9)), .unindex 4]

example : Sortable (current exOps) [4, 3, 2, 1, 9] :=
  ⟨1, by decide⟩
example : (run exOps).sort false false [4, 3, 2, 1, 9] false none = .ok [2, 1, 3] := by decide
example : (run exOps).sort false true [4, 3, 2, 1, 9] false (some 2) = .ok [2, 1] := by decide
example : (run exOps).sort true false [4, 3, 2, 1, 9] false (some 2) = .ok [2, 1] := by decide

/-! ## C06 -/

omit [PyValue V] in
theorem listing_length [LinearOrder V] (ops : List (Op D V)) (docids L : List D) (k : Nat)
    (hk : CountIs (fun d => d ∈ docids ∧ (current ops d).isSome) k) (hn : L.Nodup)
    (hm : ∀ d, d ∈ L ↔ d ∈ docids ∧ (current ops d).isSome) : L.length = k :=
  C02_count_unique _ _ _ ⟨L, hn, hm, rfl⟩ hk

/-- C06: a descending sort yields `min(n, k)` distinct indexed docids, in non-increasing order of value,
and no docid left out has a larger value than one yielded -/
theorem C06_descending (ops : List (Op D V)) (lz nb : Bool) (docids : List D) (limit : Option Int)
    (hl : ∀ n, limit = some n → 1 ≤ n) (hnb : nb = true → limit ≠ none) (hs : Sortable (current ops) docids) :
    ∃ r, (run ops).sort lz nb docids true limit = .ok r ∧ r.Nodup ∧
      (∀ d ∈ r, d ∈ docids ∧ (current ops d).isSome) ∧
      r.Pairwise (fun a b => ∀ va vb, current ops a = some va → current ops b = some vb → vb ≤ va) ∧
      (∀ d ∈ docids, d ∉ r → ∀ v, current ops d = some v → ∀ e ∈ r, ∀ w, current ops e = some w → v ≤ w) ∧
      (∀ k, CountIs (fun d => d ∈ docids ∧ (current ops d).isSome) k →
        r.length = match limit with | none => k | some n => min n.toNat k) := by
  obtain ⟨hi, hr⟩ := run_spec ops
  obtain ⟨hk, ho⟩ := sortable_facts hr hs
  refine ⟨_, sort_desc hi lz nb docids limit hl hnb hk ho, ?_⟩
  generalize hL : (if (chooseNbest (limit.map Int.toNat) (SSet.ofList docids).len || nb) = true
    then (listing (run ops) (SSet.ofList docids)).reverse else listingDesc (run ops) (SSet.ofList docids)) = L
  have hmem : ∀ d, d ∈ L ↔ d ∈ docids ∧ (current ops d).isSome := by
    intro d
    rw [← hL]
    split
    · rw [List.mem_reverse, mem_listing, mem_ofList, hr, Option.isSome_iff_exists]
    · rw [mem_listingDesc, mem_ofList, hr, Option.isSome_iff_exists]
  have hnd : L.Nodup := by
    rw [← hL]
    split
    · exact List.nodup_reverse.2 (listing_nodup _ _)
    · exact listingDesc_nodup _ _
  have hsort : L.Pairwise (fun a b => ∀ va vb, current ops a = some va → current ops b = some vb → vb ≤ va) := by
    rw [← hL]
    split
    · rw [List.pairwise_reverse]
      refine (listing_sorted _ _).imp ?_
      intro a b h va vb ha hb
      rcases h vb va (by rw [hr]; exact hb) (by rw [hr]; exact ha) with h | h
      · exact le_of_lt h
      · exact le_of_eq h.1
    · refine (listingDesc_sorted _ _).imp ?_
      intro a b h va vb ha hb
      rcases h va vb (by rw [hr]; exact ha) (by rw [hr]; exact hb) with h | h
      · exact le_of_lt h
      · exact le_of_eq h.1.symm
  have hsub : (cut limit L).Sublist L := by
    cases limit with
    | none => exact List.Sublist.refl _
    | some n => exact List.take_sublist _ _
  refine ⟨hnd.sublist hsub, fun d hd => (hmem d).1 (hsub.subset hd), hsort.sublist hsub, ?_, ?_⟩
  · intro d hd hdn v hv e he w hw
    have hdL : d ∈ L := (hmem d).2 ⟨hd, by rw [hv]; rfl⟩
    cases limit with
    | none => exact absurd hdL hdn
    | some n =>
      simp only [cut] at hdn he
      rw [← List.take_append_drop n.toNat L] at hdL hsort
      rw [List.pairwise_append] at hsort
      rcases List.mem_append.1 hdL with h | h
      · exact absurd h hdn
      · exact hsort.2.2 e he d h w v hw hv
  · intro k hk'
    have := listing_length ops docids L k hk' hnd hmem
    cases limit with
    | none => exact this
    | some n => simp [cut, this]

example : (run exOps).sort false false [4, 3, 2, 1, 9] true none = .ok [1, 3, 2] := by decide
example : (run exOps).sort false true [4, 3, 2, 1, 9] true (some 2) = .ok [3, 1] := by decide

/-! ## C07 -/

/-- C07 holds for ascending sorts, even when the two calls use different strategies.  Missing: the
descending direction, which is false (`C07_fails`). -/
theorem C07_ascending_partial (ops : List (Op D V)) (lz nb lz' nb' : Bool) (docids : List D) (n : Int) (hn : 1 ≤ n)
    (hs : Sortable (current ops) docids) :
    ∃ all, (run ops).sort lz nb docids false none = .ok all ∧
      (run ops).sort lz' nb' docids false (some n) = .ok (all.take n.toNat) := by
  obtain ⟨L, hL, h1⟩ := C05_ascending ops lz nb docids none (by simp) hs
  obtain ⟨L', hL', h2⟩ := C05_ascending ops lz' nb' docids (some n) (by intro k hk; cases hk; exact hn) hs
  rw [C05_listing_unique _ _ _ _ hL' hL] at h2
  exact ⟨L, h1, h2⟩

/-- C07 holds for descending sorts when no two of the docids have the same value -/
theorem C07_descending_partial (ops : List (Op D V)) (lz lz' nb' : Bool) (docids : List D) (n : Int) (hn : 1 ≤ n)
    (hs : Sortable (current ops) docids)
    (hd : ∀ a ∈ docids, ∀ b ∈ docids, ∀ v, current ops a = some v → current ops b = some v → a = b) :
    ∃ all, (run ops).sort lz false docids true none = .ok all ∧
      (run ops).sort lz' nb' docids true (some n) = .ok (all.take n.toNat) := by
  obtain ⟨hi, hr⟩ := run_spec ops
  obtain ⟨hk, ho⟩ := sortable_facts hr hs
  have hrev : (listing (run ops) (SSet.ofList docids)).reverse = listingDesc (run ops) (SSet.ofList docids) := by
    have hp : (listing (run ops) (SSet.ofList docids)).reverse.Perm (listingDesc (run ops) (SSet.ofList docids)) := by
      rw [List.perm_ext_iff_of_nodup (List.nodup_reverse.2 (listing_nodup _ _)) (listingDesc_nodup _ _)]
      intro d
      rw [List.mem_reverse, mem_listing, mem_listingDesc]
    refine List.Perm.eq_of_pairwise (le := fun a b => ∀ va vb, current ops a = some va → current ops b = some vb → vb ≤ va)
      ?_ ?_ ?_ hp
    · intro a b ha hb hab hba
      rw [List.mem_reverse, mem_listing, mem_ofList, hr] at ha
      rw [mem_listingDesc, mem_ofList, hr] at hb
      obtain ⟨va, hva⟩ := ha.2
      obtain ⟨vb, hvb⟩ := hb.2
      have := le_antisymm (hab va vb hva hvb) (hba vb va hvb hva)
      subst this
      exact hd a ha.1 b hb.1 vb hva hvb
    · rw [List.pairwise_reverse]
      refine (listing_sorted _ _).imp ?_
      intro a b h va vb ha hb
      rcases h vb va (by rw [hr]; exact hb) (by rw [hr]; exact ha) with h | h
      · exact le_of_lt h
      · exact le_of_eq h.1
    · refine (listingDesc_sorted _ _).imp ?_
      intro a b h va vb ha hb
      rcases h va vb (by rw [hr]; exact ha) (by rw [hr]; exact hb) with h | h
      · exact le_of_lt h
      · exact le_of_eq h.1.symm
  refine ⟨_, sort_desc hi lz false docids none (by simp) (by simp) hk ho, ?_⟩
  rw [sort_desc hi lz' nb' docids (some n) (by intro k hk; cases hk; exact hn) (by simp) hk ho, hrev]
  simp [cut]

/-- C07 is false of the code: five documents with one value; sorted in reverse with a limit of one the
answer is document 5, without a limit it begins with document 1.  No strategy override is used. -/
theorem C07_fails :
    let ops : List (Op Nat ExV) := [1, 2, 3, 4, 5].map (fun d => Op.index d (toLex (1, 7)))
    Sortable (current ops) [1, 2, 3, 4, 5] ∧
    (run ops).sort false false [1, 2, 3, 4, 5] true none = .ok [1, 2, 3, 4, 5] ∧
    (run ops).sort false false [1, 2, 3, 4, 5] true (some 1) = .ok [5] := by
  refine ⟨⟨1, by decide⟩, by decide, by decide⟩

/-! ## C08 -/

/-- C08 for values orderable with ints: unindexed docids are skipped.  Missing: other values, for which the
full sort raises (`C08_fails`). -/
theorem C08_skips_partial (ops : List (Op D V)) (lz nb rv : Bool) (docids : List D) (limit : Option Int)
    (hl : ∀ n, limit = some n → 1 ≤ n) (hnb : nb = true → limit ≠ none) (k : Nat)
    (hneg : PyValue.kind (PyValue.negOne : V) = some k)
    (hv : ∀ d ∈ docids, ∀ v, current ops d = some v → PyValue.kind v = some k) :
    ∃ r, (run ops).sort lz nb docids rv limit = .ok r ∧ ∀ d ∈ r, d ∈ docids ∧ (current ops d).isSome := by
  have hs : Sortable (current ops) docids := by
    refine ⟨k, ?_⟩
    intro d hd
    cases h : current ops d with
    | none => exact hneg
    | some v => exact hv d hd v h
  cases rv with
  | false =>
    obtain ⟨L, hL, h⟩ := C05_ascending ops lz nb docids limit hl hs
    refine ⟨_, h, ?_⟩
    intro d hd
    refine (hL.1 d).1 ?_
    cases limit with
    | none => exact hd
    | some n => exact List.mem_of_mem_take hd
  | true =>
    obtain ⟨r, h, -, h2, -⟩ := C06_descending ops lz nb docids limit hl hnb hs
    exact ⟨r, h, h2⟩

/-- C08 for any value type under the n-best and lazy strategies: the unindexed docids make no difference to the answer
(`sortWith` is the generator once the strategy is chosen) -/
theorem C08_irrelevant_partial (ops : List (Op D V)) (lz nb rv : Bool) (docids : List D) (limit : Option Nat)
    (hl : ∀ n, limit = some n → 1 ≤ n) (hst : nb = true ∨ (lz = true ∧ rv = false)) :
    (run ops).sortWith lz nb (SSet.ofList docids) rv limit =
      (run ops).sortWith lz nb (SSet.ofList (docids.filter (fun d => (current ops d).isSome))) rv limit := by
  obtain ⟨hi, hr⟩ := run_spec ops
  set ids := SSet.ofList docids
  set ids' := SSet.ofList (docids.filter (fun d => (current ops d).isSome))
  have hp : pairsOf (run ops) ids = pairsOf (run ops) ids' := by
    have hids : ids'.keys = ids.keys.filter (fun d => (current ops d).isSome) := by
      apply List.Pairwise.eq_of_mem_iff (SMap.keys_sorted ids') ((SMap.keys_sorted ids).filter _)
      intro a
      rw [List.mem_filter, mem_ofList, mem_ofList, List.mem_filter]
    unfold pairsOf
    rw [hids, List.filterMap_filter]
    apply List.filterMap_congr
    intro d _
    rw [hr]
    cases current ops d <;> rfl
  have hlist : listing (run ops) ids = listing (run ops) ids' := by unfold listing; rw [hp]
  rcases hst with rfl | ⟨rfl, rfl⟩
  · cases h : allOk tupleOk (pairsOf (run ops) ids) with
    | true =>
      have h' := h
      rw [hp] at h'
      cases rv with
      | false => rw [nbest_asc_ok _ _ _ _ hl h, nbest_asc_ok _ _ _ _ hl h', hlist]
      | true =>
        cases limit with
        | none => rfl
        | some n => rw [nbest_desc_ok _ _ _ _ h, nbest_desc_ok _ _ _ _ h', hlist]
    | false =>
      have h' := h
      rw [hp] at h'
      cases rv with
      | false => rw [nbest_asc_err _ _ _ _ hl h, nbest_asc_err _ _ _ _ hl h']
      | true => rw [nbest_desc_err _ _ _ _ h, nbest_desc_err _ _ _ _ h']
  · cases nb with
    | false => rw [lazy_ok hi _ _ hl, lazy_ok hi _ _ hl, hlist]
    | true =>
      cases h : allOk tupleOk (pairsOf (run ops) ids) with
      | true =>
        have h' := h
        rw [hp] at h'
        rw [nbest_asc_ok _ _ _ _ hl h, nbest_asc_ok _ _ _ _ hl h', hlist]
      | false =>
        have h' := h
        rw [hp] at h'
        rw [nbest_asc_err _ _ _ _ hl h, nbest_asc_err _ _ _ _ hl h']

/-- C08 is false of the code: two documents with string values, and a request for one of them that also names
an unindexed docid; the full sort compares the string with `-1` and raises `TypeError` -/
theorem C08_fails :
    let ops : List (Op Nat ExV) := [.index 1 (toLex (2, 97)), .index 2 (toLex (2, 98))]
    (run ops).sort false false [1] false none = .ok [1] ∧
    (run ops).sort false false [1, 9] false none = .error .TypeError := by
  decide

example : PyValue.kind (PyValue.negOne : ExV) = some 1 := by decide

/-! ## C09 -/

/-- C09, exactly when each strategy raises.  The property itself is false (`C09_fails`).
n-best: two of the indexed docids have different values that Python cannot order.
lazy: never.  full: at least two docids, and their values (with `-1` for missing ones) are not all of one
orderable type. -/
theorem C09_characterisation_partial (ops : List (Op D V)) (docids : List D) (limit : Option Nat)
    (hl : ∀ n, limit = some n → 1 ≤ n) :
    (∀ lz rv, (rv = true → limit ≠ none) →
      ((run ops).sortWith lz true (SSet.ofList docids) rv limit = .error .TypeError ↔
        ∃ a ∈ docids, ∃ b ∈ docids, ∃ v w, current ops a = some v ∧ current ops b = some w ∧ v ≠ w ∧
          PyValue.orderable v w = false)) ∧
    (∃ r, (run ops).sortWith true false (SSet.ofList docids) false limit = .ok r) ∧
    (∀ lz rv, (lz && !rv) = false →
      ((run ops).sortWith lz false (SSet.ofList docids) rv limit = .error .TypeError ↔
        (∃ a ∈ docids, ∃ b ∈ docids, a ≠ b) ∧ ¬ Sortable (current ops) docids)) := by
  obtain ⟨hi, hr⟩ := run_spec ops
  refine ⟨?_, ⟨_, lazy_ok hi _ _ hl⟩, ?_⟩
  · intro lz rv hrv
    have hiff : allOk tupleOk (pairsOf (run ops) (SSet.ofList docids)) = false ↔
        ∃ a ∈ docids, ∃ b ∈ docids, ∃ v w, current ops a = some v ∧ current ops b = some w ∧ v ≠ w ∧
          PyValue.orderable v w = false := by
      rw [← Bool.not_eq_true, allOk_iff]
      push Not
      constructor
      · rintro ⟨⟨v, a⟩, ha, ⟨w, b⟩, hb, h⟩
        rw [mem_pairsOf, mem_ofList, hr] at ha hb
        refine ⟨a, ha.1, b, hb.1, v, w, ha.2, hb.2, ?_⟩
        simpa [tupleOk] using h
      · rintro ⟨a, ha, b, hb, v, w, hv, hw, hne, ho⟩
        refine ⟨(v, a), ?_, (w, b), ?_, ?_⟩
        · rw [mem_pairsOf, mem_ofList, hr]; exact ⟨ha, hv⟩
        · rw [mem_pairsOf, mem_ofList, hr]; exact ⟨hb, hw⟩
        · simp [tupleOk, hne, ho]
    rw [← hiff]
    cases h : allOk tupleOk (pairsOf (run ops) (SSet.ofList docids)) with
    | true =>
      cases rv with
      | false => rw [nbest_asc_ok _ _ _ _ hl h]; simp
      | true =>
        cases limit with
        | none => exact absurd rfl (hrv rfl)
        | some n => rw [nbest_desc_ok _ _ _ _ h]; simp
    | false =>
      cases rv with
      | false => rw [nbest_asc_err _ _ _ _ hl h]; simp
      | true => rw [nbest_desc_err _ _ _ _ h]; simp
  · intro lz rv hlr
    have hiff : keysOk (fullKeys (run ops) (SSet.ofList docids)) = false ↔
        (∃ a ∈ docids, ∃ b ∈ docids, a ≠ b) ∧ ¬ Sortable (current ops) docids := by
      rw [← Bool.not_eq_true, keysOk_iff, not_or]
      apply and_congr
      · unfold fullKeys
        rw [List.length_map]
        constructor
        · intro h
          have hnd := SMap.keys_nodup (SSet.ofList docids)
          have hm : ∀ x, x ∈ (SSet.ofList docids).keys → x ∈ docids := fun x hx => (mem_ofList _ _).1 hx
          generalize SMap.keys (SSet.ofList docids) = l at h hnd hm
          match l, h with
          | [], h => simp at h
          | [a], h => simp at h
          | a :: b :: t, _ =>
            refine ⟨a, hm a (by simp), b, hm b (by simp), ?_⟩
            intro e
            rw [List.nodup_cons] at hnd
            exact hnd.1 (by rw [e]; simp)
        · rintro ⟨a, ha, b, hb, hab⟩ hc
          have ha' := (mem_ofList docids a).2 ha
          have hb' := (mem_ofList docids b).2 hb
          generalize SMap.keys (SSet.ofList docids) = l at ha' hb' hc
          match l, hc with
          | [], _ => simp at ha'
          | [x], _ =>
            simp only [List.mem_singleton] at ha' hb'
            exact hab (ha'.trans hb'.symm)
          | _ :: _ :: _, hc => simp at hc
      · apply not_congr
        unfold Sortable fullKeys
        constructor
        · rintro ⟨k, hk⟩
          refine ⟨k, fun d hd => ?_⟩
          rw [← hr]
          exact hk _ (List.mem_map.2 ⟨d, (mem_ofList _ _).2 hd, rfl⟩)
        · rintro ⟨k, hk⟩
          refine ⟨k, fun v hv => ?_⟩
          obtain ⟨d, hd, rfl⟩ := List.mem_map.1 hv
          rw [hr]
          exact hk d ((mem_ofList _ _).1 hd)
    rw [← hiff]
    cases h : keysOk (fullKeys (run ops) (SSet.ofList docids)) with
    | true =>
      cases rv with
      | true => rw [full_desc_ok _ _ _ _ hl h]; simp
      | false =>
        cases lz with
        | true => simp at hlr
        | false => rw [full_asc_ok _ _ _ hl h]; simp
    | false => rw [full_err _ _ _ _ _ hlr h]; simp

/-- C09 is false of the code: two documents with the value `None`, or `None` beside an int, cannot be sorted -/
theorem C09_fails :
    (run [.index 1 (toLex (0, 0)), .index 2 (toLex (0, 0))] : Field Nat ExV).sort false false [1, 2] false none
      = .error .TypeError ∧
    (run [.index 1 (toLex (0, 0)), .index 2 (toLex (1, 5))] : Field Nat ExV).sort false false [1, 2] false none
      = .error .TypeError := by
  decide

end sorting
end Verif
