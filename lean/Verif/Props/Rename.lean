import Verif.Props.Field
import Verif.Props.Keyword
import Verif.Props.Topic
import Verif.Props.ComposeScores
import Verif.Spec.Rename

/-!
# Property C91: docids are only names

`Verif.Spec.Rename` says what it means to make the same calls with other docids.
-/

set_option autoImplicit false

namespace Verif

open Spec

/-! ## field index -/

section field

open Field Spec.Field

variable {D D' V : Type} [LinearOrder D] [LinearOrder D']

theorem field_rename [LinearOrder V] {f : D → D'} (hf : Function.Injective f) (ops : List (Field.Op D V)) :
    (∀ d, current (ops.map (renameField f)) (f d) = current ops d) ∧
    ∀ x, (∀ d, f d ≠ x) → current (ops.map (renameField f)) x = none := by
  induction ops using List.reverseRecOn with
  | nil => exact ⟨fun _ => rfl, fun _ _ => rfl⟩
  | append_singleton ops op ih =>
    have e : ∀ (D : Type) [LinearOrder D] (l : List (Field.Op D V)) (op : Field.Op D V), current (l ++ [op]) = update (current l) op := by
      intros; unfold current; rw [List.foldl_append]; rfl
    rw [List.map_append, List.map_cons, List.map_nil, e, e]
    cases op with
    | index d' v =>
      refine ⟨fun d => ?_, fun x hx => ?_⟩
      · simp only [update, renameField, hf.eq_iff, ih.1]
      · simp only [update, renameField, if_neg (Ne.symm (hx d')), ih.2 x hx]
    | unindex d' =>
      refine ⟨fun d => ?_, fun x hx => ?_⟩
      · simp only [update, renameField, hf.eq_iff, ih.1]
      · simp only [update, renameField, if_neg (Ne.symm (hx d')), ih.2 x hx]
    | clear => exact ⟨fun _ => rfl, fun _ _ => rfl⟩

omit [LinearOrder D] [LinearOrder D'] in
theorem renamed_of {f : D → D'} {P : D → Prop} {P' : D' → Prop} (h1 : ∀ d, P' (f d) ↔ P d) (h2 : ∀ x, (∀ d, f d ≠ x) → ¬ P' x) (x : D') :
    P' x ↔ ∃ d, P d ∧ f d = x := by
  constructor
  · intro h
    by_contra hn
    refine h2 x (fun d hd => hn ⟨d, ?_, hd⟩) h
    rw [← h1, hd]; exact h
  · rintro ⟨d, hd, rfl⟩
    exact (h1 d).2 hd

/-- C91, field index: range queries return the new names of the documents they returned before -/
theorem C91_field [LinearOrder V] (f : D → D') (hf : Function.Injective f) (ops : List (Field.Op D V)) (lo hi : Option V) :
    ∃ r r', (Field.run ops).apply (.tuple [lo, hi]) = .ok r ∧ (Field.run (ops.map (renameField f))).apply (.tuple [lo, hi]) = .ok r' ∧
      RenamedDocs f r.toList r'.toList := by
  obtain ⟨r, e, hr⟩ := C01_range_query ops lo hi
  obtain ⟨r', e', hr'⟩ := C01_range_query (ops.map (renameField f)) lo hi
  refine ⟨r, r', e, e', fun x => ?_⟩
  obtain ⟨h1, h2⟩ := field_rename hf ops
  refine renamed_of (fun d => ?_) (fun x hx hm => ?_) x
  · rw [hr, hr', h1]
  · rw [hr', h2 x hx] at hm
    obtain ⟨v, hv, -⟩ := hm
    cases hv

omit [LinearOrder D] [LinearOrder D'] in
theorem countIs_rename {f : D → D'} (hf : Function.Injective f) {P : D → Prop} {P' : D' → Prop} (h : ∀ x, P' x ↔ ∃ d, P d ∧ f d = x)
    {n : Nat} (hn : CountIs P n) : CountIs P' n := by
  obtain ⟨l, h1, h2, h3⟩ := hn
  refine ⟨l.map f, h1.map hf, fun x => ?_, by rw [List.length_map, h3]⟩
  rw [h, List.mem_map]
  simp only [h2]

/-- C91, field index: and the counts are the same -/
theorem C91_field_counts [LinearOrder V] (f : D → D') (hf : Function.Injective f) (ops : List (Field.Op D V)) :
    (Field.run (ops.map (renameField f))).documentCount = (Field.run ops).documentCount ∧
    (Field.run (ops.map (renameField f))).wordCount = (Field.run ops).wordCount := by
  obtain ⟨h1, h2⟩ := field_rename hf ops
  constructor
  · obtain ⟨n, e, hn⟩ := C02_document_count ops
    obtain ⟨n', e', hn'⟩ := C02_document_count (ops.map (renameField f))
    rw [e, e']
    congr 1
    refine C02_count_unique _ _ _ hn' (countIs_rename (P' := fun d => (current (ops.map (renameField f)) d).isSome = true) hf
      (renamed_of (fun d => ?_) (fun x hx h => ?_)) hn)
    · rw [h1]
    · rw [h2 x hx] at h; cases h
  · refine C02_count_unique _ _ _ (C02_word_count (ops.map (renameField f))) ?_
    obtain ⟨l, a, b, c⟩ := C02_word_count ops
    refine ⟨l, a, fun v => (b v).trans ?_, c⟩
    constructor
    · rintro ⟨d, hd⟩; exact ⟨f d, by rw [h1]; exact hd⟩
    · rintro ⟨x, hx⟩
      by_cases h : ∃ d, f d = x
      · obtain ⟨d, rfl⟩ := h
        exact ⟨d, by rw [← h1]; exact hx⟩
      · rw [h2 x (fun d hd => h ⟨d, hd⟩)] at hx; cases hx

variable [PyValue V]

theorem sortable_rename {f : D → D'} (hf : Function.Injective f) (ops : List (Field.Op D V)) (docids : List D)
    (hs : Sortable (current ops) docids) : Sortable (current (ops.map (renameField f))) (docids.map f) := by
  obtain ⟨k, hk⟩ := hs
  refine ⟨k, fun x hx => ?_⟩
  obtain ⟨d, hd, rfl⟩ := List.mem_map.1 hx
  rw [(field_rename hf ops).1]
  exact hk d hd

theorem cut_map {α β : Type} (g : α → β) (limit : Option Int) (l : List α) : cut limit (l.map g) = (cut limit l).map g := by
  cases limit with
  | none => rfl
  | some n => exact (List.map_take ..).symm

theorem listing_rename {f : D → D'} (hf : StrictMono f) (ops : List (Field.Op D V)) (docids L : List D)
    (h : IsListing (current ops) docids L) : IsListing (current (ops.map (renameField f))) (docids.map f) (L.map f) := by
  obtain ⟨h1, h2⟩ := field_rename hf.injective ops
  constructor
  · intro x
    simp only [List.mem_map]
    constructor
    · rintro ⟨d, hd, rfl⟩
      obtain ⟨a, b⟩ := (h.1 d).1 hd
      exact ⟨⟨d, a, rfl⟩, by rw [h1]; exact b⟩
    · rintro ⟨⟨d, hd, rfl⟩, hx⟩
      rw [h1] at hx
      exact ⟨d, (h.1 d).2 ⟨hd, hx⟩, rfl⟩
  · rw [List.pairwise_map]
    refine h.2.imp ?_
    intro a b hab va vb ha hb
    rw [h1] at ha hb
    exact (hab va vb ha hb).imp_right (fun ⟨x, y⟩ => ⟨x, hf y⟩)

/-- C91, sorting: the order of documents with equal values depends on their docids, so the new names have to be in the same order
as the old ones; then `sort` yields the new names of the documents it yielded before, in the same order -/
theorem C91_sort (f : D → D') (hf : StrictMono f) (ops : List (Field.Op D V)) (lz nb : Bool) (docids : List D) (limit : Option Int)
    (hl : ∀ n, limit = some n → 1 ≤ n) (hs : Sortable (current ops) docids) :
    ∃ r, (Field.run ops).sort lz nb docids false limit = .ok r ∧
      (Field.run (ops.map (renameField f))).sort lz nb (docids.map f) false limit = .ok (r.map f) := by
  obtain ⟨L, hL, e⟩ := C05_ascending ops lz nb docids limit hl hs
  obtain ⟨L', hL', e'⟩ := C05_ascending (ops.map (renameField f)) lz nb (docids.map f) limit hl (sortable_rename hf.injective ops docids hs)
  refine ⟨_, e, ?_⟩
  rw [e', C05_listing_unique _ _ _ _ hL' (listing_rename hf ops docids L hL), cut_map]

theorem len_rename {f : D → D'} (hf : Function.Injective f) (docids : List D) :
    (SSet.ofList (docids.map f)).len = (SSet.ofList docids).len := by
  refine C02_count_unique (fun x => x ∈ docids.map f) _ _ ?_ ?_
  · exact ⟨(SSet.ofList (docids.map f)).keys, SMap.keys_nodup _, fun x => mem_ofList _ _, SMap.len_keys _⟩
  · refine countIs_rename (P := fun d => d ∈ docids) hf (fun x => by rw [List.mem_map]) ?_
    exact ⟨(SSet.ofList docids).keys, SMap.keys_nodup _, fun x => mem_ofList _ _, SMap.len_keys _⟩

theorem listingDesc_rename {f : D → D'} (hf : StrictMono f) (ops : List (Field.Op D V)) (docids : List D) :
    listingDesc (Field.run (ops.map (renameField f))) (SSet.ofList (docids.map f)) =
      (listingDesc (Field.run ops) (SSet.ofList docids)).map f := by
  obtain ⟨h1, h2⟩ := field_rename hf.injective ops
  obtain ⟨-, hr⟩ := run_spec ops
  obtain ⟨-, hr'⟩ := run_spec (ops.map (renameField f))
  have hmem : ∀ x, x ∈ listingDesc (Field.run (ops.map (renameField f))) (SSet.ofList (docids.map f)) ↔
      x ∈ (listingDesc (Field.run ops) (SSet.ofList docids)).map f := by
    intro x
    simp only [mem_listingDesc, mem_ofList, List.mem_map, hr, hr']
    constructor
    · rintro ⟨⟨d, hd, rfl⟩, v, hv⟩
      exact ⟨d, ⟨hd, v, by rw [← h1]; exact hv⟩, rfl⟩
    · rintro ⟨d, ⟨hd, v, hv⟩, rfl⟩
      exact ⟨⟨d, hd, rfl⟩, v, by rw [h1]; exact hv⟩
  have hp := (List.perm_ext_iff_of_nodup (listingDesc_nodup _ _) ((listingDesc_nodup (Field.run ops) (SSet.ofList docids)).map hf.injective)).2 hmem
  have hval : ∀ x ∈ listingDesc (Field.run (ops.map (renameField f))) (SSet.ofList (docids.map f)),
      ∃ v, (Field.run (ops.map (renameField f))).rev.get? x = some v := fun x hx => ((mem_listingDesc _ _ _).1 hx).2
  refine List.Perm.eq_of_pairwise ?_ (listingDesc_sorted _ _) ?_ hp
  · intro a b ha hb hab hba
    obtain ⟨va, hva⟩ := hval a ha
    obtain ⟨vb, hvb⟩ := hval b ((hmem b).2 hb)
    rcases hab va vb hva hvb with h1 | h1 <;> rcases hba vb va hvb hva with h2 | h2
    · exact absurd h1 (lt_asymm h2)
    · exact absurd h1 (by rw [h2.1]; exact lt_irrefl _)
    · exact absurd h2 (by rw [h1.1]; exact lt_irrefl _)
    · exact absurd h1.2 (lt_asymm h2.2)
  · rw [List.pairwise_map]
    refine (listingDesc_sorted (Field.run ops) (SSet.ofList docids)).imp ?_
    intro a b hab va vb ha hb
    rw [hr', h1, ← hr] at ha hb
    exact (hab va vb ha hb).imp_right (fun ⟨x, y⟩ => ⟨x, hf y⟩)

/-- C91, sorting in descending order: likewise -/
theorem C91_sort_descending (f : D → D') (hf : StrictMono f) (ops : List (Field.Op D V)) (lz nb : Bool) (docids : List D)
    (limit : Option Int) (hl : ∀ n, limit = some n → 1 ≤ n) (hnb : nb = true → limit ≠ none) (hs : Sortable (current ops) docids) :
    ∃ r, (Field.run ops).sort lz nb docids true limit = .ok r ∧
      (Field.run (ops.map (renameField f))).sort lz nb (docids.map f) true limit = .ok (r.map f) := by
  obtain ⟨hi, hr⟩ := run_spec ops
  obtain ⟨hk, ho⟩ := sortable_facts hr hs
  obtain ⟨hi', hr'⟩ := run_spec (ops.map (renameField f))
  obtain ⟨hk', ho'⟩ := sortable_facts hr' (sortable_rename hf.injective ops docids hs)
  refine ⟨_, sort_desc hi lz nb docids limit hl hnb hk ho, ?_⟩
  rw [sort_desc hi' lz nb (docids.map f) limit hl hnb hk' ho', len_rename hf.injective, ← cut_map]
  have hL := C05_listing_unique _ _ _ _ (isListing_listing (ops.map (renameField f)) (docids.map f))
    (listing_rename hf ops docids _ (isListing_listing ops docids))
  split
  · rw [hL, List.map_reverse]
  · rw [listingDesc_rename hf]

/-- C91: with names in another order, documents with equal values are yielded in another order -/
theorem C91_sort_ties :
    Function.Injective (fun d : Int => -d) ∧
    (Field.run [.index 1 (toLex (1, 5)), .index 2 (toLex (1, 5))] : Field Int ExV).sort false false [1, 2] false none = .ok [1, 2] ∧
    (Field.run ([.index 1 (toLex (1, 5)), .index 2 (toLex (1, 5))].map (renameField (fun d : Int => -d))) : Field Int ExV).sort false false
      ([1, 2].map (fun d : Int => -d)) false none = .ok [-2, -1] := ⟨neg_injective, by decide, by decide⟩

example : StrictMono (fun d : Nat => 10 * d + 7) := by intro a b h; show 10 * a + 7 < 10 * b + 7; omega
example : Sortable (current exOps) [4, 3, 2, 1, 9] := ⟨1, by decide⟩
example : (Field.run (exOps.map (renameField (fun d : Nat => 10 * d + 7)))).sort false false ([4, 3, 2, 1, 9].map (fun d => 10 * d + 7))
    false none = .ok [27, 17, 37] := by decide
example : (Field.run (exOps.map (renameField (fun d : Nat => 10 * d + 7)))).sort false false ([4, 3, 2, 1, 9].map (fun d => 10 * d + 7))
    true (some 1) = .ok [37] := by decide

end field

/-! ## keyword index -/

section keyword

open Keyword Spec.Keyword

variable {D D' W : Type} [LinearOrder D] [LinearOrder D'] [LinearOrder W]

theorem keyword_rename {f : D → D'} (hf : Function.Injective f) (normalize : List W → List W) (ops : List (Keyword.Op D W)) :
    (∀ d, current normalize (ops.map (renameKeyword f)) (f d) = current normalize ops d) ∧
    ∀ x, (∀ d, f d ≠ x) → current normalize (ops.map (renameKeyword f)) x = [] := by
  induction ops using List.reverseRecOn with
  | nil => exact ⟨fun _ => rfl, fun _ _ => rfl⟩
  | append_singleton ops op ih =>
    have e : ∀ (D : Type) [DecidableEq D] (l : List (Keyword.Op D W)) (op : Keyword.Op D W),
        current normalize (l ++ [op]) = update normalize (current normalize l) op := by
      intros; unfold current; rw [List.foldl_append]; rfl
    rw [List.map_append, List.map_cons, List.map_nil, e, e]
    cases op with
    | index d' seq =>
      cases seq with
      | str => exact ih
      | seq truthy items =>
        refine ⟨fun d => ?_, fun x hx => ?_⟩
        · simp only [update, renameKeyword, hf.eq_iff, ih.1]
        · simp only [update, renameKeyword, if_neg (Ne.symm (hx d')), ih.2 x hx]
    | unindex d' =>
      refine ⟨fun d => ?_, fun x hx => ?_⟩
      · simp only [update, renameKeyword, hf.eq_iff, ih.1]
      · simp only [update, renameKeyword, if_neg (Ne.symm (hx d')), ih.2 x hx]
    | clear => exact ⟨fun _ => rfl, fun _ _ => rfl⟩
    | optimize => exact ih
    | setThreshold n => exact ih

theorem plain_rename (f : D → D') (normalize : List W → List W) {ops : List (Keyword.Op D W)} (hp : Plain normalize ops) :
    Plain normalize (ops.map (renameKeyword f)) := by
  intro x items h
  obtain ⟨op, hop, e⟩ := List.mem_map.1 h
  cases op <;> simp only [renameKeyword, reduceCtorEq] at e
  rename_i d seq
  cases e
  exact hp d items hop

/-- C91, keyword index: queries return the new names of the documents they returned before -/
theorem C91_keyword (f : D → D') (hf : Function.Injective f) (normalize : List W → List W) (ops : List (Keyword.Op D W))
    (hp : Plain normalize ops) (q : QueryArg W) (o : Operator) (ho : o ≠ .other) :
    ∃ r r', (Keyword.run normalize ops).search normalize q o = .ok r ∧
      (Keyword.run normalize (ops.map (renameKeyword f))).search normalize q o = .ok r' ∧ RenamedDocs f r.toList r'.toList := by
  obtain ⟨h1, h2⟩ := keyword_rename hf normalize ops
  have hp' := plain_rename f normalize hp
  cases o with
  | and =>
    obtain ⟨r, e, hr⟩ := C11_and normalize ops hp q
    obtain ⟨r', e', hr'⟩ := C11_and normalize _ hp' q
    refine ⟨r, r', e, e', fun x => renamed_of (fun d => ?_) (fun x hx hm => ?_) x⟩
    · rw [hr, hr', h1]
    · rw [hr', h2 x hx] at hm
      obtain ⟨w, hw⟩ := List.exists_mem_of_ne_nil _ hm.1
      exact absurd (hm.2 w hw) List.not_mem_nil
  | or =>
    obtain ⟨r, e, hr⟩ := C11_or normalize ops hp q
    obtain ⟨r', e', hr'⟩ := C11_or normalize _ hp' q
    refine ⟨r, r', e, e', fun x => renamed_of (fun d => ?_) (fun x hx hm => ?_) x⟩
    · rw [hr, hr', h1]
    · rw [hr', h2 x hx] at hm
      obtain ⟨w, -, hw⟩ := hm
      exact absurd hw List.not_mem_nil
  | other => exact absurd rfl ho

/-- C91, keyword index: and the counts are the same -/
theorem C91_keyword_counts (f : D → D') (hf : Function.Injective f) (normalize : List W → List W) (ops : List (Keyword.Op D W))
    (hp : Plain normalize ops) :
    (Keyword.run normalize (ops.map (renameKeyword f))).documentCount = (Keyword.run normalize ops).documentCount ∧
    (Keyword.run normalize (ops.map (renameKeyword f))).wordCount = (Keyword.run normalize ops).wordCount ∧
    ∀ d, (Keyword.run normalize (ops.map (renameKeyword f))).hasDoc (f d) = (Keyword.run normalize ops).hasDoc d := by
  obtain ⟨h1, h2⟩ := keyword_rename hf normalize ops
  have hp' := plain_rename f normalize hp
  refine ⟨?_, ?_, ?_⟩
  · obtain ⟨n, e, hn⟩ := C12_document_count normalize ops hp
    obtain ⟨n', e', hn'⟩ := C12_document_count normalize _ hp'
    rw [e, e']
    congr 1
    refine C02_count_unique _ _ _ hn' (countIs_rename hf (renamed_of (fun d => ?_) (fun x hx h => ?_)) hn)
    · rw [h1]
    · exact h (h2 x hx)
  · refine C02_count_unique _ _ _ (C12_word_count normalize _ hp') ?_
    obtain ⟨l, a, b, c⟩ := C12_word_count normalize ops hp
    refine ⟨l, a, fun v => (b v).trans ?_, c⟩
    constructor
    · rintro ⟨d, hd⟩; exact ⟨f d, by rw [h1]; exact hd⟩
    · rintro ⟨x, hx⟩
      by_cases h : ∃ d, f d = x
      · obtain ⟨d, rfl⟩ := h
        exact ⟨d, by rw [← h1]; exact hx⟩
      · rw [h2 x (fun d hd => h ⟨d, hd⟩)] at hx; exact absurd hx List.not_mem_nil
  · intro d
    rw [Bool.eq_iff_iff, C12_has_doc normalize _ hp', C12_has_doc normalize ops hp, h1]

example : Function.Injective (fun d : Nat => 100 - (d : Int)) := by intro a b h; simpa using h
example : ((Keyword.run id (kwOps.map (renameKeyword (fun d : Nat => 100 - (d : Int))))).search id (.seq [30, 20]) .and).toOption.map
    (·.toList) = some [98, 99] := by decide

end keyword

/-! ## topic index -/

section topic

open Topic Spec.Topic

variable {F D D' E X : Type} [LinearOrder F] [LinearOrder D] [LinearOrder D']

theorem exprAt_rename (f : D → D') (ops : List (Topic.Op F D E X)) (i : F) : exprAt (ops.map (renameTopic f)) i = exprAt ops i := by
  induction ops using List.reverseRecOn with
  | nil => rfl
  | append_singleton ops op ih =>
    rw [List.map_append, List.map_cons, List.map_nil, exprAt_append, exprAt_append, ih]
    cases op <;> rfl

theorem allPython_rename (f : D → D') {ops : List (Topic.Op F D E X)} (hp : AllPython ops) : AllPython (ops.map (renameTopic f)) := by
  intro i g h
  obtain ⟨op, hop, e⟩ := List.mem_map.1 h
  cases op <;> simp only [renameTopic, reduceCtorEq] at e
  rename_i j g'
  cases e
  exact hp i g' hop

theorem leaves_rename {f : D → D'} (hf : Function.Injective f) (i : F) (d : D) (op : Topic.Op F D E X) :
    Spec.Topic.Leaves i (f d) (renameTopic f op) ↔ Spec.Topic.Leaves i d op := by
  cases op <;> simp [Spec.Topic.Leaves, renameTopic, hf.eq_iff]

theorem enters_rename {f : D → D'} (hf : Function.Injective f) {eval : E → D → X → Except Unit Bool} {eval' : E → D' → X → Except Unit Bool}
    (he : ∀ e d x, eval' e (f d) x = eval e d x) (pre : List (Topic.Op F D E X)) (i : F) (d : D) (op : Topic.Op F D E X) :
    Enters eval' (pre.map (renameTopic f)) i (f d) (renameTopic f op) ↔ Enters eval pre i d op := by
  have hmem : ∀ g : Filter D E, f d ∈ SMap.keys (SSet.ofList (g.ids.toList.map f)) ↔ d ∈ g.ids.keys := by
    intro g
    rw [Field.mem_ofList, List.mem_map]
    exact ⟨fun ⟨a, ha, e⟩ => hf e ▸ ha, fun h => ⟨d, h, rfl⟩⟩
  cases op with
  | addFilter j g =>
    simp only [Enters, renameTopic, reduceCtorEq, false_and, exists_false, false_or, Topic.Op.addFilter.injEq]
    constructor
    · rintro ⟨f', ⟨rfl, rfl⟩, h⟩; exact ⟨g, ⟨rfl, rfl⟩, (hmem g).1 h⟩
    · rintro ⟨f', ⟨rfl, rfl⟩, h⟩; exact ⟨_, ⟨rfl, rfl⟩, (hmem g).2 h⟩
  | index d' obj =>
    simp only [Enters, renameTopic, reduceCtorEq, false_and, exists_false, or_false, Topic.Op.index.injEq, exprAt_rename]
    constructor
    · rintro ⟨o, e, ⟨h, rfl⟩, h2, h3⟩
      obtain rfl := hf h
      exact ⟨obj, e, ⟨rfl, rfl⟩, h2, by rw [← he]; exact h3⟩
    · rintro ⟨o, e, ⟨rfl, rfl⟩, h2, h3⟩
      exact ⟨obj, e, ⟨rfl, rfl⟩, h2, by rw [he]; exact h3⟩
  | _ => simp [Enters, renameTopic]

theorem held_rename {f : D → D'} (hf : Function.Injective f) {eval : E → D → X → Except Unit Bool} {eval' : E → D' → X → Except Unit Bool}
    (he : ∀ e d x, eval' e (f d) x = eval e d x) (ops : List (Topic.Op F D E X)) (i : F) :
    (∀ d, Held eval' (ops.map (renameTopic f)) i (f d) ↔ Held eval ops i d) ∧
    ∀ x, (∀ d, f d ≠ x) → ¬ Held eval' (ops.map (renameTopic f)) i x := by
  refine ⟨fun d => ⟨?_, ?_⟩, ?_⟩
  · rintro ⟨pre, op, post, h, hen, hl⟩
    obtain ⟨pre0, rest, rfl, rfl, h'⟩ := List.map_eq_append_iff.1 h
    obtain ⟨op0, post0, rfl, rfl, rfl⟩ := List.map_eq_cons_iff.1 h'
    refine ⟨pre0, op0, post0, rfl, (enters_rename hf he _ _ _ _).1 hen, fun o ho h => ?_⟩
    exact hl _ (List.mem_map_of_mem ho) ((leaves_rename hf i d o).2 h)
  · rintro ⟨pre, op, post, rfl, hen, hl⟩
    refine ⟨pre.map (renameTopic f), renameTopic f op, post.map (renameTopic f), by simp, (enters_rename hf he _ _ _ _).2 hen, ?_⟩
    intro o ho h
    obtain ⟨o', ho', rfl⟩ := List.mem_map.1 ho
    exact hl o' ho' ((leaves_rename hf i d o').1 h)
  · rintro x hx ⟨pre, op, post, h, hen, -⟩
    obtain ⟨pre0, rest, rfl, rfl, h'⟩ := List.map_eq_append_iff.1 h
    obtain ⟨op0, post0, rfl, rfl, rfl⟩ := List.map_eq_cons_iff.1 h'
    rcases hen with ⟨obj, e, h1, -⟩ | ⟨g, h1, h2⟩
    · cases op0 <;> simp only [renameTopic, reduceCtorEq] at h1
      cases h1
      exact hx _ rfl
    · cases op0 <;> simp only [renameTopic, reduceCtorEq] at h1
      cases h1
      rw [Field.mem_ofList, List.mem_map] at h2
      obtain ⟨d, -, hd⟩ := h2
      exact hx d hd

/-- C91, topic index: queries return the new names of the documents they returned before, if the filters give the same results for
the new names (an expression can mention the docid) -/
theorem C91_topic (f : D → D') (hf : Function.Injective f) (eval : E → D → X → Except Unit Bool) (eval' : E → D' → X → Except Unit Bool)
    (he : ∀ e d x, eval' e (f d) x = eval e d x) (ops : List (Topic.Op F D E X)) (hp : AllPython ops) (q : QueryArg F) (hq : q ≠ .other)
    (o : Keyword.Operator) (ho : o ≠ .other) :
    ∃ r r', (Topic.run eval ops).search q o = .ok r ∧ (Topic.run eval' (ops.map (renameTopic f))).search q o = .ok r' ∧
      RenamedDocs f r.toList r'.toList := by
  have hp' := allPython_rename f hp
  have hc : ∀ i, (∀ d, f d ∈ contents (Topic.run eval' (ops.map (renameTopic f))) i ↔ d ∈ contents (Topic.run eval ops) i) ∧
      ∀ x, (∀ d, f d ≠ x) → x ∉ contents (Topic.run eval' (ops.map (renameTopic f))) i := by
    intro i
    obtain ⟨h1, h2⟩ := held_rename hf he ops i
    refine ⟨fun d => ?_, fun x hx => ?_⟩
    · rw [C19_contents _ _ hp', C19_contents _ _ hp, h1]
    · rw [C19_contents _ _ hp']; exact h2 x hx
  have hreg : ∀ i, (Topic.run eval' (ops.map (renameTopic f))).filters.contains i = (Topic.run eval ops).filters.contains i := by
    intro i
    have a := (Topic.run_inv eval' _ hp').expr i
    have b := (Topic.run_inv eval _ hp).expr i
    rw [exprAt_rename, ← b] at a
    have := congrArg Option.isSome a
    simp only [Option.isSome_map] at this
    exact this
  cases o with
  | or =>
    obtain ⟨r, e, hr⟩ := C21_or (Topic.run eval ops) q hq
    obtain ⟨r', e', hr'⟩ := C21_or (Topic.run eval' (ops.map (renameTopic f))) q hq
    refine ⟨r, r', e, e', fun x => renamed_of (fun d => ?_) (fun x hx hm => ?_) x⟩
    · rw [hr, hr']; simp only [(hc _).1]
    · rw [hr'] at hm
      obtain ⟨i, -, h⟩ := hm
      exact (hc i).2 x hx h
  | and =>
    obtain ⟨r, e, hr⟩ := C21_and (Topic.run eval ops) q hq
    obtain ⟨r', e', hr'⟩ := C21_and (Topic.run eval' (ops.map (renameTopic f))) q hq
    refine ⟨r, r', e, e', fun x => renamed_of (fun d => ?_) (fun x hx hm => ?_) x⟩
    · rw [hr, hr']; simp only [(hc _).1, hreg]
    · rw [hr'] at hm
      obtain ⟨⟨i, hi, h⟩, h2⟩ := hm
      exact (hc i).2 x hx (h2 i hi h)
  | other => exact absurd rfl ho

example : AllPython topicOps := topicOps_python
example : ∀ e d x, (fun e (d : Int) x => exEval e (d + 3).toNat x) e ((fun d : Nat => 100 - (d : Int)) d) x = exEval e d x := fun _ _ _ => rfl
example : ((Topic.run (fun e (d : Int) x => exEval e (d + 3).toNat x) (topicOps.map (renameTopic (fun d : Nat => 100 - (d : Int))))).search
    (.seq [6, 5, 9]) .or).toOption.map (·.toList) = some [96, 97, 98, 99] := by decide

end topic

/-! ## text index -/

section text

open Text SetOps QueryParser

variable {D D' : Type} [LinearOrder D] [LinearOrder D']

theorem text_rename {f : D → D'} (hf : Function.Injective f) (ops : List (Text.Op D)) :
    (∀ d, currentText (ops.map (renameText f)) (f d) = currentText ops d) ∧
    ∀ x, (∀ d, f d ≠ x) → currentText (ops.map (renameText f)) x = none := by
  induction ops using List.reverseRecOn with
  | nil => exact ⟨fun _ => rfl, fun _ _ => rfl⟩
  | append_singleton ops op ih =>
    have e : ∀ (D : Type) [DecidableEq D] (l : List (Text.Op D)) (op : Text.Op D), currentText (l ++ [op]) = textStep (currentText l) op := by
      intros; unfold currentText; rw [List.foldl_append]; rfl
    rw [List.map_append, List.map_cons, List.map_nil, e, e]
    cases op with
    | index d' t =>
      refine ⟨fun d => ?_, fun x hx => ?_⟩
      · simp only [textStep, renameText, hf.eq_iff, ih.1]
      · simp only [textStep, renameText, if_neg (Ne.symm (hx d')), ih.2 x hx]
    | unindex d' =>
      refine ⟨fun d => ?_, fun x hx => ?_⟩
      · simp only [textStep, renameText, hf.eq_iff, ih.1]
      · simp only [textStep, renameText, if_neg (Ne.symm (hx d')), ih.2 x hx]
    | clear => exact ⟨fun _ => rfl, fun _ _ => rfl⟩
    | lexicon op => exact ih

theorem lexCalls_rename (f : D → D') (ops : List (Text.Op D)) : lexCalls (ops.map (renameText f)) = lexCalls ops := by
  unfold lexCalls
  rw [List.filterMap_map]
  congr 1
  funext op
  cases op <;> rfl

theorem lexAfter_rename (f : D → D') (pipeline : List Element) (ops : List (Text.Op D)) :
    lexAfter pipeline (ops.map (renameText f)) = lexAfter pipeline ops := by unfold lexAfter; rw [lexCalls_rename]

theorem small_rename (f : D → D') {pipeline : List Element} {ops : List (Text.Op D)} (hs : SmallLexicon pipeline ops) :
    SmallLexicon pipeline (ops.map (renameText f)) := by
  unfold SmallLexicon
  rw [lexCalls_rename, lexAfter_rename]
  exact hs

theorem fine_rename (f : D → D') {pipeline : List Element} {ops : List (Text.Op D)} {t : Node} (hg : GlobsFine pipeline ops t) :
    GlobsFine pipeline (ops.map (renameText f)) t := by
  unfold GlobsFine
  rw [lexCalls_rename]
  exact hg

section

variable {f : D → D'} (hf : Function.Injective f) (pipeline : List Element) (ops : List (Text.Op D))

include hf

theorem docWords_rename (d : D) : docWords pipeline (ops.map (renameText f)) (f d) = docWords pipeline ops d := by
  unfold docWords; rw [(text_rename hf ops).1]

theorem docWords_other {x : D'} (hx : ∀ d, f d ≠ x) : docWords pipeline (ops.map (renameText f)) x = none := by
  unfold docWords; rw [(text_rename hf ops).2 x hx]; rfl

theorem holds_rename (d : D) (w : Word) : Holds pipeline (ops.map (renameText f)) (f d) w ↔ Holds pipeline ops d w := by
  unfold Holds; rw [docWords_rename hf]

theorem holds_other {x : D'} (hx : ∀ d, f d ≠ x) (w : Word) : ¬ Holds pipeline (ops.map (renameText f)) x w := by
  rintro ⟨ws, h, -⟩
  rw [docWords_other hf pipeline ops hx] at h
  cases h

theorem numHolders_rename (w : Word) : numHolders pipeline (ops.map (renameText f)) w = numHolders pipeline ops w := by
  unfold numHolders
  rw [← Set.ncard_image_of_injective {d | Holds pipeline ops d w} hf]
  congr 1
  ext x
  exact renamed_of (P' := fun x => Holds pipeline (ops.map (renameText f)) x w) (fun d => holds_rename hf pipeline ops d w)
    (fun x hx => holds_other hf pipeline ops hx w) x

omit pipeline in
theorem numDocs_rename : numDocs (ops.map (renameText f)) = numDocs ops := by
  unfold numDocs
  rw [← Set.ncard_image_of_injective {d | ∃ t, currentText ops d = some t} hf]
  congr 1
  ext x
  refine renamed_of (P' := fun x => ∃ t, currentText (ops.map (renameText f)) x = some t) (fun d => ?_) (fun x hx => ?_) x
  · rw [(text_rename hf ops).1]; rfl
  · rintro ⟨t, ht⟩; rw [(text_rename hf ops).2 x hx] at ht; cases ht

theorem wordIdf_rename (w : Word) : wordIdf pipeline (ops.map (renameText f)) w = wordIdf pipeline ops w := by
  unfold wordIdf; rw [numHolders_rename hf, numDocs_rename hf]

theorem okapiRate_rename (P : Bm25 ℝ) (mean : ℝ) (w : Word) (d : D) :
    okapiRate pipeline (ops.map (renameText f)) P mean w (f d) = okapiRate pipeline ops P mean w d := by
  unfold okapiRate; rw [docWords_rename hf, wordIdf_rename hf]

theorem cosineRate_rename (w : Word) (d : D) :
    cosineRate pipeline (ops.map (renameText f)) w (f d) = cosineRate pipeline ops w d := by
  unfold cosineRate; rw [docWords_rename hf, wordIdf_rename hf]

theorem leafRate_rename {rate : Word → D → ℝ} {rate' : Word → D' → ℝ} (hr : ∀ w d, rate' w (f d) = rate w d) (n : Node) (d : D) :
    leafRate pipeline (ops.map (renameText f)) rate' n (f d) = leafRate pipeline ops rate n d := by
  cases n <;> simp only [leafRate, hr, docWords_rename hf]

end

/-- the leaves `L` are the leaves `L'` under the new names -/
structure LeavesVia (f : D → D') (L : Spec.Leaves D) (L' : Spec.Leaves D') : Prop where
  word : ∀ w, L.word w = (L'.word w).map (fun P d => P (f d))
  phrase : ∀ ws, L.phrase ws = (L'.phrase ws).map (fun P d => P (f d))
  glob : ∀ p, L.glob p = (L'.glob p).map (fun P d => P (f d))

/-- no leaf of `L` matches `x` -/
structure NoLeaf (L : Spec.Leaves D) (x : D) : Prop where
  word : ∀ w P, L.word w = some P → ¬ P x
  phrase : ∀ ws P, L.phrase ws = some P → ¬ P x
  glob : ∀ p P, L.glob p = some P → ¬ P x

section trees

variable {f : D → D'} {L : Spec.Leaves D} {L' : Spec.Leaves D'} (h : LeavesVia f L L')

include h

mutual

theorem matches_via (t : Node) : L.matches? t = (L'.matches? t).map (fun P d => P (f d)) := by
  cases t with
  | atom w => exact h.word w
  | phrase ws => exact h.phrase ws
  | glob p => exact h.glob p
  | not n => rfl
  | and l =>
    simp only [Leaves.matches?, Option.map_some, positive_via l, negative_via l]
    congr 1
    funext d
    simp
  | or l =>
    simp only [Leaves.matches?, Option.map_some, parts_via l]
    congr 1
    funext d
    simp

theorem positive_via (l : List Node) : L.positive l = (L'.positive l).map (fun P d => P (f d)) := by
  cases l with
  | nil => rfl
  | cons n l =>
    have h1 := positive_via l
    have h2 := matches_via n
    cases n <;> simp only [Leaves.positive, h1, h2, List.map_append] <;> (try rw [← Option.toList_map]) 

theorem negative_via (l : List Node) : L.negative l = (L'.negative l).map (fun P d => P (f d)) := by
  cases l with
  | nil => rfl
  | cons n l =>
    have h1 := negative_via l
    cases n with
    | not m =>
      have h2 := matches_via m
      simp only [Leaves.negative, h1, h2, List.map_append, Option.toList_map]
    | _ => simp only [Leaves.negative, h1]

theorem parts_via (l : List Node) : L.parts l = (L'.parts l).map (fun P d => P (f d)) := by
  cases l with
  | nil => rfl
  | cons n l =>
    have h1 := parts_via l
    have h2 := matches_via n
    simp only [Leaves.parts, h1, h2, List.map_append, Option.toList_map]

end

theorem Matches_via (t : Node) (d : D) : L'.Matches t (f d) ↔ L.Matches t d := by
  unfold Leaves.Matches
  rw [matches_via h]
  constructor
  · rintro ⟨P, e, hP⟩; exact ⟨_, by rw [e]; rfl, hP⟩
  · rintro ⟨P, e, hP⟩
    obtain ⟨P', e', rfl⟩ := Option.map_eq_some_iff.1 e
    exact ⟨P', e', hP⟩

mutual

theorem score_via {rate : Node → D → ℝ} {rate' : Node → D' → ℝ} (hr : ∀ n d, rate' n (f d) = rate n d) (t : Node) (d : D) :
    score L' rate' t (f d) = score L rate t d := by
  cases t with
  | not n => simp only [score]
  | and l =>
    by_cases hm : L.Matches (.and l) d
    · simp only [score, if_pos hm, if_pos ((Matches_via h _ d).2 hm), scoreSum_via hr l d]
    · simp only [score, if_neg hm, if_neg (fun x => hm ((Matches_via h _ d).1 x))]
  | or l =>
    by_cases hm : L.Matches (.or l) d
    · simp only [score, if_pos hm, if_pos ((Matches_via h _ d).2 hm), scoreSum_via hr l d]
    · simp only [score, if_neg hm, if_neg (fun x => hm ((Matches_via h _ d).1 x))]
  | atom w =>
    by_cases hm : L.Matches (.atom w) d
    · simp only [score, if_pos hm, if_pos ((Matches_via h _ d).2 hm), hr]
    · simp only [score, if_neg hm, if_neg (fun x => hm ((Matches_via h _ d).1 x))]
  | phrase w =>
    by_cases hm : L.Matches (.phrase w) d
    · simp only [score, if_pos hm, if_pos ((Matches_via h _ d).2 hm), hr]
    · simp only [score, if_neg hm, if_neg (fun x => hm ((Matches_via h _ d).1 x))]
  | glob w =>
    by_cases hm : L.Matches (.glob w) d
    · simp only [score, if_pos hm, if_pos ((Matches_via h _ d).2 hm), hr]
    · simp only [score, if_neg hm, if_neg (fun x => hm ((Matches_via h _ d).1 x))]

theorem scoreSum_via {rate : Node → D → ℝ} {rate' : Node → D' → ℝ} (hr : ∀ n d, rate' n (f d) = rate n d) (l : List Node) (d : D) :
    scoreSum L' rate' l (f d) = scoreSum L rate l d := by
  cases l with
  | nil => simp only [scoreSum]
  | cons n l => simp only [scoreSum, score_via hr n d, scoreSum_via hr l d]

end

end trees

section none

variable {L : Spec.Leaves D} {x : D} (h : NoLeaf L x)

include h

mutual

theorem no_match (t : Node) (P : D → Prop) (e : L.matches? t = some P) : ¬ P x := by
  cases t with
  | atom w => exact h.word w P e
  | phrase ws => exact h.phrase ws P e
  | glob p => exact h.glob p P e
  | not n => cases e
  | and l =>
    simp only [Leaves.matches?, Option.some.injEq] at e
    rintro hP
    rw [← e] at hP
    obtain ⟨Q, hQ⟩ := List.exists_mem_of_ne_nil _ hP.1
    exact no_positive l Q hQ (hP.2.1 Q hQ)
  | or l =>
    simp only [Leaves.matches?, Option.some.injEq] at e
    rintro hP
    rw [← e] at hP
    obtain ⟨Q, hQ, hx⟩ := hP
    exact no_part l Q hQ hx

theorem no_positive (l : List Node) (P : D → Prop) (hP : P ∈ L.positive l) : ¬ P x := by
  cases l with
  | nil => cases hP
  | cons n l =>
    have h1 := no_positive l P
    have h2 := no_match n P
    cases n <;> simp only [Leaves.positive, List.mem_append, Option.mem_toList] at hP <;>
      first | exact h1 hP | exact hP.elim (fun e => h2 e) h1

theorem no_part (l : List Node) (P : D → Prop) (hP : P ∈ L.parts l) : ¬ P x := by
  cases l with
  | nil => cases hP
  | cons n l =>
    simp only [Leaves.parts, List.mem_append, Option.mem_toList] at hP
    exact hP.elim (fun e => no_match n P e) (no_part l P)

end

end none

theorem leaves_via {f : D → D'} (hf : Function.Injective f) (pipeline : List Element) (ops : List (Text.Op D)) :
    LeavesVia f (textLeaves pipeline ops) (textLeaves pipeline (ops.map (renameText f))) := by
  refine ⟨fun w => ?_, fun ws => ?_, fun p => ?_⟩
  · simp only [textLeaves]
    split
    · rfl
    · simp only [Option.map_some, holds_rename hf]
  · simp only [textLeaves, Option.map_some, PhraseFound, docWords_rename hf, lexAfter_rename]
  · simp only [textLeaves, Option.map_some, HasGlob, holds_rename hf]

theorem leaves_other {f : D → D'} (hf : Function.Injective f) (pipeline : List Element) (ops : List (Text.Op D)) {x : D'}
    (hx : ∀ d, f d ≠ x) : NoLeaf (textLeaves pipeline (ops.map (renameText f))) x := by
  refine ⟨fun w P e => ?_, fun ws P e => ?_, fun p P e => ?_⟩
  · simp only [textLeaves] at e
    split at e
    · cases e
    · cases e
      rintro ⟨v, -, h⟩
      exact holds_other hf pipeline ops hx v h
  · cases e
    rintro ⟨doc, i, l, v, h, -⟩
    rw [docWords_other hf pipeline ops hx] at h
    cases h
  · cases e
    rintro ⟨w, h, -⟩
    exact holds_other hf pipeline ops hx w h

theorem rename_apply {K : Kind D ℝ} {K' : Kind D' ℝ} (hK : Ranked realArith (fun x => 0 < x) K) (hK' : Ranked realArith (fun x => 0 < x) K')
    {f : D → D'} (hf : Function.Injective f) (isSpace : Char → Bool) (upper : Word → Word)
    (odd : Word → Except PyErr (Word → Bool)) {pipeline : List Element} {ops : List (Text.Op D)} (hs : SmallLexicon pipeline ops)
    {s : TI D ℝ} (hr : run K pipeline ops = .ok s) {s' : TI D' ℝ} (hr' : run K' pipeline (ops.map (renameText f)) = .ok s')
    {rate : Word → D → ℝ} {rate' : Word → D' → ℝ} (hrate : ∀ w d, rate' w (f d) = rate w d)
    (hsc : ∀ q t ign, parseQuery isSpace upper (Lexicon.parseTerms pipeline) q = .ok (t, ign) → GlobsFine pipeline ops t →
      ∃ r, t.execute realArith.toWArith (searcher K odd pipeline s) = .ok r ∧
        Scored (textLeaves pipeline ops) (leafRate pipeline ops rate) t r)
    (hsc' : ∀ q t ign, parseQuery isSpace upper (Lexicon.parseTerms pipeline) q = .ok (t, ign) →
      GlobsFine pipeline (ops.map (renameText f)) t →
      ∃ r, t.execute realArith.toWArith (searcher K' odd pipeline s') = .ok r ∧
        Scored (textLeaves pipeline (ops.map (renameText f))) (leafRate pipeline (ops.map (renameText f)) rate') t r)
    (hw : ∀ t : Node, queryWeight K' pipeline s' t.terms = queryWeight K pipeline s t.terms)
    (q : Word) (hg : QueryFine isSpace upper pipeline ops q) :
    RenamedAnswer f (apply K isSpace upper odd pipeline s q) (apply K' isSpace upper odd pipeline s' q) := by
  cases hq : parseQuery isSpace upper (Lexicon.parseTerms pipeline) q with
  | error e =>
    have : ∀ {D : Type} [LinearOrder D] (K : Kind D ℝ) (s : TI D ℝ), apply K isSpace upper odd pipeline s q = .error .ParseError := by
      intro D _ K s
      unfold apply
      rw [hq]
    rw [this, this]
    exact .error _
  | ok v =>
    obtain ⟨t, ign⟩ := v
    obtain ⟨w, r, ew, er, hn, hm⟩ := apply_scored hK isSpace upper odd hs hr hsc q t ign hq (hg t ign hq)
    obtain ⟨w', r', ew', er', hn', hm'⟩ := apply_scored hK' isSpace upper odd (small_rename f hs) hr' hsc' q t ign hq
      (fine_rename f (hg t ign hq))
    have hv := leaves_via hf pipeline ops
    rw [er, er']
    rw [hw, ew] at ew'
    obtain rfl := Except.ok.inj ew'
    rw [matches_via hv, Option.map_eq_none_iff] at hn
    cases r with
    | none =>
      rw [hn'.2 (hn.1 rfl)]
      exact .none
    | some m =>
      cases r' with
      | none => have := hn.2 (hn'.1 rfl); cases this
      | some m' =>
        have key : ∀ d, m'.get? (f d) = m.get? d := by
          intro d
          apply Option.ext
          intro v
          rw [hm m rfl d v, hm' m' rfl (f d) v, Matches_via hv, score_via hv (fun n d => leafRate_rename hf pipeline ops hrate n d)]
        refine .some m m' key (fun x => renamed_of (fun d => ?_) (fun x hx h => ?_) x)
        · rw [SMap.mem_keys_iff, SMap.mem_keys_iff, key]
        · obtain ⟨v, hv'⟩ := (SMap.mem_keys_iff m' x).1 h
          obtain ⟨⟨P, e, hP⟩, -⟩ := (hm' m' rfl x v).1 hv'
          exact no_match (leaves_other hf pipeline ops hx) t P e hP

theorem total_rename {f : D → D'} (hf : Function.Injective f) {K : Kind D ℝ} {K' : Kind D' ℝ} (hK : Lawful K) (hK' : Lawful K')
    (ht : K'.hasTotal = K.hasTotal) (hl : ∀ ws, K'.arith.toInt (K'.arith.store (fr K' ws).2) = K.arith.toInt (K.arith.store (fr K ws).2))
    (pipeline : List Element) (ops : List (Text.Op D)) (hs : SmallLexicon pipeline ops)
    {s : TI D ℝ} (hr : run K pipeline ops = .ok s) {s' : TI D' ℝ} (hr' : run K' pipeline (ops.map (renameText f)) = .ok s') :
    s'.ix.total = s.ix.total := by
  induction ops using List.reverseRecOn generalizing s s' with
  | nil => cases hr; cases hr'; rfl
  | append_singleton ops op ih =>
    have hs0 := small_prefix hs
    obtain ⟨t, e, el, hi⟩ := run_ok hK pipeline ops hs0
    obtain ⟨t', e', el', hi'⟩ := run_ok hK' pipeline _ (small_rename f hs0)
    have h0 := ih hs0 e e'
    obtain ⟨u, eu, -, -, hu⟩ := step_ok hK pipeline ops op t hs el hi
    have hs' := small_rename f hs
    rw [List.map_append, List.map_cons, List.map_nil] at hs' hr'
    obtain ⟨u', eu', -, -, hu'⟩ := step_ok hK' pipeline (ops.map (renameText f)) (renameText f op) t' hs' el' hi'
    rw [run_snoc, e] at hr
    rw [run_snoc, e'] at hr'
    obtain rfl : u = s := Except.ok.inj (eu.symm.trans hr)
    obtain rfl : u' = s' := Except.ok.inj (eu'.symm.trans hr')
    have hlen : ∀ d, lenOf K' (docWids pipeline (ops.map (renameText f))) (f d) = lenOf K (docWids pipeline ops) d := by
      intro d
      unfold lenOf docWids
      rw [docWords_rename hf, lexAfter_rename]
      cases docWords pipeline ops d with
      | none => rfl
      | some ws => exact hl _
    rw [hu, hu', h0, ht]
    congr 1
    cases op <;> simp only [renameText, hlen]

/-- C91, OkapiIndex: `apply` returns the new names of the documents it returned before, with the same scores, or raises the same
exception (real arithmetic) -/
theorem C91_okapi (f : D → D') (hf : Function.Injective f) (P : Bm25 ℝ) (hP : Bm25Params P) (isSpace : Char → Bool) (upper : Word → Word)
    (odd : Word → Except PyErr (Word → Bool)) (pipeline : List Element) (ops : List (Text.Op D)) (hs : SmallLexicon pipeline ops)
    (q : Word) (hg : QueryFine isSpace upper pipeline ops q) :
    ∃ s s', run (okapi realArith P) pipeline ops = .ok s ∧ run (okapi realArith P) pipeline (ops.map (renameText f)) = .ok s' ∧
      RenamedAnswer f (apply (okapi realArith P) isSpace upper odd pipeline s q)
        (apply (okapi realArith P) isSpace upper odd pipeline s' q) := by
  have hK := ranked_okapi (D := D) hP
  have hK' := ranked_okapi (D := D') hP
  have hs' := small_rename f hs
  obtain ⟨s, hr, -⟩ := run_ok (hK.lawful real_positive) pipeline ops hs
  obtain ⟨s', hr', -⟩ := run_ok (hK'.lawful real_positive) pipeline _ hs'
  refine ⟨s, s', hr, hr', ?_⟩
  have ht : s'.ix.total = s.ix.total :=
    total_rename hf (hK.lawful real_positive) (hK'.lawful real_positive) rfl (fun _ => rfl) pipeline ops hs hr hr'
  refine rename_apply hK hK' hf isSpace upper odd hs hr hr'
    (rate := okapiRate pipeline ops P (s.ix.total / (numDocs ops : ℝ)))
    (rate' := okapiRate pipeline (ops.map (renameText f)) P (s'.ix.total / (numDocs (ops.map (renameText f)) : ℝ))) ?_ ?_ ?_ ?_ q hg
  · intro w d
    rw [okapiRate_rename hf, numDocs_rename hf, ht]
  · intro q t ign hq hg
    obtain ⟨r, e, ha, hv⟩ := query_scores hK isSpace upper odd hs hr (okapi_ratedBy hP hs hr) q t ign hq hg
    exact ⟨r, e, scored_of ha hv⟩
  · intro q t ign hq hg
    obtain ⟨r, e, ha, hv⟩ := query_scores hK' isSpace upper odd hs' hr' (okapi_ratedBy hP hs' hr') q t ign hq hg
    exact ⟨r, e, scored_of ha hv⟩
  · intro t
    rw [C61_query_weight P hP pipeline _ hs' s' hr' _ (terms_ne_none t), C61_query_weight P hP pipeline ops hs s hr _ (terms_ne_none t)]
    simp only [wordIdf_rename hf]

/-- C91, CosineIndex: likewise -/
theorem C91_cosine (f : D → D') (hf : Function.Injective f) (isSpace : Char → Bool) (upper : Word → Word)
    (odd : Word → Except PyErr (Word → Bool)) (pipeline : List Element) (ops : List (Text.Op D)) (hs : SmallLexicon pipeline ops)
    (q : Word) (hg : QueryFine isSpace upper pipeline ops q) :
    ∃ s s', run (cosine realArith) pipeline ops = .ok s ∧ run (cosine realArith) pipeline (ops.map (renameText f)) = .ok s' ∧
      RenamedAnswer f (apply (cosine realArith) isSpace upper odd pipeline s q)
        (apply (cosine realArith) isSpace upper odd pipeline s' q) := by
  have hK := ranked_cosine (D := D)
  have hK' := ranked_cosine (D := D')
  have hs' := small_rename f hs
  obtain ⟨s, hr, -⟩ := run_ok (hK.lawful real_positive) pipeline ops hs
  obtain ⟨s', hr', -⟩ := run_ok (hK'.lawful real_positive) pipeline _ hs'
  refine ⟨s, s', hr, hr', ?_⟩
  refine rename_apply hK hK' hf isSpace upper odd hs hr hr' (cosineRate_rename hf pipeline ops) ?_ ?_ ?_ q hg
  · exact fun q t ign hq hg => C69_cosine isSpace upper odd pipeline ops hs s hr q t ign hq hg
  · exact fun q t ign hq hg => C69_cosine isSpace upper odd pipeline _ hs' s' hr' q t ign hq hg
  · intro t
    rw [C62_query_weight pipeline _ hs' s' hr' _ (terms_ne_none t), C62_query_weight pipeline ops hs s hr _ (terms_ne_none t)]
    simp only [wordIdf_rename hf]

example : SmallLexicon exPipeline exOneOps := exOne_small
example : QueryFine exIsSpace exUpper exPipeline exOneOps ['b', 'i', 'g'] := by
  intro t ign h
  have e : parseQuery exIsSpace exUpper (Lexicon.parseTerms exPipeline) ['b', 'i', 'g'] = .ok (.atom ['b', 'i', 'g'], []) := rfl
  rw [e] at h
  cases h
  intro p hp
  cases hp

end text

end Verif
