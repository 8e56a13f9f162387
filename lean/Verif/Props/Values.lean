import Verif.Proofs.Values
import Verif.Props.Rename

/-!
# Property C94: values, keywords and words are only compared

`Verif.Spec.Values` says what it means to make the same calls with other values, keywords or words.
-/

set_option autoImplicit false

namespace Verif

open Spec

/-! ## field index: replacing the values in an order preserving way changes nothing -/

section field

open Verif.Field Spec.Field

variable {D V V' : Type} [LinearOrder D]

theorem field_mapValue (g : V → V') (ops : List (Field.Op D V)) (d : D) :
    current (ops.map (mapValue g)) d = (current ops d).map g := by
  induction ops using List.reverseRecOn with
  | nil => rfl
  | append_singleton ops op ih =>
    have e : ∀ (V : Type) (l : List (Field.Op D V)) (op : Field.Op D V), current (l ++ [op]) = update (current l) op := by
      intros; unfold current; rw [List.foldl_append]; rfl
    rw [List.map_append, List.map_cons, List.map_nil, e, e]
    cases op with
    | index d' v =>
      show (if d = d' then some (g v) else _) = Option.map g (if d = d' then some v else _)
      split
      · rfl
      · exact ih
    | unindex d' =>
      show (if d = d' then none else _) = Option.map g (if d = d' then none else _)
      split
      · rfl
      · exact ih
    | clear => rfl

/-- C94, field index: if the values and the bounds are replaced by others in the same order, range queries return the same documents,
and the counts are the same -/
theorem C94_field [LinearOrder V] [LinearOrder V'] (g : V → V') (hg : StrictMono g) (ops : List (Field.Op D V)) :
    (∀ lo hi, (Field.run (ops.map (mapValue g))).apply (.tuple [lo.map g, hi.map g]) = (Field.run ops).apply (.tuple [lo, hi])) ∧
    (Field.run (ops.map (mapValue g))).documentCount = (Field.run ops).documentCount ∧
    (Field.run (ops.map (mapValue g))).wordCount = (Field.run ops).wordCount := by
  have hc := field_mapValue g ops
  refine ⟨fun lo hi => ?_, ?_, ?_⟩
  · obtain ⟨r, e, hr⟩ := C01_range_query ops lo hi
    obtain ⟨r', e', hr'⟩ := C01_range_query (ops.map (mapValue g)) (lo.map g) (hi.map g)
    rw [e, e']
    congr 1
    refine SSet.ext_mem (fun d => ?_)
    show d ∈ r'.toList ↔ d ∈ r.toList
    rw [hr, hr', hc]
    have hin : ∀ v, InRange (lo.map g) (hi.map g) (g v) ↔ InRange lo hi v := by
      intro v
      unfold InRange
      cases lo <;> cases hi <;> simp [hg.le_iff_le]
    constructor
    · rintro ⟨v', hv', hi'⟩
      obtain ⟨v, hv, rfl⟩ := Option.map_eq_some_iff.1 hv'
      exact ⟨v, hv, (hin v).1 hi'⟩
    · rintro ⟨v, hv, hi⟩
      exact ⟨g v, by rw [hv]; rfl, (hin v).2 hi⟩
  · obtain ⟨n, e, hn⟩ := C02_document_count ops
    obtain ⟨n', e', hn'⟩ := C02_document_count (ops.map (mapValue g))
    rw [e, e']
    congr 1
    refine C02_count_unique _ _ _ hn' ?_
    simpa only [hc, Option.isSome_map] using hn
  · refine C02_count_unique _ _ _ (C02_word_count (ops.map (mapValue g))) (countIs_rename hg.injective (fun v' => ?_) (C02_word_count ops))
    constructor
    · rintro ⟨d, hd⟩
      rw [hc, Option.map_eq_some_iff] at hd
      obtain ⟨v, hv, rfl⟩ := hd
      exact ⟨v, ⟨d, hv⟩, rfl⟩
    · rintro ⟨v, ⟨d, hd⟩, rfl⟩
      exact ⟨d, by rw [hc, hd]; rfl⟩

variable [PyValue V] [PyValue V']

theorem listing_mapValue {g : V → V'} (hg : StrictMono g) (ops : List (Field.Op D V)) (docids L : List D)
    (h : IsListing (current ops) docids L) : IsListing (current (ops.map (mapValue g))) docids L := by
  have hc := field_mapValue g ops
  refine ⟨fun d => ?_, h.2.imp ?_⟩
  · rw [h.1, hc, Option.isSome_map]
  · intro a b hab va vb ha hb
    rw [hc, Option.map_eq_some_iff] at ha hb
    obtain ⟨va, ha, rfl⟩ := ha
    obtain ⟨vb, hb, rfl⟩ := hb
    exact (hab va vb ha hb).imp (fun x => hg x) (fun ⟨x, y⟩ => ⟨congrArg g x, y⟩)

/-- C94, sorting: the same documents in the same order -/
theorem C94_sort (g : V → V') (hg : StrictMono g) (ops : List (Field.Op D V)) (lz nb : Bool) (docids : List D) (limit : Option Int)
    (hl : ∀ n, limit = some n → 1 ≤ n) (hs : Sortable (current ops) docids) (hs' : Sortable (current (ops.map (mapValue g))) docids) :
    (Field.run (ops.map (mapValue g))).sort lz nb docids false limit = (Field.run ops).sort lz nb docids false limit := by
  obtain ⟨L, hL, e⟩ := C05_ascending ops lz nb docids limit hl hs
  obtain ⟨L', hL', e'⟩ := C05_ascending (ops.map (mapValue g)) lz nb docids limit hl hs'
  rw [e, e', C05_listing_unique _ _ _ _ hL' (listing_mapValue hg ops docids L hL)]

theorem listingDesc_mapValue {g : V → V'} (hg : StrictMono g) (ops : List (Field.Op D V)) (docids : List D) :
    listingDesc (Field.run (ops.map (mapValue g))) (SSet.ofList docids) = listingDesc (Field.run ops) (SSet.ofList docids) := by
  have hc := field_mapValue g ops
  obtain ⟨-, hr⟩ := run_spec ops
  obtain ⟨-, hr'⟩ := run_spec (ops.map (mapValue g))
  have hmem : ∀ x, x ∈ listingDesc (Field.run (ops.map (mapValue g))) (SSet.ofList docids) ↔
      x ∈ listingDesc (Field.run ops) (SSet.ofList docids) := by
    intro x
    simp only [mem_listingDesc, mem_ofList, hr, hr', hc, ← Option.isSome_iff_exists, Option.isSome_map]
  have hp := (List.perm_ext_iff_of_nodup (listingDesc_nodup _ _) (listingDesc_nodup (Field.run ops) (SSet.ofList docids))).2 hmem
  have hval : ∀ x ∈ listingDesc (Field.run (ops.map (mapValue g))) (SSet.ofList docids),
      ∃ v, (Field.run (ops.map (mapValue g))).rev.get? x = some v := fun x hx => ((mem_listingDesc _ _ _).1 hx).2
  refine List.Perm.eq_of_pairwise ?_ (listingDesc_sorted _ _) ?_ hp
  · intro a b ha hb hab hba
    obtain ⟨va, hva⟩ := hval a ha
    obtain ⟨vb, hvb⟩ := hval b ((hmem b).2 hb)
    rcases hab va vb hva hvb with h1 | h1 <;> rcases hba vb va hvb hva with h2 | h2
    · exact absurd h1 (lt_asymm h2)
    · exact absurd h1 (by rw [h2.1]; exact lt_irrefl _)
    · exact absurd h2 (by rw [h1.1]; exact lt_irrefl _)
    · exact absurd h1.2 (lt_asymm h2.2)
  · refine (listingDesc_sorted (Field.run ops) (SSet.ofList docids)).imp ?_
    intro a b hab va vb ha hb
    rw [hr', hc, Option.map_eq_some_iff] at ha hb
    obtain ⟨va, ha, rfl⟩ := ha
    obtain ⟨vb, hb, rfl⟩ := hb
    rw [← hr] at ha hb
    exact (hab va vb ha hb).imp (fun x => hg x) (fun ⟨x, y⟩ => ⟨congrArg g x, y⟩)

/-- C94, sorting in descending order: likewise -/
theorem C94_sort_descending (g : V → V') (hg : StrictMono g) (ops : List (Field.Op D V)) (lz nb : Bool) (docids : List D)
    (limit : Option Int) (hl : ∀ n, limit = some n → 1 ≤ n) (hnb : nb = true → limit ≠ none) (hs : Sortable (current ops) docids)
    (hs' : Sortable (current (ops.map (mapValue g))) docids) :
    (Field.run (ops.map (mapValue g))).sort lz nb docids true limit = (Field.run ops).sort lz nb docids true limit := by
  obtain ⟨hi, hr⟩ := run_spec ops
  obtain ⟨hk, ho⟩ := sortable_facts hr hs
  obtain ⟨hi', hr'⟩ := run_spec (ops.map (mapValue g))
  obtain ⟨hk', ho'⟩ := sortable_facts hr' hs'
  rw [sort_desc hi lz nb docids limit hl hnb hk ho, sort_desc hi' lz nb docids limit hl hnb hk' ho', listingDesc_mapValue hg]
  have hL := C05_listing_unique _ _ _ _ (isListing_listing (ops.map (mapValue g)) docids)
    (listing_mapValue hg ops docids _ (isListing_listing ops docids))
  rw [hL]

/-- other values in the same order, for the examples -/
def exShift (v : ExV) : ExV := toLex ((ofLex v).1, 2 * (ofLex v).2 + 1)

theorem exShift_mono : StrictMono exShift := by
  intro a b h
  unfold exShift
  rw [Prod.Lex.lt_iff] at h ⊢
  simp only [ofLex_toLex]
  omega

example : Sortable (current exOps) [4, 3, 2, 1, 9] := ⟨1, by decide⟩
example : Sortable (current (exOps.map (mapValue exShift))) [4, 3, 2, 1, 9] := ⟨1, by decide⟩
example : (Field.run (exOps.map (mapValue exShift))).sort false false [4, 3, 2, 1, 9] false none = .ok [2, 1, 3] := by decide
example : ((Field.run (exOps.map (mapValue exShift))).apply (.tuple [some (toLex (1, 11)), none])).toOption.map (·.toList) =
    some [1, 3] := by decide

end field

/-! ## keyword index: replacing different keywords by different keywords changes nothing -/

section keyword

open Keyword Spec.Keyword

variable {D W W' : Type} [LinearOrder D] [LinearOrder W] [LinearOrder W']

omit [LinearOrder W] [LinearOrder W'] in
theorem keyword_mapped {g : W → W'} {normalize : List W → List W} {normalize' : List W' → List W'}
    (hn : ∀ l, normalize' (l.map g) = (normalize l).map g) (ops : List (Keyword.Op D W)) (d : D) :
    current normalize' (ops.map (mapKeywords g)) d = (current normalize ops d).map g := by
  induction ops using List.reverseRecOn with
  | nil => rfl
  | append_singleton ops op ih =>
    have e : ∀ (W : Type) (nm : List W → List W) (l : List (Keyword.Op D W)) (op : Keyword.Op D W),
        current nm (l ++ [op]) = update nm (current nm l) op := by
      intros; unfold current; rw [List.foldl_append]; rfl
    rw [List.map_append, List.map_cons, List.map_nil, e, e]
    cases op with
    | index d' seq =>
      cases seq with
      | str => exact ih
      | seq truthy items =>
        show (if d = d' then (if truthy then normalize' (items.map g) else []) else _) =
          List.map g (if d = d' then (if truthy then normalize items else []) else _)
        split
        · split
          · exact hn items
          · rfl
        · exact ih
    | unindex d' =>
      show (if d = d' then [] else _) = List.map g (if d = d' then [] else _)
      split
      · rfl
      · exact ih
    | clear => rfl
    | optimize => exact ih
    | setThreshold n => exact ih

/-- C94, keyword index: if different keywords are replaced by different keywords, in a way that goes with the normalization, queries
return the same documents, and the counts are the same -/
theorem C94_keyword (g : W → W') (hg : Function.Injective g) (normalize : List W → List W) (normalize' : List W' → List W')
    (hn : ∀ l, normalize' (l.map g) = (normalize l).map g) (ops : List (Keyword.Op D W)) (hp : Plain normalize ops) :
    (∀ q o, o ≠ .other → (Keyword.run normalize' (ops.map (mapKeywords g))).search normalize' (mapQuery g q) o =
      (Keyword.run normalize ops).search normalize q o) ∧
    (Keyword.run normalize' (ops.map (mapKeywords g))).documentCount = (Keyword.run normalize ops).documentCount ∧
    (Keyword.run normalize' (ops.map (mapKeywords g))).wordCount = (Keyword.run normalize ops).wordCount ∧
    ∀ d, (Keyword.run normalize' (ops.map (mapKeywords g))).hasDoc d = (Keyword.run normalize ops).hasDoc d := by
  have hc := keyword_mapped hn ops
  have hp' : Plain normalize' (ops.map (mapKeywords g)) := by
    intro d items h
    obtain ⟨op, hop, e⟩ := List.mem_map.1 h
    cases op <;> simp only [mapKeywords, reduceCtorEq] at e
    rename_i d' seq
    cases seq <;> simp only [mapSeq, Keyword.Op.index.injEq, reduceCtorEq, and_false, SeqArg.seq.injEq] at e
    obtain ⟨rfl, rfl, rfl⟩ := e
    rw [hn]
    exact fun h => hp _ _ hop (List.map_eq_nil_iff.1 h)
  have hw : ∀ q, normalize' (words (mapQuery g q)) = (normalize (words q)).map g := by
    intro q
    rw [← hn]
    cases q <;> rfl
  have hmem : ∀ w d, g w ∈ current normalize' (ops.map (mapKeywords g)) d ↔ w ∈ current normalize ops d := by
    intro w d
    rw [hc, List.mem_map]
    exact ⟨fun ⟨a, ha, e⟩ => hg e ▸ ha, fun h => ⟨w, h, rfl⟩⟩
  have hne : ∀ d, current normalize' (ops.map (mapKeywords g)) d ≠ [] ↔ current normalize ops d ≠ [] := by
    intro d
    rw [hc, Ne, List.map_eq_nil_iff]
  refine ⟨fun q o ho => ?_, ?_, ?_, fun d => ?_⟩
  · cases o with
    | and =>
      obtain ⟨r, e, hr⟩ := C11_and normalize ops hp q
      obtain ⟨r', e', hr'⟩ := C11_and normalize' _ hp' (mapQuery g q)
      rw [e, e']
      congr 1
      refine SSet.ext_mem (fun d => ?_)
      show d ∈ r'.toList ↔ d ∈ r.toList
      rw [hr, hr', hw, Ne, List.map_eq_nil_iff]
      simp only [List.forall_mem_map, hmem]
    | or =>
      obtain ⟨r, e, hr⟩ := C11_or normalize ops hp q
      obtain ⟨r', e', hr'⟩ := C11_or normalize' _ hp' (mapQuery g q)
      rw [e, e']
      congr 1
      refine SSet.ext_mem (fun d => ?_)
      show d ∈ r'.toList ↔ d ∈ r.toList
      rw [hr, hr', hw]
      simp only [List.mem_map, exists_exists_and_eq_and, hmem]
    | other => exact absurd rfl ho
  · obtain ⟨n, e, hn⟩ := C12_document_count normalize ops hp
    obtain ⟨n', e', hn'⟩ := C12_document_count normalize' _ hp'
    rw [e, e']
    congr 1
    refine C02_count_unique _ _ _ hn' ?_
    simpa only [hne] using hn
  · refine C02_count_unique _ _ _ (C12_word_count normalize' _ hp') (countIs_rename hg (fun w' => ?_) (C12_word_count normalize ops hp))
    constructor
    · rintro ⟨d, hd⟩
      rw [hc, List.mem_map] at hd
      obtain ⟨w, hw, rfl⟩ := hd
      exact ⟨w, ⟨d, hw⟩, rfl⟩
    · rintro ⟨w, ⟨d, hd⟩, rfl⟩
      exact ⟨d, (hmem w d).2 hd⟩
  · rw [Bool.eq_iff_iff, C12_has_doc normalize' _ hp', C12_has_doc normalize ops hp, hne]

example : Function.Injective (fun w : Nat => 100 - (w : Int)) := by intro a b h; simpa using h
example : Plain id kwOps := kwOps_plain
example : ((Keyword.run id (kwOps.map (mapKeywords (fun w : Nat => 100 - (w : Int))))).search id
    (mapQuery (fun w : Nat => 100 - (w : Int)) (.seq [30, 20])) .and).toOption.map (·.toList) = some [1, 2] := by decide

end keyword

/-! ## text index: replacing different words by different words changes nothing -/

section text

open Text

variable {D R : Type} [LinearOrder D]

/-- C94, text index: if different words are replaced by different words, the calls fail with the same exceptions or succeed, then the
index holds the same documents with the same word ids, and searches for words and phrases, query weights and queries without patterns
give the same answers, with exactly the same scores, in every arithmetic -/
theorem C94_text (g : Word → Word) (hg : Function.Injective g) (pipeline pipeline' : List Element) (K : Kind D R)
    (ops ops' : List (Text.Op D)) (ho : List.Forall₂ (MappedCall g pipeline pipeline') ops ops') :
    (∀ e, run K pipeline ops = .error e ↔ run K pipeline' ops' = .error e) ∧
    ∀ s s', run K pipeline ops = .ok s → run K pipeline' ops' = .ok s' →
      s'.documentCount = s.documentCount ∧ s'.wordCount = s.wordCount ∧ s'.lex.wordCount = s.lex.wordCount ∧
      (∀ d, hasDoc s'.ix d = hasDoc s.ix d) ∧ (∀ d, getWords s'.ix d = getWords s.ix d) ∧
      (∀ t t', MappedText g pipeline pipeline' t t' →
        search K pipeline' s'.lex s'.ix t' = search K pipeline s.lex s.ix t ∧
        searchPhrase K pipeline' s'.lex s'.ix t' = searchPhrase K pipeline s.lex s.ix t) ∧
      (∀ ts ts', List.Forall₂ (MappedText g pipeline pipeline') ts ts' →
        queryWeight K pipeline' s' ts' = queryWeight K pipeline s ts) ∧
      ∀ odd n n', MappedQuery g pipeline pipeline' n n' → applyTree K odd pipeline' s' n' = applyTree K odd pipeline s n := by
  have h := sameRun hg K ho
  generalize run K pipeline ops = a at h
  generalize run K pipeline' ops' = b at h
  cases h with
  | error e => exact ⟨fun e' => Iff.rfl, fun s s' h => by cases h⟩
  | ok u u' hu hx =>
    refine ⟨fun e => ⟨fun h => (by cases h), fun h => (by cases h)⟩, fun s s' h h' => ?_⟩
    cases h
    cases h'
    refine ⟨by unfold TI.documentCount; rw [hx], by unfold TI.wordCount; rw [hx], hu.count, fun d => by rw [hx], fun d => by rw [hx],
      fun t t' ht => ⟨same_search hu hx ht, same_phrase hu hx ht⟩, fun ts ts' ht => ?_, fun odd n n' hq => same_applyTree odd hu hx hq⟩
    unfold queryWeight
    rw [same_terms hu ht, hx]

theorem pipelined_append (p q : List Element) (l : List Word) : Spec.pipelined (p ++ q) l = Spec.pipelined q (Spec.pipelined p l) := by
  induction p generalizing l with
  | nil => rfl
  | cons e p ih => exact ih (e.process l)

/-- an element at the end of the pipeline that replaces different words by different words -/
def replacing (g : Word → Word) : Element := { process := List.map g, processGlob := none }

/-- C94: so an element at the end of the pipeline that replaces different words by different words (encrypts them, for instance) changes
no answers of `search` and `search_phrase` -/
theorem C94_encrypted (g : Word → Word) (hg : Function.Injective g) (pipeline : List Element) (K : Kind D R) (ops : List (Text.Op D))
    (s s' : TI D R) (hr : run K pipeline ops = .ok s) (hr' : run K (pipeline ++ [replacing g]) ops = .ok s') (t : TextArg) :
    search K (pipeline ++ [replacing g]) s'.lex s'.ix t = search K pipeline s.lex s.ix t ∧
    searchPhrase K (pipeline ++ [replacing g]) s'.lex s'.ix t = searchPhrase K pipeline s.lex s.ix t := by
  have hw : ∀ t, wordsOf (pipeline ++ [replacing g]) t = (wordsOf pipeline t).map g := by
    intro t
    unfold wordsOf
    rw [pipelined_append]
    rfl
  obtain ⟨-, h⟩ := C94_text g hg pipeline (pipeline ++ [replacing g]) K ops ops (by
    rw [List.forall₂_same]
    intro op _
    cases op with
    | index d t => exact .index d t t (hw t)
    | unindex d => exact .unindex d
    | clear => exact .clear
    | lexicon op =>
      cases op with
      | source t => exact .source t t (hw t)
      | reload n => exact .reload n)
  obtain ⟨-, -, -, -, -, h, -⟩ := h s s' hr hr'
  exact h t t ⟨Iff.rfl, hw t⟩

example : Function.Injective (List.reverse : Word → Word) := List.reverse_injective
example : (run exOkapi (exPipeline ++ [replacing List.reverse]) exTextOps).isOk = true := by decide
example : wordsOf (exPipeline ++ [replacing List.reverse]) (.str ['d', 'o', 'g']) = [['g', 'o', 'd']] := by decide
example : ((run exOkapi (exPipeline ++ [replacing List.reverse]) exTextOps).toOption.bind fun s =>
    (search exOkapi (exPipeline ++ [replacing List.reverse]) s.lex s.ix (.str ['d', 'o', 'g'])).toOption.map (·.map (·.keys)))
    = some (some [3, 7]) := by decide
/-- the calls with the words reversed in the texts themselves -/
example : MappedCall (D := Nat) List.reverse exPipeline exPipeline (.index 7 (.str ['d', 'o', 'g', ' ', 'b', 'i', 'g']))
    (.index 7 (.str ['g', 'o', 'd', ' ', 'g', 'i', 'b'])) := .index _ _ _ (by decide)

end text
end Verif
