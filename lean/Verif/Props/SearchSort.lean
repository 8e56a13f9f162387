import Verif.Props.TextSearch
import Verif.Props.Keyword
import Verif.Props.Field
import Verif.Props.NBest

/-!
# Property C99: searching in one index, sorting by another or by score

`field.sort(text.apply(query))`, `field.sort(keywords.search(query))`, and `NBest(N)` fed with `text.apply(query).items()`.
-/

set_option autoImplicit false

namespace Verif

open Spec SetOps

/-- `L` lists the documents that are such and have a value, each once, by increasing value, and by docid where values are equal -/
def ListsByValue {D V : Type} [LinearOrder D] [LinearOrder V] (value : D → Option V) (such : D → Prop) (L : List D) : Prop :=
  (∀ d, d ∈ L ↔ such d ∧ ∃ v, value d = some v) ∧
  L.Pairwise (fun a b => ∀ va vb, value a = some va → value b = some vb → va < vb ∨ (va = vb ∧ a < b))

/-- of two found documents with their scores, the one that comes first: the better one, or the one with the smaller docid -/
def ComesFirst {D R : Type} [LinearOrder D] [LinearOrder R] (p q : D × R) : Prop := q.2 < p.2 ∨ (p.2 = q.2 ∧ p.1 < q.1)

section sort
variable {D V : Type} [LinearOrder D] [PyValue V]

/-- the values of the documents that are such can be compared with each other, and with `-1` if one of them has no value -/
def Comparable (value : D → Option V) (such : D → Prop) : Prop :=
  ∃ k : Nat, ∀ d, such d → PyValue.kind ((value d).getD PyValue.negOne) = some k

theorem sort_found (fops : List (Field.Op D V)) (lz nb : Bool) (ids : List D) (such : D → Prop) (hids : ∀ d, d ∈ ids ↔ such d)
    (limit : Option Int) (hl : ∀ n, limit = some n → 1 ≤ n) (hs : Comparable (Spec.Field.current fops) such) :
    ∃ L, ListsByValue (Spec.Field.current fops) such L ∧
      (Field.run fops).sort lz nb ids false limit = .ok (Spec.Field.cut limit L) := by
  obtain ⟨k, hk⟩ := hs
  obtain ⟨L, ⟨h1, h2⟩, h⟩ := C05_ascending fops lz nb ids limit hl ⟨k, fun d hd => hk d ((hids d).1 hd)⟩
  refine ⟨L, ⟨fun d => ?_, h2⟩, h⟩
  rw [h1, hids, Option.isSome_iff_exists]

/-- C99: `field.sort(text.apply(query))` gives the documents that match the query and have a value, by value; with a limit, the
first ones. `lz` and `nb` choose the strategy of the sort -/
theorem C99_text_sorted {R : Type} {A : Arith R} {Pos : R → Prop} {K : Text.Kind D R} (hA : Positive A Pos) (hK : Text.Ranked A Pos K)
    (isSpace : Char → Bool) (upper : Word → Word) (odd : Word → Except PyErr (Word → Bool)) (pipeline : List Element)
    (ops : List (Text.Op D)) (hs : SmallLexicon pipeline ops) (he : K.hasTotal = true → LengthsExact A pipeline ops) (s : Text.TI D R)
    (hr : Text.run K pipeline ops = .ok s) (q : Word) (hg : QueryFine isSpace upper pipeline ops q)
    (t : Node) (ign : List Word) (hq : QueryParser.parseQuery isSpace upper (Lexicon.parseTerms pipeline) q = .ok (t, ign))
    (P : D → Prop) (hP : (textLeaves pipeline ops).matches? t = some P)
    (fops : List (Field.Op D V)) (hc : Comparable (Spec.Field.current fops) P)
    (lz nb : Bool) (limit : Option Int) (hl : ∀ n, limit = some n → 1 ≤ n) :
    ∃ m L, Text.apply K isSpace upper odd pipeline s q = .ok (some m) ∧
      (Field.run fops).sort lz nb m.keys false limit = .ok (Spec.Field.cut limit L) ∧
      ListsByValue (Spec.Field.current fops) P L := by
  rcases C60_apply hA hK isSpace upper odd pipeline ops hs he s hr q hg with ⟨h, -⟩ | ⟨t', ign', h, h'⟩
  · rw [hq] at h; cases h
  · rw [hq] at h
    cases h
    rcases h' with ⟨h1, -⟩ | ⟨P', m, h1, h2, h3, -⟩
    · rw [hP] at h1; cases h1
    · rw [hP] at h1
      obtain rfl := Option.some.inj h1
      obtain ⟨L, hL, hsort⟩ := sort_found fops lz nb m.keys P h3 limit hl hc
      exact ⟨m, L, h2, hsort, hL⟩

/-- C99: `field.sort(keywords.search(query))` gives the documents that have the keywords of the query (all of them with `and`, one
of them with `or`) and have a value, by value; with a limit, the first ones -/
theorem C99_keyword_sorted {W : Type} [LinearOrder W] (normalize : List W → List W) (ops : List (Keyword.Op D W))
    (hp : Spec.Keyword.Plain normalize ops) (q : Keyword.QueryArg W) (fops : List (Field.Op D V)) (lz nb : Bool) (limit : Option Int)
    (hl : ∀ n, limit = some n → 1 ≤ n) :
    (Comparable (Spec.Field.current fops) (fun d => Spec.Keyword.current normalize ops d ≠ []) →
      (∃ r L, (Keyword.run normalize ops).search normalize q .and = .ok r ∧
        (Field.run fops).sort lz nb r.toList false limit = .ok (Spec.Field.cut limit L) ∧
        ListsByValue (Spec.Field.current fops) (fun d => normalize (Spec.Keyword.words q) ≠ [] ∧
          ∀ w ∈ normalize (Spec.Keyword.words q), w ∈ Spec.Keyword.current normalize ops d) L) ∧
      ∃ r L, (Keyword.run normalize ops).search normalize q .or = .ok r ∧
        (Field.run fops).sort lz nb r.toList false limit = .ok (Spec.Field.cut limit L) ∧
        ListsByValue (Spec.Field.current fops) (fun d =>
          ∃ w ∈ normalize (Spec.Keyword.words q), w ∈ Spec.Keyword.current normalize ops d) L) := by
  rintro ⟨k, hk⟩
  constructor
  · obtain ⟨r, h, h'⟩ := C11_and normalize ops hp q
    obtain ⟨L, hL, hsort⟩ := sort_found fops lz nb r.toList _ h' limit hl ⟨k, fun d hd => hk d (by
      obtain ⟨hne, hall⟩ := hd
      obtain ⟨w, hw⟩ := List.exists_mem_of_ne_nil _ hne
      exact List.ne_nil_of_mem (hall w hw))⟩
    exact ⟨r, L, h, hsort, hL⟩
  · obtain ⟨r, h, h'⟩ := C11_or normalize ops hp q
    obtain ⟨L, hL, hsort⟩ := sort_found fops lz nb r.toList _ h' limit hl ⟨k, fun d hd => hk d (by
      obtain ⟨w, -, hw⟩ := hd
      exact List.ne_nil_of_mem hw)⟩
    exact ⟨r, L, h, hsort, hL⟩

/-- C99: `index.sort(index.apply((lo, hi)))` gives the documents with a value in the range, by value; with a limit, the first ones -/
theorem C99_range_sorted (fops : List (Field.Op D V)) (lo hi : Option V)
    (hc : Comparable (Spec.Field.current fops) (fun d => ∃ v, Spec.Field.current fops d = some v ∧ Spec.Field.InRange lo hi v))
    (lz nb : Bool) (limit : Option Int) (hl : ∀ n, limit = some n → 1 ≤ n) :
    ∃ r L, (Field.run fops).apply (.tuple [lo, hi]) = .ok r ∧
      (Field.run fops).sort lz nb r.toList false limit = .ok (Spec.Field.cut limit L) ∧
      ListsByValue (Spec.Field.current fops) (fun d => ∃ v, Spec.Field.current fops d = some v ∧ Spec.Field.InRange lo hi v) L := by
  obtain ⟨r, h, h'⟩ := C01_range_query fops lo hi
  obtain ⟨L, hL, hsort⟩ := sort_found fops lz nb r.toList _ h' limit hl hc
  exact ⟨r, L, h, hsort, hL⟩

end sort

section best
variable {D R : Type} [LinearOrder D] [LinearOrder R]

/-- what `NBest` keeps of a mapping -/
theorem best_of_map (N : Nat) (hN : 1 ≤ N) (m : SMap D R) :
    ∃ b0 b : NBest D R, NBest.new (N : Int) = .ok b0 ∧ b0.addmany m.items = .ok b ∧
      b.getbest.length = min N m.keys.length ∧ (∀ p ∈ b.getbest, m.get? p.1 = some p.2) ∧ b.getbest.Pairwise ComesFirst ∧
      ∀ d v, m.get? d = some v → (d, v) ∉ b.getbest → ∀ p ∈ b.getbest, ComesFirst p (d, v) := by
  obtain ⟨b0, b, h0, h1, L, hL, hb⟩ := C25_nbest_exact N hN m.items
  have hord : L.Pairwise ComesFirst := by
    rw [List.pairwise_iff_forall_sublist]
    intro p q hpq
    have hle := (List.pairwise_iff_forall_sublist.1 hL.decreasing) hpq
    rcases lt_or_eq_of_le hle with h | h
    · exact Or.inl h
    · refine Or.inr ⟨h.symm, ?_⟩
      have h2 := hpq.filter (fun x => decide (x.2 = q.2))
      rw [hL.stable] at h2
      have h3 : [p, q].Sublist m.items := by
        refine List.Sublist.trans ?_ (List.filter_sublist (p := fun x => decide (x.2 = q.2)))
        simpa [h.symm] using h2
      exact (List.pairwise_iff_forall_sublist.1 m.sorted) h3
  refine ⟨b0, b, h0, h1, ?_, ?_, ?_, ?_⟩
  · rw [hb, List.length_take, hL.perm.length_eq]
    unfold SMap.keys
    rw [List.length_map]
  · intro p hp
    rw [hb] at hp
    exact (SMap.get?_eq_some_iff _ _ _).2 (hL.perm.mem_iff.1 (List.mem_of_mem_take hp))
  · rw [hb]
    exact hord.sublist (List.take_sublist _ _)
  · intro d v hd hn p hp
    rw [hb] at hn hp
    have hm : (d, v) ∈ L := hL.perm.mem_iff.2 ((SMap.get?_eq_some_iff _ _ _).1 hd)
    rw [← List.take_append_drop N L] at hord hm
    rcases List.mem_append.1 hm with h | h
    · exact absurd h hn
    · exact (List.pairwise_append.1 hord).2.2 p hp _ h

/-- C99: `NBest(N)` fed with the items of `text.apply(query)` holds the `N` documents with the highest scores among those that match
the query (all of them if they are fewer), in decreasing order of score; among documents with the same score the one with the
smaller docid comes first -/
theorem C99_text_best {A : Arith R} {Pos : R → Prop} {K : Text.Kind D R} (hA : Positive A Pos) (hK : Text.Ranked A Pos K)
    (isSpace : Char → Bool) (upper : Word → Word) (odd : Word → Except PyErr (Word → Bool)) (pipeline : List Element)
    (ops : List (Text.Op D)) (hs : SmallLexicon pipeline ops) (he : K.hasTotal = true → LengthsExact A pipeline ops) (s : Text.TI D R)
    (hr : Text.run K pipeline ops = .ok s) (q : Word) (hg : QueryFine isSpace upper pipeline ops q)
    (t : Node) (ign : List Word) (hq : QueryParser.parseQuery isSpace upper (Lexicon.parseTerms pipeline) q = .ok (t, ign))
    (P : D → Prop) (hP : (textLeaves pipeline ops).matches? t = some P) (N : Nat) (hN : 1 ≤ N) :
    ∃ m b0 b, Text.apply K isSpace upper odd pipeline s q = .ok (some m) ∧ NBest.new (N : Int) = .ok b0 ∧ b0.addmany m.items = .ok b ∧
      (∀ k, CountIs P k → b.getbest.length = min N k) ∧
      (∀ p ∈ b.getbest, P p.1 ∧ m.get? p.1 = some p.2) ∧ b.getbest.Pairwise ComesFirst ∧
      ∀ d, P d → (∀ p ∈ b.getbest, p.1 ≠ d) → ∃ v, m.get? d = some v ∧ ∀ p ∈ b.getbest, ComesFirst p (d, v) := by
  rcases C60_apply hA hK isSpace upper odd pipeline ops hs he s hr q hg with ⟨h, -⟩ | ⟨t', ign', h, h'⟩
  · rw [hq] at h; cases h
  · rw [hq] at h
    cases h
    rcases h' with ⟨h1, -⟩ | ⟨P', m, h1, h2, h3, -⟩
    · rw [hP] at h1; cases h1
    · rw [hP] at h1
      obtain rfl := Option.some.inj h1
      obtain ⟨b0, b, e0, e1, hlen, hmem, hpw, hout⟩ := best_of_map N hN m
      refine ⟨m, b0, b, h2, e0, e1, ?_, ?_, hpw, ?_⟩
      · intro k hk
        rw [hlen, C02_count_unique P _ _ ⟨m.keys, SMap.keys_nodup m, h3, rfl⟩ hk]
      · intro p hp
        refine ⟨(h3 _).1 ?_, hmem p hp⟩
        exact (SMap.mem_keys_iff _ _).2 ⟨_, hmem p hp⟩
      · intro d hd hno
        obtain ⟨v, hv⟩ := (SMap.mem_keys_iff _ _).1 ((h3 d).2 hd)
        exact ⟨v, hv, fun p hp => hout d v hv (fun hin => hno _ hin rfl) p hp⟩

end best

/-! ## The example: documents 3 and 7 have the word `dog`, their values are 4 and 2 -/

/-- the values of the example -/
def exSortOps : List (Field.Op Nat ExV) := [.index 3 (toLex (1, 4)), .index 7 (toLex (1, 2)), .index 9 (toLex (1, 1))]

theorem exSort_query : QueryParser.parseQuery exIsSpace exUpper (Lexicon.parseTerms exPipeline) ['d', 'o', 'g'] = .ok (.atom ['d', 'o', 'g'], []) := rfl

theorem exSort_matches : (textLeaves exPipeline exTextOps).matches? (.atom ['d', 'o', 'g']) =
    some (fun d => ∃ w ∈ wordsOf exPipeline (.str ['d', 'o', 'g']), Holds exPipeline exTextOps d w) := by
  rw [Leaves.matches?]
  rfl

theorem exSort_found (d : Nat) : (∃ w ∈ wordsOf exPipeline (.str ['d', 'o', 'g']), Holds exPipeline exTextOps d w) → d = 3 ∨ d = 7 := by
  rintro ⟨w, -, ws, hws, -⟩
  by_contra h
  push Not at h
  have hall : currentText exTextOps d = none := by
    simp [exTextOps, currentText, textStep, h.1, h.2]
  unfold docWords at hws
  rw [hall] at hws
  cases hws

example : ∃ s m b0 b L, Text.run (Text.okapi exPosArith { k1 := 1, b := 1 }) exPipeline exTextOps = .ok s ∧
    Text.apply (Text.okapi exPosArith { k1 := 1, b := 1 }) exIsSpace exUpper (fun _ => .ok (fun _ => false)) exPipeline s ['d', 'o', 'g'] =
      .ok (some m) ∧
    (Field.run exSortOps).sort false false m.keys false none = .ok L ∧ (7 ∈ L ∧ 3 ∈ L ∧ 9 ∉ L) ∧
    NBest.new 1 = .ok b0 ∧ b0.addmany m.items = .ok b ∧ b.getbest.length = 1 := by
  obtain ⟨s, hr, -⟩ := C51_documents _ (exRanked_okapi.lawful exPositive) exPipeline exTextOps exText_small
  have hfine : QueryFine exIsSpace exUpper exPipeline exTextOps ['d', 'o', 'g'] := by
    intro t ign h p hp
    rw [exSort_query] at h
    cases h
    cases hp
  have h7 : ∃ w ∈ wordsOf exPipeline (.str ['d', 'o', 'g']), Holds exPipeline exTextOps 7 w :=
    ⟨['d', 'o', 'g'], by decide, _, rfl, by decide⟩
  have h3 : ∃ w ∈ wordsOf exPipeline (.str ['d', 'o', 'g']), Holds exPipeline exTextOps 3 w :=
    ⟨['d', 'o', 'g'], by decide, _, rfl, by decide⟩
  obtain ⟨m, L, hm, hsort, hL⟩ := C99_text_sorted exPositive exRanked_okapi exIsSpace exUpper (fun _ => .ok (fun _ => false)) exPipeline
    exTextOps exText_small (fun _ => exText_exact) s hr ['d', 'o', 'g'] hfine _ _ exSort_query _ exSort_matches exSortOps
    ⟨1, fun d hd => by rcases exSort_found d hd with rfl | rfl <;> decide⟩ false false none (by simp)
  obtain ⟨m', b0, b, hm', e0, e1, hlen, -⟩ := C99_text_best exPositive exRanked_okapi exIsSpace exUpper (fun _ => .ok (fun _ => false))
    exPipeline exTextOps exText_small (fun _ => exText_exact) s hr ['d', 'o', 'g'] hfine _ _ exSort_query _ exSort_matches 1 (by simp)
  have e : (Except.ok (some m) : Except PyErr _) = .ok (some m') := hm.symm.trans hm'
  cases e
  refine ⟨s, m, b0, b, L, hr, hm, hsort, ⟨(hL.1 7).2 ⟨h7, _, rfl⟩, (hL.1 3).2 ⟨h3, _, rfl⟩, fun h9 => ?_⟩, e0, e1, ?_⟩
  · rcases exSort_found 9 ((hL.1 9).1 h9).1 with h | h <;> cases h
  · exact hlen 2 ⟨[3, 7], by simp, fun d => ⟨fun hd => by
      simp only [List.mem_cons, List.not_mem_nil, or_false] at hd
      rcases hd with rfl | rfl
      · exact h3
      · exact h7, fun hd => by rcases exSort_found d hd with rfl | rfl <;> simp⟩, rfl⟩

-- the same, computed: by value 7 comes before 3, by score 3 comes first
example : (Field.run exSortOps).sort false false [3, 7] false none = .ok [7, 3] := by decide
example : ((Text.run (Text.okapi exPosArith { k1 := 1, b := 1 }) exPipeline exTextOps).toOption.bind (fun s =>
    (Text.apply (Text.okapi exPosArith { k1 := 1, b := 1 }) exIsSpace exUpper (fun _ => .ok (fun _ => false)) exPipeline s
      ['d', 'o', 'g']).toOption)).map (fun r => r.map SMap.keys) = some (some [3, 7]) := by decide +kernel

/-- the values of keyword documents: documents 1 and 2 have the keyword 30, document 2 the smaller value -/
def exKwSortOps : List (Field.Op Nat ExV) := [.index 1 (toLex (1, 4)), .index 2 (toLex (1, 2)), .index 3 (toLex (1, 1))]

example : ∃ r, ∃ L : List Nat, (Keyword.run id kwOps).search id (.seq [30]) .or = .ok r ∧
    (Field.run exKwSortOps).sort false false r.toList false (some 1) = .ok (L.take 1) ∧ 1 ∈ L ∧ 2 ∈ L := by
  obtain ⟨-, r, L, h, h', hL⟩ := C99_keyword_sorted id kwOps kwOps_plain (.seq [30]) exKwSortOps false false (some 1)
    (by simp) ⟨1, fun d _ => by
      by_cases h1 : d = 1
      · subst h1; decide
      · by_cases h2 : d = 2
        · subst h2; decide
        · by_cases h3 : d = 3
          · subst h3; decide
          · simp [exKwSortOps, Spec.Field.current, Spec.Field.update, h1, h2, h3]
            decide⟩
  exact ⟨r, L, h, h', (hL.1 1).2 ⟨by decide, _, rfl⟩, (hL.1 2).2 ⟨by decide, _, rfl⟩⟩

example : ∃ r, ∃ L : List Nat, (Field.run exKwSortOps).apply (.tuple [some (toLex (1, 2)), none]) = .ok r ∧
    (Field.run exKwSortOps).sort true false r.toList false none = .ok L ∧ 1 ∈ L ∧ 2 ∈ L ∧ 3 ∉ L := by
  obtain ⟨r, L, h, h', hL⟩ := C99_range_sorted exKwSortOps (some (toLex (1, 2))) none ⟨1, fun d _ => by
      by_cases h1 : d = 1
      · subst h1; decide
      · by_cases h2 : d = 2
        · subst h2; decide
        · by_cases h3 : d = 3
          · subst h3; decide
          · simp [exKwSortOps, Spec.Field.current, Spec.Field.update, h1, h2, h3]
            decide⟩ true false none (by simp)
  refine ⟨r, L, h, h', (hL.1 1).2 ⟨⟨_, rfl, ?_, by simp⟩, _, rfl⟩, (hL.1 2).2 ⟨⟨_, rfl, ?_, by simp⟩, _, rfl⟩, fun h3 => ?_⟩
  · rintro l hl; cases hl; decide
  · rintro l hl; cases hl; decide
  · obtain ⟨⟨v, hv, hlo, -⟩, -⟩ := (hL.1 3).1 h3
    have e : some (toLex (1, 1)) = some v := hv
    cases e
    exact absurd (hlo _ rfl) (by decide)

end Verif
