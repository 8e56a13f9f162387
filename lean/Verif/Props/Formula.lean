import Verif.Spec.Formula
import Verif.Props.QueryAlgebra

/-!
# Property C95: the laws of logic hold for queries

`Verif.Spec.Formula`: queries joined by `OR`, `AND` and `AND NOT`, however deeply.
-/

set_option autoImplicit false

namespace Verif

open Spec QueryParser Text

variable {D R : Type} [LinearOrder D] {A : Arith R} {Pos : R → Prop} {K : Kind D R}

theorem paired_formula (f : Formula) (h : ∀ q ∈ f.queries, QuotesPaired q) : QuotesPaired f.text := by
  have two : ∀ q1 q2 kws, QuotesPaired q1 → QuotesPaired q2 → kws = [['O', 'R']] ∨ kws = [['A', 'N', 'D']] ∨
      kws = [['A', 'N', 'D'], ['N', 'O', 'T']] → QuotesPaired (combine q1 kws q2) := by
    intro q1 q2 kws h1 h2 hk
    unfold QuotesPaired combine at *
    rcases hk with rfl | rfl | rfl <;>
      simp [List.count_append] <;> omega
  induction f with
  | query q => exact h q (List.mem_singleton_self q)
  | or a b iha ihb =>
    exact two _ _ _ (iha fun q hq => h q (List.mem_append_left _ hq)) (ihb fun q hq => h q (List.mem_append_right _ hq)) (.inl rfl)
  | and a b iha ihb =>
    exact two _ _ _ (iha fun q hq => h q (List.mem_append_left _ hq)) (ihb fun q hq => h q (List.mem_append_right _ hq)) (.inr (.inl rfl))
  | andNot a b iha ihb =>
    exact two _ _ _ (iha fun q hq => h q (List.mem_append_left _ hq)) (ihb fun q hq => h q (List.mem_append_right _ hq)) (.inr (.inr rfl))

theorem fine_combined {isSpace : Char → Bool} {upper : Word → Word} (hsp : SpaceOk isSpace) (hu : KeywordsOk isSpace upper)
    {pipeline : List Element} {ops : List (Text.Op D)} {q1 q2 : Word}
    (g1 : QueryFine isSpace upper pipeline ops q1) (g2 : QueryFine isSpace upper pipeline ops q2)
    (e1 : QuotesPaired q1) (e2 : QuotesPaired q2) {t1 t2 : Node} {ign1 ign2 : List Word}
    (p1 : parseQuery isSpace upper (Lexicon.parseTerms pipeline) q1 = .ok (t1, ign1))
    (p2 : parseQuery isSpace upper (Lexicon.parseTerms pipeline) q2 = .ok (t2, ign2)) :
    QueryFine isSpace upper pipeline ops (combine q1 [['O', 'R']] q2) ∧
    QueryFine isSpace upper pipeline ops (combine q1 [['A', 'N', 'D']] q2) ∧
    QueryFine isSpace upper pipeline ops (combine q1 [['A', 'N', 'D'], ['N', 'O', 'T']] q2) := by
  obtain ⟨po, pa, pn, -⟩ := C76_parse isSpace upper _ hsp hu q1 q2 e1 e2 t1 t2 ign1 ign2 p1 p2
  refine ⟨fun t ign h => ?_, fun t ign h => ?_, fun t ign h => ?_⟩
  · rw [po] at h; cases h; exact .or (g1 _ _ p1) (g2 _ _ p2)
  · rw [pa] at h; cases h; exact .and (g1 _ _ p1) (g2 _ _ p2)
  · rw [pn] at h; cases h; exact .and (g1 _ _ p1) (.not (g2 _ _ p2))

/-- C95: if `apply` accepts some queries with paired double quotes and answers with documents (not with `None`, the answer to a query
whose words are all ignored), it accepts every formula of these queries, and finds the documents for which the formula is true.
`v q d` says that the query `q` finds the document `d`. -/
theorem C95_formula (hA : Positive A Pos) (hK : Ranked A Pos K) (isSpace : Char → Bool) (upper : Word → Word)
    (hsp : SpaceOk isSpace) (hu : KeywordsOk isSpace upper)
    (odd : Word → Except PyErr (Word → Bool)) (pipeline : List Element) (ops : List (Text.Op D)) (hs : SmallLexicon pipeline ops)
    (he : K.hasTotal = true → LengthsExact A pipeline ops) (s : TI D R) (hr : run K pipeline ops = .ok s)
    (v : Word → D → Prop) (f : Formula)
    (hq : ∀ q ∈ f.queries, QuotesPaired q ∧ QueryFine isSpace upper pipeline ops q ∧
      ∃ m, apply K isSpace upper odd pipeline s q = .ok (some m) ∧ ∀ d, d ∈ m.keys ↔ v q d) :
    ∃ m, apply K isSpace upper odd pipeline s f.text = .ok (some m) ∧ ∀ d, d ∈ m.keys ↔ f.truth (fun q => v q d) := by
  have parsed : ∀ q r, QueryFine isSpace upper pipeline ops q → apply K isSpace upper odd pipeline s q = .ok r → ∃ t ign,
      parseQuery isSpace upper (Lexicon.parseTerms pipeline) q = .ok (t, ign) := by
    intro q r hg h
    rcases C60_apply hA hK isSpace upper odd pipeline ops hs he s hr q hg with ⟨-, h'⟩ | ⟨t, ign, hq, -⟩
    · rw [h] at h'; cases h'
    · exact ⟨t, ign, hq⟩
  suffices h : QueryFine isSpace upper pipeline ops f.text ∧
      ∃ m, apply K isSpace upper odd pipeline s f.text = .ok (some m) ∧ ∀ d, d ∈ m.keys ↔ f.truth (fun q => v q d) from h.2
  have two : ∀ a b : Formula, (∀ q ∈ a.queries ++ b.queries, QuotesPaired q) →
      (QueryFine isSpace upper pipeline ops a.text ∧
        ∃ m, apply K isSpace upper odd pipeline s a.text = .ok (some m) ∧ ∀ d, d ∈ m.keys ↔ a.truth (fun q => v q d)) →
      (QueryFine isSpace upper pipeline ops b.text ∧
        ∃ m, apply K isSpace upper odd pipeline s b.text = .ok (some m) ∧ ∀ d, d ∈ m.keys ↔ b.truth (fun q => v q d)) →
      (QueryFine isSpace upper pipeline ops (Formula.or a b).text ∧
        ∃ m, apply K isSpace upper odd pipeline s (Formula.or a b).text = .ok (some m) ∧
          ∀ d, d ∈ m.keys ↔ (Formula.or a b).truth (fun q => v q d)) ∧
      (QueryFine isSpace upper pipeline ops (Formula.and a b).text ∧
        ∃ m, apply K isSpace upper odd pipeline s (Formula.and a b).text = .ok (some m) ∧
          ∀ d, d ∈ m.keys ↔ (Formula.and a b).truth (fun q => v q d)) ∧
      (QueryFine isSpace upper pipeline ops (Formula.andNot a b).text ∧
        ∃ m, apply K isSpace upper odd pipeline s (Formula.andNot a b).text = .ok (some m) ∧
          ∀ d, d ∈ m.keys ↔ (Formula.andNot a b).truth (fun q => v q d)) := by
    rintro a b hp ⟨ga, ma, ra, da⟩ ⟨gb, mb, rb, db⟩
    have ea := paired_formula a fun q hq => hp q (List.mem_append_left _ hq)
    have eb := paired_formula b fun q hq => hp q (List.mem_append_right _ hq)
    obtain ⟨ta, ia, pa⟩ := parsed _ _ ga ra
    obtain ⟨tb, ib, pb⟩ := parsed _ _ gb rb
    obtain ⟨f1, f2, f3⟩ := fine_combined hsp hu ga gb ea eb pa pb
    obtain ⟨⟨m1, r1, d1⟩, ⟨m2, r2, d2⟩, ⟨m3, r3, d3⟩⟩ := C76_apply hA hK isSpace upper hsp hu odd pipeline ops hs he s hr a.text b.text
      ga gb ea eb _ _ ra rb
    have fa : ∀ d, Found (some ma) d ↔ a.truth (fun q => v q d) := fun d => by
      rw [← da]; exact ⟨fun ⟨m, h, hd⟩ => by cases h; exact hd, fun h => ⟨ma, rfl, h⟩⟩
    have fb : ∀ d, Found (some mb) d ↔ b.truth (fun q => v q d) := fun d => by
      rw [← db]; exact ⟨fun ⟨m, h, hd⟩ => by cases h; exact hd, fun h => ⟨mb, rfl, h⟩⟩
    refine ⟨⟨f1, m1, r1, fun d => ?_⟩, ⟨f2, m2, r2, fun d => ?_⟩, ⟨f3, m3, r3, fun d => ?_⟩⟩
    · rw [d1, fa, fb]; rfl
    · rw [d2, fa, fb]
      simp only [reduceCtorEq, false_or, and_self, not_false_eq_true, and_true]
      rfl
    · rw [d3, fa, fb]; rfl
  induction f with
  | query q => exact (hq q (List.mem_singleton_self q)).2
  | or a b iha ihb =>
    exact (two a b (fun q h => (hq q h).1) (iha fun q h => hq q (List.mem_append_left _ h))
      (ihb fun q h => hq q (List.mem_append_right _ h))).1
  | and a b iha ihb =>
    exact (two a b (fun q h => (hq q h).1) (iha fun q h => hq q (List.mem_append_left _ h))
      (ihb fun q h => hq q (List.mem_append_right _ h))).2.1
  | andNot a b iha ihb =>
    exact (two a b (fun q h => (hq q h).1) (iha fun q h => hq q (List.mem_append_left _ h))
      (ihb fun q h => hq q (List.mem_append_right _ h))).2.2

/-- a query the index answers with documents -/
def Answered (K : Kind D R) (isSpace : Char → Bool) (upper : Word → Word) (odd : Word → Except PyErr (Word → Bool)) (pipeline : List Element)
    (ops : List (Text.Op D)) (s : TI D R) (q : Word) : Prop :=
  QuotesPaired q ∧ QueryFine isSpace upper pipeline ops q ∧ ∃ m, apply K isSpace upper odd pipeline s q = .ok (some m)

/-- C95: if one formula implies another, the second finds the documents that the first finds (so a query with a further condition finds
no other documents, one with a further alternative loses none) -/
theorem C95_implies (hA : Positive A Pos) (hK : Ranked A Pos K) (isSpace : Char → Bool) (upper : Word → Word)
    (hsp : SpaceOk isSpace) (hu : KeywordsOk isSpace upper)
    (odd : Word → Except PyErr (Word → Bool)) (pipeline : List Element) (ops : List (Text.Op D)) (hs : SmallLexicon pipeline ops)
    (he : K.hasTotal = true → LengthsExact A pipeline ops) (s : TI D R) (hr : run K pipeline ops = .ok s) (f g : Formula)
    (hq : ∀ q ∈ f.queries ++ g.queries, Answered K isSpace upper odd pipeline ops s q) (h : f.Implies g) :
    ∃ m m', apply K isSpace upper odd pipeline s f.text = .ok (some m) ∧ apply K isSpace upper odd pipeline s g.text = .ok (some m') ∧
      ∀ d, d ∈ m.keys → d ∈ m'.keys := by
  have one : ∀ x : Formula, (∀ q ∈ x.queries, Answered K isSpace upper odd pipeline ops s q) → _ := fun x hx =>
    C95_formula hA hK isSpace upper hsp hu odd pipeline ops hs he s hr
      (fun q d => ∃ m, apply K isSpace upper odd pipeline s q = .ok (some m) ∧ d ∈ m.keys) x (fun q hq => by
        obtain ⟨a, b, m, e⟩ := hx q hq
        refine ⟨a, b, m, e, fun d => ⟨fun hd => ⟨m, e, hd⟩, fun ⟨m', e', hd⟩ => ?_⟩⟩
        rw [e] at e'
        cases e'
        exact hd)
  obtain ⟨m, e, hm⟩ := one f fun q h => hq q (List.mem_append_left _ h)
  obtain ⟨m', e', hm'⟩ := one g fun q h => hq q (List.mem_append_right _ h)
  exact ⟨m, m', e, e', fun d hd => (hm' d).2 (h _ ((hm d).1 hd))⟩

/-- C95: equivalent formulas find the same documents -/
theorem C95_equivalent (hA : Positive A Pos) (hK : Ranked A Pos K) (isSpace : Char → Bool) (upper : Word → Word)
    (hsp : SpaceOk isSpace) (hu : KeywordsOk isSpace upper)
    (odd : Word → Except PyErr (Word → Bool)) (pipeline : List Element) (ops : List (Text.Op D)) (hs : SmallLexicon pipeline ops)
    (he : K.hasTotal = true → LengthsExact A pipeline ops) (s : TI D R) (hr : run K pipeline ops = .ok s) (f g : Formula)
    (hq : ∀ q ∈ f.queries ++ g.queries, Answered K isSpace upper odd pipeline ops s q) (h : f.Equivalent g) :
    ∃ m m', apply K isSpace upper odd pipeline s f.text = .ok (some m) ∧ apply K isSpace upper odd pipeline s g.text = .ok (some m') ∧
      ∀ d, d ∈ m.keys ↔ d ∈ m'.keys := by
  obtain ⟨m, m', e, e', h1⟩ := C95_implies hA hK isSpace upper hsp hu odd pipeline ops hs he s hr f g hq fun v => (h v).1
  obtain ⟨n', n, i', i, h2⟩ := C95_implies hA hK isSpace upper hsp hu odd pipeline ops hs he s hr g f
    (fun q hm => hq q (List.mem_append.2 ((List.mem_append.1 hm).symm))) fun v => (h v).2
  rw [e] at i
  rw [e'] at i'
  cases i
  cases i'
  exact ⟨m, m', e, e', fun d => ⟨h1 d, h2 d⟩⟩

/-! ## examples -/

/-- distributivity, De Morgan, absorption, and a query split in two by another -/
example (a b c : Formula) : Formula.Equivalent (.and a (.or b c)) (.or (.and a b) (.and a c)) ∧
    Formula.Equivalent (.andNot a (.or b c)) (.andNot (.andNot a b) c) ∧
    Formula.Equivalent (.andNot a (.and b c)) (.or (.andNot a b) (.andNot a c)) ∧
    Formula.Equivalent (.or a (.and a b)) a ∧ Formula.Equivalent (.and a (.or a b)) a ∧
    Formula.Equivalent (.or (.and a b) (.andNot a b)) a ∧ Formula.Implies (.and a b) a ∧ Formula.Implies a (.or a b) := by
  refine ⟨fun v => ?_, fun v => ?_, fun v => ?_, fun v => ?_, fun v => ?_, fun v => ?_, fun v => ?_, fun v => ?_⟩ <;>
    simp only [Formula.truth] <;> tauto

/-- `dog AND NOT (eel AND big)` and `(dog AND NOT eel) OR (dog AND NOT big)`, on the example index -/
example (s : TI Nat Int) (hr : run (okapi exPosArith { k1 := 1, b := 1 }) exPipeline exTextOps = .ok s)
    (h : ∀ q ∈ [['d', 'o', 'g'], ['e', 'e', 'l'], ['b', 'i', 'g']],
      ∃ m, apply (okapi exPosArith { k1 := 1, b := 1 }) exIsSpace exUpper (fun _ => .ok (fun _ => false)) exPipeline s q = .ok (some m)) :
    ∃ m m', apply (okapi exPosArith { k1 := 1, b := 1 }) exIsSpace exUpper (fun _ => .ok (fun _ => false)) exPipeline s
        (Formula.andNot (.query ['d', 'o', 'g']) (.and (.query ['e', 'e', 'l']) (.query ['b', 'i', 'g']))).text = .ok (some m) ∧
      apply (okapi exPosArith { k1 := 1, b := 1 }) exIsSpace exUpper (fun _ => .ok (fun _ => false)) exPipeline s
        (Formula.or (.andNot (.query ['d', 'o', 'g']) (.query ['e', 'e', 'l'])) (.andNot (.query ['d', 'o', 'g']) (.query ['b', 'i', 'g']))).text =
        .ok (some m') ∧ ∀ d, d ∈ m.keys ↔ d ∈ m'.keys := by
  refine C95_equivalent exPositive exRanked_okapi exIsSpace exUpper exIsSpace_ok exKeywordsOk (fun _ => .ok (fun _ => false)) exPipeline
    exTextOps exText_small (fun _ => exText_exact) s hr _ _ (fun q hq => ⟨?_, exFine _ _, h q ?_⟩) (fun v => ?_)
  · simp only [Formula.queries, List.cons_append, List.nil_append, List.mem_cons, List.not_mem_nil, or_false] at hq
    rcases hq with rfl | rfl | rfl | rfl | rfl | rfl | rfl <;> unfold QuotesPaired <;> decide
  · simp only [Formula.queries, List.cons_append, List.nil_append, List.mem_cons, List.not_mem_nil, or_false] at hq ⊢
    tauto
  · simp only [Formula.truth]
    tauto

example : exAnswer ['d', 'o', 'g'] = some (some [3, 7]) ∧ exAnswer ['e', 'e', 'l'] = some (some [7]) ∧ exAnswer ['b', 'i', 'g'] = some (some [7]) ∧
    exAnswer (Formula.andNot (.query ['d', 'o', 'g']) (.and (.query ['e', 'e', 'l']) (.query ['b', 'i', 'g']))).text = some (some [3]) := by
  decide +kernel

end Verif
