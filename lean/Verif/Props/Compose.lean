import Verif.Spec.Compose
import Verif.Props.TextSearch

/-!
# Property C76: queries built from queries

If two texts are queries, so are `(q1) OR (q2)`, `(q1) AND (q2)` and `(q1) AND NOT (q2)`, with the meaning one expects.
-/

set_option autoImplicit false

namespace Verif

open Spec QueryParser

/-! ## Tokens -/

theorem tokens_append_at {isSpace : Char → Bool} (hsp : SpaceOk isSpace) {s : Word} {ts : List Word} (h : Tokens isSpace s ts)
    (he : QuotesPaired s) {x : Char} (hx : ¬ WordChar isSpace x) (hx' : x ≠ '"') {u : Word} {us : List Word}
    (h' : Tokens isSpace (x :: u) us) : Tokens isSpace (s ++ x :: u) (ts ++ us) := by
  unfold QuotesPaired at he
  induction h with
  | nil => exact h'
  | space c s ts hc _ ih =>
    refine .space c _ _ hc (ih ?_)
    rw [List.count_cons_of_ne] at he
    · exact he
    · rintro rfl; rw [hsp.quote] at hc; cases hc
  | stray s ts hn _ ih =>
    rw [List.count_cons_self, List.count_eq_zero_of_not_mem hn] at he
    omega
  | paren c s ts hc _ ih =>
    refine .paren c _ _ hc (ih ?_)
    rw [List.count_cons_of_ne] at he
    · exact he
    · rcases hc with rfl | rfl <;> decide
  | quoted hyphen body s ts hh hb _ ih =>
    have := Tokens.quoted (isSpace := isSpace) hyphen body _ _ hh hb (ih (by
      have hc : hyphen.count '"' = 0 := by rcases hh with rfl | rfl <;> decide
      simp only [List.count_append, List.count_cons_self, hc, List.count_eq_zero_of_not_mem hb] at he
      omega))
    simpa using this
  | word w s ts hw hc hhead hq _ ih =>
    have hcw : w.count '"' = 0 := List.count_eq_zero_of_not_mem (fun hm => (hc _ hm).2.2.1 rfl)
    rw [List.count_append, hcw, Nat.zero_add] at he
    have := Tokens.word (isSpace := isSpace) w (s ++ x :: u) _ hw hc (by
      intro c h
      cases s with
      | nil => simp at h; subst h; exact hx
      | cons y s => simp at h; subst h; exact hhead _ rfl) (by
      rintro ⟨e, body, r, hs⟩
      apply hq
      refine ⟨e, ?_⟩
      cases s with
      | nil => simp at hs; exact absurd hs.1 hx'
      | cons y s =>
        simp only [List.cons_append, List.cons.injEq] at hs
        obtain ⟨rfl, -⟩ := hs
        rw [List.count_cons_self] at he
        have hm : '"' ∈ s := by
          by_contra hn
          rw [List.count_eq_zero_of_not_mem hn] at he
          omega
        obtain ⟨b, r, rfl⟩ := List.append_of_mem hm
        exact ⟨b, r, by simp⟩) (ih he)
    simpa using this

theorem tokens_append {isSpace : Char → Bool} (hsp : SpaceOk isSpace) {s : Word} {ts : List Word} (h : Tokens isSpace s ts)
    (he : QuotesPaired s) {u : Word} {us : List Word} (h' : Tokens isSpace (')' :: u) us) :
    Tokens isSpace (s ++ ')' :: u) (ts ++ us) := tokens_append_at hsp h he (fun h => h.2.1 rfl) (by decide) h'

theorem tokens_keywords {isSpace : Char → Bool} (hb : isSpace ' ' = true) {kws : List Word}
    (hk : ∀ w ∈ kws, w ≠ [] ∧ ∀ c ∈ w, WordChar isSpace c) {u : Word} {us : List Word} (h : Tokens isSpace (' ' :: u) us) :
    Tokens isSpace (kws.flatMap (fun w => ' ' :: w) ++ ' ' :: u) (kws ++ us) := by
  induction kws with
  | nil => exact h
  | cons w kws ih =>
    obtain ⟨h1, h2⟩ := hk w (by simp)
    have ih := ih (fun w hw => hk w (by simp [hw]))
    have hstart : ∃ x, kws.flatMap (fun w => ' ' :: w) ++ ' ' :: u = ' ' :: x := by
      cases kws with
      | nil => exact ⟨u, rfl⟩
      | cons v kws => exact ⟨_, rfl⟩
    obtain ⟨x, hx⟩ := hstart
    rw [List.flatMap_cons, List.append_assoc, List.cons_append]
    refine .space _ _ _ hb (.word w _ _ h1 h2 ?_ ?_ ih)
    · intro c hc
      rw [hx] at hc
      simp at hc
      subst hc
      intro h
      rw [h.2.2.2] at hb; cases hb
    · rintro ⟨-, body, r, e⟩
      rw [hx] at e
      simp at e

theorem tokens_combine {isSpace : Char → Bool} (hsp : SpaceOk isSpace) (hb : isSpace ' ' = true) {kws : List Word}
    (hk : ∀ w ∈ kws, w ≠ [] ∧ ∀ c ∈ w, WordChar isSpace c) {q1 q2 : Word} {ts1 ts2 : List Word} (h1 : Tokens isSpace q1 ts1)
    (h2 : Tokens isSpace q2 ts2) (e1 : QuotesPaired q1) (e2 : QuotesPaired q2) :
    Tokens isSpace (combine q1 kws q2) (['('] :: ts1 ++ [')'] :: kws ++ ['('] :: ts2 ++ [[')']]) := by
  have := Tokens.paren (isSpace := isSpace) '(' _ _ (Or.inl rfl) (tokens_append hsp h1 e1 (.paren ')' _ _ (Or.inr rfl)
    (tokens_keywords hb hk (.space ' ' _ _ hb (.paren '(' _ _ (Or.inl rfl) (tokens_append hsp h2 e2 (.paren ')' _ _ (Or.inr rfl) .nil)))))))
  simpa [combine] using this

/-! ## Parsing -/

section parse

variable (isSpace : Char → Bool) (upper : Word → Word) (parseTerms : Word → List Word)

theorem parse_combine (hsp : SpaceOk isSpace) (hb : isSpace ' ' = true) (hp : upper ['('] = ['('] ∧ upper [')'] = [')']) (q1 q2 : Word)
    (e1 : QuotesPaired q1) (e2 : QuotesPaired q2) (t1 t2 : Node) (ign1 ign2 : List Word)
    (h1 : parseQuery isSpace upper parseTerms q1 = .ok (t1, ign1)) (h2 : parseQuery isSpace upper parseTerms q2 = .ok (t2, ign2))
    (kws : List Word) (hk : ∀ w ∈ kws, w ≠ [] ∧ ∀ c ∈ w, WordChar isSpace c) (toks : List Tok)
    (hkt : List.Forall₂ (TokOf upper) kws toks) (hna : ∀ w, Tok.atom w ∉ toks) (t : Node) (f : OrE → OrE → OrE)
    (hf : ∀ o1 o2 : OrE, (f o1 o2).flat = .lparen :: o1.flat ++ .rparen :: toks ++ .lparen :: o2.flat ++ [.rparen])
    (hm : ∀ o1 o2 : OrE, o1.mean parseTerms = .ok (some t1) → o2.mean parseTerms = .ok (some t2) →
      (f o1 o2).mean parseTerms = .ok (some t)) :
    parseQuery isSpace upper parseTerms (combine q1 kws q2) = .ok (t, ign1 ++ ign2) := by
  obtain ⟨ts1, o1, k1, c1, m1⟩ := (C47_grammar isSpace upper parseTerms hsp q1 t1).1 ⟨_, h1⟩
  obtain ⟨ts2, o2, k2, c2, m2⟩ := (C47_grammar isSpace upper parseTerms hsp q2 t2).1 ⟨_, h2⟩
  have hk := tokens_combine hsp hb hk k1 k2 e1 e2
  obtain ⟨ign, hq⟩ := (C47_grammar isSpace upper parseTerms hsp (combine q1 kws q2) t).2 ⟨_, f o1 o2, hk, by
    rw [hf]
    have hr : List.Forall₂ (TokOf upper) [[')']] [Tok.rparen] := .cons hp.2 .nil
    simp only [List.cons_append, List.append_assoc]
    refine .cons hp.1 (List.rel_append c1 (.cons hp.2 (List.rel_append hkt (.cons hp.1 (List.rel_append c2 hr)))))
    , hm o1 o2 m1 m2⟩
  obtain ⟨ts1', k1', -, p1, i1, hp1⟩ := C49_ignored isSpace upper parseTerms hsp q1 t1 ign1 h1
  obtain ⟨ts2', k2', -, p2, i2, hp2⟩ := C49_ignored isSpace upper parseTerms hsp q2 t2 ign2 h2
  obtain ⟨ts', k', -, p', i', hp'⟩ := C49_ignored isSpace upper parseTerms hsp _ t ign hq
  obtain rfl : ts1 = ts1' := by rw [← (tokenize_iff hsp q1 ts1).1 k1, ← (tokenize_iff hsp q1 ts1').1 k1']
  obtain rfl : ts2 = ts2' := by rw [← (tokenize_iff hsp q2 ts2).1 k2, ← (tokenize_iff hsp q2 ts2').1 k2']
  rw [← (tokenize_iff hsp _ ts').1 k', (tokenize_iff hsp _ _).1 hk] at i'
  have ep1 : p1 = p' := by funext w; rw [Bool.eq_iff_iff, hp1, hp']
  have ep2 : p2 = p' := by funext w; rw [Bool.eq_iff_iff, hp2, hp']
  have hlp : p' ['('] = false := by
    rw [← Bool.not_eq_true, hp']
    exact fun h => h.1.2.2.2.2.1 hp.1
  have hrp : p' [')'] = false := by
    rw [← Bool.not_eq_true, hp']
    exact fun h => h.1.2.2.2.2.2 hp.2
  have hkw : kws.filter p' = [] := by
    rw [List.filter_eq_nil_iff]
    intro w hw hp
    have hc := (classify_iff upper w (.atom w)).2 ((hp' w).1 hp).1
    refine hna w ?_
    rw [← hc, ← (classify_forall upper kws toks).1 hkt]
    exact List.mem_map_of_mem hw
  rw [hq, i', i1, i2, ep1, ep2]
  simp [hlp, hrp, hkw]

/-- what is needed of white space and `str.upper()` -/
structure KeywordsOk : Prop where
  blank : isSpace ' ' = true
  lparen : upper ['('] = ['(']
  rparen : upper [')'] = [')']
  or : upper ['O', 'R'] = ['O', 'R']
  and : upper ['A', 'N', 'D'] = ['A', 'N', 'D']
  not : upper ['N', 'O', 'T'] = ['N', 'O', 'T']
  letters : ∀ c ∈ ['A', 'N', 'D', 'O', 'R', 'T'], isSpace c = false

/-- C76: if two texts with paired double quotes are queries, then so are `(q1) OR (q2)`, `(q1) AND (q2)`, `(q1) AND NOT (q2)` and
`(q1) NOT (q2)`, with the trees one expects; the ignored words are those of both -/
theorem C76_parse (hsp : SpaceOk isSpace) (hu : KeywordsOk isSpace upper) (q1 q2 : Word)
    (e1 : QuotesPaired q1) (e2 : QuotesPaired q2) (t1 t2 : Node) (ign1 ign2 : List Word)
    (h1 : parseQuery isSpace upper parseTerms q1 = .ok (t1, ign1)) (h2 : parseQuery isSpace upper parseTerms q2 = .ok (t2, ign2)) :
    parseQuery isSpace upper parseTerms (combine q1 [['O', 'R']] q2) = .ok (.or [t1, t2], ign1 ++ ign2) ∧
    parseQuery isSpace upper parseTerms (combine q1 [['A', 'N', 'D']] q2) = .ok (.and [t1, t2], ign1 ++ ign2) ∧
    parseQuery isSpace upper parseTerms (combine q1 [['A', 'N', 'D'], ['N', 'O', 'T']] q2) = .ok (.and [t1, .not t2], ign1 ++ ign2) ∧
    parseQuery isSpace upper parseTerms (combine q1 [['N', 'O', 'T']] q2) = .ok (.and [t1, .not t2], ign1 ++ ign2) := by
  have hw : ∀ w ∈ [['O', 'R'], ['A', 'N', 'D'], ['N', 'O', 'T']], w ≠ [] ∧ ∀ c ∈ w, WordChar isSpace c := by
    intro w hw
    have hl := hu.letters
    simp only [List.mem_cons, List.not_mem_nil, or_false] at hw
    rcases hw with rfl | rfl | rfl <;> refine ⟨by decide, fun c hc => ⟨?_, ?_, ?_, hl c ?_⟩⟩ <;> revert c <;> decide
  have mean_paren : ∀ {o : OrE} {t : Node}, o.mean parseTerms = .ok (some t) → (TermE.paren o).mean parseTerms = .ok (some t) := by
    intro o t h
    rw [TermE.mean]
    exact h
  refine ⟨?_, ?_, ?_, ?_⟩
  · refine parse_combine isSpace upper parseTerms hsp hu.blank ⟨hu.lparen, hu.rparen⟩ q1 q2 e1 e2 t1 t2 ign1 ign2 h1 h2 _
      (fun w h => hw w (by simp at h; simp [h])) [.or] (.cons hu.or .nil) (by simp) _
      (fun o1 o2 => .more (.mk (.paren o1) .nil) (.one (.mk (.paren o2) .nil))) ?_ ?_
    · intro o1 o2; simp [OrE.flat, AndE.flat, TermE.flat, Items.flat]
    · intro o1 o2 m1 m2
      simp only [OrE.mean, OrE.parts, AndE.mean, mean_paren m1, mean_paren m2, Items.parts]
      rfl
  · refine parse_combine isSpace upper parseTerms hsp hu.blank ⟨hu.lparen, hu.rparen⟩ q1 q2 e1 e2 t1 t2 ign1 ign2 h1 h2 _
      (fun w h => hw w (by simp at h; simp [h])) [.and] (.cons hu.and .nil) (by simp) _
      (fun o1 o2 => .one (.mk (.paren o1) (.andTerm (.paren o2) .nil))) ?_ ?_
    · intro o1 o2; simp [OrE.flat, AndE.flat, TermE.flat, Items.flat]
    · intro o1 o2 m1 m2
      simp only [OrE.mean, OrE.parts, AndE.mean, mean_paren m1, mean_paren m2, Items.parts]
      rfl
  · refine parse_combine isSpace upper parseTerms hsp hu.blank ⟨hu.lparen, hu.rparen⟩ q1 q2 e1 e2 t1 t2 ign1 ign2 h1 h2 _
      (fun w h => hw w (by simp at h; rcases h with h | h <;> simp [h])) [.and, .not] (.cons hu.and (.cons hu.not .nil)) (by simp) _
      (fun o1 o2 => .one (.mk (.paren o1) (.andNot (.paren o2) .nil))) ?_ ?_
    · intro o1 o2; simp [OrE.flat, AndE.flat, TermE.flat, Items.flat]
    · intro o1 o2 m1 m2
      simp only [OrE.mean, OrE.parts, AndE.mean, mean_paren m1, mean_paren m2, Items.parts]
      rfl
  · refine parse_combine isSpace upper parseTerms hsp hu.blank ⟨hu.lparen, hu.rparen⟩ q1 q2 e1 e2 t1 t2 ign1 ign2 h1 h2 _
      (fun w h => hw w (by simp at h; simp [h])) [.not] (.cons hu.not .nil) (by simp) _
      (fun o1 o2 => .one (.mk (.paren o1) (.not (.paren o2) .nil))) ?_ ?_
    · intro o1 o2; simp [OrE.flat, AndE.flat, TermE.flat, Items.flat]
    · intro o1 o2 m1 m2
      simp only [OrE.mean, OrE.parts, AndE.mean, mean_paren m1, mean_paren m2, Items.parts]
      rfl

end parse

/-! ## Answers -/

open Text SetOps

variable {D R : Type} [LinearOrder D] {A : Arith R} {Pos : R → Prop} {K : Kind D R}

theorem positive_clean (L : Leaves D) {n : Node} (hn : Clean n) (l : List Node) :
    L.positive (n :: l) = (L.matches? n).toList ++ L.positive l := by
  cases hn <;> simp [Leaves.positive]

theorem negative_clean (L : Leaves D) {n : Node} (hn : Clean n) (l : List Node) : L.negative (n :: l) = L.negative l := by
  cases hn <;> simp [Leaves.negative]

/-- C76: if `apply` accepts two queries with paired double quotes, it accepts the combined ones.  OR finds the documents that one of
them finds, AND those that both find (a part whose answer is `None`, all its words being ignored, does not count), AND NOT those
that the first finds and the second does not find. -/
theorem C76_apply (hA : Positive A Pos) (hK : Ranked A Pos K) (isSpace : Char → Bool) (upper : Word → Word)
    (hsp : SpaceOk isSpace) (hu : KeywordsOk isSpace upper)
    (odd : Word → Except PyErr (Word → Bool)) (pipeline : List Element) (ops : List (Text.Op D)) (hs : SmallLexicon pipeline ops)
    (he : K.hasTotal = true → LengthsExact A pipeline ops) (s : TI D R) (hr : run K pipeline ops = .ok s) (q1 q2 : Word)
    (g1 : QueryFine isSpace upper pipeline ops q1) (g2 : QueryFine isSpace upper pipeline ops q2)
    (e1 : QuotesPaired q1) (e2 : QuotesPaired q2) (r1 r2 : Option (SMap D R))
    (h1 : apply K isSpace upper odd pipeline s q1 = .ok r1) (h2 : apply K isSpace upper odd pipeline s q2 = .ok r2) :
    (∃ m, apply K isSpace upper odd pipeline s (combine q1 [['O', 'R']] q2) = .ok (some m) ∧
      ∀ d, d ∈ m.keys ↔ Found r1 d ∨ Found r2 d) ∧
    (∃ m, apply K isSpace upper odd pipeline s (combine q1 [['A', 'N', 'D']] q2) = .ok (some m) ∧
      ∀ d, d ∈ m.keys ↔ (r1 = none ∨ Found r1 d) ∧ (r2 = none ∨ Found r2 d) ∧ ¬ (r1 = none ∧ r2 = none)) ∧
    (∃ m, apply K isSpace upper odd pipeline s (combine q1 [['A', 'N', 'D'], ['N', 'O', 'T']] q2) = .ok (some m) ∧
      ∀ d, d ∈ m.keys ↔ Found r1 d ∧ ¬ Found r2 d) := by
  have key : ∀ q r, QueryFine isSpace upper pipeline ops q → apply K isSpace upper odd pipeline s q = .ok r → ∃ t ign,
      parseQuery isSpace upper (Lexicon.parseTerms pipeline) q = .ok (t, ign) ∧
      ((textLeaves pipeline ops).matches? t = none ∧ r = none ∨
        ∃ P m, (textLeaves pipeline ops).matches? t = some P ∧ r = some m ∧ ∀ d, d ∈ m.keys ↔ P d) := by
    intro q r hg h
    rcases C60_apply hA hK isSpace upper odd pipeline ops hs he s hr q hg with ⟨-, h'⟩ | ⟨t, ign, hq, ⟨hm, h'⟩ | ⟨P, m, hm, h', hd, -⟩⟩
    · rw [h] at h'; cases h'
    · rw [h] at h'; cases h'; exact ⟨t, ign, hq, .inl ⟨hm, rfl⟩⟩
    · rw [h] at h'; cases h'; exact ⟨t, ign, hq, .inr ⟨P, m, hm, rfl, hd⟩⟩
  have back : ∀ q t ign P, parseQuery isSpace upper (Lexicon.parseTerms pipeline) q = .ok (t, ign) →
      (textLeaves pipeline ops).matches? t = some P → GlobsFine pipeline ops t →
      ∃ m, apply K isSpace upper odd pipeline s q = .ok (some m) ∧ ∀ d, d ∈ m.keys ↔ P d := by
    intro q t ign P hq hP hg
    replace hg : QueryFine isSpace upper pipeline ops q := fun t' ign' h => by rw [hq] at h; cases h; exact hg
    rcases C60_apply hA hK isSpace upper odd pipeline ops hs he s hr q hg with ⟨h, -⟩ | ⟨t', ign', hq', ⟨hm, h'⟩ | ⟨P', m, hm, h', hd, -⟩⟩
    · rw [hq] at h; cases h
    · rw [hq] at hq'; cases hq'; rw [hP] at hm; cases hm
    · rw [hq] at hq'; cases hq'; rw [hP] at hm; cases hm; exact ⟨m, h', hd⟩
  obtain ⟨t1, ign1, p1, c1⟩ := key q1 r1 g1 h1
  obtain ⟨t2, ign2, p2, c2⟩ := key q2 r2 g2 h2
  obtain ⟨po, pa, pn, -⟩ := C76_parse isSpace upper _ hsp hu q1 q2 e1 e2 t1 t2 ign1 ign2 p1 p2
  have cl1 := C48_shape isSpace upper _ q1 t1 ign1 p1
  have cl2 := C48_shape isSpace upper _ q2 t2 ign2 p2
  have f1 : ∀ d, Found r1 d ↔ ∃ P, (textLeaves pipeline ops).matches? t1 = some P ∧ P d := by
    intro d
    rcases c1 with ⟨hm, rfl⟩ | ⟨P, m, hm, rfl, hd⟩ <;> simp [Found, hm]
    exact hd d
  have f2 : ∀ d, Found r2 d ↔ ∃ P, (textLeaves pipeline ops).matches? t2 = some P ∧ P d := by
    intro d
    rcases c2 with ⟨hm, rfl⟩ | ⟨P, m, hm, rfl, hd⟩ <;> simp [Found, hm]
    exact hd d
  have n1 : r1 = none ↔ (textLeaves pipeline ops).matches? t1 = none := by
    rcases c1 with ⟨hm, rfl⟩ | ⟨P, m, hm, rfl, hd⟩ <;> simp [hm]
  have n2 : r2 = none ↔ (textLeaves pipeline ops).matches? t2 = none := by
    rcases c2 with ⟨hm, rfl⟩ | ⟨P, m, hm, rfl, hd⟩ <;> simp [hm]
  simp only [f1, f2, n1, n2]
  refine ⟨?_, ?_, ?_⟩
  · obtain ⟨m, h, hd⟩ := back _ _ _ _ po (by rw [Leaves.matches?]) (.or (g1 _ _ p1) (g2 _ _ p2))
    refine ⟨m, h, fun d => (hd d).trans ?_⟩
    simp only [Leaves.parts, List.append_nil]
    cases (textLeaves pipeline ops).matches? t1 <;> cases (textLeaves pipeline ops).matches? t2 <;> simp
  · obtain ⟨m, h, hd⟩ := back _ _ _ _ pa (by rw [Leaves.matches?]) (.and (g1 _ _ p1) (g2 _ _ p2))
    refine ⟨m, h, fun d => (hd d).trans ?_⟩
    rw [positive_clean _ cl1, positive_clean _ cl2, negative_clean _ cl1, negative_clean _ cl2, Leaves.positive, Leaves.negative]
    cases (textLeaves pipeline ops).matches? t1 <;> cases (textLeaves pipeline ops).matches? t2 <;> simp
  · obtain ⟨m, h, hd⟩ := back _ _ _ _ pn (by rw [Leaves.matches?]) (.and (g1 _ _ p1) (.not (g2 _ _ p2)))
    refine ⟨m, h, fun d => (hd d).trans ?_⟩
    rw [positive_clean _ cl1, negative_clean _ cl1]
    simp only [Leaves.positive, Leaves.negative, List.append_nil]
    cases (textLeaves pipeline ops).matches? t1 <;> cases (textLeaves pipeline ops).matches? t2 <;> simp

/-- the hypotheses are met: `dog` or `big -cat` in the example index -/
theorem exKeywordsOk : KeywordsOk exIsSpace exUpper := ⟨by decide, by decide, by decide, by decide, by decide, by decide, by decide⟩

example : combine ['d', 'o', 'g'] [['A', 'N', 'D'], ['N', 'O', 'T']] ['"', 'e', '"'] =
    "(dog) AND NOT (\"e\")".toList := by decide

/-- the answers of the example index to a query -/
def exAnswer (q : Word) : Option (Option (List Nat)) :=
  ((run (okapi exPosArith { k1 := 1, b := 1 }) exPipeline exTextOps).toOption.bind (fun s =>
    (apply (okapi exPosArith { k1 := 1, b := 1 }) exIsSpace exUpper (fun _ => .ok (fun _ => false)) exPipeline s q).toOption)).map
      (fun r => r.map SMap.keys)

example : exAnswer ['d', 'o', 'g'] = some (some [3, 7]) ∧ exAnswer ['"', 'b', 'i', 'g', ' ', 'e', 'e', 'l', '"'] = some (some [7]) ∧
    exAnswer (combine ['d', 'o', 'g'] [['A', 'N', 'D'], ['N', 'O', 'T']] ['"', 'b', 'i', 'g', ' ', 'e', 'e', 'l', '"']) = some (some [3]) ∧
    exAnswer (combine ['f', 'i', 's', 'h'] [['O', 'R']] ['"', 'b', 'i', 'g', ' ', 'e', 'e', 'l', '"']) = some (some [7]) := by
  decide +kernel

example (s : TI Nat Int) (hr : run (okapi exPosArith { k1 := 1, b := 1 }) exPipeline exTextOps = .ok s) (r1 r2 : Option (SMap Nat Int))
    (h1 : apply (okapi exPosArith { k1 := 1, b := 1 }) exIsSpace exUpper (fun _ => .ok (fun _ => false)) exPipeline s ['d', 'o', 'g'] = .ok r1)
    (h2 : apply (okapi exPosArith { k1 := 1, b := 1 }) exIsSpace exUpper (fun _ => .ok (fun _ => false)) exPipeline s
      ['"', 'b', 'i', 'g', ' ', 'e', 'e', 'l', '"'] = .ok r2) :
    ∃ m, apply (okapi exPosArith { k1 := 1, b := 1 }) exIsSpace exUpper (fun _ => .ok (fun _ => false)) exPipeline s
      (combine ['d', 'o', 'g'] [['A', 'N', 'D'], ['N', 'O', 'T']] ['"', 'b', 'i', 'g', ' ', 'e', 'e', 'l', '"']) = .ok (some m) ∧
      ∀ d, d ∈ m.keys ↔ Found r1 d ∧ ¬ Found r2 d :=
  (C76_apply exPositive exRanked_okapi exIsSpace exUpper exIsSpace_ok exKeywordsOk (fun _ => .ok (fun _ => false)) exPipeline exTextOps
    exText_small (fun _ => exText_exact) s hr _ _ (exFine _ _) (exFine _ _) (by unfold QuotesPaired; decide)
    (by unfold QuotesPaired; decide) r1 r2 h1 h2).2.2

/-- C76: without paired quotes this fails: `a"` and `b"` are queries for `a` and `b`, but `(a") OR (b")` is one for `a` and the phrase
between the quotes -/
theorem C76_quotes : parseQuery exIsSpace exUpper exParseTerms ['a', '"'] = .ok (.atom ['a'], []) ∧
    parseQuery exIsSpace exUpper exParseTerms ['b', '"'] = .ok (.atom ['b'], []) ∧
    parseQuery exIsSpace exUpper exParseTerms (combine ['a', '"'] [['O', 'R']] ['b', '"']) =
      .ok (.and [.atom ['a'], .phrase [[')'], ['O', 'R'], ['(', 'b']]], []) :=
  ⟨rfl, rfl, rfl⟩

end Verif
