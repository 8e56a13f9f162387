import Verif.Proofs.Stack
import Verif.Props.Compose

/-!
# Property C83: the length of a query does not exhaust the stack

Parsing and executing a query needs a number of nested calls that depends on how deep its parentheses are nested, not on its length.
No number suffices for all queries: the parser raises `RecursionError`, not `ParseError`, when parentheses are nested too deep.
-/

set_option autoImplicit false

namespace Verif

open Spec QueryParser Text

/-! ## Enough frames -/

theorem levels_le {isSpace : Char → Bool} (hsp : SpaceOk isSpace) {upper : Word → Word} {m : Nat} {q : Word}
    (h : QueryNestedAtMost isSpace upper m q) : ∀ i k, Level (tokens isSpace upper q) i k → k ≤ m := by
  obtain ⟨ws, ts, h1, h2, h3⟩ := h
  have e : tokens isSpace upper q = ts ++ [.eof] := by
    unfold tokens
    rw [(tokenize_iff hsp q ws).1 h1, (classify_forall upper ws ts).1 h2]
  intro i k hl
  unfold Level at hl
  rw [e] at hl
  rcases Nat.lt_or_ge i (ts.length + 1) with hi | hi
  · rw [List.take_append_of_le_length (by omega)] at hl
    have := h3 _ (List.take_prefix i ts)
    omega
  · rw [List.take_of_length_le (by simpa using hi), List.count_append, List.count_append] at hl
    have := h3 _ (List.prefix_refl ts)
    simp at hl
    omega

theorem parseQueryD_sim (F : Frames) {isSpace : Char → Bool} {upper : Word → Word} (parseTerms : Word → List Word) (hsp : SpaceOk isSpace)
    {m : Nat} {q : Word} (h : QueryNestedAtMost isSpace upper m q) {n : Nat} (hn : 9 + F.terms + 4 * m ≤ n) :
    Sim (fun r => r.1.frames ≤ 4 + 2 * m) (parseQuery isSpace upper parseTerms q) (parseQueryD F isSpace upper parseTerms n q) := by
  obtain ⟨n, rfl⟩ : ∃ n', n = n' + 1 := ⟨n - 1, by omega⟩
  exact parseTokensD_sim m (levels_le hsp h) n (by omega)

/-- C83: a query, however long, in which no more than `m` parentheses are open at any place is parsed as on an unlimited stack, if at least
`enoughFrames m` nested calls are possible: it has the same tree, or raises the same exception, never `RecursionError` -/
theorem C83_parse (F : Frames) (isSpace : Char → Bool) (upper : Word → Word) (parseTerms : Word → List Word) (hsp : SpaceOk isSpace)
    (m : Nat) (q : Word) (h : QueryNestedAtMost isSpace upper m q) (n : Nat) (hn : enoughFrames F m ≤ n) :
    parseQueryD F isSpace upper parseTerms n q = (parseQuery isSpace upper parseTerms q).mapError .other := by
  unfold enoughFrames at hn
  exact (parseQueryD_sim F parseTerms hsp h (by omega)).1

variable {D R : Type} [LinearOrder D]

/-- C83: the same for the whole of `TextIndex.apply` -/
theorem C83_apply (F : Frames) (K : Kind D R) (isSpace : Char → Bool) (upper : Word → Word) (odd : Word → Except PyErr (Word → Bool))
    (pipeline : List Element) (s : TI D R) (hsp : SpaceOk isSpace) (m : Nat) (q : Word) (h : QueryNestedAtMost isSpace upper m q) (n : Nat)
    (hn : enoughFrames F m ≤ n) :
    applyD F K isSpace upper odd pipeline s n q = (apply K isSpace upper odd pipeline s q).mapError .other := by
  unfold enoughFrames at hn
  obtain ⟨n, rfl⟩ : ∃ n', n = n' + 1 := ⟨n - 1, by omega⟩
  obtain ⟨h1, h2⟩ := parseQueryD_sim F (Lexicon.parseTerms pipeline) hsp h (n := n) (by omega)
  unfold applyD apply
  simp only []
  rw [h1]
  cases hp : parseQuery isSpace upper (Lexicon.parseTerms pipeline) q with
  | error e => rfl
  | ok r =>
    obtain ⟨t, ign⟩ := r
    have hf : t.frames ≤ 4 + 2 * m := h2 _ hp
    show applyTreeD F K odd pipeline s n t = (applyTree K odd pipeline s t).mapError .other
    refine (Sim.bind (P := fun _ => True) (Q := fun _ => True) (Node.executeD_sim n t (by omega)) ?_).1
    intro r _
    cases r with
    | none => exact Sim.pure trivial
    | some r =>
      simp only []
      split
      · exact Sim.pure trivial
      · rw [Node.termsD_eq n t (by omega)]
        show Sim _ _ (within F.weight n (queryWeight K pipeline s t.terms) >>= _)
        refine Sim.bind (P := fun _ => True) (Sim.within (by omega) (fun _ _ => trivial)) (fun w _ => ?_)
        exact Sim.bind (P := fun _ => True) (Sim.mapError (fun _ _ => trivial)) (fun _ _ => Sim.pure trivial)

/-- C83: in particular a fixed number of nested calls suffices for all queries without parentheses -/
theorem C83_flat (F : Frames) (K : Kind D R) (isSpace : Char → Bool) (upper : Word → Word) (up : Char → List Char) (hup : UpperOk upper up)
    (odd : Word → Except PyErr (Word → Bool)) (pipeline : List Element) (s : TI D R) (hsp : SpaceOk isSpace)
    (q : Word) (h : '(' ∉ q) (n : Nat) (hn : enoughFrames F 0 ≤ n) :
    applyD F K isSpace upper odd pipeline s n q = (apply K isSpace upper odd pipeline s q).mapError .other := by
  refine C83_apply F K isSpace upper odd pipeline s hsp 0 q ⟨tokenize isSpace q, _, (tokenize_iff hsp q _).2 rfl,
    (classify_forall upper _ _).2 rfl, ?_⟩ n hn
  intro p hp
  have hno : Tok.lparen ∉ (tokenize isSpace q).map (classify upper) := by
    intro hm
    obtain ⟨w, hw, e⟩ := List.mem_map.1 hm
    obtain rfl := (C50_keywords upper up hup w).2.2.2.1.1 e
    apply h
    have ht := (tokenize_iff hsp q _).2 rfl
    generalize tokenize isSpace q = ts at ht hw
    clear hp hm h
    induction ht with
    | nil => cases hw
    | space c s ts _ _ ih => exact List.mem_cons_of_mem _ (ih hw)
    | stray s ts _ _ ih => exact List.mem_cons_of_mem _ (ih hw)
    | paren c s ts _ _ ih =>
      rcases List.mem_cons.1 hw with e | hw
      · cases e; simp
      · exact List.mem_cons_of_mem _ (ih hw)
    | quoted hyphen body s ts hh _ _ ih =>
      rcases List.mem_cons.1 hw with e | hw
      · have := congrArg List.length e
        simp at this
        omega
      · have := ih hw
        simp [this]
    | word w s ts _ hc _ _ _ ih =>
      rcases List.mem_cons.1 hw with e | hw
      · subst e
        exact absurd rfl (hc '(' (by simp)).1
      · exact List.mem_append_right _ (ih hw)
  rw [List.count_eq_zero_of_not_mem (fun hm => hno (hp.subset hm))]
  exact Nat.zero_le _

/-! ## No number of frames suffices for all queries -/

theorem parens_once {isSpace : Char → Bool} {upper : Word → Word} {parseTerms : Word → List Word} (hsp : SpaceOk isSpace)
    (hu : KeywordsOk isSpace upper) {q : Word} (e : QuotesPaired q) {t : Node} {ign : List Word}
    (h : parseQuery isSpace upper parseTerms q = .ok (t, ign)) :
    ∃ i, parseQuery isSpace upper parseTerms ('(' :: q ++ [')']) = .ok (t, i) := by
  obtain ⟨ts, o, k, c, m⟩ := (C47_grammar isSpace upper parseTerms hsp q t).1 ⟨_, h⟩
  refine (C47_grammar isSpace upper parseTerms hsp _ t).2
    ⟨['('] :: (ts ++ [[')']]), .one (.mk (.paren o) .nil), ?_, ?_, ?_⟩
  · have : Tokens isSpace [')'] [[')']] := .paren ')' [] [] (.inr rfl) .nil
    exact .paren '(' _ _ (.inl rfl) (tokens_append hsp k e this)
  · simp only [OrE.flat, AndE.flat, TermE.flat, Items.flat, List.append_nil, List.cons_append]
    exact .cons hu.lparen (List.rel_append c (.cons hu.rparen .nil))
  · unfold OrE.mean at m ⊢
    simp only [OrE.parts, AndE.mean, TermE.mean, Items.parts]
    cases hp : o.parts parseTerms with
    | error x => rw [hp] at m; cases m
    | ok l =>
      rw [hp] at m
      have hj : join .or l = some t := Except.ok.inj m
      show (Except.ok _ : Except Unit (Option Node)) = _
      simp only [hj]
      rfl

theorem inParens_succ (n : Nat) (q : Word) : inParens (n + 1) q = '(' :: inParens n q ++ [')'] := by
  unfold inParens
  rw [List.replicate_succ, List.replicate_succ' (n := n) (a := ')')]
  simp

theorem inParens_paired (n : Nat) {q : Word} (h : QuotesPaired q) : QuotesPaired (inParens n q) := by
  unfold QuotesPaired inParens at *
  rw [List.count_append, List.count_append, List.count_replicate, List.count_replicate]
  simpa using h

theorem parse_inParens {isSpace : Char → Bool} {upper : Word → Word} {parseTerms : Word → List Word} (hsp : SpaceOk isSpace)
    (hu : KeywordsOk isSpace upper) {q : Word} (e : QuotesPaired q) {t : Node} {ign : List Word}
    (h : parseQuery isSpace upper parseTerms q = .ok (t, ign)) (n : Nat) :
    ∃ i, parseQuery isSpace upper parseTerms (inParens n q) = .ok (t, i) := by
  induction n with
  | zero =>
    unfold inParens
    exact ⟨ign, by simpa using h⟩
  | succ n ih =>
    obtain ⟨i, hi⟩ := ih
    rw [inParens_succ]
    exact parens_once hsp hu (inParens_paired n e) hi

theorem tokens_parens {isSpace : Char → Bool} {upper : Word → Word} (hsp : SpaceOk isSpace) (hu : KeywordsOk isSpace upper) (n : Nat)
    (s : Word) : tokens isSpace upper (List.replicate n '(' ++ s) = List.replicate n .lparen ++ tokens isSpace upper s := by
  have h : ∀ n, Tokens isSpace (List.replicate n '(' ++ s) (List.replicate n ['('] ++ tokenize isSpace s) := by
    intro n
    induction n with
    | zero => exact (tokenize_iff hsp s _).2 rfl
    | succ n ih =>
      rw [List.replicate_succ, List.replicate_succ]
      exact .paren '(' _ _ (.inl rfl) ih
  unfold tokens
  rw [(tokenize_iff hsp _ _).1 (h n), List.map_append, List.map_replicate, (classify_iff upper ['('] .lparen).2 hu.lparen, List.append_assoc]

/-- C83: no number is enough for all queries: whatever number `n` of nested calls is possible, any query with paired quotes in `n` pairs of
parentheses raises `RecursionError`, although it means the same as the query without these parentheses -/
theorem C83_unbounded (F : Frames) (K : Kind D R) (isSpace : Char → Bool) (upper : Word → Word) (odd : Word → Except PyErr (Word → Bool))
    (pipeline : List Element) (s : TI D R) (hsp : SpaceOk isSpace) (hu : KeywordsOk isSpace upper) (q : Word) (e : QuotesPaired q)
    (t : Node) (ign : List Word) (h : parseQuery isSpace upper (Lexicon.parseTerms pipeline) q = .ok (t, ign)) (n : Nat) :
    apply K isSpace upper odd pipeline s (inParens n q) = apply K isSpace upper odd pipeline s q ∧
    applyD F K isSpace upper odd pipeline s n (inParens n q) = .error .recursion := by
  constructor
  · obtain ⟨i, hi⟩ := parse_inParens hsp hu e h n
    unfold apply
    rw [hi, h]
  · match n with
    | 0 => rfl
    | 1 => rfl
    | n + 2 =>
      unfold applyD parseQueryD parseTokensD
      simp only []
      have ht : tokens isSpace upper (inParens (n + 2) q) = List.replicate (n + 2) .lparen ++ tokens isSpace upper (q ++ List.replicate (n + 2) ')') := by
        unfold inParens
        rw [List.append_assoc, tokens_parens hsp hu]
      rw [parseOrD_recursion]
      · rfl
      · rw [ht, List.length_append, List.length_replicate]
        omega
      · intro j hj
        rw [ht]
        have hj' : 0 + j < n + 2 := by omega
        rw [List.getElem?_append_left (by rw [List.length_replicate]; exact hj'), List.getElem?_replicate, if_pos hj']

/-! ## Examples -/

/-- the nesting of `a (b (c)) -e` is two -/
theorem exNested : QueryNestedAtMost exIsSpace exUpper 2 "a (b (c)) -e".toList :=
  ⟨_, [.atom ['a'], .lparen, .atom ['b'], .lparen, .atom ['c'], .rparen, .rparen, .atom ['-', 'e']],
    (tokenize_iff exIsSpace_ok _ _).2 rfl, (classify_forall exUpper _ _).2 (by decide), by
      intro p hp
      obtain ⟨i, rfl⟩ : ∃ i, p = List.take i [.atom ['a'], .lparen, .atom ['b'], .lparen, .atom ['c'], .rparen, .rparen, .atom ['-', 'e']] :=
        ⟨_, List.prefix_iff_eq_take.1 hp⟩
      rcases Nat.lt_or_ge i 8 with h | h
      · clear hp
        revert i
        decide
      · rw [List.take_of_length_le (by simpa using h)]
        decide⟩

/-- numbers of frames like those of the default lexicon and of `OkapiIndex` -/
def exFrames : Frames := { terms := 2, search := 6, setops := 4, weight := 4 }

/-- 30 frames are enough for the query above, and for all queries without parentheses -/
example : parseQueryD exFrames exIsSpace exUpper exParseTerms 30 "a (b (c)) -e".toList =
    (parseQuery exIsSpace exUpper exParseTerms "a (b (c)) -e".toList).mapError .other :=
  C83_parse exFrames exIsSpace exUpper exParseTerms exIsSpace_ok 2 _ exNested 30 (by decide)

example : enoughFrames exFrames 0 ≤ 30 := by decide

/-- a word in three pairs of parentheses: 30 frames are enough, 10 are not -/
example : ((parseQueryD exFrames exIsSpace exUpper exParseTerms 30 "(((a)))".toList).toOption.map (·.2),
    (parseQueryD exFrames exIsSpace exUpper exParseTerms 10 "(((a)))".toList).toOption.map (·.2)) = (some [], none) := by decide +kernel

/-- the hypotheses of `C83_unbounded` -/
example (n : Nat) (s : TI Nat Int) :
    applyD exFrames (okapi exPosArith { k1 := 1, b := 1 }) exIsSpace exUpper (fun _ => .ok (fun _ => false)) exPipeline s n
      (inParens n ['d', 'o', 'g']) = .error .recursion :=
  (C83_unbounded exFrames _ exIsSpace exUpper _ exPipeline s exIsSpace_ok exKeywordsOk ['d', 'o', 'g'] (by unfold QuotesPaired; decide)
    (.atom ['d', 'o', 'g']) [] (by rfl) n).2

end Verif
