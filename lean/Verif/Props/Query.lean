import Verif.Proofs.QueryTree
import Verif.Proofs.QueryTokens
import Verif.Proofs.ParseTree

/-!
# Properties C46 - C50: the query parser

`Verif.Spec.Query` describes the tokens of a query (`Tokens`, `TokOf`), the phrases of the grammar (`OrE`) with their tokens and
their meaning, and the shape of trees (`Clean`).
-/

set_option autoImplicit false

namespace Verif

open QueryParser Spec

/-- white space of the examples -/
def exIsSpace (c : Char) : Bool := c = ' ' || c = '\n' || c = '\t'

/-- `str.upper()` of the examples -/
def exUpper (w : Word) : Word := w.map Char.toUpper

/-- `parseTerms` of the examples: splits at hyphens, drops quotes and the word `the` -/
def exParseTerms (w : Word) : List Word :=
  ((w.filter (fun c => c ≠ '"')).splitOn ' ').flatMap (fun v =>
    if v = ['t', 'h', 'e'] ∨ v = ['-', 't', 'h', 'e'] then [] else [v.filter (fun c => c ≠ '-')])

theorem exIsSpace_ok : SpaceOk exIsSpace := ⟨rfl, rfl, rfl, rfl⟩

/-- `cat and (dog or "big bird") not the -co*` -/
def exQuery : Word :=
  ['c', 'a', 't', ' ', 'a', 'n', 'd', ' ', '(', 'd', 'o', 'g', ' ', 'O', 'R', ' ', '"', 'b', 'i', 'g', ' ', 'b', 'i', 'r', 'd', '"', ')',
   ' ', 'n', 'o', 't', ' ', 't', 'h', 'e', ' ', 'b', ' ', '-', 'c', 'o', '*']

section

variable (isSpace : Char → Bool) (upper : Word → Word) (parseTerms : Word → List Word)

/-! ## C46 -/

/-- C46: on every string the parser returns a tree or raises `ParseError`; it never reads past its token list, and the recursion
of the model is deep enough -/
theorem C46_total (q : Word) :
    (∃ t ign, parseQuery isSpace upper parseTerms q = .ok (t, ign)) ∨ parseQuery isSpace upper parseTerms q = .error .parse := by
  unfold parseQuery tokens
  rcases parse_cases (parseTerms := parseTerms) _ (eof_not_mem upper (tokenize isSpace q)) (nonEmptyAtoms upper q) with
    ⟨o, -, e⟩ | ⟨-, e⟩
  · rw [e]
    split
    · exact Or.inl ⟨_, _, rfl⟩
    · exact Or.inr rfl
  · exact Or.inr e

-- both outcomes occur
example : parseQuery exIsSpace exUpper exParseTerms ['a', ' ', 'o', 'r', ' ', 'b'] = .ok (.or [.atom ['a'], .atom ['b']], []) := rfl
example : parseQuery exIsSpace exUpper exParseTerms ['(', 'a'] = .error .parse := rfl
example : parseQuery exIsSpace exUpper exParseTerms ['a', ' ', 'o', 'r'] = .error .parse := rfl

/-! ## C47 -/

/-- C47: a query yields the tree `t` exactly if its tokens form a phrase of the grammar whose meaning is `t` -/
theorem C47_grammar (hsp : SpaceOk isSpace) (q : Word) (t : Node) :
    (∃ ign, parseQuery isSpace upper parseTerms q = .ok (t, ign)) ↔
      ∃ ts, ∃ o : OrE, Tokens isSpace q ts ∧ List.Forall₂ (TokOf upper) ts o.flat ∧ o.mean parseTerms = .ok (some t) := by
  unfold parseQuery tokens
  constructor
  · rintro ⟨ign, h⟩
    rcases parse_cases (parseTerms := parseTerms) _ (eof_not_mem upper (tokenize isSpace q)) (nonEmptyAtoms upper q) with
      ⟨o, ho, e⟩ | ⟨-, e⟩
    · rw [e] at h
      refine ⟨tokenize isSpace q, o, (tokenize_iff hsp q _).2 rfl, (classify_forall upper _ _).2 ho.symm, ?_⟩
      split at h
      · rename_i m hm; cases h; exact hm
      · cases h
    · rw [e] at h; cases h
  · rintro ⟨ts, o, hts, hcl, hm⟩
    obtain rfl := (tokenize_iff hsp q _).1 hts
    have hcl := (classify_forall upper _ _).1 hcl
    rcases parse_cases (parseTerms := parseTerms) _ (eof_not_mem upper (tokenize isSpace q)) (nonEmptyAtoms upper q) with
      ⟨o', ho', e⟩ | ⟨hno, -⟩
    · refine ⟨ignT parseTerms o.flat, ?_⟩
      have hne := nonEmptyAtoms (isSpace := isSpace) upper q
      unfold parseTokens
      rw [hcl] at hne ⊢
      rw [parseOr_complete (parseTerms := parseTerms) (toks := o.flat ++ [Tok.eof]) o (5 * (o.flat ++ [Tok.eof]).length + 5)
        { index := 0, ignored := [] } .eof [] (by simp) ⟨notAtom_eof, by simp, by simp⟩ (by simp) hne (by simp)]
      rw [hm]
      simp only [ret, lift, Except.map, bind, Except.bind]
      rw [require_adv (parseTerms := parseTerms) (l := []) (drop_adv (by simp)) notAtom_eof]
      simp [adv, pure, Except.pure]
    · exact absurd hcl.symm (hno o)

/-- C47: a query that is not a phrase of the grammar, or whose meaning is not allowed or empty, is rejected with `ParseError` -/
theorem C47_reject (hsp : SpaceOk isSpace) (q : Word)
    (h : ∀ ts, ∀ o : OrE, Tokens isSpace q ts → List.Forall₂ (TokOf upper) ts o.flat → ∀ t, o.mean parseTerms ≠ .ok (some t)) :
    parseQuery isSpace upper parseTerms q = .error .parse := by
  rcases C46_total isSpace upper parseTerms q with ⟨t, ign, e⟩ | e
  · obtain ⟨ts, o, h1, h2, h3⟩ := (C47_grammar isSpace upper parseTerms hsp q t).1 ⟨ign, e⟩
    exact absurd h3 (h ts o h1 h2 t)
  · exact e

/-- the derivation of the example query -/
def exDerivation : OrE :=
  .one (.mk (.atoms ['c', 'a', 't'] [])
    (.andTerm (.paren (.more (.mk (.atoms ['d', 'o', 'g'] []) .nil)
        (.one (.mk (.atoms ['"', 'b', 'i', 'g', ' ', 'b', 'i', 'r', 'd', '"'] []) .nil))))
      (.not (.atoms ['t', 'h', 'e'] [['b'], ['-', 'c', 'o', '*']]) .nil)))

-- the tree of the example query: AND of `cat`, the OR, and `NOT (b AND NOT co*)` (a NOT stands for the whole Term)
example : ∃ ign, parseQuery exIsSpace exUpper exParseTerms exQuery = .ok
    (.and [.atom ['c', 'a', 't'], .or [.atom ['d', 'o', 'g'], .phrase [['b', 'i', 'g'], ['b', 'i', 'r', 'd']]],
      .not (.and [.atom ['b'], .not (.glob ['c', 'o', '*'])])], ign) :=
  (C47_grammar exIsSpace exUpper exParseTerms exIsSpace_ok exQuery _).2
    ⟨_, exDerivation, (tokenize_iff exIsSpace_ok _ _).2 rfl, (classify_forall _ _ _).2 (by decide), rfl⟩
-- a run of negated words alone is rejected, an ignored operand is dropped
example : parseQuery exIsSpace exUpper exParseTerms ['-', 'a', ' ', '-', 'b'] = .error .parse := rfl
example : parseQuery exIsSpace exUpper exParseTerms ['a', ' ', 'A', 'n', 'd', ' ', 't', 'h', 'e'] =
    .ok (.atom ['a'], [['t', 'h', 'e']]) := rfl

/-! ## C48 -/

/-- C48: every tree the parser returns is `Clean`; in particular its root is not a NOT -/
theorem C48_shape (q : Word) (t : Node) (ign : List Word) (h : parseQuery isSpace upper parseTerms q = .ok (t, ign)) : Clean t := by
  unfold parseQuery tokens at h
  rcases parse_cases (parseTerms := parseTerms) _ (eof_not_mem upper (tokenize isSpace q)) (nonEmptyAtoms upper q) with
    ⟨o, -, e⟩ | ⟨-, e⟩
  · rw [e] at h
    split at h
    · rename_i hm; cases h; exact OrE_mean_clean o _ hm
    · cases h
  · rw [e] at h; cases h

variable {D R : Type} [LinearOrder D]

/-- C48: executing a parsed query raises only what a search of the index itself raises; in particular not the `QueryError` of a
NOT node, if no search does -/
theorem C48_execute (A : WArith R) (ix : Searcher D R) (q : Word) (t : Node) (ign : List Word)
    (h : parseQuery isSpace upper parseTerms q = .ok (t, ign)) (e : PyErr) (he : t.execute A ix = .error e) : Raises ix e :=
  clean_execute (C48_shape isSpace upper parseTerms q t ign h) e he

/-- C48: with searches that do not fail, executing a parsed query does not fail -/
theorem C48_execute_ok (A : WArith R) (ix : Searcher D R) (q : Word) (t : Node) (ign : List Word)
    (h : parseQuery isSpace upper parseTerms q = .ok (t, ign)) (h1 : ∀ w, ∃ r, ix.search w = .ok r)
    (h2 : ∀ ws, ∃ r, ix.searchPhrase ws = .ok r) (h3 : ∀ w, ∃ r, ix.searchGlob w = .ok r) : ∃ r, t.execute A ix = .ok r := by
  cases he : t.execute A ix with
  | ok r => exact ⟨r, rfl⟩
  | error e =>
    rcases C48_execute isSpace upper parseTerms A ix q t ign h e he with ⟨w, hw⟩ | ⟨w, hw⟩ | ⟨w, hw⟩
    · obtain ⟨r, hr⟩ := h1 w; rw [hr] at hw; cases hw
    · obtain ⟨r, hr⟩ := h2 w; rw [hr] at hw; cases hw
    · obtain ⟨r, hr⟩ := h3 w; rw [hr] at hw; cases hw

-- a tree with a NOT at the root does fail
example (A : WArith R) (ix : Searcher D R) : (Node.not (.atom ['a'])).execute A ix = .error .NotQueryError := by rw [Node.execute]

/-! ## C49 -/

/-- the terms that are no keywords or parentheses and hold no words for the lexicon -/
def IgnoredTerm (w : Word) : Prop := TokOf upper w (.atom w) ∧ parseTerms w = []

/-- C49: the ignored terms reported with a tree are, in order, exactly the ignored terms of the query -/
theorem C49_ignored (hsp : SpaceOk isSpace) (q : Word) (t : Node) (ign : List Word)
    (h : parseQuery isSpace upper parseTerms q = .ok (t, ign)) :
    ∃ ts, Tokens isSpace q ts ∧ ign.Sublist ts ∧ ∃ p : Word → Bool, ign = ts.filter p ∧
      ∀ w, p w = true ↔ IgnoredTerm upper parseTerms w := by
  refine ⟨tokenize isSpace q, (tokenize_iff hsp q _).2 rfl, ?_⟩
  unfold parseQuery tokens at h
  have : ign = ignT parseTerms ((tokenize isSpace q).map (classify upper)) := by
    rcases parse_cases (parseTerms := parseTerms) _ (eof_not_mem upper (tokenize isSpace q)) (nonEmptyAtoms upper q) with
      ⟨o, -, e⟩ | ⟨-, e⟩
    · rw [e] at h
      split at h
      · cases h; rfl
      · cases h
    · rw [e] at h; cases h
  rw [ignT_eq] at this
  refine ⟨this ▸ List.filter_sublist, _, this, ?_⟩
  intro w
  unfold IgnoredTerm
  rw [← classify_iff]
  simp

/-- C49: if all terms of a query are ignored, it is rejected with `ParseError` -/
theorem C49_all_ignored (hsp : SpaceOk isSpace) (q : Word) (ts : List Word) (hts : Tokens isSpace q ts)
    (h : ∀ w ∈ ts, TokOf upper w (.atom w) → parseTerms w = []) : parseQuery isSpace upper parseTerms q = .error .parse := by
  refine C47_reject isSpace upper parseTerms hsp q ?_
  intro ts' o h1 h2 t hm
  obtain rfl : ts = ts' := by rw [← (tokenize_iff hsp q ts).1 hts, ← (tokenize_iff hsp q ts').1 h1]
  have h2 := (classify_forall upper _ _).1 h2
  unfold OrE.mean at hm
  rw [OrE_ignored o (fun w hw => by
    rw [← h2] at hw
    obtain ⟨v, hv, e⟩ := List.mem_map.1 hw
    obtain rfl := classify_atom e
    exact h _ hv ((classify_iff upper _ _).1 e))] at hm
  cases hm

-- `the or the` is rejected, `the or cat` reports `the`
example : parseQuery exIsSpace exUpper exParseTerms ['t', 'h', 'e', ' ', 'o', 'r', ' ', 't', 'h', 'e'] = .error .parse := rfl
example : parseQuery exIsSpace exUpper exParseTerms ['t', 'h', 'e', ' ', 'o', 'r', ' ', 'c', 'a', 't'] =
    .ok (.atom ['c', 'a', 't'], [['t', 'h', 'e']]) := rfl

/-! ## C50 -/

/-- C50: the tokens of a query are those `Tokens` describes: pieces of the query in order, separated only by white space and
unpaired quotes; and there is only one way to take a query apart -/
theorem C50_tokens (hsp : SpaceOk isSpace) (q : Word) :
    Tokens isSpace q (tokenize isSpace q) ∧ ∀ ts, Tokens isSpace q ts → ts = tokenize isSpace q :=
  ⟨(tokenize_iff hsp q _).2 rfl, fun ts h => ((tokenize_iff hsp q ts).1 h).symm⟩

/-- C50: no token is empty, and every token is a parenthesis, a quoted string, perhaps with a hyphen before it, or a stretch
without white space, parentheses and quotes -/
theorem C50_token_shape (hsp : SpaceOk isSpace) (q t : Word) (ht : t ∈ tokenize isSpace q) :
    t = ['('] ∨ t = [')'] ∨ (∃ body, '"' ∉ body ∧ (t = '"' :: body ++ ['"'] ∨ t = '-' :: '"' :: body ++ ['"'])) ∨
      (t ≠ [] ∧ ∀ c ∈ t, WordChar isSpace c) := by
  have h := (tokenize_iff hsp q _).2 rfl
  generalize tokenize isSpace q = ts at *
  induction h with
  | nil => cases ht
  | space c s ts _ _ ih => exact ih ht
  | stray s ts _ _ ih => exact ih ht
  | paren c s ts hc _ ih =>
    rcases List.mem_cons.1 ht with rfl | ht
    · rcases hc with rfl | rfl
      · exact Or.inl rfl
      · exact Or.inr (Or.inl rfl)
    · exact ih ht
  | quoted hyphen body s ts hh hb _ ih =>
    rcases List.mem_cons.1 ht with rfl | ht
    · refine Or.inr (Or.inr (Or.inl ⟨body, hb, ?_⟩))
      rcases hh with rfl | rfl
      · exact Or.inl rfl
      · exact Or.inr rfl
    · exact ih ht
  | word w s ts hne hw _ _ _ ih =>
    rcases List.mem_cons.1 ht with rfl | ht
    · exact Or.inr (Or.inr (Or.inr ⟨hne, hw⟩))
    · exact ih ht

theorem tokOf_keywords (up : Char → List Char) (hup : UpperOk upper up) (w : Word) :
    (TokOf upper w .and ↔ ∃ a n d, w = [a, n, d] ∧ (a = 'a' ∨ a = 'A') ∧ (n = 'n' ∨ n = 'N') ∧ (d = 'd' ∨ d = 'D')) ∧
    (TokOf upper w .or ↔ ∃ o r, w = [o, r] ∧ (o = 'o' ∨ o = 'O') ∧ (r = 'r' ∨ r = 'R')) ∧
    (TokOf upper w .not ↔ ∃ n o t, w = [n, o, t] ∧ (n = 'n' ∨ n = 'N') ∧ (o = 'o' ∨ o = 'O') ∧ (t = 't' ∨ t = 'T')) ∧
    (TokOf upper w .lparen ↔ w = ['(']) ∧ (TokOf upper w .rparen ↔ w = [')']) := by
  show (upper w = ['A', 'N', 'D'] ↔ _) ∧ (upper w = ['O', 'R'] ↔ _) ∧ (upper w = ['N', 'O', 'T'] ↔ _) ∧ (upper w = ['('] ↔ _) ∧
    (upper w = [')'] ↔ _)
  rw [upper_eq hup w _ (by decide), upper_eq hup w _ (by decide), upper_eq hup w _ (by decide), upper_eq hup w _ (by decide),
    upper_eq hup w _ (by decide)]
  refine ⟨⟨?_, ?_⟩, ⟨?_, ?_⟩, ⟨?_, ?_⟩, ⟨?_, ?_⟩, ⟨?_, ?_⟩⟩
  · rintro ⟨e, -⟩
    rcases w with _ | ⟨a, _ | ⟨b, _ | ⟨c, _ | ⟨d, w⟩⟩⟩⟩ <;> simp only [List.map_cons, List.map_nil, List.cons.injEq, reduceCtorEq, and_false, and_true] at e
    rw [upl_eq a _ (by decide), upl_eq b _ (by decide), upl_eq c _ (by decide)] at e
    simp at e
    exact ⟨a, b, c, rfl, e.1.symm, e.2.1.symm, e.2.2.symm⟩
  · rintro ⟨a, n, d, rfl, rfl | rfl, rfl | rfl, rfl | rfl⟩ <;> decide
  · rintro ⟨e, -⟩
    rcases w with _ | ⟨a, _ | ⟨b, _ | ⟨c, w⟩⟩⟩ <;> simp only [List.map_cons, List.map_nil, List.cons.injEq, reduceCtorEq, and_false, and_true] at e
    rw [upl_eq a _ (by decide), upl_eq b _ (by decide)] at e
    simp at e
    exact ⟨a, b, rfl, e.1.symm, e.2.symm⟩
  · rintro ⟨a, n, rfl, rfl | rfl, rfl | rfl⟩ <;> decide
  · rintro ⟨e, -⟩
    rcases w with _ | ⟨a, _ | ⟨b, _ | ⟨c, _ | ⟨d, w⟩⟩⟩⟩ <;> simp only [List.map_cons, List.map_nil, List.cons.injEq, reduceCtorEq, and_false, and_true] at e
    rw [upl_eq a _ (by decide), upl_eq b _ (by decide), upl_eq c _ (by decide)] at e
    simp at e
    exact ⟨a, b, c, rfl, e.1.symm, e.2.1.symm, e.2.2.symm⟩
  · rintro ⟨a, n, d, rfl, rfl | rfl, rfl | rfl, rfl | rfl⟩ <;> decide
  · rintro ⟨e, hc⟩
    rcases w with _ | ⟨a, _ | ⟨b, w⟩⟩ <;> simp only [List.map_cons, List.map_nil, List.cons.injEq, reduceCtorEq, and_false, and_true] at e
    unfold upl at e
    split_ifs at e <;> simp_all
  · rintro rfl; decide
  · rintro ⟨e, hc⟩
    rcases w with _ | ⟨a, _ | ⟨b, w⟩⟩ <;> simp only [List.map_cons, List.map_nil, List.cons.injEq, reduceCtorEq, and_false, and_true] at e
    unfold upl at e
    split_ifs at e <;> simp_all
  · rintro rfl; decide

/-- C50: the parser takes a token for the keyword AND exactly if it is `and` in any mixture of cases; likewise OR and NOT; for a
parenthesis exactly if it is one; a token that merely contains one of these is an atom, with its text unchanged -/
theorem C50_keywords (up : Char → List Char) (hup : UpperOk upper up) (w : Word) :
    (classify upper w = .and ↔ ∃ a n d, w = [a, n, d] ∧ (a = 'a' ∨ a = 'A') ∧ (n = 'n' ∨ n = 'N') ∧ (d = 'd' ∨ d = 'D')) ∧
    (classify upper w = .or ↔ ∃ o r, w = [o, r] ∧ (o = 'o' ∨ o = 'O') ∧ (r = 'r' ∨ r = 'R')) ∧
    (classify upper w = .not ↔ ∃ n o t, w = [n, o, t] ∧ (n = 'n' ∨ n = 'N') ∧ (o = 'o' ∨ o = 'O') ∧ (t = 't' ∨ t = 'T')) ∧
    (classify upper w = .lparen ↔ w = ['(']) ∧ (classify upper w = .rparen ↔ w = [')']) ∧
    (classify upper w ∈ [.and, .or, .not, .lparen, .rparen] ∨ classify upper w = .atom w) := by
  obtain ⟨h1, h2, h3, h4, h5⟩ := tokOf_keywords upper up hup w
  refine ⟨(classify_iff upper w _).trans h1, (classify_iff upper w _).trans h2, (classify_iff upper w _).trans h3,
    (classify_iff upper w _).trans h4, (classify_iff upper w _).trans h5, ?_⟩
  unfold classify
  dsimp only
  split_ifs <;> simp

end

-- the tokens of the example query; an unpaired quote is skipped, a hyphen belongs to the quoted string after it
example : tokenize exIsSpace exQuery = [['c', 'a', 't'], ['a', 'n', 'd'], ['('], ['d', 'o', 'g'], ['O', 'R'],
    ['"', 'b', 'i', 'g', ' ', 'b', 'i', 'r', 'd', '"'], [')'], ['n', 'o', 't'], ['t', 'h', 'e'], ['b'], ['-', 'c', 'o', '*']] := rfl
example : tokenize exIsSpace ['a', '-', '"', 'b', ' ', '"', '-', '"', 'c', ')'] =
    [['a', '-'], ['"', 'b', ' ', '"'], ['-'], ['c'], [')']] := rfl
example : tokenize exIsSpace ['x', ' ', '-', '"', 'b', '"'] = [['x'], ['-', '"', 'b', '"']] := rfl

/-- the hypothesis of `C50_keywords` can be met -/
def exUp (c : Char) : List Char := [upl c]

theorem exUp_ok : UpperOk (fun w => w.flatMap exUp) exUp where
  chars := fun _ => rfl
  letters := by decide
  others := by
    intro c hc
    refine ⟨upl c, by simp [exUp], ?_⟩
    have : upl c = c := by
      unfold upl
      simp only [List.mem_cons, not_or] at hc
      obtain ⟨h1, -, h2, -, h3, -, h4, -, h5, -, h6, -⟩ := hc
      simp [h1, h2, h3, h4, h5, h6]
    rw [this]
    simp only [List.mem_cons, not_or, List.not_mem_nil, not_false_eq_true] at hc ⊢
    tauto

end Verif
