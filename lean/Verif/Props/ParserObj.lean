import Verif.Proofs.ParserObj
import Verif.Props.Query

/-! # C86: a query parser can be used again and again -/

set_option autoImplicit false

namespace Verif

open Spec ParserObj
open QueryParser (SpaceOk tokenize_iff classify_iff)

variable (isSpace : Char → Bool) (upper : Word → Word) (parseTerms : Word → List Word)

/-- C86: whatever a parser was used for before, also in calls that raised, and whatever was done to the lists it handed out, a query is
parsed, or rejected, as by a new parser (and that is as the function of C46 to C50 does it) -/
theorem C86_reuse (steps : List Step) (q : Word) :
    (ParserObj.parseQuery parseTerms isSpace upper q (ParserObj.run parseTerms isSpace upper steps)).1 =
      (ParserObj.parseQuery parseTerms isSpace upper q ParserObj.new).1 ∧
    (ParserObj.parseQuery parseTerms isSpace upper q ParserObj.new).1 = (QueryParser.parseQuery isSpace upper parseTerms q).map (·.1) := by
  refine ⟨?_, (parseQuery_left parseTerms isSpace upper q _).1⟩
  rw [(parseQuery_left parseTerms isSpace upper q _).1, (parseQuery_left parseTerms isSpace upper q _).1]

/-- C86: in every state the parser returns a tree or raises `ParseError`, nothing else -/
theorem C86_total (steps : List Step) (q : Word) :
    (∃ t, (ParserObj.parseQuery parseTerms isSpace upper q (ParserObj.run parseTerms isSpace upper steps)).1 = .ok t) ∨
    (ParserObj.parseQuery parseTerms isSpace upper q (ParserObj.run parseTerms isSpace upper steps)).1 = .error .parse := by
  rw [(C86_reuse isSpace upper parseTerms steps q).1, (C86_reuse isSpace upper parseTerms steps q).2]
  rcases C46_total isSpace upper parseTerms q with ⟨t, ign, h⟩ | h
  · exact Or.inl ⟨t, by rw [h]; rfl⟩
  · exact Or.inr (by rw [h]; rfl)

/-- C86: before the first query `getIgnored()` is `None`.  Afterwards it is a list, made for the last query: if the query was parsed, its
ignored terms in order; if it was rejected, the ignored terms before some place in it -/
theorem C86_ignored (hsp : SpaceOk isSpace) (steps : List Step) (q : Word) :
    (getIgnored ParserObj.new).1 = .ok none ∧
    ∃ list content ts k, ∃ p : Word → Bool,
      (getIgnored (ParserObj.run parseTerms isSpace upper (steps ++ [.parse q]))).1 = .ok (some list) ∧
      (ParserObj.run parseTerms isSpace upper (steps ++ [.parse q])).lists.get? list = some content ∧
      Tokens isSpace q ts ∧ (∀ w, p w = true ↔ IgnoredTerm upper parseTerms w) ∧ content = (ts.take k).filter p ∧
      ((∃ t, (ParserObj.parseQuery parseTerms isSpace upper q (ParserObj.run parseTerms isSpace upper steps)).1 = .ok t) →
        content = ts.filter p) := by
  refine ⟨rfl, ?_⟩
  have hrun : ParserObj.run parseTerms isSpace upper (steps ++ [.parse q]) =
      (ParserObj.parseQuery parseTerms isSpace upper q (ParserObj.run parseTerms isSpace upper steps)).2 := by
    unfold ParserObj.run
    rw [List.foldl_append]
    rfl
  rw [hrun]
  obtain ⟨h1, k, hl, hk⟩ := parseQuery_left parseTerms isSpace upper q (ParserObj.run parseTerms isSpace upper steps)
  refine ⟨_, _, QueryParser.tokenize isSpace q, k,
    fun w => decide (QueryParser.classify upper w = .atom w) && decide (parseTerms w = []), congrArg Except.ok hl.ignored, hl.list,
    (tokenize_iff hsp q _).2 rfl, ?_, ignored_take parseTerms upper _ k, ?_⟩
  · intro w
    unfold IgnoredTerm
    rw [← classify_iff]
    simp
  · rintro ⟨t, ht⟩
    rw [h1] at ht
    cases hq : QueryParser.parseQuery isSpace upper parseTerms q with
    | error e => rw [hq] at ht; cases ht
    | ok r =>
      obtain ⟨t', ign⟩ := r
      rw [← hk t' ign hq]
      obtain ⟨ts, a1, -, p, a2, a3⟩ := C49_ignored isSpace upper parseTerms hsp q t' ign hq
      obtain rfl := (tokenize_iff hsp q ts).1 a1
      rw [a2]
      refine List.filter_congr fun w _ => ?_
      rw [Bool.eq_iff_iff, a3]
      unfold IgnoredTerm
      rw [← classify_iff]
      simp

/-- C86: `parseQueryEx` returns the tree and that list -/
theorem C86_ex (steps : List Step) (q : Word) :
    (ParserObj.parseQueryEx parseTerms isSpace upper q (ParserObj.run parseTerms isSpace upper steps)).1 =
      (ParserObj.parseQuery parseTerms isSpace upper q (ParserObj.run parseTerms isSpace upper steps)).1.map
        (fun t => (t, (ParserObj.run parseTerms isSpace upper (steps ++ [.parse q])).obj.ignored)) := by
  have hrun : ParserObj.run parseTerms isSpace upper (steps ++ [.parse q]) =
      (ParserObj.parseQuery parseTerms isSpace upper q (ParserObj.run parseTerms isSpace upper steps)).2 := by
    unfold ParserObj.run
    rw [List.foldl_append]
    rfl
  rw [hrun]
  unfold ParserObj.parseQueryEx
  obtain ⟨o, m', hf⟩ : ∃ o m', ParserObj.parseQuery parseTerms isSpace upper q (ParserObj.run parseTerms isSpace upper steps) = (o, m') :=
    ⟨_, _, rfl⟩
  rw [hf]
  cases o with
  | ok t => rw [bind_ok hf]; rfl
  | error e => rw [bind_error hf]; rfl

/-- C86: a list of ignored terms that was handed out is not changed by parsing more queries, and is not handed out again -/
theorem C86_lists (steps : List Step) (list : Nat)
    (h : (getIgnored (ParserObj.run parseTerms isSpace upper steps)).1 = .ok (some list)) (qs : List Word) :
    (ParserObj.run parseTerms isSpace upper (steps ++ qs.map .parse)).lists.get? list =
      (ParserObj.run parseTerms isSpace upper steps).lists.get? list ∧
    (qs ≠ [] → (getIgnored (ParserObj.run parseTerms isSpace upper (steps ++ qs.map .parse))).1 ≠ .ok (some list)) := by
  have hlt : list < (ParserObj.run parseTerms isSpace upper steps).lists.next :=
    run_inv parseTerms isSpace upper steps list (Except.ok.inj h)
  have key : ∀ qs : List Word, (ParserObj.run parseTerms isSpace upper (steps ++ qs.map .parse)).lists.get? list =
      (ParserObj.run parseTerms isSpace upper steps).lists.get? list ∧
      list < (ParserObj.run parseTerms isSpace upper (steps ++ qs.map .parse)).lists.next ∧
      (qs ≠ [] → ∃ b, (ParserObj.run parseTerms isSpace upper (steps ++ qs.map .parse)).obj.ignored = some b ∧ list < b) := by
    intro qs
    induction qs using List.reverseRecOn with
    | nil => simpa using hlt
    | append_singleton qs q ih =>
      have hrun : ParserObj.run parseTerms isSpace upper (steps ++ (qs ++ [q]).map .parse) =
          (ParserObj.parseQuery parseTerms isSpace upper q (ParserObj.run parseTerms isSpace upper (steps ++ qs.map .parse))).2 := by
        unfold ParserObj.run
        rw [List.map_append, ← List.append_assoc, List.foldl_append]
        rfl
      rw [hrun]
      obtain ⟨-, k, hl, -⟩ := parseQuery_left parseTerms isSpace upper q (ParserObj.run parseTerms isSpace upper (steps ++ qs.map .parse))
      exact ⟨(hl.others _ ih.2.1).trans ih.1, by rw [hl.next]; exact Nat.lt_succ_of_lt ih.2.1, fun _ => ⟨_, hl.ignored, ih.2.1⟩⟩
  refine ⟨(key qs).1, fun hne hc => ?_⟩
  obtain ⟨b, hb, hlb⟩ := (key qs).2.2 hne
  have : some list = some b := (Except.ok.inj hc).symm.trans hb
  cases this
  exact absurd hlb (lt_irrefl _)

/-! ## Examples -/

/-- a query with an ignored term that is rejected, a list changed by the program, and a query that is parsed -/
def exParserSteps : List Step :=
  [.parse ['t', 'h', 'e', ' ', 'a', ' ', 'o', 'r'], .change 0 [['x']], .parse ['a', ' ', 't', 'h', 'e']]

example : (ParserObj.parseQuery exParseTerms exIsSpace exUpper ['t', 'h', 'e', ' ', 'a', ' ', 'o', 'r'] ParserObj.new).1 = .error .parse ∧
    (ParserObj.run exParseTerms exIsSpace exUpper (exParserSteps.take 1)).lists.cells.items = [(0, [['t', 'h', 'e']])] :=
  ⟨rfl, by decide +kernel⟩
example : (ParserObj.parseQuery exParseTerms exIsSpace exUpper ['a', ' ', 't', 'h', 'e']
      (ParserObj.run exParseTerms exIsSpace exUpper (exParserSteps.take 2))).1 = .ok (.atom ['a']) ∧
    (ParserObj.run exParseTerms exIsSpace exUpper exParserSteps).obj.ignored = some 1 ∧
    (ParserObj.run exParseTerms exIsSpace exUpper exParserSteps).lists.cells.items = [(0, [['x']]), (1, [['t', 'h', 'e']])] :=
  ⟨rfl, by decide +kernel, by decide +kernel⟩
/-- the list is that of the tokens before the place of the error: `the) the` -/
example : (ParserObj.run exParseTerms exIsSpace exUpper [.parse ['t', 'h', 'e', ')', ' ', 't', 'h', 'e']]).lists.cells.items =
    [(0, [['t', 'h', 'e']])] := by decide +kernel

end Verif
