import Verif.Spec.StopWords
import Verif.Props.Compose
import Verif.Props.WordFound

/-! # Property C82: stop words do not matter -/

set_option autoImplicit false

namespace Verif

open Spec Text SetOps QueryParser

variable {D R : Type} [LinearOrder D]

/-- textindex.py:42-44 with any dictionary of stop words: the pipeline of the default lexicon, or the one with
`StopWordAndSingleCharRemover` instead of `StopWordRemover` (`stop := isStopOrSingle`) -/
def stopPipeline (isW : Char → Bool) (lower : Word → Word) (stop : Word → Bool) : List Element :=
  [Splitter.element isW, caseNormalizer lower, stopWordRemover stop]

example (isW : Char → Bool) (lower : Word → Word) : stopPipeline isW lower isStop = defaultPipeline isW lower := rfl

/-! ## Texts -/

/-- C82: the words of a text are its lower case words without the stop words, in order -/
theorem C82_words (isW : Char → Bool) (lower : Word → Word) (stop : Word → Bool) (t : TextArg) (ws : List Word)
    (h : LowerWords isW lower t ws) : wordsOf (stopPipeline isW lower stop) t = ws.filter (fun w => !stop w) := by
  obtain ⟨wss, hw, rfl⟩ := h
  obtain ⟨wss', hw', e⟩ := C44_process isW (textOf t)
  have hu : wss = wss' := by
    clear e
    generalize textOf t = l at hw hw'
    induction hw generalizing wss' with
    | nil => cases hw'; rfl
    | cons a _ ih =>
      cases hw' with
      | cons b bs => rw [C44_unique isW isW _ _ _ a b, ih _ bs]
  show ((Splitter.process isW (textOf t)).map lower).filter (fun w => !stop w) = _
  rw [e, hu]

/-- every text has lower case words -/
theorem lowerWords_exists (isW : Char → Bool) (lower : Word → Word) (t : TextArg) : ∃ ws, LowerWords isW lower t ws := by
  obtain ⟨wss, hw, -⟩ := C44_process isW (textOf t)
  exact ⟨_, wss, hw, rfl⟩

/-- C82: a history and one whose texts have other stop words leave the same index, so all later calls have the same results -/
theorem C82_texts (K : Kind D R) (isW : Char → Bool) (lower : Word → Word) (stop : Word → Bool) (ops ops' : List (Text.Op D))
    (h : List.Forall₂ (SameCall isW lower stop) ops ops') :
    run K (stopPipeline isW lower stop) ops = run K (stopPipeline isW lower stop) ops' := by
  have key : ∀ t t', SameText isW lower stop t t' → ∀ s : Lexicon,
      s.sourceToWordIds (stopPipeline isW lower stop) t = s.sourceToWordIds (stopPipeline isW lower stop) t' := by
    rintro t t' ⟨ws, ws', h1, h2, e⟩ s
    unfold Lexicon.sourceToWordIds
    rw [Lexicon.runPipeline_eq, Lexicon.runPipeline_eq, Lexicon.sourceText_eq, Lexicon.sourceText_eq]
    show s.createAll (wordsOf (stopPipeline isW lower stop) t) = s.createAll (wordsOf (stopPipeline isW lower stop) t')
    rw [C82_words isW lower stop t ws h1, C82_words isW lower stop t' ws' h2, e]
  unfold run
  generalize ({ lex := Lexicon.new, ix := new } : TI D R) = s
  induction h generalizing s with
  | nil => rfl
  | cons a _ ih =>
    rw [List.foldlM_cons, List.foldlM_cons]
    have step_eq : ∀ op op', SameCall isW lower stop op op' →
        step K (stopPipeline isW lower stop) s op = step K (stopPipeline isW lower stop) s op' := by
      intro op op' a
      cases a with
      | same op => rfl
      | index d t t' h =>
        simp only [step]
        rw [key t t' h]
      | source t t' h =>
        simp only [step, Lexicon.step]
        rw [key t t' h]
    rw [step_eq _ _ a]
    congr 1
    funext s
    exact ih s

/-! ## Queries -/

theorem parse_ignored (isSpace : Char → Bool) (upper : Word → Word) (parseTerms : Word → List Word) (hsp : SpaceOk isSpace)
    (hu : KeywordsOk isSpace upper) (q w : Word) (e1 : QuotesPaired q) (t : Node) (ign : List Word)
    (h : parseQuery isSpace upper parseTerms q = .ok (t, ign)) (hw0 : w ≠ []) (hwc : ∀ c ∈ w, WordChar isSpace c)
    (hw : TokOf upper w (.atom w)) (hterms : parseTerms w = []) :
    (∃ i, parseQuery isSpace upper parseTerms (combine q [['O', 'R']] w) = .ok (t, i)) ∧
    (∃ i, parseQuery isSpace upper parseTerms (combine q [['A', 'N', 'D']] w) = .ok (t, i)) ∧
    (∃ i, parseQuery isSpace upper parseTerms (combine q [['A', 'N', 'D'], ['N', 'O', 'T']] w) = .ok (t, i)) ∧
    (∃ i, parseQuery isSpace upper parseTerms (combine w [['O', 'R']] q) = .ok (t, i)) ∧
    (∃ i, parseQuery isSpace upper parseTerms (combine w [['A', 'N', 'D']] q) = .ok (t, i)) := by
  obtain ⟨ts, o, k, c, m⟩ := (C47_grammar isSpace upper parseTerms hsp q t).1 ⟨_, h⟩
  have kw : Tokens isSpace w [w] := by
    have := Tokens.word (isSpace := isSpace) w [] [] hw0 hwc (by simp) (by simp) .nil
    simpa using this
  have e2 : QuotesPaired w := by
    unfold QuotesPaired
    rw [List.count_eq_zero_of_not_mem (fun hm => (hwc _ hm).2.2.1 rfl)]
  have hkw : ∀ w ∈ [['O', 'R'], ['A', 'N', 'D'], ['N', 'O', 'T']], w ≠ [] ∧ ∀ c ∈ w, WordChar isSpace c := by
    intro w hw
    have hl := hu.letters
    simp only [List.mem_cons, List.not_mem_nil, or_false] at hw
    rcases hw with rfl | rfl | rfl <;> refine ⟨by decide, fun c hc => ⟨?_, ?_, ?_, hl c ?_⟩⟩ <;> revert c <;> decide
  have hr : List.Forall₂ (TokOf upper) [[')']] [Tok.rparen] := .cons hu.rparen .nil
  have cw : List.Forall₂ (TokOf upper) [w] [Tok.atom w] := .cons hw .nil
  have mq : (TermE.paren o).mean parseTerms = .ok (some t) := by rw [TermE.mean]; exact m
  have mw : (TermE.paren (.one (.mk (.atoms w []) .nil))).mean parseTerms = .ok none := by
    have ha : atomsMean parseTerms [w] = .ok none := by
      unfold atomsMean
      have : atomMean parseTerms w = none := by unfold atomMean; rw [hterms]
      simp [this, join]
    simp only [TermE.mean, OrE.parts, AndE.mean, ha, Items.parts]
    rfl
  refine ⟨?_, ?_, ?_, ?_, ?_⟩
  · refine (C47_grammar isSpace upper parseTerms hsp _ t).2 ⟨_, .more (.mk (.paren o) .nil) (.one (.mk (.paren (.one (.mk (.atoms w []) .nil))) .nil)),
      tokens_combine hsp hu.blank (fun w h => hkw w (by simp at h; simp [h])) k kw e1 e2, ?_, ?_⟩
    · simp only [OrE.flat, AndE.flat, TermE.flat, Items.flat, List.append_nil, List.cons_append, List.append_assoc, List.map_nil]
      exact .cons hu.lparen (List.rel_append c (.cons hu.rparen (.cons hu.or (.cons hu.lparen (.cons hw hr)))))
    · simp only [OrE.mean, OrE.parts, AndE.mean, mq, mw, Items.parts]
      rfl
  · refine (C47_grammar isSpace upper parseTerms hsp _ t).2 ⟨_, .one (.mk (.paren o) (.andTerm (.paren (.one (.mk (.atoms w []) .nil))) .nil)),
      tokens_combine hsp hu.blank (fun w h => hkw w (by simp at h; simp [h])) k kw e1 e2, ?_, ?_⟩
    · simp only [OrE.flat, AndE.flat, TermE.flat, Items.flat, List.append_nil, List.cons_append, List.append_assoc, List.map_nil]
      exact .cons hu.lparen (List.rel_append c (.cons hu.rparen (.cons hu.and (.cons hu.lparen (.cons hw hr)))))
    · simp only [OrE.mean, OrE.parts, AndE.mean, mq, mw, Items.parts]
      rfl
  · refine (C47_grammar isSpace upper parseTerms hsp _ t).2 ⟨_, .one (.mk (.paren o) (.andNot (.paren (.one (.mk (.atoms w []) .nil))) .nil)),
      tokens_combine hsp hu.blank (fun w h => hkw w (by simp at h; rcases h with h | h <;> simp [h])) k kw e1 e2, ?_, ?_⟩
    · simp only [OrE.flat, AndE.flat, TermE.flat, Items.flat, List.append_nil, List.cons_append, List.append_assoc, List.map_nil]
      exact .cons hu.lparen (List.rel_append c (.cons hu.rparen (.cons hu.and (.cons hu.not (.cons hu.lparen (.cons hw hr))))))
    · simp only [OrE.mean, OrE.parts, AndE.mean, mq, mw, Items.parts]
      rfl
  · refine (C47_grammar isSpace upper parseTerms hsp _ t).2 ⟨_, .more (.mk (.paren (.one (.mk (.atoms w []) .nil))) .nil) (.one (.mk (.paren o) .nil)),
      tokens_combine hsp hu.blank (fun w h => hkw w (by simp at h; simp [h])) kw k e2 e1, ?_, ?_⟩
    · simp only [OrE.flat, AndE.flat, TermE.flat, Items.flat, List.append_nil, List.cons_append, List.append_assoc, List.map_nil]
      exact .cons hu.lparen (.cons hw (.cons hu.rparen (.cons hu.or (.cons hu.lparen (List.rel_append c hr)))))
    · simp only [OrE.mean, OrE.parts, AndE.mean, mq, mw, Items.parts]
      rfl
  · refine (C47_grammar isSpace upper parseTerms hsp _ t).2 ⟨_, .one (.mk (.paren (.one (.mk (.atoms w []) .nil))) (.andTerm (.paren o) .nil)),
      tokens_combine hsp hu.blank (fun w h => hkw w (by simp at h; simp [h])) kw k e2 e1, ?_, ?_⟩
    · simp only [OrE.flat, AndE.flat, TermE.flat, Items.flat, List.append_nil, List.cons_append, List.append_assoc, List.map_nil]
      exact .cons hu.lparen (.cons hw (.cons hu.rparen (.cons hu.and (.cons hu.lparen (List.rel_append c hr)))))
    · simp only [OrE.mean, OrE.parts, AndE.mean, mq, mw, Items.parts]
      rfl

theorem stop_terms {isW isSpace : Char → Bool} (hW : WordClass isW isSpace) (lower : Word → Word) (stop : Word → Bool) {w : Word}
    (hw0 : w ≠ []) (hww : ∀ c ∈ w, isW c = true) (hstop : stop (lower w) = true) :
    Lexicon.parseTerms (stopPipeline isW lower stop) w = [] := by
  obtain ⟨-, -, hg⟩ := hW.plain hww
  change ((Splitter.processGlob isW [w]).map lower).filter (fun w => !stop w) = []
  rw [C44_glob_free isW [w] (by
    intro x hx
    rw [List.mem_singleton.1 hx]
    exact hg)]
  unfold Splitter.process
  rw [List.flatMap_singleton, findall_word isW hw0 hww, List.map_singleton]
  simp [hstop]

/-- C82: `apply` of a stop word, in any case, that is no keyword, raises `ParseError` -/
theorem C82_alone (K : Kind D R) (isW isSpace : Char → Bool) (lower upper : Word → Word) (stop : Word → Bool)
    (hW : WordClass isW isSpace) (hsp : SpaceOk isSpace) (odd : Word → Except PyErr (Word → Bool)) (s : TI D R)
    (w : Word) (hw0 : w ≠ []) (hww : ∀ c ∈ w, isW c = true) (hstop : stop (lower w) = true) :
    TokOf upper w (.atom w) → apply K isSpace upper odd (stopPipeline isW lower stop) s w = .error .ParseError := by
  intro hw
  have hwc : ∀ c ∈ w, WordChar isSpace c := (hW.plain hww).1
  have kw : Tokens isSpace w [w] := by
    have := Tokens.word (isSpace := isSpace) w [] [] hw0 hwc (by simp) (by simp) .nil
    simpa using this
  have := C49_all_ignored isSpace upper (Lexicon.parseTerms (stopPipeline isW lower stop)) hsp w [w] kw (by
    intro x hx _
    rw [List.mem_singleton.1 hx]
    exact stop_terms hW lower stop hw0 hww hstop)
  unfold apply
  rw [this]

/-- C82: adding a stop word, in any case, to a query with OR, AND or AND NOT does not change the answer of `apply` -/
theorem C82_query (K : Kind D R) (isW isSpace : Char → Bool) (lower upper : Word → Word) (stop : Word → Bool)
    (hW : WordClass isW isSpace) (hsp : SpaceOk isSpace) (hu : KeywordsOk isSpace upper) (odd : Word → Except PyErr (Word → Bool))
    (s : TI D R) (q : Word) (e1 : QuotesPaired q) (r : Option (SMap D R))
    (h : apply K isSpace upper odd (stopPipeline isW lower stop) s q = .ok r)
    (w : Word) (hw0 : w ≠ []) (hww : ∀ c ∈ w, isW c = true) (hstop : stop (lower w) = true) (hw : TokOf upper w (.atom w)) :
    apply K isSpace upper odd (stopPipeline isW lower stop) s (combine q [['O', 'R']] w) = .ok r ∧
    apply K isSpace upper odd (stopPipeline isW lower stop) s (combine q [['A', 'N', 'D']] w) = .ok r ∧
    apply K isSpace upper odd (stopPipeline isW lower stop) s (combine q [['A', 'N', 'D'], ['N', 'O', 'T']] w) = .ok r ∧
    apply K isSpace upper odd (stopPipeline isW lower stop) s (combine w [['O', 'R']] q) = .ok r ∧
    apply K isSpace upper odd (stopPipeline isW lower stop) s (combine w [['A', 'N', 'D']] q) = .ok r := by
  cases hq : parseQuery isSpace upper (Lexicon.parseTerms (stopPipeline isW lower stop)) q with
  | error x => unfold apply at h; rw [hq] at h; cases x <;> simp at h
  | ok p =>
    obtain ⟨t, ign⟩ := p
    obtain ⟨⟨i1, h1⟩, ⟨i2, h2⟩, ⟨i3, h3⟩, ⟨i4, h4⟩, ⟨i5, h5⟩⟩ := parse_ignored isSpace upper _ hsp hu q w e1 t ign hq hw0 (hW.plain hww).1 hw
      (stop_terms hW lower stop hw0 hww hstop)
    unfold apply at h ⊢
    rw [hq] at h
    rw [h1, h2, h3, h4, h5]
    exact ⟨h, h, h, h, h⟩

/-! ## Single characters -/

/-- C82 for characters before U+00FF: with `StopWordAndSingleCharRemover`, no word of a text is a stop word or such a character, and
every other lower case word stays.  What is missing: other characters, for which it is false (`C82_fails`). -/
theorem C82_single_partial (isW : Char → Bool) (lower : Word → Word) (t : TextArg) (ws : List Word) (h : LowerWords isW lower t ws)
    (w : Word) : w ∈ wordsOf (stopPipeline isW lower isStopOrSingle) t ↔
      w ∈ ws ∧ w ∉ stopWords ∧ ¬ ∃ c : Char, w = [c] ∧ c.toNat < 255 := by
  rw [C82_words isW lower _ t ws h, List.mem_filter]
  refine and_congr_right fun _ => ?_
  unfold isStopOrSingle isStop
  rcases w with _ | ⟨c, _ | ⟨c', w⟩⟩ <;> simp

/-- C82 fails for single characters: `ÿ` (U+00FF) and `я` stay -/
theorem C82_fails : wordsOf (stopPipeline (fun c => c ≠ ' ') id isStopOrSingle) (.str ['ÿ', ' ', 'я', ' ', 'é']) = [['ÿ'], ['я']] := by
  decide +kernel

/-! ## Examples -/

theorem exWordClass : WordClass exIsW exIsSpace := ⟨by decide, by
  intro c hc
  simp only [exIsSpace, Bool.or_eq_true, decide_eq_true_eq] at hc
  rcases hc with (rfl | rfl) | rfl <;> decide, by decide, by decide, by decide⟩

/-- `The big dog` and `big, and a dog` are the same text except for stop words -/
example : run exOkapi (stopPipeline exIsW exLowerWord isStop) [.index 3 (.str ['d', 'o', 'g']), .index 7 (.str "The big dog".toList), .unindex 3] =
    run exOkapi (stopPipeline exIsW exLowerWord isStop)
      [.index 3 (.str ['d', 'o', 'g']), .index 7 (.str "big, and a dog".toList), .unindex 3] := by
  refine C82_texts _ _ _ _ _ _ (.cons (.same _) (.cons (.index _ _ _ ?_) (.cons (.same _) .nil)))
  refine ⟨[['t', 'h', 'e'], ['b', 'i', 'g'], ['d', 'o', 'g']], [['b', 'i', 'g'], ['a', 'n', 'd'], ['a'], ['d', 'o', 'g']], ?_, ?_, by decide⟩
  · exact ⟨_, .cons (Splitter.findall_runs _ _ _) .nil, by decide +kernel⟩
  · exact ⟨_, .cons (Splitter.findall_runs _ _ _) .nil, by decide +kernel⟩

/-- `The` is ignored after `dog` -/
example (s : TI Nat Int) (r : Option (SMap Nat Int))
    (h : apply exOkapi exIsSpace exUpper (fun _ => .ok (fun _ => false)) (stopPipeline exIsW exLowerWord isStop) s ['d', 'o', 'g'] = .ok r) :
    apply exOkapi exIsSpace exUpper (fun _ => .ok (fun _ => false)) (stopPipeline exIsW exLowerWord isStop) s
      "(dog) AND NOT (The)".toList = .ok r :=
  (C82_query exOkapi exIsW exIsSpace exLowerWord exUpper isStop exWordClass exIsSpace_ok exKeywordsOk _ s ['d', 'o', 'g']
    (by unfold QuotesPaired; decide) r h ['T', 'h', 'e'] (by decide) (by decide) (by decide) (by unfold TokOf; decide)).2.2.1

end Verif
