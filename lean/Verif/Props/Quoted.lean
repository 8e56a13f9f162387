import Verif.Props.WordFound

/-!
# Property C84: a quoted text finds the documents that contain it

Hypotheses about characters and `str.lower()` are those of the default pipeline (`Splitter`, `CaseNormalizer`, `StopWordRemover`).
-/

set_option autoImplicit false

namespace Verif

open Spec Text SetOps

variable {D R : Type} [LinearOrder D] {A : Arith R} {Pos : R → Prop} {K : Kind D R}

/-- no word goes on from the text `a` to the text `b` after it -/
def CleanCut (isW : Char → Bool) (a b : Word) : Prop :=
  ∀ x y, a.getLast? = some x → b.head? = some y → isW x = false ∨ isW y = false

theorem runs_sep {isW : Char → Bool} {sep b : Word} {vs : List Word} (hsep : ∀ c ∈ sep, isW c = false) (hb : Runs isW isW b vs) :
    Runs isW isW (sep ++ b) vs := by
  cases hb with
  | done _ h =>
    refine .done _ fun c hc => ?_
    rcases List.mem_append.1 hc with hc | hc
    · exact hsep c hc
    · exact h c hc
  | word s c w rest ws h1 h2 h3 h4 h5 =>
    have := Runs.word (sep ++ s) c w rest ws (fun x hx => by
      rcases List.mem_append.1 hx with hx | hx
      · exact hsep x hx
      · exact h1 x hx) h2 h3 h4 h5
    simpa [List.append_assoc] using this

/-- the words of two texts, one after the other -/
theorem runs_append {isW : Char → Bool} {a b : Word} {us vs : List Word} (ha : Runs isW isW a us) (hb : Runs isW isW b vs)
    (hcut : CleanCut isW a b) : Runs isW isW (a ++ b) (us ++ vs) := by
  induction ha with
  | done sep h => exact runs_sep h hb
  | word sep c w rest ws h1 h2 h3 h4 h5 ih =>
    have hcut' : CleanCut isW rest b := by
      intro x y hx hy
      refine hcut x y ?_ hy
      rw [List.getLast?_append, hx]
      rfl
    have := Runs.word sep c w (rest ++ b) (ws ++ vs) h1 h2 h3 (by
      intro x hx
      cases rest with
      | cons r rest => exact h4 x hx
      | nil =>
        obtain ⟨l, hl⟩ : ∃ l, (c :: w).getLast? = some l := by
          cases h : (c :: w).getLast? with
          | none => simp at h
          | some l => exact ⟨l, rfl⟩
        have hlW : isW l = true := by
          rcases List.mem_cons.1 (List.mem_of_getLast? hl) with rfl | hm
          · exact h2
          · exact h3 _ hm
        rcases hcut l x (by rw [List.append_nil, List.getLast?_append, hl]; rfl) hx with h | h
        · rw [hlW] at h; cases h
        · exact h) (ih hcut')
    simpa [List.append_assoc] using this

theorem findall_append {isW : Char → Bool} {a b : Word} (hcut : CleanCut isW a b) :
    Splitter.findall isW isW (a ++ b) = Splitter.findall isW isW a ++ Splitter.findall isW isW b :=
  Splitter.runs_unique isW isW (Splitter.findall_runs isW isW _)
    (runs_append (Splitter.findall_runs isW isW a) (Splitter.findall_runs isW isW b) hcut)

/-- a text in double quotes -/
def inQuotes (body : Word) : Word := '"' :: body ++ ['"']

theorem findall_inQuotes {isW : Char → Bool} (hq : isW '"' = false) (body : Word) :
    Splitter.findall isW isW (inQuotes body) = Splitter.findall isW isW body := by
  refine Splitter.runs_unique isW isW (Splitter.findall_runs isW isW _) ?_
  have h := runs_append (Splitter.findall_runs isW isW body) (Runs.done (isA := isW) (isB := isW) ['"'] (by simpa using hq))
    (fun x y _ hy => by simp at hy; subst hy; exact Or.inr hq)
  have := runs_sep (sep := ['"']) (by simpa using hq) h
  simpa [inQuotes] using this

/-- what a text in double quotes means: nothing if it has no words, the word if it has one (as pattern if it has glob characters),
else the phrase -/
def quotedNode : List Word → Option Node
  | [] => none
  | [w] => some (if '*' ∈ w ∨ '?' ∈ w then .glob w else .atom w)
  | ws => some (.phrase ws)

/-- C84: a text in double quotes, without double quotes inside, is one term of the query, whatever keywords, parentheses, hyphens
and spaces are in it; with no words for the lexicon it is rejected -/
theorem C84_parse (isSpace : Char → Bool) (hsp : QueryParser.SpaceOk isSpace) (upper : Word → Word) (up : Char → List Char)
    (hup : UpperOk upper up) (parseTerms : Word → List Word) (body : Word) (hb : '"' ∉ body) :
    match quotedNode (parseTerms (inQuotes body)) with
    | some n => QueryParser.parseQuery isSpace upper parseTerms (inQuotes body) = .ok (n, [])
    | none => QueryParser.parseQuery isSpace upper parseTerms (inQuotes body) = .error .parse := by
  have htok : Tokens isSpace (inQuotes body) [inQuotes body] := by
    have := Tokens.quoted (isSpace := isSpace) [] body [] [] (Or.inl rfl) hb .nil
    simpa [inQuotes] using this
  have hatom : TokOf upper (inQuotes body) (.atom (inQuotes body)) := by
    obtain ⟨x, hx, hx'⟩ := hup.others '"' (by decide)
    have hmem : x ∈ upper (inQuotes body) := by
      rw [hup.chars, inQuotes, List.cons_append, List.flatMap_cons]
      exact List.mem_append_left _ hx
    refine ⟨rfl, ?_, ?_, ?_, ?_, ?_⟩ <;> intro e <;> rw [e] at hmem <;> simp at hmem hx' <;> grind
  have hok : ∀ n, quotedNode (parseTerms (inQuotes body)) = some n →
      QueryParser.parseQuery isSpace upper parseTerms (inQuotes body) = .ok (n, []) := by
    intro n hn
    have hne : parseTerms (inQuotes body) ≠ [] := by
      intro e; rw [e] at hn; cases hn
    have hmean : atomMean parseTerms (inQuotes body) = some (false, n) := by
      unfold atomMean
      unfold quotedNode at hn
      split at hn
      · cases hn
      · rename_i w e
        rw [e]
        simp only [Option.some.injEq] at hn
        simp [inQuotes, hn]
      · rename_i ws h1 h2
        simp only [Option.some.injEq] at hn
        split
        · rename_i e; exact absurd e h1
        · rename_i w e; exact absurd e (h2 w)
        · rw [hn]; simp [inQuotes]
    obtain ⟨ign, h⟩ := (C47_grammar isSpace upper parseTerms hsp (inQuotes body) n).2
      ⟨[inQuotes body], .one (.mk (.atoms (inQuotes body) []) .nil), htok, by
        simp only [OrE.flat, AndE.flat, TermE.flat, Items.flat, List.map_nil, List.append_nil]
        exact .cons hatom .nil, by
        have hatoms : atomsMean parseTerms [inQuotes body] = .ok (some n) := by
          unfold atomsMean
          rw [List.filterMap_cons, hmean]
          rfl
        simp only [OrE.mean, OrE.parts, AndE.mean, TermE.mean, hatoms, Items.parts]
        rfl⟩
    obtain ⟨ts, h1, -, p, rfl, h3⟩ := C49_ignored isSpace upper parseTerms hsp _ _ _ h
    obtain rfl : [inQuotes body] = ts := by
      rw [(C50_tokens isSpace hsp _).2 _ htok, (C50_tokens isSpace hsp _).2 _ h1]
    have : p (inQuotes body) = false := by
      cases hp : p (inQuotes body) with
      | false => rfl
      | true => exact absurd ((h3 _).1 hp).2 hne
    rw [h, List.filter_cons, this]
    rfl
  cases hn : quotedNode (parseTerms (inQuotes body)) with
  | some n => exact hok n hn
  | none =>
    refine C49_all_ignored isSpace upper parseTerms hsp _ _ htok ?_
    intro w hw _
    obtain rfl : w = inQuotes body := by simpa using hw
    unfold quotedNode at hn
    split at hn
    · assumption
    · cases hn
    · cases hn

-- keywords and parentheses in a quoted text; `exParseTerms` drops `the`
example : QueryParser.parseQuery exIsSpace (fun w => w.flatMap exUp) exParseTerms (inQuotes ['a', ' ', 'n', 'o', 't', '-', 'b', ' ', 'o', 'r', ')']) =
    .ok (.phrase [['a'], ['n', 'o', 't', 'b'], ['o', 'r', ')']], []) :=
  C84_parse exIsSpace exIsSpace_ok _ _ exUp_ok exParseTerms ['a', ' ', 'n', 'o', 't', '-', 'b', ' ', 'o', 'r', ')'] (by decide)
example : QueryParser.parseQuery exIsSpace (fun w => w.flatMap exUp) exParseTerms (inQuotes ['t', 'h', 'e']) = .error .parse :=
  C84_parse exIsSpace exIsSpace_ok _ _ exUp_ok exParseTerms ['t', 'h', 'e'] (by decide)

/-- the words of a text in lower case, without stop words -/
def plainWords (lower : Word → Word) (vs : List Word) : List Word := (vs.map lower).filter (fun w => !isStop w)

/-- what is needed of the words of a quoted text: the lower case of each word other than stop words consists of word characters and is
its own lower case -/
def PlainCase (isW : Char → Bool) (lower : Word → Word) (vs : List Word) : Prop :=
  ∀ v ∈ vs, isStop (lower v) = false → lower v ≠ [] ∧ (∀ c ∈ lower v, isW c = true) ∧ lower (lower v) = lower v

/-- what `apply` of a text in double quotes finds -/
theorem quoted_query (hA : Positive A Pos) (hK : Ranked A Pos K) (isW isSpace : Char → Bool) (lower upper : Word → Word)
    (up : Char → List Char) (hup : UpperOk upper up)
    (hW : WordClass isW isSpace) (hsp : QueryParser.SpaceOk isSpace)
    (odd : Word → Except PyErr (Word → Bool)) (ops : List (Text.Op D)) (hs : SmallLexicon (defaultPipeline isW lower) ops)
    (he : K.hasTotal = true → LengthsExact A (defaultPipeline isW lower) ops) (s : TI D R)
    (hr : run K (defaultPipeline isW lower) ops = .ok s)
    (body : Word) (hbody : '"' ∉ body ∧ '*' ∉ body ∧ '?' ∉ body) (hv : PlainCase isW lower (Splitter.findall isW isW body)) :
    (plainWords lower (Splitter.findall isW isW body) = [] ∧
      apply K isSpace upper odd (defaultPipeline isW lower) s (inQuotes body) = .error .ParseError) ∨
    (plainWords lower (Splitter.findall isW isW body) ≠ [] ∧
      ∃ m, apply K isSpace upper odd (defaultPipeline isW lower) s (inQuotes body) = .ok (some m) ∧
        ∀ d, d ∈ m.keys ↔ (∃ w, plainWords lower (Splitter.findall isW isW body) = [w] ∧ Holds (defaultPipeline isW lower) ops d w) ∨
          (2 ≤ (plainWords lower (Splitter.findall isW isW body)).length ∧
            PhraseFound (defaultPipeline isW lower) ops d (plainWords lower (Splitter.findall isW isW body)))) := by
  generalize hws : plainWords lower (Splitter.findall isW isW body) = ws
  -- the words of the query
  have hterms : Lexicon.parseTerms (defaultPipeline isW lower) (inQuotes body) = ws := by
    change ((Splitter.processGlob isW [inQuotes body]).map lower).filter (fun w => !isStop w) = ws
    rw [C44_glob_free]
    · rw [← hws, Splitter.process, List.flatMap_cons, List.flatMap_nil, List.append_nil, findall_inQuotes hW.quote]
      rfl
    · simp [inQuotes, hbody]
  -- they pass unchanged through the pipeline
  have hgood : ∀ w ∈ ws, w ≠ [] ∧ (∀ c ∈ w, isW c = true) ∧ lower w = w ∧ isStop w = false := by
    intro w hw
    rw [← hws] at hw
    obtain ⟨hw, hst⟩ := List.mem_filter.1 hw
    obtain ⟨v, hm, rfl⟩ := List.mem_map.1 hw
    have hst : isStop (lower v) = false := by simpa using hst
    obtain ⟨h1, h2, h3⟩ := hv v hm hst
    exact ⟨h1, h2, h3, hst⟩
  have hpass : ∀ us : List Word, (∀ w ∈ us, w ≠ [] ∧ (∀ c ∈ w, isW c = true) ∧ lower w = w ∧ isStop w = false) →
      ((Splitter.process isW us).map lower).filter (fun w => !isStop w) = us := by
    intro us
    induction us with
    | nil => intro _; rfl
    | cons u us ih =>
      intro h
      obtain ⟨h1, h2, h3, h4⟩ := h u (by simp)
      have := ih fun w hw => h w (by simp [hw])
      unfold Splitter.process at this ⊢
      rw [List.flatMap_cons, findall_word isW h1 h2, List.singleton_append, List.map_cons, h3, List.filter_cons, h4, this]
      rfl
  have hparse := C84_parse isSpace hsp upper up hup (Lexicon.parseTerms (defaultPipeline isW lower)) body hbody.1
  rw [hterms] at hparse
  have hfine : QueryFine isSpace upper (defaultPipeline isW lower) ops (inQuotes body) := by
    intro t' ign' h
    refine globsFine_plain _ _ _ fun p hp => ?_
    cases hn : quotedNode ws with
    | none => rw [hn] at hparse; simp only at hparse; rw [hparse] at h; cases h
    | some n =>
      rw [hn] at hparse
      simp only at hparse
      rw [hparse] at h
      cases h
      match ws, hgood, hn with
      | [w], hgood, hn =>
        obtain ⟨-, -, h1, h2⟩ := hW.plain (hgood w (by simp)).2.1
        simp only [quotedNode, h1, h2, or_self, if_false, Option.some.injEq] at hn
        subst hn
        cases hp
      | w :: w' :: ws', _, hn => cases hn; cases hp
  have happly := C60_apply hA hK isSpace upper odd _ ops hs he s hr (inQuotes body) hfine
  have hfinal : ∀ n P, quotedNode ws = some n → (textLeaves (defaultPipeline isW lower) ops).matches? n = some P →
      ∃ m, apply K isSpace upper odd (defaultPipeline isW lower) s (inQuotes body) = .ok (some m) ∧ ∀ d, d ∈ m.keys ↔ P d := by
    intro n P hn hP
    rw [hn] at hparse
    rcases happly with ⟨h, -⟩ | ⟨t', ign', h, h'⟩
    · rw [hparse] at h; cases h
    · rw [hparse] at h
      cases h
      rcases h' with ⟨h1, -⟩ | ⟨P', m, h1, h2, h3, -⟩
      · rw [hP] at h1; cases h1
      · rw [hP] at h1
        obtain rfl := Option.some.inj h1
        exact ⟨m, h2, h3⟩
  match ws, hgood, hpass, hparse, hfinal with
  | [], _, _, hparse, _ =>
    left
    refine ⟨rfl, ?_⟩
    rcases happly with ⟨-, h⟩ | ⟨t', ign', h, -⟩
    · exact h
    · simp only [quotedNode] at hparse
      rw [hparse] at h; cases h
  | [w], hgood, hpass, _, hfinal =>
    right
    refine ⟨by simp, ?_⟩
    obtain ⟨-, hc, -, -⟩ := hgood w (by simp)
    obtain ⟨-, -, h1, h2⟩ := hW.plain hc
    have hwo : wordsOf (defaultPipeline isW lower) (.str w) = [w] := hpass [w] hgood
    obtain ⟨m, h, h'⟩ := hfinal (.atom w) (fun d => Holds (defaultPipeline isW lower) ops d w) (by simp [quotedNode, h1, h2]) (by
      rw [Leaves.matches?]
      show (if wordsOf (defaultPipeline isW lower) (.str w) = [] then none else some _) = _
      rw [if_neg (by rw [hwo]; simp), hwo]
      simp)
    refine ⟨m, h, fun d => (h' d).trans ?_⟩
    simp
  | w :: w' :: ws', hgood, hpass, _, hfinal =>
    right
    refine ⟨by simp, ?_⟩
    have hwo : wordsOf (defaultPipeline isW lower) (.list (w :: w' :: ws')) = w :: w' :: ws' := hpass _ hgood
    obtain ⟨m, h, h'⟩ := hfinal (.phrase (w :: w' :: ws')) (fun d => PhraseFound (defaultPipeline isW lower) ops d (w :: w' :: ws')) rfl
      (by
        rw [Leaves.matches?]
        show some (fun d => PhraseFound _ _ d (wordsOf (defaultPipeline isW lower) (.list (w :: w' :: ws')))) = _
        rw [hwo])
    refine ⟨m, h, fun d => (h' d).trans ?_⟩
    simp

theorem plainWords_eq_nil (lower : Word → Word) (vs : List Word) :
    plainWords lower vs = [] ↔ ∀ v ∈ vs, isStop (lower v) = true := by
  unfold plainWords
  rw [List.filter_eq_nil_iff]
  simp

/-- C84: a document whose text contains the passage `mid`, with no word going on over its ends, is found by `apply` of the passage
in double quotes, or, if all words of the passage are stop words, `ParseError` is raised. Provided that there are no double quotes,
`*` and `?` in the passage, and that the lower case of each of its words other than stop words consists of word characters and is
its own lower case. What is missing: passages with `*` or `?`, for which it is false (`C84_fails`), and other words, for which
it is false (`C65_fails`). -/
theorem C84_found_partial (hA : Positive A Pos) (hK : Ranked A Pos K) (isW isSpace : Char → Bool) (lower upper : Word → Word)
    (up : Char → List Char) (hup : UpperOk upper up)
    (hW : WordClass isW isSpace) (hsp : QueryParser.SpaceOk isSpace)
    (odd : Word → Except PyErr (Word → Bool)) (ops : List (Text.Op D)) (hs : SmallLexicon (defaultPipeline isW lower) ops)
    (he : K.hasTotal = true → LengthsExact A (defaultPipeline isW lower) ops) (s : TI D R)
    (hr : run K (defaultPipeline isW lower) ops = .ok s)
    (d : D) (t : TextArg) (hd : currentText ops d = some t) (pre mid post : Word) (ht : pre ++ mid ++ post ∈ textOf t)
    (hpre : CleanCut isW pre mid) (hpost : CleanCut isW mid post)
    (hmid : '"' ∉ mid ∧ '*' ∉ mid ∧ '?' ∉ mid) (vs : List Word) (hvs : Runs isW isW mid vs) (hv : PlainCase isW lower vs) :
    ((∃ v ∈ vs, isStop (lower v) = false) ∧
      ∃ m, apply K isSpace upper odd (defaultPipeline isW lower) s (inQuotes mid) = .ok (some m) ∧ d ∈ m.keys) ∨
    ((∀ v ∈ vs, isStop (lower v) = true) ∧
      apply K isSpace upper odd (defaultPipeline isW lower) s (inQuotes mid) = .error .ParseError) := by
  obtain rfl : vs = Splitter.findall isW isW mid := Splitter.runs_unique isW isW hvs (Splitter.findall_runs isW isW mid)
  -- the document contains the passage
  have hin : plainWords lower (Splitter.findall isW isW mid) ≠ [] →
      HasPhrase (defaultPipeline isW lower) ops d (plainWords lower (Splitter.findall isW isW mid)) := by
    intro hne
    refine ⟨_, by unfold docWords; rw [hd]; rfl, ?_⟩
    have h0 : mid ≠ [] := by
      rintro rfl
      exact hne rfl
    obtain ⟨l1, l2, hl⟩ := List.append_of_mem ht
    change _ <:+: plainWords lower (Splitter.process isW (textOf t))
    have hcut : CleanCut isW (pre ++ mid) post := by
      intro x y hx hy
      refine hpost x y ?_ hy
      cases hm : mid.getLast? with
      | none => exact absurd (List.getLast?_eq_none_iff.1 hm) h0
      | some z => rw [List.getLast?_append, hm] at hx; exact hx
    rw [hl, Splitter.process, List.flatMap_append, List.flatMap_cons, findall_append hcut, findall_append hpre]
    unfold plainWords
    simp only [List.map_append, List.filter_append, List.append_assoc]
    exact (List.prefix_append _ _).isInfix.trans ((List.suffix_append _ _).isInfix.trans (List.suffix_append _ _).isInfix)
  rcases quoted_query hA hK isW isSpace lower upper up hup hW hsp odd ops hs he s hr mid hmid hv with ⟨h1, h2⟩ | ⟨h1, m, h2, h3⟩
  · exact Or.inr ⟨(plainWords_eq_nil _ _).1 h1, h2⟩
  · left
    constructor
    · by_contra h
      push Not at h
      refine h1 ((plainWords_eq_nil _ _).2 fun v hm => ?_)
      have := h v hm
      simpa using this
    · refine ⟨m, h2, (h3 d).2 ?_⟩
      obtain ⟨doc, hdoc, hi⟩ := hin h1
      generalize plainWords lower (Splitter.findall isW isW mid) = ws at h1 hi
      match ws, h1, hi with
      | [w], _, hi => exact Or.inl ⟨w, rfl, doc, hdoc, hi.subset (by simp)⟩
      | w :: w' :: ws', _, hi =>
        right
        refine ⟨by simp, ?_⟩
        rcases List.eq_nil_or_concat (w :: w' :: ws') with h0 | ⟨init, last, h0⟩
        · cases h0
        · rw [List.concat_eq_append] at h0
          exact ⟨doc, init, last, last, hdoc, h0, fun w hw => hi.subset hw, by rw [← h0]; exact hi, 0, by simp⟩

/-- C84: while fewer than 128 words have ids, the documents found by a text in double quotes are exactly those that contain its
words, in lower case and without stop words, one after the other. What is missing: as in `C84_found_partial`, and bigger
lexicons, for which it is false (`C58_fails`) -/
theorem C84_exact_partial (hA : Positive A Pos) (hK : Ranked A Pos K) (isW isSpace : Char → Bool) (lower upper : Word → Word)
    (up : Char → List Char) (hup : UpperOk upper up)
    (hW : WordClass isW isSpace) (hsp : QueryParser.SpaceOk isSpace)
    (odd : Word → Except PyErr (Word → Bool)) (ops : List (Text.Op D)) (hs : SmallLexicon (defaultPipeline isW lower) ops)
    (hsm : ∀ w, (lexAfter (defaultPipeline isW lower) ops).getWid w < 128)
    (he : K.hasTotal = true → LengthsExact A (defaultPipeline isW lower) ops) (s : TI D R)
    (hr : run K (defaultPipeline isW lower) ops = .ok s) (body : Word) (hbody : '"' ∉ body ∧ '*' ∉ body ∧ '?' ∉ body)
    (vs : List Word) (hvs : Runs isW isW body vs) (hv : PlainCase isW lower vs) (hst : ∃ v ∈ vs, isStop (lower v) = false) :
    ∃ m, apply K isSpace upper odd (defaultPipeline isW lower) s (inQuotes body) = .ok (some m) ∧
      ∀ d, d ∈ m.keys ↔ HasPhrase (defaultPipeline isW lower) ops d ((vs.map lower).filter (fun w => !isStop w)) := by
  obtain rfl : vs = Splitter.findall isW isW body := Splitter.runs_unique isW isW hvs (Splitter.findall_runs isW isW body)
  rcases quoted_query hA hK isW isSpace lower upper up hup hW hsp odd ops hs he s hr body hbody hv with ⟨h1, h2⟩ | ⟨h1, m, h2, h3⟩
  · obtain ⟨v, hm, h⟩ := hst
    rw [(plainWords_eq_nil _ _).1 h1 v hm] at h
    cases h
  · refine ⟨m, h2, fun d => (h3 d).trans ?_⟩
    change _ ↔ HasPhrase _ _ _ (plainWords lower (Splitter.findall isW isW body))
    generalize plainWords lower (Splitter.findall isW isW body) = ws at h1
    match ws, h1 with
    | [w], _ =>
      constructor
      · rintro (⟨v, e, doc, hdoc, hm⟩ | ⟨h, -⟩)
        · cases e
          obtain ⟨l1, l2, rfl⟩ := List.append_of_mem hm
          exact ⟨_, hdoc, l1, l2, by simp⟩
        · simp at h
      · rintro ⟨doc, hdoc, hi⟩
        exact Or.inl ⟨w, rfl, doc, hdoc, hi.subset (by simp)⟩
    | w :: w' :: ws', _ =>
      constructor
      · rintro (⟨v, e, -⟩ | ⟨-, h⟩)
        · cases e
        · exact ((phraseFound_small hs hsm d _).1 h).2
      · intro h
        exact Or.inr ⟨by simp, (phraseFound_small hs hsm d _).2 ⟨by simp, h⟩⟩

/-- the character classes of the examples -/
theorem exWordClass : WordClass exIsW exIsSpace :=
  ⟨by decide, by
    intro c hc
    simp only [exIsSpace, Bool.or_eq_true, decide_eq_true_eq] at hc
    rcases hc with (rfl | rfl) | rfl <;> decide, by decide, by decide, by decide⟩

/-- the example: `" big eel"` finds document 7, whose text is `dog big eel` -/
example : ∃ s m, run (okapi exPosArith { k1 := 1, b := 1 }) exPipeline exTextOps = .ok s ∧
    apply (okapi exPosArith { k1 := 1, b := 1 }) exIsSpace (fun w => w.flatMap exUp) (fun _ => .ok (fun _ => false)) exPipeline s
      (inQuotes [' ', 'b', 'i', 'g', ' ', 'e', 'e', 'l']) = .ok (some m) ∧ 7 ∈ m.keys := by
  obtain ⟨s, hr, -⟩ := C51_documents _ (exRanked_okapi.lawful exPositive) exPipeline exTextOps exText_small
  rcases C84_found_partial exPositive exRanked_okapi exIsW exIsSpace exLowerWord (fun w => w.flatMap exUp) exUp exUp_ok exWordClass exIsSpace_ok
    (fun _ => .ok (fun _ => false)) exTextOps exText_small
    (fun _ => exText_exact) s hr 7 (.str ['d', 'o', 'g', ' ', 'b', 'i', 'g', ' ', 'e', 'e', 'l']) rfl
    ['d', 'o', 'g'] [' ', 'b', 'i', 'g', ' ', 'e', 'e', 'l'] [] (by simp [textOf])
    (fun x y _ hy => Or.inr (by simp at hy; subst hy; decide)) (fun x y _ hy => by simp at hy) (by decide) [['b', 'i', 'g'], ['e', 'e', 'l']]
    (Splitter.findall_runs exIsW exIsW [' ', 'b', 'i', 'g', ' ', 'e', 'e', 'l']) (by
      intro v hv
      simp only [List.mem_cons, List.not_mem_nil, or_false] at hv
      rcases hv with rfl | rfl <;> decide) with ⟨-, m, h⟩ | ⟨h, -⟩
  · exact ⟨s, m, hr, h⟩
  · exact absurd (h ['b', 'i', 'g'] (by simp)) (by decide)

/-- the example: `"Big (and) eel"` finds document 7 and not document 3; `and` is a stop word -/
example : ∃ s m, run (okapi exPosArith { k1 := 1, b := 1 }) exPipeline exTextOps = .ok s ∧
    apply (okapi exPosArith { k1 := 1, b := 1 }) exIsSpace (fun w => w.flatMap exUp) (fun _ => .ok (fun _ => false)) exPipeline s
      (inQuotes ['B', 'i', 'g', ' ', '(', 'a', 'n', 'd', ')', ' ', 'e', 'e', 'l']) = .ok (some m) ∧ 7 ∈ m.keys ∧ 3 ∉ m.keys := by
  obtain ⟨s, hr, -⟩ := C51_documents _ (exRanked_okapi.lawful exPositive) exPipeline exTextOps exText_small
  have hall : ∀ p ∈ (lexAfter exPipeline exTextOps).wids.items, p.2 < 128 := by decide +kernel
  have hsm : ∀ w, (lexAfter exPipeline exTextOps).getWid w < 128 := by
    intro w
    cases hw : (lexAfter exPipeline exTextOps).wids.get? w with
    | none => rw [getWid_zero hw]; decide
    | some n => rw [Lexicon.getWid_eq hw]; exact hall (w, n) ((SMap.get?_eq_some_iff _ _ _).1 hw)
  obtain ⟨m, h, h'⟩ := C84_exact_partial exPositive exRanked_okapi exIsW exIsSpace exLowerWord (fun w => w.flatMap exUp) exUp exUp_ok exWordClass
    exIsSpace_ok (fun _ => .ok (fun _ => false)) exTextOps exText_small hsm (fun _ => exText_exact) s hr
    ['B', 'i', 'g', ' ', '(', 'a', 'n', 'd', ')', ' ', 'e', 'e', 'l'] (by decide) [['B', 'i', 'g'], ['a', 'n', 'd'], ['e', 'e', 'l']]
    (Splitter.findall_runs exIsW exIsW ['B', 'i', 'g', ' ', '(', 'a', 'n', 'd', ')', ' ', 'e', 'e', 'l']) (by
      intro v hv
      simp only [List.mem_cons, List.not_mem_nil, or_false] at hv
      rcases hv with rfl | rfl | rfl <;> decide) ⟨['e', 'e', 'l'], by simp, by decide⟩
  refine ⟨s, m, hr, h, (h' 7).2 ?_, fun h3 => ?_⟩
  · exact ⟨[['d', 'o', 'g'], ['b', 'i', 'g'], ['e', 'e', 'l']], by decide, [['d', 'o', 'g']], [], by decide⟩
  · obtain ⟨doc, hdoc, hi⟩ := (h' 3).1 h3
    have : docWords exPipeline exTextOps 3 = some [['d', 'o', 'g'], ['d', 'o', 'g']] := by decide
    have e : some [['d', 'o', 'g'], ['d', 'o', 'g']] = some doc := this.symm.trans hdoc
    cases e
    exact absurd (hi.subset (show ['e', 'e', 'l'] ∈ _ by decide)) (by decide)

/-- C84 fails: the document with the text `dog?` is not found by the query `"dog?"` -/
theorem C84_fails : ∃ s, run (okapi exPosArith { k1 := 1, b := 1 }) exPipeline [.index 7 (.str ['d', 'o', 'g', '?'])] = .ok s ∧
    (apply (okapi exPosArith { k1 := 1, b := 1 }) exIsSpace exUpper (fun _ => .ok (fun _ => false)) exPipeline s
      (inQuotes ['d', 'o', 'g', '?'])).toOption.map (fun r => r.map SMap.keys) = some (some []) ∧ s.documentCount = 1 := by
  exact ⟨_, rfl, by decide +kernel, by decide +kernel⟩

end Verif
