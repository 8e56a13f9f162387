import Verif.Props.TextSearch

/-!
# Property C65: words of indexed texts are found

Hypotheses about characters and `str.lower()` are those of the default pipeline (`Splitter`, `CaseNormalizer`, `StopWordRemover`).
-/

set_option autoImplicit false

namespace Verif

open Spec Text SetOps

variable {D R : Type} [LinearOrder D] {A : Arith R} {Pos : R → Prop} {K : Kind D R}

/-- what `\w` does not match -/
structure WordClass (isW isSpace : Char → Bool) : Prop where
  metas : ∀ c ∈ Lexicon.metaChars, isW c = false
  space : ∀ c, isSpace c = true → isW c = false
  newline : isW '\n' = false
  quote : isW '"' = false
  hyphen : isW '-' = false

theorem findall_word (isW : Char → Bool) {w : Word} (hne : w ≠ []) (hw : ∀ c ∈ w, isW c = true) : Splitter.findall isW isW w = [w] := by
  cases w with
  | nil => exact absurd rfl hne
  | cons c t =>
    refine Splitter.runs_unique isW isW (Splitter.findall_runs isW isW _) ?_
    have := Runs.word (isA := isW) (isB := isW) [] c t [] [] (by simp) (hw c (by simp)) (fun x hx => hw x (by simp [hx])) (by simp)
      (.done [] (by simp))
    simpa using this

/-- a query of one plain token that the pipeline turns into one word finds exactly the documents that hold this word -/
theorem word_query (hA : Positive A Pos) (hK : Ranked A Pos K) (isSpace : Char → Bool) (upper : Word → Word)
    (hsp : QueryParser.SpaceOk isSpace) (odd : Word → Except PyErr (Word → Bool)) (pipeline : List Element) (ops : List (Text.Op D))
    (hs : SmallLexicon pipeline ops) (he : K.hasTotal = true → LengthsExact A pipeline ops)
    (s : TI D R) (hr : run K pipeline ops = .ok s) (q w : Word) (hq0 : q ≠ [])
    (hqc : ∀ c ∈ q, c ≠ '(' ∧ c ≠ ')' ∧ c ≠ '"' ∧ isSpace c = false) (hhead : ¬ (q.head? = some '-'))
    (hkey : upper q ≠ ['A', 'N', 'D'] ∧ upper q ≠ ['O', 'R'] ∧ upper q ≠ ['N', 'O', 'T'] ∧ upper q ≠ ['('] ∧ upper q ≠ [')'])
    (hterms : Lexicon.parseTerms pipeline q = [w]) (hwords : wordsOf pipeline (.str w) = [w]) (hglob : '*' ∉ w ∧ '?' ∉ w) :
    ∃ m, apply K isSpace upper odd pipeline s q = .ok (some m) ∧ ∀ d, d ∈ m.keys ↔ Holds pipeline ops d w := by
  -- the query is parsed as this word
  have hparse : ∃ ign, QueryParser.parseQuery isSpace upper (Lexicon.parseTerms pipeline) q = .ok (.atom w, ign) := by
    refine (C47_grammar isSpace upper _ hsp q _).2 ⟨[q], .one (.mk (.atoms q []) .nil), ?_, ?_, ?_⟩
    · have := Tokens.word (isSpace := isSpace) q [] [] hq0 hqc (by simp) (by simp) .nil
      simpa using this
    · simp only [OrE.flat, AndE.flat, TermE.flat, Items.flat, List.map_nil, List.append_nil]
      exact .cons ⟨rfl, hkey⟩ .nil
    · have hatom : atomMean (Lexicon.parseTerms pipeline) q = some (false, .atom w) := by
        unfold atomMean
        rw [hterms]
        simp only [hhead, decide_false]
        rw [if_neg]
        rintro (h | h)
        · exact hglob.1 h
        · exact hglob.2 h
      have hatoms : atomsMean (Lexicon.parseTerms pipeline) [q] = .ok (some (.atom w)) := by
        unfold atomsMean
        rw [List.filterMap_cons, hatom]
        rfl
      simp only [OrE.mean, OrE.parts, AndE.mean, TermE.mean, hatoms, Items.parts]
      rfl
  obtain ⟨ign, hparse⟩ := hparse
  have hg : QueryFine isSpace upper pipeline ops q := by
    intro t ign' h p hp
    rw [hparse] at h
    cases h
    cases hp
  rcases C60_apply hA hK isSpace upper odd _ ops hs he s hr q hg with ⟨h, -⟩ | ⟨t', ign', h, h'⟩
  · rw [hparse] at h; cases h
  · rw [hparse] at h
    cases h
    have hm : (textLeaves pipeline ops).matches? (.atom w) = some (fun d => Holds pipeline ops d w) := by
      rw [Leaves.matches?]
      show (if wordsOf pipeline (.str w) = [] then none else some _) = _
      rw [if_neg (by rw [hwords]; simp), hwords]
      simp
    rcases h' with ⟨h1, -⟩ | ⟨P, m, h1, h2, h3, -⟩
    · rw [hm] at h1; cases h1
    · rw [hm] at h1
      obtain rfl := Option.some.inj h1
      exact ⟨m, h2, h3⟩

theorem WordClass.plain {isW isSpace : Char → Bool} (hW : WordClass isW isSpace) {q : Word} (hq : ∀ c ∈ q, isW c = true) :
    (∀ c ∈ q, c ≠ '(' ∧ c ≠ ')' ∧ c ≠ '"' ∧ isSpace c = false) ∧ ¬ (q.head? = some '-') ∧ '*' ∉ q ∧ '?' ∉ q := by
  have hnot : ∀ c, isW c = false → c ∉ q := by
    intro c hc hm
    rw [hq c hm] at hc; cases hc
  refine ⟨?_, fun h => hnot _ hW.hyphen (List.mem_of_mem_head? h), hnot _ (hW.metas _ (by simp [Lexicon.metaChars])),
    hnot _ (hW.metas _ (by simp [Lexicon.metaChars]))⟩
  intro c hc
  refine ⟨?_, ?_, ?_, ?_⟩
  · rintro rfl; exact hnot _ (hW.metas _ (by simp [Lexicon.metaChars])) hc
  · rintro rfl; exact hnot _ (hW.metas _ (by simp [Lexicon.metaChars])) hc
  · rintro rfl; exact hnot _ hW.quote hc
  · cases h : isSpace c with
    | false => rfl
    | true => exact absurd hc (hnot _ (hW.space c h))

/-- C65: `apply` of a word finds exactly the documents whose text contains a word (a maximal run of word characters) that differs
from it in case only, provided that the lower case of the query is not a stop word, consists of word characters and is its own
lower case. What is missing: queries whose lower case does not consist of word characters, for which it is false (`C65_fails`). -/
theorem C65_exact_partial (hA : Positive A Pos) (hK : Ranked A Pos K) (isW isSpace : Char → Bool) (lower upper : Word → Word)
    (hW : WordClass isW isSpace) (hsp : QueryParser.SpaceOk isSpace)
    (odd : Word → Except PyErr (Word → Bool)) (ops : List (Text.Op D)) (hs : SmallLexicon (defaultPipeline isW lower) ops)
    (he : K.hasTotal = true → LengthsExact A (defaultPipeline isW lower) ops) (s : TI D R)
    (hr : run K (defaultPipeline isW lower) ops = .ok s)
    (q : Word) (hq0 : q ≠ []) (hqw : ∀ c ∈ q, isW c = true)
    (hstop : isStop (lower q) = false) (hne : lower q ≠ []) (hchars : ∀ c ∈ lower q, isW c = true) (hidem : lower (lower q) = lower q)
    (hkey : upper q ≠ ['A', 'N', 'D'] ∧ upper q ≠ ['O', 'R'] ∧ upper q ≠ ['N', 'O', 'T'] ∧ upper q ≠ ['('] ∧ upper q ≠ [')']) :
    ∃ m, apply K isSpace upper odd (defaultPipeline isW lower) s q = .ok (some m) ∧
      ∀ d, d ∈ m.keys ↔ ∃ t, currentText ops d = some t ∧ ∃ text ∈ textOf t, ∃ vs, Runs isW isW text vs ∧ ∃ v ∈ vs, lower v = lower q := by
  obtain ⟨hqc, hhead, hqg⟩ := hW.plain hqw
  have hterms : Lexicon.parseTerms (defaultPipeline isW lower) q = [lower q] := by
    change ((Splitter.processGlob isW [q]).map lower).filter (fun w => !isStop w) = [lower q]
    rw [C44_glob_free isW [q] (by
      intro x hx
      rw [List.mem_singleton.1 hx]
      exact hqg)]
    unfold Splitter.process
    rw [List.flatMap_singleton, findall_word isW hq0 hqw, List.map_singleton]
    simp [hstop]
  have hwords : wordsOf (defaultPipeline isW lower) (.str (lower q)) = [lower q] := by
    change ((Splitter.process isW [lower q]).map lower).filter (fun w => !isStop w) = [lower q]
    unfold Splitter.process
    rw [List.flatMap_singleton, findall_word isW hne hchars, List.map_singleton, hidem]
    simp [hstop]
  obtain ⟨m, h1, h2⟩ := word_query hA hK isSpace upper hsp odd _ ops hs he s hr q (lower q) hq0 hqc hhead hkey hterms hwords (hW.plain hchars).2.2
  refine ⟨m, h1, fun d => (h2 d).trans ?_⟩
  have hmem : ∀ t, lower q ∈ wordsOf (defaultPipeline isW lower) t ↔
      ∃ text ∈ textOf t, ∃ vs, Runs isW isW text vs ∧ ∃ v ∈ vs, lower v = lower q := by
    intro t
    change lower q ∈ ((Splitter.process isW (textOf t)).map lower).filter (fun w => !isStop w) ↔ _
    rw [List.mem_filter]
    simp only [hstop, Bool.not_false, and_true, List.mem_map, Splitter.process, List.mem_flatMap]
    constructor
    · rintro ⟨v, ⟨text, ht, hv⟩, e⟩
      exact ⟨text, ht, _, Splitter.findall_runs isW isW text, v, hv, e⟩
    · rintro ⟨text, ht, vs, hvs, v, hv, e⟩
      refine ⟨v, ⟨text, ht, ?_⟩, e⟩
      rw [Splitter.runs_unique isW isW (Splitter.findall_runs isW isW text) hvs]
      exact hv
  unfold Holds docWords
  constructor
  · rintro ⟨ws, hws, hq⟩
    obtain ⟨t, ht, rfl⟩ := Option.map_eq_some_iff.1 hws
    exact ⟨t, ht, (hmem t).1 hq⟩
  · rintro ⟨t, ht, h⟩
    exact ⟨_, by rw [ht]; rfl, (hmem t).2 h⟩

/-- C65: a document whose text contains the word `v` (a maximal run of word characters) is found by `apply` of any `q` that differs
from `v` in case only, provided that the lower case word is not a stop word, consists of word characters and is its own lower case.
What is missing: words whose lower case does not consist of word characters, for which it is false (`C65_fails`). -/
theorem C65_found_partial (hA : Positive A Pos) (hK : Ranked A Pos K) (isW isSpace : Char → Bool) (lower upper : Word → Word)
    (hW : WordClass isW isSpace) (hsp : QueryParser.SpaceOk isSpace)
    (odd : Word → Except PyErr (Word → Bool)) (ops : List (Text.Op D)) (hs : SmallLexicon (defaultPipeline isW lower) ops)
    (he : K.hasTotal = true → LengthsExact A (defaultPipeline isW lower) ops) (s : TI D R)
    (hr : run K (defaultPipeline isW lower) ops = .ok s)
    (d : D) (t : TextArg) (hd : currentText ops d = some t) (text : Word) (ht : text ∈ textOf t) (vs : List Word)
    (hvs : Runs isW isW text vs) (v : Word) (hv : v ∈ vs)
    (hstop : isStop (lower v) = false) (hne : lower v ≠ []) (hchars : ∀ c ∈ lower v, isW c = true) (hidem : lower (lower v) = lower v)
    (q : Word) (hq0 : q ≠ []) (hqw : ∀ c ∈ q, isW c = true) (hql : lower q = lower v)
    (hkey : upper q ≠ ['A', 'N', 'D'] ∧ upper q ≠ ['O', 'R'] ∧ upper q ≠ ['N', 'O', 'T'] ∧ upper q ≠ ['('] ∧ upper q ≠ [')']) :
    ∃ m, apply K isSpace upper odd (defaultPipeline isW lower) s q = .ok (some m) ∧ d ∈ m.keys := by
  rw [← hql] at hstop hne hchars hidem
  obtain ⟨m, h1, h2⟩ := C65_exact_partial hA hK isW isSpace lower upper hW hsp odd ops hs he s hr q hq0 hqw hstop hne hchars
    hidem hkey
  exact ⟨m, h1, (h2 d).2 ⟨t, hd, text, ht, vs, hvs, v, hv, hql.symm⟩⟩

/-- the example: `EEL` finds document 7, whose text is `dog big eel` -/
example : ∃ s m, run (okapi exPosArith { k1 := 1, b := 1 }) exPipeline exTextOps = .ok s ∧
    apply (okapi exPosArith { k1 := 1, b := 1 }) exIsSpace exUpper (fun _ => .ok (fun _ => false)) exPipeline s ['E', 'E', 'L'] = .ok (some m) ∧
    7 ∈ m.keys := by
  obtain ⟨s, hr, -⟩ := C51_documents _ (exRanked_okapi.lawful exPositive) exPipeline exTextOps exText_small
  have hw : Runs exIsW exIsW ['d', 'o', 'g', ' ', 'b', 'i', 'g', ' ', 'e', 'e', 'l'] [['d', 'o', 'g'], ['b', 'i', 'g'], ['e', 'e', 'l']] := by
    have := Splitter.findall_runs exIsW exIsW ['d', 'o', 'g', ' ', 'b', 'i', 'g', ' ', 'e', 'e', 'l']
    exact this
  obtain ⟨m, h⟩ := C65_found_partial exPositive exRanked_okapi exIsW exIsSpace exLowerWord exUpper
    ⟨by decide, by
      intro c hc
      simp only [exIsSpace, Bool.or_eq_true, decide_eq_true_eq] at hc
      rcases hc with (rfl | rfl) | rfl <;> decide, by decide, by decide, by decide⟩ exIsSpace_ok (fun _ => .ok (fun _ => false)) exTextOps exText_small
    (fun _ => exText_exact) s hr 7 (.str ['d', 'o', 'g', ' ', 'b', 'i', 'g', ' ', 'e', 'e', 'l']) rfl
    ['d', 'o', 'g', ' ', 'b', 'i', 'g', ' ', 'e', 'e', 'l'] (by simp [textOf]) _ hw ['e', 'e', 'l'] (by simp) (by decide) (by decide) (by decide)
    (by decide) ['E', 'E', 'L'] (by simp) (by decide) (by decide) (by decide)
  exact ⟨s, m, hr, h⟩

/-- `\w` and `str.lower()` of the next theorem: as in the examples, and the letter `İ` (U+0130), which Python's `\w` matches and
whose lower case is `i` and U+0307, which `\w` does not match -/
def exDotW (c : Char) : Bool := exIsW c || c = 'İ'

def exDotLower (w : Word) : Word := w.flatMap (fun c => if c = 'İ' then ['i', '̇'] else [c.toLower])

/-- C65 fails: the document with the text `İx` is not found by the query `İx` -/
theorem C65_fails : ∃ s, run (okapi exPosArith { k1 := 1, b := 1 }) (defaultPipeline exDotW exDotLower) [.index 7 (.str ['İ', 'x'])] = .ok s ∧
    (apply (okapi exPosArith { k1 := 1, b := 1 }) exIsSpace exUpper (fun _ => .ok (fun _ => false)) (defaultPipeline exDotW exDotLower) s
      ['İ', 'x']).toOption.map (fun r => r.map SMap.keys) = some (some []) ∧
    s.documentCount = 1 ∧ Runs exDotW exDotW ['İ', 'x'] [['İ', 'x']] := by
  refine ⟨_, rfl, by decide +kernel, by decide +kernel, ?_⟩
  exact Splitter.findall_runs exDotW exDotW ['İ', 'x']

end Verif
