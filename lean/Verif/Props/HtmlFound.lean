import Verif.Props.WordFound
import Verif.Proofs.Html

/-!
# Property C75: searching HTML documents

A text index over a lexicon with the pipeline `HTMLWordSplitter`, `CaseNormalizer`, `StopWordRemover`.
-/

set_option autoImplicit false

namespace Verif

open Spec Text SetOps

variable {D R : Type} [LinearOrder D] {A : Arith R} {Pos : R → Prop} {K : Kind D R}

/-- htmlsplitter.py:31-53, lexicon.py:196-213, stopdict.py:355-365: the pipeline of an index of HTML documents -/
def htmlPipeline (isW : Char → Bool) (lower : Word → Word) : List Element :=
  [Html.element isW lower, caseNormalizer lower, stopWordRemover isStop]

/-- this pipeline is a `GlobPipeline`, so that the theorems about queries apply to indexes that use it -/
theorem globPipeline_html (isW : Char → Bool) (lower : Word → Word) (hW : ∀ c ∈ Lexicon.metaChars, isW c = false) (hl : LowerOk lower) :
    GlobPipeline (htmlPipeline isW lower) := by
  intro q p hp hg
  change p ∈ ((Html.processGlob isW lower [q]).map lower).filter (fun w => !isStop w) at hp
  obtain ⟨x, hx, rfl⟩ := List.mem_map.1 (List.mem_filter.1 hp).1
  unfold Html.processGlob Html.apply at hx
  rw [List.flatMap_singleton] at hx
  have h := findall_patterns isW hW _ x hx
  by_cases hgx : '*' ∈ x ∨ '?' ∈ x
  · exact hl.globOk x ((globOk_iff x).2 ⟨hgx, h.1, fun y hy hm => h.2 y hy (List.mem_cons_of_mem _ hm)⟩)
  · rw [not_or] at hgx
    have := hl.plain x hgx
    rcases hg with hg | hg
    · exact absurd hg this.1
    · exact absurd hg this.2

theorem runs_newline {isA isB : Char → Bool} (hA : isA '\n' = false) (hB : isB '\n' = false) {s : Word} {ws : List Word}
    (h : Runs isA isB s ws) : ∀ w ∈ ws, '\n' ∉ w := by
  induction h with
  | done => intro w hw; cases hw
  | word sep c t rest ws _ hc hw _ _ ih =>
    intro w hm hn
    rcases List.mem_cons.1 hm with rfl | hm
    · rcases List.mem_cons.1 hn with rfl | hn
      · rw [hA] at hc; cases hc
      · have := hw _ hn; rw [hB] at this; cases this
    · exact ih w hm hn

/-- the words it produces have no new lines -/
theorem noNewline_html (isW : Char → Bool) (lower : Word → Word) (hW : isW '\n' = false) (hl : LowerOk lower)
    (ops : List Lexicon.Op) (w : Word) (hw : w ∈ seen (htmlPipeline isW lower) ops) : '\n' ∉ w := by
  unfold seen at hw
  rw [List.mem_flatMap] at hw
  obtain ⟨op, -, hw⟩ := hw
  cases op with
  | reload n => cases hw
  | source t =>
    change w ∈ ((Html.process isW lower (textOf t)).map lower).filter (fun w => !isStop w) at hw
    obtain ⟨x, hx, rfl⟩ := List.mem_map.1 (List.mem_filter.1 hw).1
    refine hl.newline x ?_
    clear hw
    unfold Html.process Html.apply at hx
    rw [List.mem_flatMap] at hx
    obtain ⟨s, -, h⟩ := hx
    exact runs_newline hW hW (Splitter.findall_runs isW isW _) x h

/-- C75: `apply` of a word finds exactly the documents that have a word differing from it in case only outside markup, provided
that the lower case of the query is not a stop word, consists of word characters and is its own lower case -/
theorem C75_exact (hA : Positive A Pos) (hK : Ranked A Pos K) (isW isSpace : Char → Bool) (lower upper : Word → Word)
    (hW : WordClass isW isSpace) (hM : isW '<' = false ∧ isW '&' = false) (hsp : QueryParser.SpaceOk isSpace)
    (odd : Word → Except PyErr (Word → Bool)) (ops : List (Text.Op D)) (hs : SmallLexicon (htmlPipeline isW lower) ops)
    (he : K.hasTotal = true → LengthsExact A (htmlPipeline isW lower) ops) (s : TI D R)
    (hr : run K (htmlPipeline isW lower) ops = .ok s)
    (q : Word) (hq0 : q ≠ []) (hqw : ∀ c ∈ q, isW c = true)
    (hstop : isStop (lower q) = false) (hne : lower q ≠ []) (hchars : ∀ c ∈ lower q, isW c = true) (hidem : lower (lower q) = lower q)
    (hkey : upper q ≠ ['A', 'N', 'D'] ∧ upper q ≠ ['O', 'R'] ∧ upper q ≠ ['N', 'O', 'T'] ∧ upper q ≠ ['('] ∧ upper q ≠ [')']) :
    ∃ m, apply K isSpace upper odd (htmlPipeline isW lower) s q = .ok (some m) ∧
      ∀ d, d ∈ m.keys ↔ ∃ t, currentText ops d = some t ∧ ∃ chunk ∈ textOf t, ∃ u vs, Strip (lower chunk) u ∧ Runs isW isW u vs ∧
        ∃ v ∈ vs, lower v = lower q := by
  obtain ⟨hqc, hhead, -⟩ := hW.plain hqw
  have hlg := (hW.plain hchars).2.2
  have hmark : ∀ {w : Word}, (∀ c ∈ w, isW c = true) → Html.sub w = w := by
    intro w h
    refine Html.strip_unique (Html.sub_strip w) (Html.strip_plain ⟨?_, ?_⟩)
    · intro hm; have := h _ hm; rw [hM.1] at this; cases this
    · intro hm; have := h _ hm; rw [hM.2] at this; cases this
  have hterms : Lexicon.parseTerms (htmlPipeline isW lower) q = [lower q] := by
    change ((Html.processGlob isW lower [q]).map lower).filter (fun w => !isStop w) = [lower q]
    rw [C45_glob_free isW lower [q] (by
      intro x hx
      rw [List.mem_singleton.1 hx]
      exact hlg)]
    unfold Html.process Html.apply Html.split
    rw [List.flatMap_singleton, hmark hchars, findall_word isW hne hchars, List.map_singleton, hidem]
    simp [hstop]
  have hwords : wordsOf (htmlPipeline isW lower) (.str (lower q)) = [lower q] := by
    change ((Html.process isW lower [lower q]).map lower).filter (fun w => !isStop w) = [lower q]
    unfold Html.process Html.apply Html.split
    rw [List.flatMap_singleton, hidem, hmark hchars, findall_word isW hne hchars, List.map_singleton, hidem]
    simp [hstop]
  obtain ⟨m, h1, h2⟩ := word_query hA hK isSpace upper hsp odd _ ops hs he s hr q (lower q) hq0 hqc hhead hkey hterms hwords hlg
  refine ⟨m, h1, fun d => (h2 d).trans ?_⟩
  have hmem : ∀ t, lower q ∈ wordsOf (htmlPipeline isW lower) t ↔
      ∃ chunk ∈ textOf t, ∃ u vs, Strip (lower chunk) u ∧ Runs isW isW u vs ∧ ∃ v ∈ vs, lower v = lower q := by
    intro t
    change lower q ∈ ((Html.process isW lower (textOf t)).map lower).filter (fun w => !isStop w) ↔ _
    rw [List.mem_filter]
    simp only [hstop, Bool.not_false, and_true, List.mem_map, Html.process, Html.apply, Html.split, List.mem_flatMap]
    constructor
    · rintro ⟨v, ⟨chunk, ht, hv⟩, e⟩
      exact ⟨chunk, ht, _, _, Html.sub_strip _, Splitter.findall_runs isW isW _, v, hv, e⟩
    · rintro ⟨chunk, ht, u, vs, hu, hvs, v, hv, e⟩
      refine ⟨v, ⟨chunk, ht, ?_⟩, e⟩
      rw [Html.strip_unique (Html.sub_strip _) hu, Splitter.runs_unique isW isW (Splitter.findall_runs isW isW u) hvs]
      exact hv
  unfold Holds docWords
  constructor
  · rintro ⟨ws, hws, hq⟩
    obtain ⟨t, ht, rfl⟩ := Option.map_eq_some_iff.1 hws
    exact ⟨t, ht, (hmem t).1 hq⟩
  · rintro ⟨t, ht, h⟩
    exact ⟨_, by rw [ht]; rfl, (hmem t).2 h⟩

/-- C75: for a document with pieces of markup in it, this means that one of the texts between them contains the word; what is
inside the markup does not count -/
theorem C75_outside (hA : Positive A Pos) (hK : Ranked A Pos K) (isW isSpace : Char → Bool) (lower upper : Word → Word)
    (hW : WordClass isW isSpace) (hM : isW '<' = false ∧ isW '&' = false) (hblank : isW ' ' = false)
    (hsp : QueryParser.SpaceOk isSpace)
    (odd : Word → Except PyErr (Word → Bool)) (ops : List (Text.Op D)) (hs : SmallLexicon (htmlPipeline isW lower) ops)
    (he : K.hasTotal = true → LengthsExact A (htmlPipeline isW lower) ops) (s : TI D R)
    (hr : run K (htmlPipeline isW lower) ops = .ok s)
    (q : Word) (hq0 : q ≠ []) (hqw : ∀ c ∈ q, isW c = true)
    (hstop : isStop (lower q) = false) (hne : lower q ≠ []) (hchars : ∀ c ∈ lower q, isW c = true) (hidem : lower (lower q) = lower q)
    (hkey : upper q ≠ ['A', 'N', 'D'] ∧ upper q ≠ ['O', 'R'] ∧ upper q ≠ ['N', 'O', 'T'] ∧ upper q ≠ ['('] ∧ upper q ≠ [')'])
    (d : D) (chunk first : Word) (rest : List (Word × Word)) (hd : currentText ops d = some (.str chunk))
    (e : lower chunk = document first rest) (h1 : Plain first) (h2 : ∀ p ∈ rest, Markup p.1 ∧ Plain p.2) :
    ∃ m, apply K isSpace upper odd (htmlPipeline isW lower) s q = .ok (some m) ∧
      (d ∈ m.keys ↔ ∃ text ∈ first :: rest.map Prod.snd, ∃ vs, Runs isW isW text vs ∧ ∃ v ∈ vs, lower v = lower q) := by
  obtain ⟨m, hm, hiff⟩ := C75_exact hA hK isW isSpace lower upper hW hM hsp odd ops hs he s hr q hq0 hqw hstop hne hchars hidem hkey
  refine ⟨m, hm, (hiff d).trans ?_⟩
  have hruns : Runs isW isW (first ++ rest.flatMap (fun p => ' ' :: p.2))
      (Splitter.findall isW isW first ++ (rest.map (fun p => Splitter.findall isW isW p.2)).flatten) := by
    refine Html.runs_document hblank hblank (Splitter.findall_runs _ _ _) ?_
    rw [List.forall₂_map_right_iff, List.forall₂_same]
    intro p _
    exact Splitter.findall_runs _ _ _
  have hstrip := Html.strip_document h1 h2
  rw [← e] at hstrip
  constructor
  · rintro ⟨t, ht, c, hc, u, vs, hu, hvs, v, hv, ev⟩
    rw [hd] at ht
    cases ht
    obtain rfl : c = chunk := by simpa [textOf] using hc
    obtain rfl := Html.strip_unique hu hstrip
    obtain rfl := Splitter.runs_unique isW isW hvs hruns
    rcases List.mem_append.1 hv with hv | hv
    · exact ⟨first, by simp, _, Splitter.findall_runs _ _ _, v, hv, ev⟩
    · obtain ⟨l, hl', hv⟩ := List.mem_flatten.1 hv
      obtain ⟨p, hp, rfl⟩ := List.mem_map.1 hl'
      exact ⟨p.2, List.mem_cons_of_mem _ (List.mem_map.2 ⟨p, hp, rfl⟩), _, Splitter.findall_runs _ _ _, v, hv, ev⟩
  · rintro ⟨text, ht, vs, hvs, v, hv, ev⟩
    refine ⟨_, hd, chunk, by simp [textOf], _, _, hstrip, hruns, v, ?_, ev⟩
    obtain rfl := Splitter.runs_unique isW isW hvs (Splitter.findall_runs _ _ _)
    rcases List.mem_cons.1 ht with rfl | ht
    · exact List.mem_append_left _ hv
    · obtain ⟨p, hp, rfl⟩ := List.mem_map.1 ht
      exact List.mem_append_right _ (List.mem_flatten.2 ⟨_, List.mem_map.2 ⟨p, hp, rfl⟩, hv⟩)

/-- document 7 is `<b eel>Dog</b>`, document 3 is `eel&dog;` -/
def exHtmlOps : List (Text.Op Nat) :=
  [.index 7 (.str ['<', 'b', ' ', 'e', 'e', 'l', '>', 'D', 'o', 'g', '<', '/', 'b', '>']),
   .index 3 (.str ['e', 'e', 'l', '&', 'd', 'o', 'g', ';'])]

theorem exHtml_small : SmallLexicon (htmlPipeline exIsW exLowerWord) exHtmlOps := by
  refine ⟨?_, ?_⟩
  · intro n h
    simp [exHtmlOps, lexCalls] at h
  · intro w
    have h : ∀ p ∈ (lexAfter (htmlPipeline exIsW exLowerWord) exHtmlOps).wids.items, p.2 < 2 ^ 28 := by decide
    unfold Lexicon.getWid
    cases hg : (lexAfter (htmlPipeline exIsW exLowerWord) exHtmlOps).wids.get? w with
    | none => decide
    | some n => exact h (w, n) ((SMap.get?_eq_some_iff _ _ _).1 hg)

theorem exWordClass : WordClass exIsW exIsSpace :=
  ⟨by decide, by
    intro c hc
    simp only [exIsSpace, Bool.or_eq_true, decide_eq_true_eq] at hc
    rcases hc with (rfl | rfl) | rfl <;> decide, by decide, by decide, by decide⟩

/-- the hypotheses are met: `DOG` finds document 7 and not document 3, `eel` the other way round -/
example : ∃ s, run (okapi exPosArith { k1 := 1, b := 1 }) (htmlPipeline exIsW exLowerWord) exHtmlOps = .ok s ∧
    (∃ m, apply (okapi exPosArith { k1 := 1, b := 1 }) exIsSpace exUpper (fun _ => .ok (fun _ => false)) (htmlPipeline exIsW exLowerWord) s
      ['D', 'O', 'G'] = .ok (some m) ∧ (7 ∈ m.keys ↔ ∃ text ∈ [[], ['d', 'o', 'g'], []], ∃ vs, Runs exIsW exIsW text vs ∧
        ∃ v ∈ vs, exLowerWord v = ['d', 'o', 'g'])) ∧
    (apply (okapi exPosArith { k1 := 1, b := 1 }) exIsSpace exUpper (fun _ => .ok (fun _ => false)) (htmlPipeline exIsW exLowerWord) s
      ['D', 'O', 'G']).toOption.map (fun r => r.map SMap.keys) = some (some [7]) ∧
    (apply (okapi exPosArith { k1 := 1, b := 1 }) exIsSpace exUpper (fun _ => .ok (fun _ => false)) (htmlPipeline exIsW exLowerWord) s
      ['e', 'e', 'l']).toOption.map (fun r => r.map SMap.keys) = some (some [3]) := by
  refine ⟨_, rfl, ?_, by decide +kernel, by decide +kernel⟩
  exact C75_outside exPositive exRanked_okapi exIsW exIsSpace exLowerWord exUpper exWordClass (by decide) (by decide) exIsSpace_ok
    (fun _ => .ok (fun _ => false)) exHtmlOps exHtml_small (fun _ _ _ _ => rfl) _ rfl ['D', 'O', 'G'] (by decide) (by decide)
    (by decide) (by decide) (by decide) (by decide) (by decide) 7 _ []
    [(['<', 'b', ' ', 'e', 'e', 'l', '>'], ['d', 'o', 'g']), (['<', '/', 'b', '>'], [])] rfl (by decide) (by unfold Plain; decide) (by
      intro p hp
      simp only [List.mem_cons, List.not_mem_nil, or_false] at hp
      rcases hp with rfl | rfl
      · exact ⟨.tag ['b', ' ', 'e', 'e', 'l'] (by decide) (by decide), by unfold Plain; decide⟩
      · exact ⟨.tag ['/', 'b'] (by decide) (by decide), by unfold Plain; decide⟩)

end Verif
