import Verif.Props.QuotedWild

/-!
# Property C98: patterns as users type them

`apply("do*")` with the default pipeline: the documents with a word that begins with `do`.
-/

set_option autoImplicit false

namespace Verif

open Spec Text SetOps

variable {D R : Type} [LinearOrder D] {A : Arith R} {Pos : R → Prop} {K : Kind D R}

/-- what a user types as pattern: a word character, then word characters, `*` and `?`, and there is a `*` or `?` -/
def TypedPattern (isW : Char → Bool) (q : Word) : Prop :=
  ∃ c w, q = c :: w ∧ isW c = true ∧ (∀ x ∈ w, isW x = true ∨ x = '*' ∨ x = '?') ∧ ('*' ∈ w ∨ '?' ∈ w)

/-- the text of a document has a word (a maximal run of word characters), other than a stop word, whose lower case is such -/
def HasWordSuch (isW : Char → Bool) (lower : Word → Word) (ops : List (Text.Op D)) (d : D) (P : Word → Prop) : Prop :=
  ∃ t, currentText ops d = some t ∧ ∃ text ∈ textOf t, ∃ vs, Runs isW isW text vs ∧ ∃ v ∈ vs, isStop (lower v) = false ∧ P (lower v)

theorem globOk_not_stop {p : Word} (h : GlobOk p) : isStop p = false := by
  obtain ⟨pre, c, rest, rfl, -, hc, -⟩ := h
  have hfree : ∀ w ∈ stopWords, '*' ∉ w ∧ '?' ∉ w := by decide
  cases hst : isStop (pre ++ c :: rest) with
  | false => rfl
  | true =>
    have hmem : pre ++ c :: rest ∈ stopWords := by simpa [isStop] using hst
    rcases hc with rfl | rfl
    · exact absurd (by simp) (hfree _ hmem).1
    · exact absurd (by simp) (hfree _ hmem).2

theorem hasGlob_default (isW : Char → Bool) (lower : Word → Word) (ops : List (Text.Op D)) (d : D) (p : Word) :
    HasGlob (defaultPipeline isW lower) ops d p ↔ HasWordSuch isW lower ops d (GlobMatch p) := by
  unfold HasGlob HasWordSuch Holds docWords
  constructor
  · rintro ⟨w, ⟨ws, hws, hw⟩, hg⟩
    obtain ⟨t, ht, rfl⟩ := Option.map_eq_some_iff.1 hws
    change w ∈ ((Splitter.process isW (textOf t)).map lower).filter (fun w => !isStop w) at hw
    obtain ⟨hw, hst⟩ := List.mem_filter.1 hw
    obtain ⟨v, hv, rfl⟩ := List.mem_map.1 hw
    obtain ⟨text, hx, hv⟩ := List.mem_flatMap.1 hv
    exact ⟨t, ht, text, hx, _, Splitter.findall_runs isW isW text, v, hv, by simpa using hst, hg⟩
  · rintro ⟨t, ht, text, hx, vs, hvs, v, hv, hst, hg⟩
    refine ⟨lower v, ⟨_, by rw [ht]; rfl, ?_⟩, hg⟩
    change lower v ∈ ((Splitter.process isW (textOf t)).map lower).filter (fun w => !isStop w)
    refine List.mem_filter.2 ⟨List.mem_map.2 ⟨v, List.mem_flatMap.2 ⟨text, hx, ?_⟩, rfl⟩, by simp [hst]⟩
    rw [Splitter.runs_unique isW isW (Splitter.findall_runs isW isW text) hvs]
    exact hv

/-- C98: `apply` of a pattern finds exactly the documents whose text has a word, other than a stop word, that matches the pattern
up to case: each `*` stands for any number of characters, each `?` for one -/
theorem C98_pattern (hA : Positive A Pos) (hK : Ranked A Pos K) (isW isSpace : Char → Bool) (lower upper : Word → Word)
    (up : Char → List Char) (hup : UpperOk upper up) (hW : WordClass isW isSpace) (hsp : QueryParser.SpaceOk isSpace)
    (hglobsp : isSpace '*' = false ∧ isSpace '?' = false) (hl : LowerOk lower)
    (odd : Word → Except PyErr (Word → Bool)) (ops : List (Text.Op D)) (hs : SmallLexicon (defaultPipeline isW lower) ops)
    (he : K.hasTotal = true → LengthsExact A (defaultPipeline isW lower) ops) (s : TI D R)
    (hr : run K (defaultPipeline isW lower) ops = .ok s) (q : Word) (hq : TypedPattern isW q) :
    ∃ m, apply K isSpace upper odd (defaultPipeline isW lower) s q = .ok (some m) ∧
      ∀ d, d ∈ m.keys ↔ HasWordSuch isW lower ops d (GlobMatch (lower q)) := by
  obtain ⟨c, w, rfl, hc, hw, hglob⟩ := hq
  have hwild : ∀ x ∈ w, wildClass isW x = true := by
    intro x hx
    rcases hw x hx with h | rfl | rfl
    · exact wild_of_word h
    · simp [wildClass]
    · simp [wildClass]
  have hruns : Runs isW (wildClass isW) (c :: w) [c :: w] := by
    have := Runs.word (isA := isW) (isB := wildClass isW) [] c w [] [] (by simp) hc hwild (by simp) (.done [] (by simp))
    simpa using this
  have hfind : Splitter.processGlob isW [c :: w] = [c :: w] := by
    rw [processGlob_wild, List.flatMap_singleton]
    exact Splitter.runs_unique _ _ (Splitter.findall_runs _ _ _) hruns
  -- the pattern is fine, before and after lower case
  have hok : GlobOk (lower (c :: w)) := by
    refine hl.globOk _ ((globOk_iff _).2 ⟨?_, ?_, ?_⟩)
    · rcases hglob with h | h
      · exact Or.inl (by simp [h])
      · exact Or.inr (by simp [h])
    · exact (C43_splitter_patterns isW hW.metas [c :: w] (c :: w) (by rw [hfind]; simp)).1
    · exact fun y hy hm => (C43_splitter_patterns isW hW.metas [c :: w] (c :: w) (by rw [hfind]; simp)).2 y hy
        (List.mem_cons_of_mem _ hm)
  have hterms : Lexicon.parseTerms (defaultPipeline isW lower) (c :: w) = [lower (c :: w)] := by
    change ((Splitter.processGlob isW [c :: w]).map lower).filter (fun w => !isStop w) = _
    rw [hfind]
    simp [globOk_not_stop hok]
  have hlg : '*' ∈ lower (c :: w) ∨ '?' ∈ lower (c :: w) := ((globOk_iff _).1 hok).1
  -- the query is parsed as this pattern
  have hnot : ∀ x, isW x = false → x ≠ '*' → x ≠ '?' → x ∉ c :: w := by
    intro x hx h1 h2 hm
    rcases List.mem_cons.1 hm with rfl | hm
    · rw [hc] at hx; cases hx
    · rcases hw x hm with h | h | h
      · rw [h] at hx; cases hx
      · exact h1 h
      · exact h2 h
  have hhead : ¬ ((c :: w).head? = some '-') := by
    intro h
    simp only [List.head?_cons, Option.some.injEq] at h
    rw [h, hW.hyphen] at hc
    cases hc
  have hatom : atomMean (Lexicon.parseTerms (defaultPipeline isW lower)) (c :: w) = some (false, .glob (lower (c :: w))) := by
    unfold atomMean
    rw [hterms]
    simp only [hhead, decide_false]
    rw [if_pos hlg]
  have hkey : TokOf upper (c :: w) (.atom (c :: w)) := by
    have hx : ∃ x ∈ upper (c :: w), x ∉ ['A', 'N', 'D', 'O', 'R', 'T', '(', ')'] := by
      have hone : ∀ g, g ∈ w → (g = '*' ∨ g = '?') → ∃ x ∈ upper (c :: w), x ∉ ['A', 'N', 'D', 'O', 'R', 'T', '(', ')'] := by
        intro g hg hgg
        obtain ⟨x, hx, hx'⟩ := hup.others g (by rcases hgg with rfl | rfl <;> decide)
        refine ⟨x, ?_, hx'⟩
        rw [hup.chars]
        exact List.mem_flatMap.2 ⟨g, by simp [hg], hx⟩
      rcases hglob with h | h
      · exact hone _ h (Or.inl rfl)
      · exact hone _ h (Or.inr rfl)
    obtain ⟨x, hmem, hx'⟩ := hx
    refine ⟨rfl, ?_, ?_, ?_, ?_, ?_⟩ <;> intro e <;> rw [e] at hmem <;> simp at hmem hx' <;> grind
  obtain ⟨ign, hparse⟩ : ∃ ign, QueryParser.parseQuery isSpace upper (Lexicon.parseTerms (defaultPipeline isW lower)) (c :: w) =
      .ok (.glob (lower (c :: w)), ign) := by
    refine (C47_grammar isSpace upper _ hsp (c :: w) _).2 ⟨[c :: w], .one (.mk (.atoms (c :: w) []) .nil), ?_, ?_, ?_⟩
    · have := Tokens.word (isSpace := isSpace) (c :: w) [] [] (by simp) (by
        intro x hx
        refine ⟨?_, ?_, ?_, ?_⟩
        · rintro rfl
          exact hnot _ (hW.metas _ (by simp [Lexicon.metaChars])) (by decide) (by decide) hx
        · rintro rfl
          exact hnot _ (hW.metas _ (by simp [Lexicon.metaChars])) (by decide) (by decide) hx
        · rintro rfl
          exact hnot _ hW.quote (by decide) (by decide) hx
        · cases h : isSpace x with
          | false => rfl
          | true =>
            refine absurd hx (hnot _ (hW.space x h) ?_ ?_)
            · rintro rfl; rw [hglobsp.1] at h; cases h
            · rintro rfl; rw [hglobsp.2] at h; cases h) (by simp) (by simp) .nil
      simpa using this
    · simp only [OrE.flat, AndE.flat, TermE.flat, Items.flat, List.map_nil, List.append_nil]
      exact .cons hkey .nil
    · have hatoms : atomsMean (Lexicon.parseTerms (defaultPipeline isW lower)) [c :: w] = .ok (some (.glob (lower (c :: w)))) := by
        unfold atomsMean
        rw [List.filterMap_cons, hatom]
        rfl
      simp only [OrE.mean, OrE.parts, AndE.mean, TermE.mean, hatoms, Items.parts]
      rfl
  have hfine : QueryFine isSpace upper (defaultPipeline isW lower) ops (c :: w) :=
    globsFine_pipeline (noNewline_default isW lower hW.newline hl _) (globPipeline_default isW lower hW.metas hl) _
  rcases C60_apply hA hK isSpace upper odd _ ops hs he s hr (c :: w) hfine with ⟨h, -⟩ | ⟨t', ign', h, h'⟩
  · rw [hparse] at h; cases h
  · rw [hparse] at h
    cases h
    have hm : (textLeaves (defaultPipeline isW lower) ops).matches? (.glob (lower (c :: w))) =
        some (fun d => HasGlob (defaultPipeline isW lower) ops d (lower (c :: w))) := by
      rw [Leaves.matches?]
      rfl
    rcases h' with ⟨h1, -⟩ | ⟨P, m, h1, h2, h3, -⟩
    · rw [hm] at h1; cases h1
    · rw [hm] at h1
      obtain rfl := Option.some.inj h1
      exact ⟨m, h2, fun d => (h3 d).trans (hasGlob_default isW lower ops d _)⟩

/-- what a word followed by `*` matches -/
theorem globMatch_prefix : ∀ {p : Word}, ('*' ∉ p ∧ '?' ∉ p) → ∀ {s : Word}, GlobMatch (p ++ ['*']) s ↔ p <+: s
  | [], _, s => by
    constructor
    · intro _; exact List.nil_prefix
    · intro _
      have := GlobMatch.star [] s [] .nil
      simpa using this
  | c :: p, hp, s => by
    have hc1 : c ≠ '*' := fun e => hp.1 (by simp [e])
    have hc2 : c ≠ '?' := fun e => hp.2 (by simp [e])
    have ih := fun s => globMatch_prefix (p := p) ⟨fun h => hp.1 (by simp [h]), fun h => hp.2 (by simp [h])⟩ (s := s)
    constructor
    · intro h
      obtain ⟨s', rfl, h'⟩ := Lexicon.globMatch_char hc1 hc2 h
      exact List.cons_prefix_cons.2 ⟨rfl, (ih s').1 h'⟩
    · intro h
      obtain ⟨r, rfl⟩ := h
      exact .char c _ _ hc1 hc2 ((ih _).2 (List.prefix_append _ _))

/-- C98: a word followed by `*` finds exactly the documents whose text has a word, other than a stop word, that begins so up to case.
`lower` is taken of the word and the `*` alone -/
theorem C98_prefix (hA : Positive A Pos) (hK : Ranked A Pos K) (isW isSpace : Char → Bool) (lower upper : Word → Word)
    (up : Char → List Char) (hup : UpperOk upper up) (hW : WordClass isW isSpace) (hsp : QueryParser.SpaceOk isSpace)
    (hglobsp : isSpace '*' = false ∧ isSpace '?' = false) (hl : LowerOk lower)
    (odd : Word → Except PyErr (Word → Bool)) (ops : List (Text.Op D)) (hs : SmallLexicon (defaultPipeline isW lower) ops)
    (he : K.hasTotal = true → LengthsExact A (defaultPipeline isW lower) ops) (s : TI D R)
    (hr : run K (defaultPipeline isW lower) ops = .ok s) (p : Word) (hp0 : p ≠ []) (hp : ∀ c ∈ p, isW c = true)
    (hlow : lower (p ++ ['*']) = lower p ++ ['*']) :
    ∃ m, apply K isSpace upper odd (defaultPipeline isW lower) s (p ++ ['*']) = .ok (some m) ∧
      ∀ d, d ∈ m.keys ↔ HasWordSuch isW lower ops d (fun v => lower p <+: v) := by
  obtain ⟨c, w, rfl⟩ := List.exists_cons_of_ne_nil hp0
  obtain ⟨m, h, h'⟩ := C98_pattern hA hK isW isSpace lower upper up hup hW hsp hglobsp hl odd ops hs he s hr ((c :: w) ++ ['*'])
    ⟨c, w ++ ['*'], rfl, hp c (by simp), by
      intro x hx
      rcases List.mem_append.1 hx with hx | hx
      · exact Or.inl (hp x (by simp [hx]))
      · exact Or.inr (Or.inl (by simpa using hx)), Or.inl (by simp)⟩
  refine ⟨m, h, fun d => (h' d).trans ?_⟩
  have hg := hl.plain (c :: w) (hW.plain hp).2.2
  unfold HasWordSuch
  rw [hlow]
  simp only [globMatch_prefix hg]

/-- C98: longer beginnings find fewer documents: whatever `pr*` finds, `p*` finds -/
theorem C98_narrow (hA : Positive A Pos) (hK : Ranked A Pos K) (isW isSpace : Char → Bool) (lower upper : Word → Word)
    (up : Char → List Char) (hup : UpperOk upper up) (hW : WordClass isW isSpace) (hsp : QueryParser.SpaceOk isSpace)
    (hglobsp : isSpace '*' = false ∧ isSpace '?' = false) (hl : LowerOk lower)
    (odd : Word → Except PyErr (Word → Bool)) (ops : List (Text.Op D)) (hs : SmallLexicon (defaultPipeline isW lower) ops)
    (he : K.hasTotal = true → LengthsExact A (defaultPipeline isW lower) ops) (s : TI D R)
    (hr : run K (defaultPipeline isW lower) ops = .ok s) (p r : Word) (hp0 : p ≠ []) (hp : ∀ c ∈ p ++ r, isW c = true)
    (hlow : lower (p ++ ['*']) = lower p ++ ['*']) (hlow' : lower (p ++ r ++ ['*']) = lower p ++ lower r ++ ['*'])
    (hlow2 : lower (p ++ r) = lower p ++ lower r) :
    ∃ m m', apply K isSpace upper odd (defaultPipeline isW lower) s (p ++ ['*']) = .ok (some m) ∧
      apply K isSpace upper odd (defaultPipeline isW lower) s (p ++ r ++ ['*']) = .ok (some m') ∧ ∀ d ∈ m'.keys, d ∈ m.keys := by
  obtain ⟨m, h, h1⟩ := C98_prefix hA hK isW isSpace lower upper up hup hW hsp hglobsp hl odd ops hs he s hr p hp0
    (fun c hc => hp c (by simp [hc])) hlow
  obtain ⟨m', h', h2⟩ := C98_prefix hA hK isW isSpace lower upper up hup hW hsp hglobsp hl odd ops hs he s hr (p ++ r) (by simp [hp0])
    hp (by rw [hlow', hlow2])
  refine ⟨m, m', h, h', fun d hd => (h1 d).2 ?_⟩
  obtain ⟨t, ht, text, hx, vs, hvs, v, hv, hst, hpre⟩ := (h2 d).1 hd
  exact ⟨t, ht, text, hx, vs, hvs, v, hv, hst, by rw [hlow2] at hpre; exact (List.prefix_append _ _).trans hpre⟩

/-- C98: a document is found by the beginning of any of its words, other than stop words, followed by `*` -/
theorem C98_found (hA : Positive A Pos) (hK : Ranked A Pos K) (isW isSpace : Char → Bool) (lower upper : Word → Word)
    (up : Char → List Char) (hup : UpperOk upper up) (hW : WordClass isW isSpace) (hsp : QueryParser.SpaceOk isSpace)
    (hglobsp : isSpace '*' = false ∧ isSpace '?' = false) (hl : LowerOk lower)
    (odd : Word → Except PyErr (Word → Bool)) (ops : List (Text.Op D)) (hs : SmallLexicon (defaultPipeline isW lower) ops)
    (he : K.hasTotal = true → LengthsExact A (defaultPipeline isW lower) ops) (s : TI D R)
    (hr : run K (defaultPipeline isW lower) ops = .ok s) (d : D) (t : TextArg) (hd : currentText ops d = some t)
    (text : Word) (ht : text ∈ textOf t) (vs : List Word) (hvs : Runs isW isW text vs) (p r : Word) (hv : p ++ r ∈ vs)
    (hst : isStop (lower (p ++ r)) = false) (hp0 : p ≠ [])
    (hlow : lower (p ++ ['*']) = lower p ++ ['*']) (hlow2 : lower (p ++ r) = lower p ++ lower r) :
    ∃ m, apply K isSpace upper odd (defaultPipeline isW lower) s (p ++ ['*']) = .ok (some m) ∧ d ∈ m.keys := by
  have hchars : ∀ c ∈ p, isW c = true := by
    intro x hx
    obtain ⟨c, w, e, h1, h2⟩ := runs_piece hvs _ hv
    have hm : x ∈ p ++ r := by simp [hx]
    rw [e] at hm
    rcases List.mem_cons.1 hm with rfl | hm
    · exact h1
    · exact h2 x hm
  obtain ⟨m, h, h1⟩ := C98_prefix hA hK isW isSpace lower upper up hup hW hsp hglobsp hl odd ops hs he s hr p hp0 hchars hlow
  exact ⟨m, h, (h1 d).2 ⟨t, hd, text, ht, vs, hvs, p ++ r, hv, hst, by rw [hlow2]; exact List.prefix_append _ _⟩⟩

/-- the examples: `e*l` and `do*` find document 7, whose text is `dog big eel`; whatever `Eels*` finds, `E*` finds -/
example : ∃ s m m' m'' m3, run (okapi exPosArith { k1 := 1, b := 1 }) exPipeline exTextOps = .ok s ∧
    apply (okapi exPosArith { k1 := 1, b := 1 }) exIsSpace (fun w => w.flatMap exUp) (fun _ => .ok (fun _ => false)) exPipeline s
      ['e', '*', 'l'] = .ok (some m) ∧ 7 ∈ m.keys ∧
    apply (okapi exPosArith { k1 := 1, b := 1 }) exIsSpace (fun w => w.flatMap exUp) (fun _ => .ok (fun _ => false)) exPipeline s
      ['d', 'o', '*'] = .ok (some m') ∧ 7 ∈ m'.keys ∧
    apply (okapi exPosArith { k1 := 1, b := 1 }) exIsSpace (fun w => w.flatMap exUp) (fun _ => .ok (fun _ => false)) exPipeline s
      ['E', '*'] = .ok (some m'') ∧
    apply (okapi exPosArith { k1 := 1, b := 1 }) exIsSpace (fun w => w.flatMap exUp) (fun _ => .ok (fun _ => false)) exPipeline s
      ['E', 'e', 'l', 's', '*'] = .ok (some m3) ∧ ∀ d ∈ m3.keys, d ∈ m''.keys := by
  obtain ⟨s, hr, -⟩ := C51_documents _ (exRanked_okapi.lawful exPositive) exPipeline exTextOps exText_small
  obtain ⟨m, h, h1⟩ := C98_pattern exPositive exRanked_okapi exIsW exIsSpace exLowerWord (fun w => w.flatMap exUp) exUp exUp_ok exWordClass
    exIsSpace_ok (by decide) exLower_ok (fun _ => .ok (fun _ => false)) exTextOps exText_small (fun _ => exText_exact) s hr ['e', '*', 'l']
    ⟨'e', ['*', 'l'], rfl, by decide, by decide, by decide⟩
  obtain ⟨m', h', h2⟩ := C98_found exPositive exRanked_okapi exIsW exIsSpace exLowerWord (fun w => w.flatMap exUp) exUp exUp_ok exWordClass
    exIsSpace_ok (by decide) exLower_ok (fun _ => .ok (fun _ => false)) exTextOps exText_small (fun _ => exText_exact) s hr 7
    (.str ['d', 'o', 'g', ' ', 'b', 'i', 'g', ' ', 'e', 'e', 'l']) rfl ['d', 'o', 'g', ' ', 'b', 'i', 'g', ' ', 'e', 'e', 'l'] (by simp [textOf])
    [['d', 'o', 'g'], ['b', 'i', 'g'], ['e', 'e', 'l']] (Splitter.findall_runs _ _ _) ['d', 'o'] ['g'] (by simp) (by decide) (by simp)
    (by decide) (by decide)
  obtain ⟨m'', m3, h3, h4, h5⟩ := C98_narrow exPositive exRanked_okapi exIsW exIsSpace exLowerWord (fun w => w.flatMap exUp) exUp exUp_ok exWordClass
    exIsSpace_ok (by decide) exLower_ok (fun _ => .ok (fun _ => false)) exTextOps exText_small (fun _ => exText_exact) s hr ['E'] ['e', 'l', 's']
    (by simp) (by decide) (by decide) (by decide) (by decide)
  refine ⟨s, m, m', m'', m3, hr, h, (h1 7).2 ?_, h', h2, h3, h4, h5⟩
  exact ⟨_, rfl, _, List.mem_singleton.2 rfl, [['d', 'o', 'g'], ['b', 'i', 'g'], ['e', 'e', 'l']], Splitter.findall_runs _ _ _, ['e', 'e', 'l'],
    by simp, by decide, .char 'e' _ _ (by decide) (by decide) (.star ['l'] ['e'] ['l'] (.char 'l' _ _ (by decide) (by decide) .nil))⟩

end Verif
