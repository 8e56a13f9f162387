import Verif.Props.Quoted

/-!
# Property C84: quoted texts with `*` and `?`

`"gr?y dog*"` is not a pattern but a phrase: the words of the query pass the pipeline again, which drops `*` and `?`.
-/

set_option autoImplicit false

namespace Verif

open Spec Text SetOps

variable {D R : Type} [LinearOrder D] {A : Arith R} {Pos : R → Prop} {K : Kind D R}

/-- word characters, `*` and `?` -/
def wildClass (isW : Char → Bool) (c : Char) : Bool := isW c || decide (c = '*') || decide (c = '?')

theorem processGlob_wild (isW : Char → Bool) (lst : List Word) :
    Splitter.processGlob isW lst = lst.flatMap (Splitter.findall isW (wildClass isW)) := by
  have : (fun c => isW c || Lexicon.isGlobChar c) = wildClass isW := by
    funext c
    simp [wildClass, Lexicon.isGlobChar, Bool.or_assoc]
  unfold Splitter.processGlob
  rw [this]

theorem wild_of_word {isW : Char → Bool} {c : Char} (h : isW c = true) : wildClass isW c = true := by simp [wildClass, h]

theorem word_of_wild {isW : Char → Bool} {c : Char} (h : wildClass isW c = false) : isW c = false := by
  cases hc : isW c with
  | false => rfl
  | true => rw [wild_of_word hc] at h; cases h

/-- the words of a text are the words of its pieces of word characters, `*` and `?` -/
theorem findall_wild {isW : Char → Bool} {s : Word} {us : List Word} (h : Runs isW (wildClass isW) s us) :
    Splitter.findall isW isW s = us.flatMap (Splitter.findall isW isW) := by
  induction h with
  | done sep hs =>
    exact Splitter.runs_unique isW isW (Splitter.findall_runs isW isW _) (.done sep hs)
  | word sep c w rest ws h1 h2 h3 h4 h5 ih =>
    have hcut1 : CleanCut isW sep ((c :: w) ++ rest) := fun x y hx _ => Or.inl (h1 x (List.mem_of_getLast? hx))
    have hcut2 : CleanCut isW (c :: w) rest := fun x y _ hy => Or.inr (word_of_wild (h4 y hy))
    have hsep : Splitter.findall isW isW sep = [] :=
      Splitter.runs_unique isW isW (Splitter.findall_runs isW isW _) (.done sep h1)
    rw [List.append_assoc, findall_append hcut1, findall_append hcut2, hsep, List.nil_append, List.flatMap_cons, ih]

/-- what a piece consists of -/
theorem runs_piece {isA isB : Char → Bool} {s : Word} {us : List Word} (h : Runs isA isB s us) :
    ∀ u ∈ us, ∃ c w, u = c :: w ∧ isA c = true ∧ ∀ x ∈ w, isB x = true := by
  induction h with
  | done => simp
  | word sep c w rest ws h1 h2 h3 h4 h5 ih =>
    intro u hu
    rcases List.mem_cons.1 hu with rfl | hu
    · exact ⟨c, w, rfl, h2, h3⟩
    · exact ih u hu

theorem runs_sepAny {isA isB : Char → Bool} {sep b : Word} {vs : List Word} (hsep : ∀ c ∈ sep, isA c = false)
    (hb : Runs isA isB b vs) : Runs isA isB (sep ++ b) vs := by
  cases hb with
  | done _ h =>
    refine .done _ fun c hc => ?_
    rcases List.mem_append.1 hc with hc | hc
    · exact hsep c hc
    · exact h c hc
  | word s c w rest ws h1 h2 h3 h4 h5 =>
    have := Runs.word (sep ++ s) c w rest ws (fun x hx => by
      rcases List.mem_append.1 hx with hx | hx
      · exact hsep x hx
      · exact h1 x hx) h2 h3 h4 h5
    simpa [List.append_assoc] using this

theorem runs_wild_inQuotes {isW : Char → Bool} (hq : isW '"' = false) {body : Word} {us : List Word}
    (h : Runs isW (wildClass isW) body us) : Runs isW (wildClass isW) (inQuotes body) us := by
  have hq' : wildClass isW '"' = false := by simp [wildClass, hq]
  have hend : Runs isW (wildClass isW) (body ++ ['"']) us := by
    induction h with
    | done sep hs =>
      refine .done _ fun c hc => ?_
      rcases List.mem_append.1 hc with hc | hc
      · exact hs c hc
      · simp only [List.mem_singleton] at hc
        rw [hc, hq]
    | word sep c w rest ws h1 h2 h3 h4 h5 ih =>
      have := Runs.word sep c w (rest ++ ['"']) ws h1 h2 h3 (by
        intro x hx
        cases rest with
        | nil => simp at hx; subst hx; exact hq'
        | cons r rest => exact h4 x hx) ih
      simpa [List.append_assoc] using this
  exact runs_sepAny (sep := ['"']) (by simpa using hq) hend

/-- what is needed of the pieces of a quoted text: lower case does not move the limits of words, is its own lower case, and a piece
with `*` or `?` does not become a stop word -/
structure WildCase (isW : Char → Bool) (lower : Word → Word) (us : List Word) : Prop where
  words : ∀ u ∈ us, ∀ vs, Runs isW isW u vs → Runs isW isW (lower u) (vs.map lower)
  again : ∀ u ∈ us, ∀ vs, Runs isW isW u vs → ∀ v ∈ vs, lower (lower v) = lower v
  stop : ∀ u ∈ us, '*' ∈ u ∨ '?' ∈ u → isStop (lower u) = false

/-- the pieces pass the pipeline as the words of the text do -/
theorem wild_pass {isW : Char → Bool} {lower : Word → Word} : ∀ {us : List Word}, WildCase isW lower us →
    (∀ u ∈ us, ∃ c w, u = c :: w ∧ isW c = true ∧ ∀ x ∈ w, wildClass isW x = true) →
    plainWords lower (Splitter.process isW (plainWords lower us)) = plainWords lower (us.flatMap (Splitter.findall isW isW))
  | [], _, _ => rfl
  | u :: us, hc, hp => by
    have ih := wild_pass (us := us)
      ⟨fun v hv => hc.words v (by simp [hv]), fun v hv => hc.again v (by simp [hv]), fun v hv => hc.stop v (by simp [hv])⟩
      fun v hv => hp v (by simp [hv])
    have hr := Splitter.findall_runs isW isW u
    have hlow : Splitter.findall isW isW (lower u) = (Splitter.findall isW isW u).map lower :=
      Splitter.runs_unique isW isW (Splitter.findall_runs isW isW _) (hc.words u (by simp) _ hr)
    have hag := hc.again u (by simp) _ hr
    rw [List.flatMap_cons]
    have happ : ∀ a b : List Word, plainWords lower (a ++ b) = plainWords lower a ++ plainWords lower b := by
      intro a b; simp [plainWords]
    rw [happ, ← ih]
    cases hst : isStop (lower u) with
    | false =>
      have h1 : plainWords lower (u :: us) = lower u :: plainWords lower us := by simp [plainWords, hst]
      rw [h1, Splitter.process, List.flatMap_cons, happ, hlow]
      congr 1
      unfold plainWords
      rw [List.map_map]
      congr 1
      exact List.map_congr_left fun v hv => hag v hv
    | true =>
      have h1 : plainWords lower (u :: us) = plainWords lower us := by simp [plainWords, hst]
      have hw : Splitter.findall isW isW u = [u] := by
        obtain ⟨c, w, rfl, hc1, hc2⟩ := hp u (by simp)
        refine findall_word isW (by simp) fun x hx => ?_
        rcases List.mem_cons.1 hx with rfl | hx'
        · exact hc1
        · have := hc2 x hx'
          simp only [wildClass, Bool.or_eq_true, decide_eq_true_eq] at this
          rcases this with (h | rfl) | rfl
          · exact h
          · rw [hc.stop _ (by simp) (Or.inl hx)] at hst; cases hst
          · rw [hc.stop _ (by simp) (Or.inr hx)] at hst; cases hst
      rw [h1, hw]
      simp [plainWords, hst]

/-- what `apply` of a quoted text of at least two pieces finds -/
theorem quoted_wild (hA : Positive A Pos) (hK : Ranked A Pos K) (isW isSpace : Char → Bool) (lower upper : Word → Word)
    (up : Char → List Char) (hup : UpperOk upper up)
    (hW : WordClass isW isSpace) (hsp : QueryParser.SpaceOk isSpace)
    (odd : Word → Except PyErr (Word → Bool)) (ops : List (Text.Op D)) (hs : SmallLexicon (defaultPipeline isW lower) ops)
    (he : K.hasTotal = true → LengthsExact A (defaultPipeline isW lower) ops) (s : TI D R)
    (hr : run K (defaultPipeline isW lower) ops = .ok s)
    (body : Word) (hbody : '"' ∉ body) (us : List Word) (hus : Runs isW (wildClass isW) body us) (hc : WildCase isW lower us)
    (htwo : 2 ≤ (plainWords lower us).length) :
    ∃ m, apply K isSpace upper odd (defaultPipeline isW lower) s (inQuotes body) = .ok (some m) ∧
      ∀ d, d ∈ m.keys ↔ PhraseFound (defaultPipeline isW lower) ops d (plainWords lower (Splitter.findall isW isW body)) := by
  have hterms : Lexicon.parseTerms (defaultPipeline isW lower) (inQuotes body) = plainWords lower us := by
    change plainWords lower (Splitter.processGlob isW [inQuotes body]) = _
    rw [processGlob_wild, List.flatMap_cons, List.flatMap_nil, List.append_nil,
      Splitter.runs_unique _ _ (Splitter.findall_runs _ _ _) (runs_wild_inQuotes hW.quote hus)]
  have hwords : wordsOf (defaultPipeline isW lower) (.list (plainWords lower us)) =
      plainWords lower (Splitter.findall isW isW body) := by
    rw [findall_wild hus]
    exact wild_pass hc (runs_piece hus)
  have hnode : quotedNode (plainWords lower us) = some (.phrase (plainWords lower us)) := by
    generalize plainWords lower us = ws at htwo
    match ws, htwo with
    | w :: w' :: ws', _ => rfl
  have hparse := C84_parse isSpace hsp upper up hup (Lexicon.parseTerms (defaultPipeline isW lower)) body hbody
  rw [hterms, hnode] at hparse
  have hfine : QueryFine isSpace upper (defaultPipeline isW lower) ops (inQuotes body) := by
    intro t' ign' h
    refine globsFine_plain _ _ _ fun p hp => ?_
    rw [hparse] at h
    cases h
    cases hp
  rcases C60_apply hA hK isSpace upper odd _ ops hs he s hr (inQuotes body) hfine with ⟨h, -⟩ | ⟨t', ign', h, h'⟩
  · rw [hparse] at h; cases h
  · rw [hparse] at h
    cases h
    have hP : (textLeaves (defaultPipeline isW lower) ops).matches? (.phrase (plainWords lower us)) =
        some (fun d => PhraseFound (defaultPipeline isW lower) ops d (plainWords lower (Splitter.findall isW isW body))) := by
      rw [Leaves.matches?]
      show some (fun d => PhraseFound _ _ d (wordsOf (defaultPipeline isW lower) (.list (plainWords lower us)))) = _
      rw [hwords]
    rcases h' with ⟨h1, -⟩ | ⟨P', m, h1, h2, h3, -⟩
    · rw [hP] at h1; cases h1
    · rw [hP] at h1
      obtain rfl := Option.some.inj h1
      exact ⟨m, h2, h3⟩

/-- a document whose text contains a passage contains the words of the passage one after the other -/
theorem passage_words (isW : Char → Bool) (lower : Word → Word) (ops : List (Text.Op D)) (d : D) (t : TextArg)
    (hd : currentText ops d = some t) (pre mid post : Word) (ht : pre ++ mid ++ post ∈ textOf t)
    (hpre : CleanCut isW pre mid) (hpost : CleanCut isW mid post) (h0 : mid ≠ []) :
    HasPhrase (defaultPipeline isW lower) ops d (plainWords lower (Splitter.findall isW isW mid)) := by
  refine ⟨_, by unfold docWords; rw [hd]; rfl, ?_⟩
  obtain ⟨l1, l2, hl⟩ := List.append_of_mem ht
  change _ <:+: plainWords lower (Splitter.process isW (textOf t))
  have hcut : CleanCut isW (pre ++ mid) post := by
    intro x y hx hy
    refine hpost x y ?_ hy
    cases hm : mid.getLast? with
    | none => exact absurd (List.getLast?_eq_none_iff.1 hm) h0
    | some z => rw [List.getLast?_append, hm] at hx; exact hx
  rw [hl, Splitter.process, List.flatMap_append, List.flatMap_cons, findall_append hcut, findall_append hpre]
  unfold plainWords
  simp only [List.map_append, List.filter_append, List.append_assoc]
  exact (List.prefix_append _ _).isInfix.trans ((List.suffix_append _ _).isInfix.trans (List.suffix_append _ _).isInfix)

/-- C84: a document whose text contains the passage `mid`, with no word going on over its ends, is found by `apply` of the passage
in double quotes, even if there are `*` and `?` in it, or all words of the passage are stop words, and then nothing is found.
`us` are the pieces of word characters, `*` and `?` in the passage, `vs` its words; at least two of the pieces are no stop words.
What is missing: passages of fewer pieces with `*` or `?`, for which it is false (`C84_fails`), and words whose lower case has
other limits, for which it is false (`C65_fails`). -/
theorem C84_wild_partial (hA : Positive A Pos) (hK : Ranked A Pos K) (isW isSpace : Char → Bool) (lower upper : Word → Word)
    (up : Char → List Char) (hup : UpperOk upper up)
    (hW : WordClass isW isSpace) (hsp : QueryParser.SpaceOk isSpace)
    (odd : Word → Except PyErr (Word → Bool)) (ops : List (Text.Op D)) (hs : SmallLexicon (defaultPipeline isW lower) ops)
    (he : K.hasTotal = true → LengthsExact A (defaultPipeline isW lower) ops) (s : TI D R)
    (hr : run K (defaultPipeline isW lower) ops = .ok s)
    (d : D) (t : TextArg) (hd : currentText ops d = some t) (pre mid post : Word) (ht : pre ++ mid ++ post ∈ textOf t)
    (hpre : CleanCut isW pre mid) (hpost : CleanCut isW mid post) (hmid : '"' ∉ mid)
    (us : List Word) (hus : Runs isW (wildClass isW) mid us) (hc : WildCase isW lower us)
    (htwo : 2 ≤ ((us.map lower).filter (fun w => !isStop w)).length) (vs : List Word) (hvs : Runs isW isW mid vs) :
    ∃ m, apply K isSpace upper odd (defaultPipeline isW lower) s (inQuotes mid) = .ok (some m) ∧
      (((∃ v ∈ vs, isStop (lower v) = false) ∧ d ∈ m.keys) ∨ ((∀ v ∈ vs, isStop (lower v) = true) ∧ m.keys = [])) := by
  obtain rfl : vs = Splitter.findall isW isW mid := Splitter.runs_unique isW isW hvs (Splitter.findall_runs isW isW mid)
  obtain ⟨m, h, h'⟩ := quoted_wild hA hK isW isSpace lower upper up hup hW hsp odd ops hs he s hr mid hmid us hus hc htwo
  refine ⟨m, h, ?_⟩
  rcases List.eq_nil_or_concat (plainWords lower (Splitter.findall isW isW mid)) with h1 | ⟨init, last, h1⟩
  · right
    refine ⟨(plainWords_eq_nil _ _).1 h1, ?_⟩
    rw [List.eq_nil_iff_forall_not_mem]
    intro d' hd'
    obtain ⟨_, init, last, _, _, h2, _⟩ := (h' d').1 hd'
    rw [h1] at h2
    simp at h2
  · left
    have hne : plainWords lower (Splitter.findall isW isW mid) ≠ [] := by rw [h1]; simp
    constructor
    · by_contra hall
      push Not at hall
      exact hne ((plainWords_eq_nil _ _).2 fun v hm => by simpa using hall v hm)
    · have h0 : mid ≠ [] := by
        rintro rfl
        exact hne rfl
      obtain ⟨doc, hdoc, hi⟩ := passage_words isW lower ops d t hd pre mid post ht hpre hpost h0
      rw [List.concat_eq_append] at h1
      exact (h' d).2 ⟨doc, init, last, last, hdoc, h1, fun w hw => hi.subset hw, by rw [← h1]; exact hi, 0, by simp⟩

/-- C84: while fewer than 128 words have ids, the documents found by a quoted text of at least two pieces are exactly those that
contain its words, in lower case, without stop words, `*` and `?`, one after the other: `*` and `?` are no wildcards there. What is
missing: as in `C84_wild_partial`, and bigger lexicons, for which it is false (`C58_fails`) -/
theorem C84_wild_exact_partial (hA : Positive A Pos) (hK : Ranked A Pos K) (isW isSpace : Char → Bool) (lower upper : Word → Word)
    (up : Char → List Char) (hup : UpperOk upper up)
    (hW : WordClass isW isSpace) (hsp : QueryParser.SpaceOk isSpace)
    (odd : Word → Except PyErr (Word → Bool)) (ops : List (Text.Op D)) (hs : SmallLexicon (defaultPipeline isW lower) ops)
    (hsm : ∀ w, (lexAfter (defaultPipeline isW lower) ops).getWid w < 128)
    (he : K.hasTotal = true → LengthsExact A (defaultPipeline isW lower) ops) (s : TI D R)
    (hr : run K (defaultPipeline isW lower) ops = .ok s) (body : Word) (hbody : '"' ∉ body)
    (us : List Word) (hus : Runs isW (wildClass isW) body us) (hc : WildCase isW lower us)
    (htwo : 2 ≤ ((us.map lower).filter (fun w => !isStop w)).length) (vs : List Word) (hvs : Runs isW isW body vs)
    (hst : ∃ v ∈ vs, isStop (lower v) = false) :
    ∃ m, apply K isSpace upper odd (defaultPipeline isW lower) s (inQuotes body) = .ok (some m) ∧
      ∀ d, d ∈ m.keys ↔ HasPhrase (defaultPipeline isW lower) ops d ((vs.map lower).filter (fun w => !isStop w)) := by
  obtain rfl : vs = Splitter.findall isW isW body := Splitter.runs_unique isW isW hvs (Splitter.findall_runs isW isW body)
  obtain ⟨m, h, h'⟩ := quoted_wild hA hK isW isSpace lower upper up hup hW hsp odd ops hs he s hr body hbody us hus hc htwo
  refine ⟨m, h, fun d => (h' d).trans ?_⟩
  have hne : plainWords lower (Splitter.findall isW isW body) ≠ [] := by
    intro e
    obtain ⟨v, hm, h1⟩ := hst
    rw [(plainWords_eq_nil _ _).1 e v hm] at h1
    cases h1
  change _ ↔ HasPhrase _ _ _ (plainWords lower (Splitter.findall isW isW body))
  constructor
  · intro h1
    exact ((phraseFound_small hs hsm d _).1 h1).2
  · intro h1
    exact (phraseFound_small hs hsm d _).2 ⟨hne, h1⟩

/-- a lower case character by character, that keeps word characters, `*` and `?`, is fine for every text -/
theorem wildCase_chars {isW : Char → Bool} {f : Char → Char} (hf : ∀ c, isW (f c) = isW c) (hff : ∀ c, f (f c) = f c)
    (hstar : f '*' = '*') (hquest : f '?' = '?') (us : List Word) : WildCase isW (List.map f) us := by
  refine ⟨fun u hu vs h => ?_, fun u _ vs _ v _ => ?_, fun u _ h => ?_⟩
  · clear * - h hf
    induction h with
    | done sep hs =>
      refine .done _ fun c hc => ?_
      obtain ⟨x, hx, rfl⟩ := List.mem_map.1 hc
      rw [hf, hs x hx]
    | word sep c w rest ws h1 h2 h3 h4 h5 ih =>
      have := Runs.word (isA := isW) (isB := isW) (sep.map f) (f c) (w.map f) (rest.map f) (ws.map (List.map f)) (by
        intro x hx
        obtain ⟨y, hy, rfl⟩ := List.mem_map.1 hx
        rw [hf, h1 y hy]) (by rw [hf, h2]) (by
        intro x hx
        obtain ⟨y, hy, rfl⟩ := List.mem_map.1 hx
        rw [hf, h3 y hy]) (by
        intro x hx
        rw [List.head?_map] at hx
        obtain ⟨y, hy, rfl⟩ := Option.map_eq_some_iff.1 hx
        rw [hf, h4 y hy]) ih
      simpa using this
  · rw [List.map_map]
    exact List.map_congr_left fun c _ => hff c
  · have hfree : ∀ w ∈ stopWords, '*' ∉ w ∧ '?' ∉ w := by decide
    cases hst : isStop (u.map f) with
    | false => rfl
    | true =>
      have hmem : u.map f ∈ stopWords := by simpa [isStop] using hst
      rcases h with h | h
      · exact absurd (List.mem_map.2 ⟨_, h, hstar⟩) (hfree _ hmem).1
      · exact absurd (List.mem_map.2 ⟨_, h, hquest⟩) (hfree _ hmem).2

/-- the lower case of the examples: ASCII letters -/
theorem exLower_chars (c : Char) : exIsW c.toLower = exIsW c ∧ c.toLower.toLower = c.toLower := by
  by_cases h : c.val ≥ 'A'.val ∧ c.val ≤ 'Z'.val
  · have hall : ∀ n < 128, exIsW (Char.ofNat n).toLower = exIsW (Char.ofNat n) ∧ (Char.ofNat n).toLower.toLower = (Char.ofNat n).toLower := by
      decide
    have hlt : c.toNat < 128 := by
      have h2 : c.val.toNat ≤ 'Z'.val.toNat := h.2
      exact Nat.lt_of_le_of_lt h2 (by decide)
    have := hall c.toNat hlt
    rwa [Char.ofNat_toNat] at this
  · have e : c.toLower = c := by
      unfold Char.toLower
      rw [dif_neg h]
    rw [e, e]
    exact ⟨rfl, rfl⟩

theorem exWildCase (us : List Word) : WildCase exIsW exLowerWord us :=
  wildCase_chars (fun c => (exLower_chars c).1) (fun c => (exLower_chars c).2) (by decide) (by decide) us

/-- the history of the example: a text with `?` and `*` -/
def exWildOps : List (Text.Op Nat) :=
  [.index 7 (.str ['A', ' ', 'd', 'o', 'g', '?', ' ', 'N', 'o', '*', ' ', 'e', 'e', 'l', '*', 'x']), .index 3 (.str ['d', 'o', 'g'])]

theorem exWild_small : SmallLexicon exPipeline exWildOps := by
  refine ⟨?_, ?_⟩
  · intro n h
    simp [exWildOps, lexCalls] at h
  · intro w
    have h : ∀ p ∈ (lexAfter exPipeline exWildOps).wids.items, p.2 < 2 ^ 28 := by decide
    unfold Lexicon.getWid
    cases hg : (lexAfter exPipeline exWildOps).wids.get? w with
    | none => decide
    | some n => exact h (w, n) ((SMap.get?_eq_some_iff _ _ _).1 hg)

/-- the example: `"dog? No* eel*"` finds document 7, whose text contains it -/
example : ∃ s m, run (cosine exPosArith) exPipeline exWildOps = .ok s ∧
    apply (cosine exPosArith) exIsSpace (fun w => w.flatMap exUp) (fun _ => .ok (fun _ => false)) exPipeline s
      (inQuotes ['d', 'o', 'g', '?', ' ', 'N', 'o', '*', ' ', 'e', 'e', 'l', '*']) = .ok (some m) ∧ 7 ∈ m.keys := by
  obtain ⟨s, hr, -⟩ := C51_documents _ (exRanked_cosine.lawful exPositive) exPipeline exWildOps exWild_small
  obtain ⟨m, h, h'⟩ := C84_wild_partial exPositive exRanked_cosine exIsW exIsSpace exLowerWord (fun w => w.flatMap exUp) exUp exUp_ok
    exWordClass exIsSpace_ok (fun _ => .ok (fun _ => false)) exWildOps exWild_small (fun h => by cases h) s hr 7
    (.str ['A', ' ', 'd', 'o', 'g', '?', ' ', 'N', 'o', '*', ' ', 'e', 'e', 'l', '*', 'x']) rfl ['A', ' ']
    ['d', 'o', 'g', '?', ' ', 'N', 'o', '*', ' ', 'e', 'e', 'l', '*'] ['x'] (by simp [textOf])
    (fun x y hx _ => Or.inl (by simp at hx; subst hx; decide)) (fun x y hx _ => Or.inl (by simp at hx; subst hx; decide)) (by decide)
    [['d', 'o', 'g', '?'], ['N', 'o', '*'], ['e', 'e', 'l', '*']] (Splitter.findall_runs _ _ _) (exWildCase _) (by decide)
    [['d', 'o', 'g'], ['N', 'o'], ['e', 'e', 'l']] (Splitter.findall_runs _ _ _)
  refine ⟨s, m, hr, h, ?_⟩
  rcases h' with ⟨-, h'⟩ | ⟨h', -⟩
  · exact h'
  · exact absurd (h' ['d', 'o', 'g'] (by simp)) (by decide)

/-- the example: `"b?g eel"` does not find document 7, whose text is `dog big eel`; `"Big* eel?"` does -/
example : ∃ s m m', run (okapi exPosArith { k1 := 1, b := 1 }) exPipeline exTextOps = .ok s ∧
    apply (okapi exPosArith { k1 := 1, b := 1 }) exIsSpace (fun w => w.flatMap exUp) (fun _ => .ok (fun _ => false)) exPipeline s
      (inQuotes ['b', '?', 'g', ' ', 'e', 'e', 'l']) = .ok (some m) ∧ 7 ∉ m.keys ∧
    apply (okapi exPosArith { k1 := 1, b := 1 }) exIsSpace (fun w => w.flatMap exUp) (fun _ => .ok (fun _ => false)) exPipeline s
      (inQuotes ['B', 'i', 'g', '*', ' ', 'e', 'e', 'l', '?']) = .ok (some m') ∧ 7 ∈ m'.keys := by
  obtain ⟨s, hr, -⟩ := C51_documents _ (exRanked_okapi.lawful exPositive) exPipeline exTextOps exText_small
  have hall : ∀ p ∈ (lexAfter exPipeline exTextOps).wids.items, p.2 < 128 := by decide +kernel
  have hsm : ∀ w, (lexAfter exPipeline exTextOps).getWid w < 128 := by
    intro w
    cases hw : (lexAfter exPipeline exTextOps).wids.get? w with
    | none => rw [getWid_zero hw]; decide
    | some n => rw [Lexicon.getWid_eq hw]; exact hall (w, n) ((SMap.get?_eq_some_iff _ _ _).1 hw)
  have hex := fun body hb us hus htwo vs hvs hst => C84_wild_exact_partial exPositive exRanked_okapi exIsW exIsSpace exLowerWord (fun w => w.flatMap exUp) exUp
    exUp_ok exWordClass exIsSpace_ok (fun _ => .ok (fun _ => false)) exTextOps exText_small hsm (fun _ => exText_exact) s hr body hb us hus
    (exWildCase us) htwo vs hvs hst
  have hdoc : docWords exPipeline exTextOps 7 = some [['d', 'o', 'g'], ['b', 'i', 'g'], ['e', 'e', 'l']] := by decide
  obtain ⟨m, h, h1⟩ := hex ['b', '?', 'g', ' ', 'e', 'e', 'l'] (by decide) [['b', '?', 'g'], ['e', 'e', 'l']]
    (Splitter.findall_runs _ _ _) (by decide) [['b'], ['g'], ['e', 'e', 'l']] (Splitter.findall_runs _ _ _)
    ⟨['e', 'e', 'l'], by simp, by decide⟩
  obtain ⟨m', h', h2⟩ := hex ['B', 'i', 'g', '*', ' ', 'e', 'e', 'l', '?'] (by decide) [['B', 'i', 'g', '*'], ['e', 'e', 'l', '?']]
    (Splitter.findall_runs _ _ _) (by decide) [['B', 'i', 'g'], ['e', 'e', 'l']] (Splitter.findall_runs _ _ _)
    ⟨['e', 'e', 'l'], by simp, by decide⟩
  refine ⟨s, m, m', hr, h, fun h7 => ?_, h', (h2 7).2 ⟨_, hdoc, [['d', 'o', 'g']], [], by decide⟩⟩
  obtain ⟨doc, hd, hi⟩ := (h1 7).1 h7
  have e : some [['d', 'o', 'g'], ['b', 'i', 'g'], ['e', 'e', 'l']] = some doc := hdoc.symm.trans hd
  cases e
  exact absurd (hi.subset (show ['g'] ∈ _ by decide)) (by decide)

/-- C84 fails: the document with the text `the* a*` is not found by the query `"the* a*"`, though `"the a"` raises `ParseError` -/
theorem C84_stop_fails : ∃ s, run (okapi exPosArith { k1 := 1, b := 1 }) exPipeline
      [.index 7 (.str ['t', 'h', 'e', '*', ' ', 'a', '*'])] = .ok s ∧
    (apply (okapi exPosArith { k1 := 1, b := 1 }) exIsSpace exUpper (fun _ => .ok (fun _ => false)) exPipeline s
      (inQuotes ['t', 'h', 'e', '*', ' ', 'a', '*'])).toOption.map (fun r => r.map SMap.keys) = some (some []) ∧
    (apply (okapi exPosArith { k1 := 1, b := 1 }) exIsSpace exUpper (fun _ => .ok (fun _ => false)) exPipeline s
      (inQuotes ['t', 'h', 'e', ' ', 'a'])).toOption.isNone = true := by
  exact ⟨_, rfl, by decide +kernel, by decide +kernel⟩

end Verif
