import Verif.Proofs.Rename
import Verif.Props.TxnText
import Verif.Props.TextSearch
import Verif.Props.WordFound

/-! # C73: the ids in the lexicon do not matter -/

set_option autoImplicit false

namespace Verif

open Text Spec SetOps Txn

variable {D R : Type} [LinearOrder D] {A : Arith R} {Pos : R → Prop} {K : Kind D R}

theorem Text.Ranked.renames (hK : Ranked A Pos K) : Renames K := by
  cases hK with
  | okapi P _ => exact okapi_renames A P
  | cosine => exact cosine_renames A

/-- the current text of a document was given in a call -/
theorem currentText_given (ops : List (Text.Op D)) : ∀ d tx, currentText ops d = some tx → Text.Op.index d tx ∈ ops := by
  induction ops using List.reverseRecOn with
  | nil => intro d tx h; cases h
  | append_singleton ops op ih =>
    intro d tx h
    rw [currentText_snoc] at h
    cases op with
    | index d' t' =>
      simp only [textStep] at h
      split at h
      · rename_i hd
        cases h; subst hd; simp
      · exact List.mem_append_left _ (ih d tx h)
    | unindex d' =>
      simp only [textStep] at h
      split at h
      · cases h
      · exact List.mem_append_left _ (ih d tx h)
    | clear => cases h
    | lexicon o => exact List.mem_append_left _ (ih d tx h)

/-- the words of a document have ids of their own -/
theorem tells {pipeline : List Element} {ops : List (Text.Op D)} (hs : SmallLexicon pipeline ops) {d : D} {ws : List Word}
    (h : docWords pipeline ops d = some ws) : Tells (lexAfter pipeline ops).getWid ws := by
  intro w hw v e
  obtain ⟨n, hn⟩ := doc_wid h hw
  rw [Lexicon.getWid_eq hn] at e
  have hi := Lexicon.run_inv pipeline (lexCalls ops)
  cases hv : (lexAfter pipeline ops).wids.get? v with
  | none => rw [getWid_zero hv] at e; exact absurd e.symm (lex_noZero hs hn)
  | some m =>
    rw [Lexicon.getWid_eq hv] at e
    subst e
    have e1 := (hi v m).1 hv
    have e2 := (hi w m).1 hn
    rw [e1] at e2
    exact Option.some.inj e2

/-- after histories that leave the same texts the two indexes agree on all words -/
theorem via_of_runs (hA : Positive A Pos) (hK : Ranked A Pos K) (pipeline : List Element) (ops ops' : List (Text.Op D))
    (hs : SmallLexicon pipeline ops) (hs' : SmallLexicon pipeline ops')
    (hcur : ∀ d, currentText ops d = currentText ops' d)
    (he : K.hasTotal = true → NoClear ops ∧ NoClear ops' ∧ ∀ d t, Text.Op.index d t ∈ ops ++ ops' → CountsExact A pipeline t)
    (s s' : TI D R) (hr : run K pipeline ops = .ok s) (hr' : run K pipeline ops' = .ok s') : ViaTI K s s' := by
  have ha := hK.arith
  subst ha
  have hL := hK.lawful hA
  obtain ⟨t, e, hl, hi⟩ := run_ok hL pipeline ops hs
  obtain rfl : t = s := Except.ok.inj (e.symm.trans hr)
  obtain ⟨t', e', hl', hi'⟩ := run_ok hL pipeline ops' hs'
  obtain rfl : t' = s' := Except.ok.inj (e'.symm.trans hr')
  have hdoc : docWords pipeline ops' = docWords pipeline ops := by
    funext d
    unfold docWords
    rw [hcur d]
  have hi2 : Inv K t'.ix (fun d => (docWords pipeline ops d).map (fun ws => ws.map (lexAfter pipeline ops').getWid)) := by
    rw [← hdoc]; exact hi'
  have htell' : ∀ d ws, docWords pipeline ops d = some ws → Tells (lexAfter pipeline ops').getWid ws := by
    intro d ws h
    rw [← hdoc] at h
    exact tells hs' h
  have hdw : t.ix.docweight = t'.ix.docweight := by
    ext1 d
    rw [hi.docweight, hi2.docweight]
    unfold docWids
    cases hV : docWords pipeline ops d with
    | none => rfl
    | some ws =>
      simp only [Option.map_some]
      rw [(fr_rename hL hK.renames (tells hs hV) (htell' d ws hV)).1]
  have hsome : ∀ w, t.ix.wordinfo.contains ((lexAfter pipeline ops).getWid w) = true → ∃ d, Holds pipeline ops d w := by
    intro w h
    rw [SMap.contains_iff] at h
    obtain ⟨x, hx⟩ := h
    obtain ⟨hne, hv⟩ := (hi.info _).1 x hx
    obtain ⟨d, v, hd⟩ := (SMap.isEmpty_eq_false_iff _).1 hne
    refine ⟨d, (wid_mem hs d w).1 ((weights_isSome hL _ _ _).1 ?_)⟩
    rw [hv d] at hd
    cases hc : weights K (docWids pipeline ops) d ((lexAfter pipeline ops).getWid w) with
    | none => rw [hc] at hd; cases hd
    | some x => rfl
  refine ⟨?_, ?_, ?_, ?_⟩
  · rw [hl, hl']
    refine via_of_inv (V := docWords pipeline ops) hL hK.renames hi hi2 (fun d ws h => tells hs h) htell' ?_ ?_
    · intro d ws h
      unfold docWords at h
      cases hc : currentText ops d with
      | none => rw [hc] at h; cases h
      | some tx =>
        rw [hc] at h
        cases h
        exact hK.counted.exact (pipeline := pipeline) (t := tx) (by simp)
          (fun ht => (he ht).2.2 d tx (List.mem_append_left _ (currentText_given ops d tx hc)))
    · cases ht : K.hasTotal with
      | false => rw [HTI.run_total_zero hL ht pipeline ops hs _ hr, HTI.run_total_zero hL ht pipeline ops' hs' _ hr']
      | true =>
        obtain ⟨h1, h2, h3⟩ := he ht
        have hW : WeightIsLength K := fun wids => (hK.counted ht wids).2
        rw [(total_ok hL ht hW pipeline ops hs (fun d t h => (h3 d t (List.mem_append_left _ h)).2) _ hr).2 h1,
          (total_ok hL ht hW pipeline ops' hs' (fun d t h => (h3 d t (List.mem_append_right _ h)).2) _ hr').2 h2]
        unfold lens
        rw [hdw]
  · intro w n h; rw [hl] at h; exact lex_noZero hs h
  · intro w n h; rw [hl'] at h; exact lex_noZero hs' h
  · intro w h
    rw [hl] at h
    obtain ⟨d, ws, h1, h2⟩ := hsome w h
    rw [hl, hl']
    exact ⟨doc_wid h1 h2, doc_wid (by rw [hdoc]; exact h1) h2⟩

/-- `get_words` and `get_word` give back the words of the text -/
theorem wordsAt_eq (hL : Lawful K) {pipeline : List Element} {ops : List (Text.Op D)} {s : TI D R}
    (hl : s.lex = lexAfter pipeline ops) (hi : Inv K s.ix (docWids pipeline ops)) (d : D) :
    wordsAt s d = match docWords pipeline ops d with
      | none => .error .KeyError
      | some ws => .ok ws := by
  unfold wordsAt
  cases hd : docWords pipeline ops d with
  | none =>
    have : getWords s.ix d = .error .KeyError := by
      unfold getWords
      rw [hi.docwords d]
      unfold docWids
      rw [hd]; rfl
    rw [this]; rfl
  | some ws =>
    rw [hi.getWords (ws := ws.map (lexAfter pipeline ops).getWid) (by unfold docWids; rw [hd]; rfl), bind_ok]
    have : ∀ l : List Word, (∀ w ∈ l, w ∈ ws) → (l.map (lexAfter pipeline ops).getWid).mapM s.lex.getWord = .ok l := by
      intro l
      induction l with
      | nil => intro _; rfl
      | cons w l ih =>
        intro h
        obtain ⟨n, hn⟩ := doc_wid hd (h w (by simp))
        have e : s.lex.getWord ((lexAfter pipeline ops).getWid w) = .ok w := by
          rw [Lexicon.getWid_eq hn, hl]
          unfold Lexicon.getWord
          have hi : (lexAfter pipeline ops).words.get? n = some w := (Lexicon.run_inv pipeline (lexCalls ops) w n).1 hn
          rw [hi]
        rw [List.map_cons, List.mapM_cons, e, ih (fun v hv => h v (by simp [hv]))]; rfl
    exact this ws (fun _ h => h)

/-- **C73.** All answers of a text index but those about phrases, scores included, depend only on the texts currently assigned to
the docids: not on the calls that led there, and not on the ids of the words in the lexicon, which other indexes may have filled.
(For OkapiIndex, whose scores use the lengths: without `clear()`, see C55, and as long as numbers up to the lengths of the texts are
exact in single precision.) -/
theorem C73_same_words (hA : Positive A Pos) (hK : Ranked A Pos K) (pipeline : List Element) (ops ops' : List (Text.Op D))
    (hs : SmallLexicon pipeline ops) (hs' : SmallLexicon pipeline ops')
    (hcur : ∀ d, currentText ops d = currentText ops' d)
    (he : K.hasTotal = true → NoClear ops ∧ NoClear ops' ∧ ∀ d t, Text.Op.index d t ∈ ops ++ ops' → CountsExact A pipeline t)
    (s s' : TI D R) (hr : run K pipeline ops = .ok s) (hr' : run K pipeline ops' = .ok s') : SameWords K pipeline s s' := by
  have hv := via_of_runs hA hK pipeline ops ops' hs hs' hcur he s s' hr hr'
  have hL := hK.lawful hA
  obtain ⟨t, e, hl, hi⟩ := run_ok hL pipeline ops hs
  obtain rfl : t = s := Except.ok.inj (e.symm.trans hr)
  obtain ⟨t', e', hl', hi'⟩ := run_ok hL pipeline ops' hs'
  obtain rfl : t' = s' := Except.ok.inj (e'.symm.trans hr')
  have hdoc : docWords pipeline ops' = docWords pipeline ops := by
    funext d
    unfold docWords
    rw [hcur d]
  refine ⟨hv.ix.documentCount, ?_, ?_, ?_, hv.search hK.renames pipeline, hv.searchGlob hK.renames, hv.queryWeight hK.renames pipeline⟩
  · obtain ⟨-, n, h1, h2⟩ := C52_statistics K hL pipeline ops hs t hr
    obtain ⟨-, n', h1', h2'⟩ := C52_statistics K hL pipeline ops' hs' t' hr'
    have : (fun w => ∃ d, Holds pipeline ops' d w) = fun w => ∃ d, Holds pipeline ops d w := by
      unfold Holds; rw [hdoc]
    rw [this] at h2'
    rw [h1, h1', C02_count_unique _ _ _ h2 h2']
  · intro d
    unfold hasDoc
    unfold SMap.contains
    rw [hi.docwords, hi'.docwords]
    unfold docWids
    rw [hdoc]
    cases docWords pipeline ops d <;> rfl
  · intro d
    rw [wordsAt_eq hL hl hi, wordsAt_eq hL hl' hi', hdoc]

/-- the lengths are exact in one of the histories -/
theorem lengthsExact_left {pipeline : List Element} {ops ops' : List (Text.Op D)}
    (he : K.hasTotal = true → NoClear ops ∧ NoClear ops' ∧ ∀ d t, Text.Op.index d t ∈ ops ++ ops' → CountsExact A pipeline t) :
    (K.hasTotal = true → LengthsExact A pipeline ops) ∧ (K.hasTotal = true → LengthsExact A pipeline ops') :=
  ⟨fun h d t ht => ((he h).2.2 d t (List.mem_append_left _ ht)).2, fun h d t ht => ((he h).2.2 d t (List.mem_append_right _ ht)).2⟩

/-- C73, phrases: `search_phrase` gives the same documents and scores exactly if the phrase is found (see `PhraseFound`) in the same
documents -/
theorem C73_phrase_partial (hA : Positive A Pos) (hK : Ranked A Pos K) (pipeline : List Element) (ops ops' : List (Text.Op D))
    (hs : SmallLexicon pipeline ops) (hs' : SmallLexicon pipeline ops')
    (hcur : ∀ d, currentText ops d = currentText ops' d)
    (he : K.hasTotal = true → NoClear ops ∧ NoClear ops' ∧ ∀ d t, Text.Op.index d t ∈ ops ++ ops' → CountsExact A pipeline t)
    (s s' : TI D R) (hr : run K pipeline ops = .ok s) (hr' : run K pipeline ops' = .ok s') (t : TextArg) :
    searchPhrase K pipeline s.lex s.ix t = searchPhrase K pipeline s'.lex s'.ix t ↔
      (t ≠ .none → ∀ d, PhraseFound pipeline ops d (wordsOf pipeline t) ↔ PhraseFound pipeline ops' d (wordsOf pipeline t)) := by
  have hv := via_of_runs hA hK pipeline ops ops' hs hs' hcur he s s' hr hr'
  by_cases ht : t = .none
  · subst ht
    exact ⟨fun _ h => absurd rfl h, fun _ => rfl⟩
  · obtain ⟨r, e, -, h1⟩ := C58_characterisation_partial hA hK pipeline ops hs (lengthsExact_left he).1 s hr t ht
    obtain ⟨r', e', -, h1'⟩ := C58_characterisation_partial hA hK pipeline ops' hs' (lengthsExact_left he).2 s' hr' t ht
    constructor
    · intro h _ d
      rw [e, e'] at h
      cases h
      rw [← h1, ← h1']
    · intro h
      rw [e, e', hv.searchPhrase hK.renames pipeline t e e' (fun d => by rw [h1, h1', h ht])]

/-- C73, phrases: no difference as long as there are fewer than 128 words -/
theorem C73_phrase_small_partial (hA : Positive A Pos) (hK : Ranked A Pos K) (pipeline : List Element) (ops ops' : List (Text.Op D))
    (hs : SmallLexicon pipeline ops) (hs' : SmallLexicon pipeline ops')
    (hsm : ∀ w, (lexAfter pipeline ops).getWid w < 128) (hsm' : ∀ w, (lexAfter pipeline ops').getWid w < 128)
    (hcur : ∀ d, currentText ops d = currentText ops' d)
    (he : K.hasTotal = true → NoClear ops ∧ NoClear ops' ∧ ∀ d t, Text.Op.index d t ∈ ops ++ ops' → CountsExact A pipeline t)
    (s s' : TI D R) (hr : run K pipeline ops = .ok s) (hr' : run K pipeline ops' = .ok s') (t : TextArg) :
    searchPhrase K pipeline s.lex s.ix t = searchPhrase K pipeline s'.lex s'.ix t := by
  refine (C73_phrase_partial hA hK pipeline ops ops' hs hs' hcur he s s' hr hr' t).2 (fun _ d => ?_)
  rw [phraseFound_small hs hsm, phraseFound_small hs' hsm']
  unfold HasPhrase docWords
  rw [hcur]

/-- **C73, queries.** `apply` gives the same answer for every query text: if all phrases of the query are found in the same
documents, in particular if it has no phrases -/
theorem C73_apply_partial (hA : Positive A Pos) (hK : Ranked A Pos K) (pipeline : List Element) (ops ops' : List (Text.Op D))
    (hs : SmallLexicon pipeline ops) (hs' : SmallLexicon pipeline ops')
    (hcur : ∀ d, currentText ops d = currentText ops' d)
    (he : K.hasTotal = true → NoClear ops ∧ NoClear ops' ∧ ∀ d t, Text.Op.index d t ∈ ops ++ ops' → CountsExact A pipeline t)
    (s s' : TI D R) (hr : run K pipeline ops = .ok s) (hr' : run K pipeline ops' = .ok s')
    (isSpace : Char → Bool) (upper : Word → Word) (odd : Word → Except PyErr (Word → Bool)) (q : Word)
    (hp : ∀ tree ignored, QueryParser.parseQuery isSpace upper (Lexicon.parseTerms pipeline) q = .ok (tree, ignored) →
      ∀ ws ∈ phrases tree, ∀ d, PhraseFound pipeline ops d (wordsOf pipeline (.list ws)) ↔
        PhraseFound pipeline ops' d (wordsOf pipeline (.list ws))) :
    Text.apply K isSpace upper odd pipeline s q = Text.apply K isSpace upper odd pipeline s' q := by
  have hv := via_of_runs hA hK pipeline ops ops' hs hs' hcur he s s' hr hr'
  unfold Text.apply
  cases hq : QueryParser.parseQuery isSpace upper (Lexicon.parseTerms pipeline) q with
  | error e => rfl
  | ok p =>
    obtain ⟨tree, ignored⟩ := p
    have hx : tree.execute K.arith.toWArith (searcher K odd pipeline s) = tree.execute K.arith.toWArith (searcher K odd pipeline s') := by
      refine execute_congr _ ?_ ?_ tree ?_
      · intro w
        exact hv.search hK.renames pipeline (.str w)
      · intro w
        show (searchGlob K odd s.lex s.ix w >>= _) = (searchGlob K odd s'.lex s'.ix w >>= _)
        rw [hv.searchGlob hK.renames]
      · intro ws hws
        show (searchPhrase K pipeline s.lex s.ix (.list ws) >>= _) = (searchPhrase K pipeline s'.lex s'.ix (.list ws) >>= _)
        rw [(C73_phrase_partial hA hK pipeline ops ops' hs hs' hcur he s s' hr hr' (.list ws)).2 (fun _ => hp tree ignored hq ws hws)]
    show applyTree K odd pipeline s tree = applyTree K odd pipeline s' tree
    unfold applyTree
    rw [hx, hv.queryWeight hK.renames]

/-- **C73, sharing.** An index whose lexicon is used by others as well, in between its own calls, answers like one with a lexicon of its
own -/
theorem C73_shared_lexicon (hA : Positive A Pos) (hK : Ranked A Pos K) (pipeline : List Element) (ops : List (Text.Op D))
    (hs : SmallLexicon pipeline ops) (hs' : SmallLexicon pipeline (ownCalls ops))
    (he : K.hasTotal = true → NoClear ops ∧ ∀ d t, Text.Op.index d t ∈ ops → CountsExact A pipeline t)
    (s s' : TI D R) (hr : run K pipeline ops = .ok s) (hr' : run K pipeline (ownCalls ops) = .ok s') : SameWords K pipeline s s' := by
  have hsub : ∀ op ∈ ownCalls ops, op ∈ ops := fun op h => (List.mem_filter.1 h).1
  refine C73_same_words hA hK pipeline ops (ownCalls ops) hs hs' ?_ (fun h => ⟨(he h).1, ?_, ?_⟩) s s' hr hr'
  · intro d
    have : currentText ops = currentText (ownCalls ops) := by
      clear hs hs' he hr hr' hsub
      induction ops using List.reverseRecOn with
      | nil => rfl
      | append_singleton ops op ih =>
        unfold ownCalls at ih ⊢
        rw [List.filter_append, currentText_snoc]
        cases op with
        | lexicon o => rw [List.filter_cons_of_neg (by simp), List.filter_nil, List.append_nil, ← ih]; rfl
        | index d t => rw [List.filter_cons_of_pos (by simp), List.filter_nil, currentText_snoc, ← ih]
        | unindex d => rw [List.filter_cons_of_pos (by simp), List.filter_nil, currentText_snoc, ← ih]
        | clear => rw [List.filter_cons_of_pos (by simp), List.filter_nil, currentText_snoc, ← ih]
    rw [this]
  · exact fun hm => (he h).1 (hsub _ hm)
  · intro d t hm
    rcases List.mem_append.1 hm with hm | hm
    · exact (he h).2 d t hm
    · exact (he h).2 d t (hsub _ hm)

/-! ## Examples -/

/-- the document of `exPhraseOps` with a lexicon of its own -/
theorem exPhraseOwn_small : SmallLexicon exPipeline (ownCalls exPhraseOps) ∧
    ∀ w, (lexAfter exPipeline (ownCalls exPhraseOps)).getWid w < 128 := by
  have hall : ∀ p ∈ (lexAfter exPipeline (ownCalls exPhraseOps)).wids.items, p.2 < 128 := by decide +kernel
  have h : ∀ w, (lexAfter exPipeline (ownCalls exPhraseOps)).getWid w < 128 := by
    intro w
    cases hw : (lexAfter exPipeline (ownCalls exPhraseOps)).wids.get? w with
    | none => rw [getWid_zero hw]; decide
    | some n => rw [Lexicon.getWid_eq hw]; exact hall (w, n) ((SMap.get?_eq_some_iff _ _ _).1 hw)
  refine ⟨⟨?_, fun w => by have := h w; omega⟩, h⟩
  intro n h
  simp [exPhraseOps, ownCalls, lexCalls] at h

theorem exPhrase_small : SmallLexicon exPipeline exPhraseOps := by
  refine ⟨?_, ?_⟩
  · intro n h
    simp [exPhraseOps, lexCalls] at h
  · intro w
    have hall : ∀ p ∈ (lexAfter exPipeline exPhraseOps).wids.items, p.2 < 2 ^ 28 := by decide +kernel
    cases hw : (lexAfter exPipeline exPhraseOps).wids.get? w with
    | none => rw [getWid_zero hw]; decide
    | some n => rw [Lexicon.getWid_eq hw]; exact hall (w, n) ((SMap.get?_eq_some_iff _ _ _).1 hw)

/-- C73 fails for phrases: the index of `exPhraseOps`, whose lexicon already has 127 words, finds the document `bb bc zz` for the
phrase `bc bb`; the same index with a lexicon of its own does not -/
theorem C73_phrase_fails : ∃ (ops : List (Text.Op Nat)) (s s' : TI Nat Int),
    run (okapi exPosArith { k1 := 1, b := 1 }) exPipeline ops = .ok s ∧
    run (okapi exPosArith { k1 := 1, b := 1 }) exPipeline (ownCalls ops) = .ok s' ∧
    searchPhrase (okapi exPosArith { k1 := 1, b := 1 }) exPipeline s.lex s.ix (.list [['b', 'c'], ['b', 'b']]) ≠
      searchPhrase (okapi exPosArith { k1 := 1, b := 1 }) exPipeline s'.lex s'.ix (.list [['b', 'c'], ['b', 'b']]) := by
  obtain ⟨s, e, -⟩ := C51_documents _ (exRanked_okapi.lawful exPositive) exPipeline exPhraseOps exPhrase_small
  obtain ⟨s', e', -⟩ := C51_documents _ (exRanked_okapi.lawful exPositive) exPipeline (ownCalls exPhraseOps) exPhraseOwn_small.1
  refine ⟨exPhraseOps, s, s', e, e', ?_⟩
  obtain ⟨r, er, -, hk⟩ := C58_characterisation_partial exPositive exRanked_okapi exPipeline exPhraseOps exPhrase_small
    (fun _ _ _ _ => rfl) s e (.list [['b', 'c'], ['b', 'b']]) (by simp)
  obtain ⟨r', er', -, hk'⟩ := C58_characterisation_partial exPositive exRanked_okapi exPipeline (ownCalls exPhraseOps) exPhraseOwn_small.1
    (fun _ _ _ _ => rfl) s' e' (.list [['b', 'c'], ['b', 'b']]) (by simp)
  rw [er, er']
  intro h
  cases h
  have h1 : PhraseFound exPipeline exPhraseOps 7 (wordsOf exPipeline (.list [['b', 'c'], ['b', 'b']])) := by
    refine ⟨[['b', 'b'], ['b', 'c'], ['z', 'z']], [['b', 'c']], ['b', 'b'], ['z', 'z'], by decide +kernel, by decide +kernel,
      by decide +kernel, ⟨[['b', 'b']], [], by decide⟩, 1, by decide +kernel⟩
  have h2 := (hk' 7).1 ((hk 7).2 h1)
  rw [phraseFound_small exPhraseOwn_small.1 exPhraseOwn_small.2] at h2
  obtain ⟨-, doc, hdoc, hin⟩ := h2
  have h1 : docWords exPipeline (ownCalls exPhraseOps) 7 = some [['b', 'b'], ['b', 'c'], ['z', 'z']] := by decide +kernel
  have h2 : wordsOf exPipeline (.list [['b', 'c'], ['b', 'b']]) = [['b', 'c'], ['b', 'b']] := by decide +kernel
  rw [h1] at hdoc
  cases hdoc
  rw [h2] at hin
  revert hin
  decide

/-- C73_same_words and C73_shared_lexicon apply to the index of `exPhraseOps`: the word `zz` has the id 128 in one lexicon and 3 in the
other -/
example : (lexAfter exPipeline exPhraseOps).getWid ['z', 'z'] = 128 ∧ (lexAfter exPipeline (ownCalls exPhraseOps)).getWid ['z', 'z'] = 3 ∧
    ∃ s s' : TI Nat Int, run (okapi exPosArith { k1 := 1, b := 1 }) exPipeline exPhraseOps = .ok s ∧
      run (okapi exPosArith { k1 := 1, b := 1 }) exPipeline (ownCalls exPhraseOps) = .ok s' ∧
      SameWords (okapi exPosArith { k1 := 1, b := 1 }) exPipeline s s' := by
  refine ⟨by decide +kernel, by decide +kernel, ?_⟩
  obtain ⟨s, e, -⟩ := C51_documents _ (exRanked_okapi.lawful exPositive) exPipeline exPhraseOps exPhrase_small
  obtain ⟨s', e', -⟩ := C51_documents _ (exRanked_okapi.lawful exPositive) exPipeline (ownCalls exPhraseOps) exPhraseOwn_small.1
  exact ⟨s, s', e, e', C73_shared_lexicon exPositive exRanked_okapi exPipeline exPhraseOps exPhrase_small exPhraseOwn_small.1
    (fun _ => ⟨by simp [NoClear, exPhraseOps], fun _ _ _ => ⟨fun _ _ => rfl, rfl⟩⟩) s s' e e'⟩

-- C73_apply_partial applies to both indexes and the query `z* or bb`
example (s s' : TI Nat Int) (e : run (okapi exPosArith { k1 := 1, b := 1 }) exPipeline exPhraseOps = .ok s)
    (e' : run (okapi exPosArith { k1 := 1, b := 1 }) exPipeline (ownCalls exPhraseOps) = .ok s') :
    Text.apply (okapi exPosArith { k1 := 1, b := 1 }) exIsSpace exUpper (fun _ => .ok (fun _ => false)) exPipeline s
        ['z', '*', ' ', 'o', 'r', ' ', 'b', 'b'] =
      Text.apply (okapi exPosArith { k1 := 1, b := 1 }) exIsSpace exUpper (fun _ => .ok (fun _ => false)) exPipeline s'
        ['z', '*', ' ', 'o', 'r', ' ', 'b', 'b'] := by
  refine C73_apply_partial exPositive exRanked_okapi exPipeline exPhraseOps (ownCalls exPhraseOps) exPhrase_small exPhraseOwn_small.1
    (fun _ => rfl) (fun _ => ⟨by simp [NoClear, exPhraseOps], by simp [NoClear, exPhraseOps, ownCalls], fun _ _ _ => ⟨fun _ _ => rfl, rfl⟩⟩)
    s s' e e' _ _ _ _ ?_
  intro tree ign h
  have h2 : QueryParser.parseQuery exIsSpace exUpper (Lexicon.parseTerms exPipeline) ['z', '*', ' ', 'o', 'r', ' ', 'b', 'b'] =
    .ok (.or [.glob ['z', '*'], .atom ['b', 'b']], []) := rfl
  rw [h2] at h
  cases h
  intro ws hw
  simp [phrases, phrasesAll] at hw

end Verif
