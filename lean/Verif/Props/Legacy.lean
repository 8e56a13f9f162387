import Verif.Proofs.Legacy
import Verif.Spec.Legacy
import Verif.Props.TextIndex
import Verif.Props.Query

/-! # C71: indexes and lexicons stored by older releases -/

set_option autoImplicit false

namespace Verif

open Spec Text

variable {D R : Type} [LinearOrder D]

theorem earlier_sim {l : LTI D R} {s : TI D R} (h : StoredEarlier l s) : Sim l.ix s.ix := by
  refine ⟨h.wordinfo, h.docweight, h.docwords, ?_, ?_, ?_⟩
  · intro m hm
    rcases h.wordCount with e | e
    · rw [e] at hm; cases hm
    · rw [e] at hm; cases hm; rfl
  · intro m hm
    rcases h.documentCount with e | e
    · rw [e] at hm; cases hm
    · rw [e] at hm; cases hm; rfl
  · rcases h.total with e | e <;> rw [e] <;> rfl

/-- the outcome of calling a counter that agrees with a number -/
theorem agree_call {c : Counter} {n : Int} (h : Agree c n) : (c = .method ∧ c.call = .error .NotImplementedError) ∨ c.call = .ok n := by
  cases c with
  | method => exact Or.inl ⟨rfl, rfl⟩
  | length m => right; rw [h m rfl]; rfl

/-- an index as an older release stored it, for the examples: no counters -/
def exOlder (s : TI Nat Int) : LTI Nat Int :=
  { lex := s.lex
    ix := { wordinfo := s.ix.wordinfo, docweight := s.ix.docweight, docwords := s.ix.docwords, wordCount := .method,
            documentCount := .method, total := .plain s.ix.total } }

theorem exOlder_earlier (s : TI Nat Int) : StoredEarlier (exOlder s) s :=
  ⟨rfl, rfl, rfl, rfl, Or.inl rfl, Or.inl rfl, Or.inl rfl⟩

/-- C71: all further calls on an index stored by an older release succeed; it then holds the current documents, and its counters
say how many documents and words there are, unless they are still missing (then calling them raises `NotImplementedError`) -/
theorem C71_counters_partial (K : Kind D R) (hK : Lawful K) (pipeline : List Element) (ops more : List (Text.Op D))
    (hs : SmallLexicon pipeline (ops ++ more)) (s : TI D R) (hr : run K pipeline ops = .ok s) (l : LTI D R) (hl : StoredEarlier l s) :
    ∃ l', l.run K pipeline more = .ok l' ∧ l'.lex = lexAfter pipeline (ops ++ more) ∧
      (∀ d, hasDoc l'.ix.content d = true ↔ ∃ t, currentText (ops ++ more) d = some t) ∧
      (∀ d t, currentText (ops ++ more) d = some t →
        getWords l'.ix.content d = .ok ((wordsOf pipeline t).map (lexAfter pipeline (ops ++ more)).getWid)) ∧
      (l'.documentCount = .error .NotImplementedError ∨
        ∃ n : Nat, l'.documentCount = .ok n ∧ CountIs (fun d => ∃ t, currentText (ops ++ more) d = some t) n) ∧
      (l'.wordCount = .error .NotImplementedError ∨
        ∃ n : Nat, l'.wordCount = .ok n ∧ CountIs (fun w => ∃ d, Holds pipeline (ops ++ more) d w) n) := by
  obtain ⟨l', s', e1, e2, hlex, hsim⟩ := sim_run hK pipeline ops more hs hr hl.lexicon (earlier_sim hl)
  obtain ⟨⟨n, hn, hc⟩, ⟨m, hm, hc'⟩⟩ := C52_statistics K hK pipeline (ops ++ more) hs s' e2
  obtain ⟨s'', e3, hl', hdoc, hwords, -⟩ := C51_documents K hK pipeline (ops ++ more) hs
  obtain rfl : s'' = s' := Except.ok.inj (e3.symm.trans e2)
  refine ⟨l', e1, hlex.trans hl', ?_, ?_, ?_, ?_⟩
  · intro d
    rw [← hdoc d]
    unfold hasDoc LIx.content
    rw [hsim.docwords]
  · intro d t ht
    rw [← hl', ← hwords d t ht]
    unfold getWords LIx.content
    rw [hsim.docwords]
  · rcases agree_call hsim.documentCount with h | h
    · exact Or.inl h.2
    · refine Or.inr ⟨n, ?_, hc⟩
      unfold LTI.documentCount
      rw [h, ← hn]; rfl
  · rcases agree_call hsim.wordCount with h | h
    · exact Or.inl h.2
    · refine Or.inr ⟨m, ?_, hc'⟩
      unfold LTI.wordCount
      rw [h, ← hm]; rfl

/-- C71: both counters are there once a document that was not indexed is indexed, or the index is cleared; the number of documents
is there once a document that was indexed is unindexed -/
theorem C71_upgrade (K : Kind D R) (hK : Lawful K) (pipeline : List Element) (ops m1 m2 : List (Text.Op D)) (op : Text.Op D)
    (hs : SmallLexicon pipeline (ops ++ (m1 ++ op :: m2))) (s : TI D R) (hr : run K pipeline ops = .ok s) (l : LTI D R)
    (hl : StoredEarlier l s) (l' : LTI D R) (hl' : l.run K pipeline (m1 ++ op :: m2) = .ok l') :
    ((op = .clear ∨ ∃ d t, op = .index d t ∧ currentText (ops ++ m1) d = none) →
      (∃ n, l'.documentCount = .ok n) ∧ ∃ n, l'.wordCount = .ok n) ∧
    (∀ d t, op = .unindex d → currentText (ops ++ m1) d = some t → ∃ n, l'.documentCount = .ok n) := by
  have hs1 : SmallLexicon pipeline (ops ++ m1) := by
    rw [← List.append_assoc] at hs; exact small_append hs
  obtain ⟨l1, s1, e1, e2, hlex, hsim⟩ := sim_run hK pipeline ops m1 hs1 hr hl.lexicon (earlier_sim hl)
  obtain ⟨s1', e3, -, hi⟩ := run_ok hK pipeline (ops ++ m1) hs1
  obtain rfl : s1' = s1 := Except.ok.inj (e3.symm.trans e2)
  have hc : ∀ d, l1.ix.docwords.contains d = (currentText (ops ++ m1) d).isSome := by
    intro d
    rw [hsim.docwords, hi.contains]
    unfold docWids docWords
    rw [Option.isSome_map, Option.isSome_map]
  unfold LTI.run at hl' e1
  rw [List.foldlM_append, e1, bind_ok, List.foldlM_cons] at hl'
  obtain ⟨l2, h2, h3⟩ := bind_inv hl'
  have hk := keeps_run K pipeline m2 h3
  have hcall : ∀ c : Counter, c ≠ .method → ∃ n, c.call = .ok n := by
    intro c hc
    cases c with
    | method => exact absurd rfl hc
    | length n => exact ⟨n, rfl⟩
  refine ⟨?_, ?_⟩
  · intro hop
    have : l2.ix.wordCount ≠ .method ∧ l2.ix.documentCount ≠ .method := by
      rcases hop with rfl | ⟨d, t, rfl, ht⟩
      · cases h2; simp [LIx.clear]
      · obtain ⟨ix, h4, h5⟩ := bind_inv (show (LIx.indexDoc K d (l1.lex.sourceToWordIds pipeline t).2 l1.ix >>= fun ix => _) = _ from h2)
        cases h5
        exact (keeps_index K d _ h4).2 (by rw [hc, ht]; rfl)
    exact ⟨hcall _ (hk.documentCount this.2), hcall _ (hk.wordCount this.1)⟩
  · rintro d t rfl ht
    obtain ⟨ix, h4, h5⟩ := bind_inv (show (LIx.unindexDoc K d l1.ix >>= fun ix => _) = _ from h2)
    cases h5
    exact hcall _ (hk.documentCount ((keeps_unindex K d h4).2 (by rw [hc, ht]; rfl)))

/-- searches of an Okapi index whose document counter exists -/
theorem okapiLegacy_wids (A : Arith R) (P : Bm25 R) {l : LIx D R} {s : Ix D R} (h : Sim l s) (n : Int) (hn : l.documentCount = .length n)
    (wids : List Int) : (okapiLegacy A P l.documentCount).searchWids l.content wids = (okapi A P).searchWids s wids := by
  have e : n = s.documentCount := h.documentCount n hn
  show (if wids.isEmpty then _ else _) = okapiSearchWids A P s wids
  rw [hn]
  by_cases hw : wids.isEmpty = true
  · rw [if_pos hw]; unfold okapiSearchWids; rw [if_pos hw]
  · rw [if_neg hw]
    show okapiSearchWids A P { l.content with documentCount := n } wids = _
    unfold okapiSearchWids
    rw [if_neg hw, if_neg hw]
    have hd : ∀ N m, okapiWord A P { l.content with documentCount := n } N m = okapiWord A P s N m := by
      intro N m
      funext t
      unfold okapiWord
      show (match l.wordinfo.get? t with | none => _ | some d2f => _) = _
      rw [h.wordinfo]
      cases s.wordinfo.get? t with
      | none => rfl
      | some d2f =>
        show (idf A d2f.map.len N >>= fun i => List.foldlM (okapiScoreStep A P l.docweight i m) SMap.empty d2f.map.items >>= _) = _
        rw [h.docweight]
    show (pyDiv A (A.ofInt l.total.value) (A.ofInt n) >>= fun m => _) = _
    rw [h.total, e]
    refine congrArg _ ?_
    funext m
    rw [← e]
    show wids.mapM (okapiWord A P { l.content with documentCount := n } _ m) = _
    rw [hd]

/-- queries see an index through these -/
theorem apply_congr {K K' : Kind D R} {l s : TI D R} (hA : K.arith = K'.arith) (hl : l.lex = s.lex)
    (hi : l.ix.wordinfo = s.ix.wordinfo) (hd : l.ix.docwords = s.ix.docwords)
    (hw : ∀ wids, K.searchWids l.ix wids = K'.searchWids s.ix wids) (hq : ∀ wids, K.queryWeight l.ix wids = K'.queryWeight s.ix wids)
    (isSpace : Char → Bool) (upper : Word → Word) (odd : Word → Except PyErr (Word → Bool)) (pipeline : List Element) (q : Word) :
    apply K isSpace upper odd pipeline l q = apply K' isSpace upper odd pipeline s q := by
  have ho : ∀ wids, removeOov l.ix wids = removeOov s.ix wids := by
    intro wids; unfold removeOov; rw [hi]
  have hu : ∀ wids, searchUnion K l.ix wids = searchUnion K' s.ix wids := by
    intro wids; unfold searchUnion; rw [ho, hw, hA]
  have h1 : ∀ t, search K pipeline l.lex l.ix t = search K' pipeline s.lex s.ix t := by
    intro t; unfold search; simp only [hu, hl]
  have h2 : ∀ t, searchGlob K odd l.lex l.ix t = searchGlob K' odd s.lex s.ix t := by
    intro t; unfold searchGlob; simp only [hu, hl]
  have hp : ∀ code, phraseLoop K l.ix code = phraseLoop K' s.ix code := by
    intro code
    funext r p
    unfold phraseLoop
    rw [hd, hA]
  have h3 : ∀ t, searchPhrase K pipeline l.lex l.ix t = searchPhrase K' pipeline s.lex s.ix t := by
    intro t; unfold searchPhrase; simp only [hw, hl, ho, hp, hA]
  have h4 : searcher K odd pipeline l = searcher K' odd pipeline s := by
    unfold searcher
    simp only [h1, h2, h3]
  have h5 : ∀ ts, queryWeight K pipeline l ts = queryWeight K' pipeline s ts := by
    intro ts; unfold queryWeight; simp only [hl, hq]
  unfold apply
  cases QueryParser.parseQuery isSpace upper (Lexicon.parseTerms pipeline) q with
  | error e => rfl
  | ok r =>
    show applyTree K odd pipeline l r.1 = applyTree K' odd pipeline s r.1
    unfold applyTree
    rw [h4]
    simp only [h5, hA]

/-- C71: queries on a cosine index stored by an older release, before and after any further calls, give what they give on the index
the calls would have made -/
theorem C71_cosine (A : Arith R) (hK : Lawful (cosine A : Kind D R)) (pipeline : List Element) (ops more : List (Text.Op D))
    (hs : SmallLexicon pipeline (ops ++ more)) (s : TI D R) (hr : run (cosine A) pipeline ops = .ok s) (l : LTI D R)
    (hl : StoredEarlier l s) (l' : LTI D R) (hl' : l.run (cosine A) pipeline more = .ok l') (s' : TI D R)
    (hs' : run (cosine A) pipeline (ops ++ more) = .ok s') (isSpace : Char → Bool) (upper : Word → Word)
    (odd : Word → Except PyErr (Word → Bool)) (q : Word) :
    l'.applyCosine A isSpace upper odd pipeline q = apply (cosine A) isSpace upper odd pipeline s' q := by
  obtain ⟨l1, s1, e1, e2, hlex, h⟩ := sim_run hK pipeline ops more hs hr hl.lexicon (earlier_sim hl)
  obtain rfl : l1 = l' := Except.ok.inj (e1.symm.trans hl')
  obtain rfl : s1 = s' := Except.ok.inj (e2.symm.trans hs')
  have hw : ∀ N, cosineWord A l1.ix.content N = cosineWord A s1.ix N := by
    intro N; funext w
    unfold cosineWord
    show (match l1.ix.wordinfo.get? w with | none => _ | some d2w => _) = _
    rw [h.wordinfo]
    cases s1.ix.wordinfo.get? w <;> rfl
  refine apply_congr (l := { lex := l1.lex, ix := l1.ix.content }) rfl hlex h.wordinfo h.docwords ?_ ?_ isSpace upper odd pipeline q
  · intro wids
    show cosineSearchWids A l1.ix.content wids = cosineSearchWids A s1.ix wids
    unfold cosineSearchWids
    rw [hw]
    show (if wids.isEmpty then _ else wids.mapM (cosineWord A s1.ix (A.ofNat l1.ix.docweight.len))) = _
    rw [h.docweight]
  · intro wids
    show cosineQueryWeight A l1.ix.content wids = cosineQueryWeight A s1.ix wids
    unfold cosineQueryWeight removeOov
    have hst : ∀ N, cosineWeightStep A l1.ix.content N = cosineWeightStep A s1.ix N := by
      intro N; funext sum w
      unfold cosineWeightStep
      show (match l1.ix.wordinfo.get? w with | none => _ | some d2w => _) = _
      rw [h.wordinfo]
      cases s1.ix.wordinfo.get? w <;> rfl
    rw [hst]
    show (List.foldlM (cosineWeightStep A s1.ix (A.ofNat l1.ix.docweight.len)) A.zero
      (wids.filter (fun w => l1.ix.wordinfo.contains w)) >>= _) = _
    rw [h.docweight, h.wordinfo]

/-- C71: so do queries on an Okapi index, once `documentCount()` does not raise an exception -/
theorem C71_okapi_partial (A : Arith R) (P : Bm25 R) (hK : Lawful (okapi A P : Kind D R)) (pipeline : List Element)
    (ops more : List (Text.Op D)) (hs : SmallLexicon pipeline (ops ++ more)) (s : TI D R) (hr : run (okapi A P) pipeline ops = .ok s)
    (l : LTI D R) (hl : StoredEarlier l s) (l' : LTI D R) (hl' : l.run (okapi A P) pipeline more = .ok l') (s' : TI D R)
    (hs' : run (okapi A P) pipeline (ops ++ more) = .ok s') (n : Int) (hn : l'.documentCount = .ok n) (isSpace : Char → Bool)
    (upper : Word → Word) (odd : Word → Except PyErr (Word → Bool)) (q : Word) :
    l'.applyOkapi A P isSpace upper odd pipeline q = apply (okapi A P) isSpace upper odd pipeline s' q := by
  obtain ⟨l1, s1, e1, e2, hlex, h⟩ := sim_run hK pipeline ops more hs hr hl.lexicon (earlier_sim hl)
  obtain rfl : l1 = l' := Except.ok.inj (e1.symm.trans hl')
  obtain rfl : s1 = s' := Except.ok.inj (e2.symm.trans hs')
  have hn' : l1.ix.documentCount = .length n := by
    unfold LTI.documentCount at hn
    cases hc : l1.ix.documentCount with
    | method => rw [hc] at hn; cases hn
    | length m => rw [hc] at hn; cases hn; rfl
  refine apply_congr (K := okapiLegacy A P l1.ix.documentCount) (K' := okapi A P) (l := { lex := l1.lex, ix := l1.ix.content }) rfl hlex h.wordinfo h.docwords ?_ ?_ isSpace upper odd pipeline q
  · exact okapiLegacy_wids A P h n hn'
  · intro wids
    show okapiQueryWeight A P l1.ix.content wids = okapiQueryWeight A P s1.ix wids
    unfold okapiQueryWeight removeOov
    have hst : ∀ N m, okapiWeightStep A l1.ix.content N m = okapiWeightStep A s1.ix N m := by
      intro N m; funext sum w
      unfold okapiWeightStep
      show (match l1.ix.wordinfo.get? w with | none => _ | some d2w => _) = _
      rw [h.wordinfo]
      cases s1.ix.wordinfo.get? w <;> rfl
    rw [hst]
    show List.foldlM (okapiWeightStep A s1.ix (A.ofNat l1.ix.docweight.len) _) A.zero
      (wids.filter (fun w => l1.ix.wordinfo.contains w)) = _
    rw [h.docweight, h.wordinfo]

/-- the documents a query on an Okapi index finds, for the examples -/
def exLegacyAsk (s : LTI Nat Int) (q : Word) : Except PyErr (Option (List Nat)) :=
  (s.applyOkapi exArith { k1 := 1, b := 1 } exIsSpace exUpper (fun _ => .ok (fun _ => false)) exPipeline q).map (Option.map SMap.keys)

/-- the same query on an ordinary Okapi index -/
def exNowAsk (s : TI Nat Int) (q : Word) : Except PyErr (Option (List Nat)) :=
  (apply exOkapi exIsSpace exUpper (fun _ => .ok (fun _ => false)) exPipeline s q).map (Option.map SMap.keys)

/-- C71 fails for Okapi indexes that have not been upgraded yet: with two documents about dogs, `documentCount()`, `wordCount()` and the
query `dog` raise `NotImplementedError`, also after reindexing one of the documents with the same text -/
theorem C71_fails : (do
    let s ← run exOkapi exPipeline exTextOps
    let l ← (exOlder s).run exOkapi exPipeline [.index 3 (.list [['t', 'h', 'e', ' ', 'd', 'o', 'g'], ['d', 'o', 'g']])]
    return ([exNowAsk s ['d', 'o', 'g'], exLegacyAsk (exOlder s) ['d', 'o', 'g'], exLegacyAsk l ['d', 'o', 'g']],
      [l.documentCount, l.wordCount])) =
    .ok ([.ok (some [3, 7]), .error .NotImplementedError, .error .NotImplementedError],
      [.error .NotImplementedError, .error .NotImplementedError]) := by decide +kernel

-- after indexing another document it answers again, and the counters are right; after unindexing one it answers too
example : (do
    let s ← run exOkapi exPipeline exTextOps
    let l ← (exOlder s).run exOkapi exPipeline [.index 4 (.str ['a', 'n', 't'])]
    let l' ← (exOlder s).run exOkapi exPipeline [.unindex 3]
    return ([exLegacyAsk l ['d', 'o', 'g'], exLegacyAsk l' ['d', 'o', 'g']],
      [l.documentCount, l.wordCount, l'.documentCount, l'.wordCount])) =
    .ok ([.ok (some [3, 7]), .ok (some [7])], [.ok 3, .ok 4, .ok 1, .error .NotImplementedError]) := by decide +kernel

/-! ## lexicons -/

/-- C71: a lexicon stored by an older release, after calls of `sourceToWordIds`, is one whose counter was replaced by the number of
words; so all that holds of lexicons whatever counters they read holds of it.  The calls return the same word ids. -/
theorem C71_lexicon (pipeline : List Element) (ops : List Lexicon.Op) (t : TextArg) (ts : List TextArg) :
    let s := Lexicon.run pipeline ops
    let l : LLexicon := { wids := s.wids, words := s.words, count := none }
    (l.sources pipeline (t :: ts)).1 =
      LLexicon.of (Lexicon.run pipeline (ops ++ .reload s.wids.len :: (t :: ts).map .source)) ∧
    (l.sources pipeline (t :: ts)).2 = ((t :: ts).map (wordsOf pipeline)).map (fun ws =>
      ws.map (Lexicon.run pipeline (ops ++ .reload s.wids.len :: (t :: ts).map .source)).getWid) := by
  intro s l
  have key : ∀ (ts : List TextArg) (s : Lexicon),
      (LLexicon.sources pipeline (LLexicon.of s) ts).1 = LLexicon.of (Lexicon.runFrom pipeline s (ts.map .source)) ∧
      (LLexicon.sources pipeline (LLexicon.of s) ts).2 = (ts.map (wordsOf pipeline)).map (fun ws =>
        ws.map (Lexicon.runFrom pipeline s (ts.map .source)).getWid) := by
    intro ts
    induction ts with
    | nil => intro s; exact ⟨rfl, rfl⟩
    | cons t ts ih =>
      intro s
      obtain ⟨h1, h2⟩ := ih (s.sourceToWordIds pipeline t).1
      refine ⟨h1, ?_⟩
      show (s.sourceToWordIds pipeline t).2 :: (LLexicon.sources pipeline (LLexicon.of (s.sourceToWordIds pipeline t).1) ts).2 = _
      rw [h2, List.map_cons, List.map_cons, List.map_cons]
      congr 1
      rw [source_wids]
      refine List.map_congr_left (fun w hw => ?_)
      have hg : ∃ n, (s.sourceToWordIds pipeline t).1.wids.get? w = some n := by
        have h := Lexicon.createAll_get s (Lexicon.runPipeline pipeline (Lexicon.sourceText t))
        have hm : w ∈ Lexicon.runPipeline pipeline (Lexicon.sourceText t) := by
          rw [Lexicon.runPipeline_eq, Lexicon.sourceText_eq]; exact hw
        have hm' := List.mem_map_of_mem (f := fun w => (s.createAll (Lexicon.runPipeline pipeline (Lexicon.sourceText t))).1.wids.get? w) hm
        rw [h] at hm'
        obtain ⟨n, -, e⟩ := List.mem_map.1 hm'
        exact ⟨n, e.symm⟩
      obtain ⟨n, hn⟩ := hg
      rw [Lexicon.getWid_eq hn]
      exact (Lexicon.getWid_eq (Lexicon.runFrom_le pipeline _ (ts.map .source) w n hn)).symm
  have h := key (t :: ts) l.upgrade
  have e : Lexicon.run pipeline (ops ++ .reload s.wids.len :: (t :: ts).map .source) =
      Lexicon.runFrom pipeline l.upgrade ((t :: ts).map .source) := by
    unfold Lexicon.run Lexicon.runFrom
    rw [List.foldl_append]; rfl
  rw [e]
  exact h

/-- C71: if the counter was never read back from elsewhere, nothing can be seen of the missing counter: `wordCount()` is the number of
distinct words seen, and the word ids are those the lexicon would have given -/
theorem C71_lexicon_same (pipeline : List Element) (ops : List Lexicon.Op) (hn : NoReloads ops) :
    let s := Lexicon.run pipeline ops
    let l : LLexicon := { wids := s.wids, words := s.words, count := none }
    l.wordCount = s.wordCount ∧ ∀ t, l.sourceToWordIds pipeline t = (LLexicon.of s).sourceToWordIds pipeline t := by
  intro s l
  have hc : (s.wids.len : Int) = s.count := by
    obtain ⟨n, hn, ks, hnd, hm, hk⟩ := C41_word_count pipeline ops hn
    have hp : s.wids.keys.Perm ks := by
      refine (List.perm_ext_iff_of_nodup (SMap.keys_nodup _) hnd).2 (fun w => ?_)
      rw [hm, ← SMap.contains_iff_mem, Lexicon.run_domain]
    have hlen := hp.length_eq
    rw [SMap.len_keys, hk] at hlen
    rw [hlen]; exact hn.symm
  have hu : l.upgrade = s := by
    unfold LLexicon.upgrade
    show ({ wids := s.wids, words := s.words, count := (s.wids.len : Int) } : Lexicon) = s
    rw [hc]
  refine ⟨hc, ?_⟩
  intro t
  show (LLexicon.of (l.upgrade.sourceToWordIds pipeline t).1, (l.upgrade.sourceToWordIds pipeline t).2) = _
  rw [hu]; rfl

-- the example lexicon without its counter
example : let s := Lexicon.run exPipeline [lexOps[0], lexOps[2], lexOps[0]]
    let l : LLexicon := { wids := s.wids, words := s.words, count := none }
    l.wordCount = 4 ∧ (l.sourceToWordIds exPipeline (.str ['d', 'o', 'g', ' ', 'e', 'e', 'l'])).1.wordCount = 5 := by decide

end Verif
