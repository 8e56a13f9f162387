import Verif.Proofs.TextRun
import Verif.Props.Lexicon

/-! # C51-C55: content and statistics of the text indexes -/

set_option autoImplicit false

namespace Verif

open Spec Text

variable {D R : Type} [LinearOrder D]

/-- the weight kept for a word and a document -/
def storedWeight (s : Ix D R) (wid : Int) (d : D) : Option R := (s.wordinfo.get? wid).bind (fun e => e.map.get? d)

/-- an integer arithmetic for the examples; single precision is imitated by cutting off at 16 -/
def exArith : Arith Int where
  zero := 0
  one := 1
  add := (· + ·)
  mul := (· * ·)
  isOne := fun x => x == 1
  ofNat := fun n => n
  ofInt := fun n => n
  sub := (· - ·)
  div := fun x y => if y = 0 then none else some (x / y)
  log := fun x => if 0 < x then some (x - 1) else none
  sqrt := fun x => if 0 ≤ x then some x else none
  neq := fun x y => x != y
  isZero := fun x => x == 0
  store := fun x => min x 16
  toInt := fun x => x

/-- an Okapi index for the examples -/
def exOkapi : Kind Nat Int := okapi exArith { k1 := 1, b := 1 }

/-- a history for the examples: two documents, one of them reindexed, one removed -/
def exTextOps : List (Text.Op Nat) :=
  [.index 7 (.str ['B', 'i', 'g', ' ', 'c', 'a', 't', ',', ' ', 'b', 'i', 'g', ' ', 'd', 'o', 'g']),
   .lexicon (.source (.str ['f', 'i', 's', 'h'])),
   .index 3 (.list [['t', 'h', 'e', ' ', 'd', 'o', 'g'], ['d', 'o', 'g']]), .index 5 (.str ['c', 'a', 't']), .lexicon (.reload 1),
   .index 7 (.str ['d', 'o', 'g', ' ', 'b', 'i', 'g', ' ', 'e', 'e', 'l']), .unindex 5, .unindex 9]

/-- the law an arithmetic must satisfy for Okapi: counts that compare equal are equal -/
def CountsCompare (A : Arith R) : Prop := ∀ m n, A.neq (A.ofNat m) (A.ofNat n) = false → A.ofNat m = A.ofNat n

theorem okapi_lawful (A : Arith R) (P : Bm25 R) (h : CountsCompare A) : Lawful (okapi A P : Kind D R) := by
  refine ⟨?_, ?_⟩
  · intro wids
    refine ⟨_, rfl, ?_, ?_⟩
    · rw [List.map_map]
      exact countLoop_nodup wids
    · intro w
      rw [List.map_map]
      exact countLoop_keys wids w
  · intro wids wids' r r' w a b hr hr' ha hb hne
    cases hr; cases hr'
    obtain ⟨p, -, ep⟩ := List.mem_map.1 ha
    obtain ⟨q, -, eq⟩ := List.mem_map.1 hb
    obtain ⟨-, rfl⟩ := Prod.mk.inj ep
    obtain ⟨-, rfl⟩ := Prod.mk.inj eq
    exact h _ _ hne

theorem okapi_weight (A : Arith R) (P : Bm25 R) : WeightIsLength (okapi A P : Kind D R) := fun _ => rfl

theorem exOkapi_lawful : Lawful exOkapi := okapi_lawful _ _ (by
  intro m n h
  have : ((m : Int) != n) = false := h
  show (m : Int) = n
  simpa using this)

theorem lex_noZero {pipeline : List Element} {ops : List (Text.Op D)} (hs : SmallLexicon pipeline ops) {w : Word} {n : Int}
    (h : (lexAfter pipeline ops).wids.get? w = some n) : n ≠ 0 := by
  rintro rfl
  have hz := (Lexicon.run_noZero pipeline (lexCalls ops) hs.1).2
  rw [(Lexicon.run_inv pipeline (lexCalls ops) w 0).1 h] at hz
  cases hz

/-- the id of a word is among the ids of a document exactly if the word is in the document -/
theorem wid_mem {pipeline : List Element} {ops : List (Text.Op D)} (hs : SmallLexicon pipeline ops) (d : D) (w : Word) :
    (∃ ids, docWids pipeline ops d = some ids ∧ (lexAfter pipeline ops).getWid w ∈ ids) ↔ Holds pipeline ops d w := by
  unfold docWids Holds
  constructor
  · rintro ⟨ids, h, hw⟩
    rw [Option.map_eq_some_iff] at h
    obtain ⟨ws, hws, rfl⟩ := h
    refine ⟨ws, hws, ?_⟩
    obtain ⟨v, hv, e⟩ := List.mem_map.1 hw
    obtain ⟨n, hn⟩ := doc_wid hws hv
    rw [Lexicon.getWid_eq hn] at e
    cases hw' : (lexAfter pipeline ops).wids.get? w with
    | none => rw [getWid_zero hw'] at e; exact absurd e (lex_noZero hs hn)
    | some m =>
      rw [Lexicon.getWid_eq hw'] at e
      subst e
      have hi := Lexicon.run_inv pipeline (lexCalls ops)
      have e1 := (hi v n).1 hn
      have e2 := (hi w n).1 hw'
      rw [e1] at e2
      cases e2
      exact hv
  · rintro ⟨ws, h, hw⟩
    exact ⟨_, by rw [h]; rfl, List.mem_map.2 ⟨w, hw, rfl⟩⟩

theorem stored_iff {K : Kind D R} {s : Ix D R} {W : D → Option (List Int)} (hi : Text.Inv K s W) (wid : Int) (d : D) :
    (storedWeight s wid d = none ↔ weights K W d wid = none) ∧
    (∀ v, storedWeight s wid d = some v → ∃ f, weights K W d wid = some f ∧ (v = f ∨ v = K.arith.store f)) := by
  unfold storedWeight
  cases he : s.wordinfo.get? wid with
  | none =>
    have := (hi.info wid).2 he d
    simp [this]
  | some e =>
    obtain ⟨-, hv⟩ := (hi.info wid).1 e he
    rw [Option.bind_some, hv d]
    cases hp : weights K W d wid with
    | none => simp
    | some f =>
      refine ⟨by simp, ?_⟩
      intro v hv
      refine ⟨f, rfl, ?_⟩
      simp only [Option.map_some, Option.some.injEq] at hv
      rw [← hv]
      unfold keep
      cases e.tree
      · exact Or.inl rfl
      · exact Or.inr rfl

/-! ## C51 -/

/-- C51: every history of calls succeeds, for every class of index; then the documents indexed, and their word sequences, are those
of the last texts given -/
theorem C51_documents (K : Kind D R) (hK : Lawful K) (pipeline : List Element) (ops : List (Text.Op D))
    (hs : SmallLexicon pipeline ops) :
    ∃ s, run K pipeline ops = .ok s ∧ s.lex = lexAfter pipeline ops ∧
      (∀ d, hasDoc s.ix d = true ↔ ∃ t, currentText ops d = some t) ∧
      (∀ d t, currentText ops d = some t → getWords s.ix d = .ok ((wordsOf pipeline t).map s.lex.getWid)) ∧
      (∀ d, currentText ops d = none → getWords s.ix d = .error .KeyError) := by
  obtain ⟨s, e, hl, hi⟩ := run_ok hK pipeline ops hs
  refine ⟨s, e, hl, ?_, ?_, ?_⟩
  · intro d
    unfold hasDoc
    rw [hi.contains]
    unfold docWids docWords
    rw [Option.isSome_map, Option.isSome_map, Option.isSome_iff_exists]
  · intro d t ht
    refine hi.getWords ?_
    unfold docWids docWords
    rw [ht, hl]; rfl
  · intro d ht
    unfold getWords
    rw [hi.docwords]
    unfold docWids docWords
    rw [ht]; rfl

/-- C51: the weights kept are exactly those `_get_frequencies` computes from the current texts, in double or in single precision -/
theorem C51_weights (K : Kind D R) (hK : Lawful K) (pipeline : List Element) (ops : List (Text.Op D))
    (hs : SmallLexicon pipeline ops) (s : TI D R) (hr : run K pipeline ops = .ok s) :
    (∀ d t r, currentText ops d = some t → K.freqs ((wordsOf pipeline t).map s.lex.getWid) = .ok r →
      s.ix.docweight.get? d = some (K.arith.store r.2) ∧
      (∀ wid f, (wid, f) ∈ r.1 → ∃ v, storedWeight s.ix wid d = some v ∧ (v = f ∨ v = K.arith.store f)) ∧
      (∀ wid, wid ∉ r.1.map (·.1) → storedWeight s.ix wid d = none)) ∧
    (∀ d, currentText ops d = none → s.ix.docweight.get? d = none ∧ ∀ wid, storedWeight s.ix wid d = none) := by
  obtain ⟨s', e, hl, hi⟩ := run_ok hK pipeline ops hs
  obtain rfl : s' = s := Except.ok.inj (e.symm.trans hr)
  refine ⟨?_, ?_⟩
  · intro d t r ht hf
    have hW : docWids pipeline ops d = some ((wordsOf pipeline t).map s'.lex.getWid) := by
      unfold docWids docWords; rw [ht, hl]; rfl
    rw [hK.ok] at hf
    have hf := Except.ok.inj hf
    refine ⟨?_, ?_, ?_⟩
    · rw [hi.docweight, hW, Option.map_some, hf]
    · intro wid f hm
      have hnd := hK.nodup ((wordsOf pipeline t).map s'.lex.getWid)
      rw [hf] at hnd
      have hget : dget? wid r.1 = some f := dget?_of_mem hnd hm
      have hw : weights K (docWids pipeline ops) d wid = some f := by
        unfold weights; rw [hW, Option.bind_some, hf, hget]
      obtain ⟨h1, h2⟩ := stored_iff hi wid d
      cases hst : storedWeight s'.ix wid d with
      | none => rw [h1.1 hst] at hw; cases hw
      | some v =>
        obtain ⟨f', hf', hv⟩ := h2 v hst
        rw [hw] at hf'; cases hf'
        exact ⟨v, rfl, hv⟩
    · intro wid hm
      rw [(stored_iff hi wid d).1]
      unfold weights
      rw [hW, Option.bind_some, hf]
      exact (dget?_none _ _).2 hm
  · intro d ht
    have hW : docWids pipeline ops d = none := by
      unfold docWids docWords; rw [ht]; rfl
    refine ⟨by rw [hi.docweight, hW]; rfl, ?_⟩
    intro wid
    rw [(stored_iff hi wid d).1]
    unfold weights; rw [hW]; rfl

theorem count_map_wid {pipeline : List Element} {ops : List (Text.Op D)} {d : D} {ws : List Word}
    (h : docWords pipeline ops d = some ws) {w : Word} (hw : w ∈ ws) :
    (ws.map (lexAfter pipeline ops).getWid).count ((lexAfter pipeline ops).getWid w) = ws.count w := by
  have hi := Lexicon.run_inv pipeline (lexCalls ops)
  obtain ⟨n, hn⟩ := doc_wid h hw
  have key : ∀ l : List Word, (∀ v ∈ l, v ∈ ws) → (l.map (lexAfter pipeline ops).getWid).count n = l.count w := by
    intro l
    induction l with
    | nil => intro _; rfl
    | cons v l ih =>
      intro hl
      rw [List.map_cons, List.count_cons, List.count_cons, ih (fun x hx => hl x (by simp [hx]))]
      obtain ⟨m, hm⟩ := doc_wid h (hl v (by simp))
      rw [Lexicon.getWid_eq hm]
      by_cases hv : v = w
      · subst hv
        have hm' : some m = some n := hm.symm.trans hn
        cases hm'
        simp
      · have : m ≠ n := by
          rintro rfl
          have e1 := (hi v m).1 hm
          have e2 := (hi w m).1 hn
          rw [e1] at e2
          exact hv (Option.some.inj e2)
        simp [hv, this]
  rw [Lexicon.getWid_eq hn]
  exact key ws (fun _ h => h)

/-- C51 for OkapiIndex: the weight of a word in a document is its number of occurrences, the weight of a document its length; there
is no weight for words that do not occur -/
theorem C51_okapi (A : Arith R) (P : Bm25 R) (hA : CountsCompare A) (pipeline : List Element) (ops : List (Text.Op D))
    (hs : SmallLexicon pipeline ops) (s : TI D R) (hr : run (okapi A P) pipeline ops = .ok s) :
    (∀ d ws, docWords pipeline ops d = some ws → s.ix.docweight.get? d = some (A.store (A.ofNat ws.length))) ∧
    (∀ d ws w, docWords pipeline ops d = some ws → w ∈ ws → ∃ v, storedWeight s.ix (s.lex.getWid w) d = some v ∧
      (v = A.ofNat (ws.count w) ∨ v = A.store (A.ofNat (ws.count w)))) ∧
    (∀ d w, ¬ Holds pipeline ops d w → storedWeight s.ix (s.lex.getWid w) d = none) := by
  have hK := okapi_lawful (D := D) A P hA
  obtain ⟨s', e, hl, hi⟩ := run_ok hK pipeline ops hs
  obtain rfl : s' = s := Except.ok.inj (e.symm.trans hr)
  have hwt : ∀ d ws wid, docWords pipeline ops d = some ws → weights (okapi A P) (docWids pipeline ops) d wid =
      if wid ∈ ws.map (lexAfter pipeline ops).getWid then
        some (A.ofNat ((ws.map (lexAfter pipeline ops).getWid).count wid)) else none := by
    intro d ws wid hws
    unfold weights docWids
    rw [hws]
    show dget? wid ((countLoop _).map (fun p => (p.1, A.ofNat p.2))) = _
    have hmap : ∀ l : List (Int × Nat), dget? wid (l.map (fun p => (p.1, A.ofNat p.2))) = (dget? wid l).map A.ofNat := by
      intro l
      induction l with
      | nil => rfl
      | cons p l ih =>
        rw [List.map_cons]
        unfold dget?
        split
        · rfl
        · exact ih
    rw [hmap, countLoop_get]
    split <;> rfl
  refine ⟨?_, ?_, ?_⟩
  · intro d ws hws
    rw [hi.docweight]
    unfold docWids
    rw [hws]
    show some (A.store (A.ofNat (ws.map _).length)) = _
    rw [List.length_map]
  · intro d ws w hws hw
    rw [hl]
    have h1 := hwt d ws ((lexAfter pipeline ops).getWid w) hws
    rw [if_pos (List.mem_map.2 ⟨w, hw, rfl⟩), count_map_wid hws hw] at h1
    obtain ⟨h2, h3⟩ := stored_iff hi ((lexAfter pipeline ops).getWid w) d
    cases hst : storedWeight s'.ix ((lexAfter pipeline ops).getWid w) d with
    | none => rw [h2.1 hst] at h1; cases h1
    | some v =>
      obtain ⟨f, hf, hv⟩ := h3 v hst
      rw [h1] at hf; cases hf
      exact ⟨v, rfl, hv⟩
  · intro d w hn
    rw [hl, (stored_iff hi _ d).1]
    by_contra hc
    rw [← ne_eq, ← Option.isSome_iff_ne_none, weights_isSome hK] at hc
    exact hn ((wid_mem hs d w).1 hc)

theorem exText_small : SmallLexicon exPipeline exTextOps := by
  refine ⟨?_, ?_⟩
  · intro n h
    simp only [exTextOps, lexCalls, List.filterMap_cons, List.filterMap_nil, List.mem_cons, List.not_mem_nil, or_false,
      Lexicon.Op.reload.injEq, reduceCtorEq, false_or] at h
    omega
  · intro w
    have h : ∀ p ∈ (lexAfter exPipeline exTextOps).wids.items, p.2 < 2 ^ 28 := by decide
    unfold Lexicon.getWid
    cases hg : (lexAfter exPipeline exTextOps).wids.get? w with
    | none => decide
    | some n => exact h (w, n) ((SMap.get?_eq_some_iff _ _ _).1 hg)

-- the history of the examples: documents 3 and 7 remain
example : (currentText exTextOps 5).isNone ∧ docWords exPipeline exTextOps 7 =
    some [['d', 'o', 'g'], ['b', 'i', 'g'], ['e', 'e', 'l']] ∧
    docWords exPipeline exTextOps 3 = some [['d', 'o', 'g'], ['d', 'o', 'g']] := by decide
-- the weights kept for `dog` (word id 3)
example : (run exOkapi exPipeline exTextOps).map (fun s => (s.lex.getWid ['d', 'o', 'g'], storedWeight s.ix 3 3, storedWeight s.ix 3 7,
    storedWeight s.ix 3 5)) = .ok (3, some 2, some 1, none) := by decide

/-! ## C52 -/

/-- C52: `documentCount()` is the number of indexed documents, `wordCount()` the number of different words in them -/
theorem C52_statistics (K : Kind D R) (hK : Lawful K) (pipeline : List Element) (ops : List (Text.Op D))
    (hs : SmallLexicon pipeline ops) (s : TI D R) (hr : run K pipeline ops = .ok s) :
    (∃ n : Nat, s.documentCount = n ∧ CountIs (fun d => ∃ t, currentText ops d = some t) n) ∧
    (∃ n : Nat, s.wordCount = n ∧ CountIs (fun w => ∃ d, Holds pipeline ops d w) n) := by
  obtain ⟨s', e, hl, hi⟩ := run_ok hK pipeline ops hs
  obtain rfl : s' = s := Except.ok.inj (e.symm.trans hr)
  refine ⟨⟨_, hi.documentCount, s'.ix.docwords.keys, SMap.keys_nodup _, ?_, SMap.len_keys _⟩, ?_⟩
  · intro d
    rw [← SMap.contains_iff_mem, hi.contains]
    unfold docWids docWords
    rw [Option.isSome_map, Option.isSome_map, Option.isSome_iff_exists]
  · have hinv := Lexicon.run_inv pipeline (lexCalls ops)
    -- a word id of the index is the id of a word of a document
    have hk : ∀ wid, wid ∈ s'.ix.wordinfo.keys ↔ ∃ w, (lexAfter pipeline ops).wids.get? w = some wid ∧ ∃ d, Holds pipeline ops d w := by
      intro wid
      rw [SMap.mem_keys_iff]
      constructor
      · rintro ⟨e', he⟩
        obtain ⟨hne, hv⟩ := (hi.info wid).1 e' he
        obtain ⟨d, v, hd⟩ := (SMap.isEmpty_eq_false_iff _).1 hne
        rw [hv d] at hd
        have hsome : (weights K (docWids pipeline ops) d wid).isSome := by
          cases hc : weights K (docWids pipeline ops) d wid with
          | none => rw [hc] at hd; cases hd
          | some _ => rfl
        rw [weights_isSome hK] at hsome
        obtain ⟨ids, hids, hm⟩ := hsome
        unfold docWids at hids
        rw [Option.map_eq_some_iff] at hids
        obtain ⟨ws, hws, rfl⟩ := hids
        obtain ⟨w, hw, rfl⟩ := List.mem_map.1 hm
        obtain ⟨n, hn⟩ := doc_wid hws hw
        exact ⟨w, by rw [hn, Lexicon.getWid_eq hn], d, ws, hws, hw⟩
      · rintro ⟨w, hw, d, hh⟩
        have hsome := (weights_isSome hK (docWids pipeline ops) d wid).2 (by
          have := (wid_mem hs d w).2 hh
          rw [Lexicon.getWid_eq hw] at this; exact this)
        cases he : s'.ix.wordinfo.get? wid with
        | none => rw [(hi.info wid).2 he d] at hsome; cases hsome
        | some e' => exact ⟨e', rfl⟩
    let name : Int → Word := fun wid => ((lexAfter pipeline ops).words.get? wid).getD []
    have hname : ∀ wid ∈ s'.ix.wordinfo.keys, (lexAfter pipeline ops).wids.get? (name wid) = some wid := by
      intro wid hm
      obtain ⟨w, hw, -⟩ := (hk wid).1 hm
      have := (hinv w wid).1 hw
      show (lexAfter pipeline ops).wids.get? (((Lexicon.run pipeline (lexCalls ops)).words.get? wid).getD []) = _
      rw [this]; exact hw
    refine ⟨_, hi.wordCount, s'.ix.wordinfo.keys.map name, ?_, ?_, by rw [List.length_map, SMap.len_keys]⟩
    · refine List.Nodup.map_on ?_ (SMap.keys_nodup _)
      intro a ha b hb e'
      have h1 := hname a ha
      have h2 := hname b hb
      rw [e', h2] at h1
      exact (Option.some.inj h1).symm
    · intro w
      rw [List.mem_map]
      constructor
      · rintro ⟨wid, hm, rfl⟩
        obtain ⟨v, hv, hd⟩ := (hk wid).1 hm
        have h1 := (hinv v wid).1 hv
        have : name wid = v := by
          show ((Lexicon.run pipeline (lexCalls ops)).words.get? wid).getD [] = v
          rw [h1]; rfl
        rw [this]; exact hd
      · rintro ⟨d, hh⟩
        obtain ⟨ws, hws, hw⟩ := hh
        obtain ⟨n, hn⟩ := doc_wid hws hw
        refine ⟨n, (hk n).2 ⟨w, hn, d, ws, hws, hw⟩, ?_⟩
        show ((Lexicon.run pipeline (lexCalls ops)).words.get? n).getD [] = w
        rw [(hinv w n).1 hn]; rfl

-- two documents, three words (`cat` and `fish` are still in the lexicon)
example : (run exOkapi exPipeline exTextOps).map (fun s => (s.documentCount, s.wordCount, s.lex.wids.keys.length)) = .ok (2, 3, 5) := by
  decide

/-! ## C53 -/

/-- two indexes with the same content: all maps have the same keys; document data and counts are equal, and weights are equal once
in single precision -/
def SameContent (A : Arith R) (a b : Ix D R) : Prop :=
  a.docwords = b.docwords ∧ a.docweight = b.docweight ∧ a.documentCount = b.documentCount ∧ a.wordCount = b.wordCount ∧
  a.wordinfo.keys = b.wordinfo.keys ∧
  ∀ wid d, (storedWeight a wid d).isSome = (storedWeight b wid d).isSome ∧
    ∀ v w, storedWeight a wid d = some v → storedWeight b wid d = some w → A.store v = A.store w

theorem inv_same {K : Kind D R} (hst : ∀ x, K.arith.store (K.arith.store x) = K.arith.store x)
    {a b : Ix D R} {W : D → Option (List Int)} (ha : Text.Inv K a W) (hb : Text.Inv K b W) : SameContent K.arith a b := by
  have hdw : a.docwords = b.docwords := by ext d : 1; rw [ha.docwords, hb.docwords]
  have hkeys : ∀ {a b : Ix D R}, Text.Inv K a W → Text.Inv K b W → ∀ wid, wid ∈ a.wordinfo.keys → wid ∈ b.wordinfo.keys := by
    intro a b ha hb wid h
    rw [SMap.mem_keys_iff] at h ⊢
    obtain ⟨e, he⟩ := h
    cases hbe : b.wordinfo.get? wid with
    | some e' => exact ⟨e', rfl⟩
    | none =>
      obtain ⟨hne, hv⟩ := (ha.info wid).1 e he
      obtain ⟨d, v, hd⟩ := (SMap.isEmpty_eq_false_iff _).1 hne
      rw [hv d, (hb.info wid).2 hbe d] at hd
      cases hd
  have hke : a.wordinfo.keys = b.wordinfo.keys := SMap.keys_eq_of_iff (fun k => ⟨hkeys ha hb k, hkeys hb ha k⟩)
  refine ⟨hdw, ?_, ?_, ?_, hke, ?_⟩
  · ext d : 1; rw [ha.docweight, hb.docweight]
  · rw [ha.documentCount, hb.documentCount, hdw]
  · rw [ha.wordCount, hb.wordCount, ← SMap.len_keys, ← SMap.len_keys, hke]
  · intro wid d
    obtain ⟨a1, a2⟩ := stored_iff ha wid d
    obtain ⟨b1, b2⟩ := stored_iff hb wid d
    refine ⟨?_, ?_⟩
    · rw [Bool.eq_iff_iff, ← not_iff_not]
      simp only [Bool.not_eq_true, Option.isSome_eq_false_iff, Option.isNone_iff_eq_none]
      rw [a1, b1]
    · intro v w hv hw
      obtain ⟨f, hf, e1⟩ := a2 v hv
      obtain ⟨g, hg, e2⟩ := b2 w hw
      rw [hf] at hg; cases hg
      have : ∀ x, (x = f ∨ x = K.arith.store f) → K.arith.store x = K.arith.store f := by
        rintro x (rfl | rfl)
        · rfl
        · exact hst f
      rw [this v e1, this w e2]

/-- C53: with equal lexicons, the content of the index depends only on the texts currently assigned to the docids, not on the calls
that led there -/
theorem C53_history_independent (K : Kind D R) (hK : Lawful K) (hst : ∀ x, K.arith.store (K.arith.store x) = K.arith.store x)
    (pipeline : List Element) (ops ops' : List (Text.Op D)) (hs : SmallLexicon pipeline ops) (hs' : SmallLexicon pipeline ops')
    (hlex : lexAfter pipeline ops = lexAfter pipeline ops') (hcur : ∀ d, currentText ops d = currentText ops' d) (s s' : TI D R)
    (hr : run K pipeline ops = .ok s) (hr' : run K pipeline ops' = .ok s') : SameContent K.arith s.ix s'.ix := by
  obtain ⟨t, e, hl, hi⟩ := run_ok hK pipeline ops hs
  obtain rfl : t = s := Except.ok.inj (e.symm.trans hr)
  obtain ⟨t', e', hl', hi'⟩ := run_ok hK pipeline ops' hs'
  obtain rfl : t' = s' := Except.ok.inj (e'.symm.trans hr')
  have : docWids pipeline ops = docWids pipeline ops' := by
    funext d
    unfold docWids docWords
    rw [hcur d, hlex]
  rw [this] at hi
  exact inv_same hst hi hi'

/-- C53: indexing a document again leaves the same lexicon and the same content as removing it first; for OkapiIndex also the same
total length -/
theorem C53_reindex (K : Kind D R) (hK : Lawful K) (hst : ∀ x, K.arith.store (K.arith.store x) = K.arith.store x)
    (pipeline : List Element) (ops : List (Text.Op D)) (d : D) (t : TextArg) (hs : SmallLexicon pipeline (ops ++ [.index d t])) :
    ∃ a b, run K pipeline (ops ++ [.index d t]) = .ok a ∧ run K pipeline (ops ++ [.unindex d, .index d t]) = .ok b ∧
      a.lex = b.lex ∧ SameContent K.arith a.ix b.ix ∧ a.ix.total = b.ix.total := by
  have hs0 : SmallLexicon pipeline ops := small_prefix hs
  have hun : lexAfter pipeline (ops ++ [.unindex d]) = lexAfter pipeline ops := by rw [lexAfter_snoc]; rfl
  have hlist : ops ++ [.unindex d, .index d t] = (ops ++ [.unindex d]) ++ [.index d t] := by simp
  have hlex : lexAfter pipeline ((ops ++ [.unindex d]) ++ [.index d t]) = lexAfter pipeline (ops ++ [.index d t]) := by
    rw [lexAfter_snoc pipeline (ops ++ [Text.Op.unindex d]), hun, lexAfter_snoc pipeline ops]
  have hcalls : lexCalls ((ops ++ [.unindex d]) ++ [.index d t]) = lexCalls (ops ++ [.index d t]) := by
    simp [lexCalls]
  have hs2 : SmallLexicon pipeline ((ops ++ [.unindex d]) ++ [.index d t]) := ⟨by rw [hcalls]; exact hs.1, by rw [hlex]; exact hs.2⟩
  obtain ⟨s0, e0, hl0, hi0⟩ := run_ok hK pipeline ops hs0
  obtain ⟨a, ea, hla, hia, hta⟩ := step_ok hK pipeline ops (.index d t) s0 hs hl0 hi0
  obtain ⟨s1, e1, hl1, hi1, ht1⟩ := step_ok hK pipeline ops (.unindex d) s0 (small_prefix hs2) hl0 hi0
  obtain ⟨b, eb, hlb, hib, htb⟩ := step_ok hK pipeline _ (.index d t) s1 hs2 hl1 hi1
  refine ⟨a, b, ?_, ?_, ?_, ?_, ?_⟩
  · rw [run_snoc, e0]; exact ea
  · rw [hlist, run_snoc, run_snoc, e0]
    show ((step K pipeline s0 (.unindex d)) >>= _) = _
    rw [e1]; exact eb
  · rw [hla, hlb, hlex]
  · have : docWids pipeline ((ops ++ [.unindex d]) ++ [.index d t]) = docWids pipeline (ops ++ [.index d t]) := by
      funext d'
      unfold docWids docWords
      rw [hlex, currentText_snoc, currentText_snoc, currentText_snoc]
      unfold textStep
      by_cases hd : d' = d <;> simp [hd]
    rw [this] at hib
    exact inv_same hst hia hib
  · have h0 : lenOf K (docWids pipeline (ops ++ [.unindex d])) d = 0 := by
      unfold lenOf docWids docWords
      rw [currentText_snoc]
      simp [textStep]
    simp only at hta ht1 htb
    rw [hta, htb, ht1, h0]
    cases K.hasTotal
    · simp
    · simp; omega

-- a reindexed document with a word before and after, one only before and one only after
example : ∃ a b, run exOkapi exPipeline (exTextOps ++ [.index 3 (.str ['d', 'o', 'g', ' ', 'e', 'm', 'u'])]) = .ok a ∧
    run exOkapi exPipeline (exTextOps ++ [.unindex 3, .index 3 (.str ['d', 'o', 'g', ' ', 'e', 'm', 'u'])]) = .ok b ∧
    a.lex.wids.keys.length = 6 ∧ a.ix.wordCount = 4 ∧ a.ix.total = 5 ∧ b.ix.total = 5 ∧ b.ix.wordCount = 4 :=
  ⟨_, _, rfl, rfl, by decide, by decide, by decide, by decide, by decide⟩
example (x : Int) : exArith.store (exArith.store x) = exArith.store x := by show min (min x 16) 16 = min x 16; omega

/-! ## C54 -/

/-- C54: the total length an OkapiIndex uses for scoring is the sum of the lengths of the indexed documents, if the index was never
cleared and the length of every text is exact in single precision -/
theorem C54_total_length (A : Arith R) (P : Bm25 R) (hA : CountsCompare A) (pipeline : List Element) (ops : List (Text.Op D))
    (hs : SmallLexicon pipeline ops) (he : LengthsExact A pipeline ops) (hc : NoClear ops) (s : TI D R)
    (hr : run (okapi A P) pipeline ops = .ok s) :
    ∃ l : List (D × List Word), (l.map (·.1)).Nodup ∧ (∀ d ws, (d, ws) ∈ l ↔ docWords pipeline ops d = some ws) ∧
      s.ix.total = ((l.map (fun p => p.2.length)).sum : Nat) := by
  have hK := okapi_lawful (D := D) A P hA
  obtain ⟨s', e, hl, hi⟩ := run_ok hK pipeline ops hs
  obtain rfl : s' = s := Except.ok.inj (e.symm.trans hr)
  have htot := (total_ok hK rfl (okapi_weight A P) pipeline ops hs he s' hr).2 hc
  refine ⟨s'.ix.docweight.items.map (fun p => (p.1, (docWords pipeline ops p.1).getD [])), ?_, ?_, ?_⟩
  · rw [List.map_map]
    exact SMap.keys_nodup s'.ix.docweight
  · intro d ws
    rw [List.mem_map]
    constructor
    · rintro ⟨p, hp, e⟩
      obtain ⟨ws', hws, -⟩ := lens_nonneg (okapi_weight A P) he hi p hp
      cases e
      rw [hws]; rfl
    · intro hws
      have hget : s'.ix.docweight.get? d = some (A.store (A.ofNat ws.length)) :=
        (C51_okapi A P hA pipeline ops hs s' hr).1 d ws hws
      refine ⟨_, (SMap.get?_eq_some_iff _ _ _).1 hget, ?_⟩
      simp only [hws, Option.getD_some]
  · rw [htot]
    unfold lens sumVals
    have : ∀ l : List (D × R), (∀ p ∈ l, ∃ ws, docWords pipeline ops p.1 = some ws ∧ A.toInt p.2 = ws.length) →
        (l.map (fun p => A.toInt p.2)).sum =
        (((l.map (fun p => (p.1, (docWords pipeline ops p.1).getD []))).map (fun p => p.2.length)).sum : Nat) := by
      intro l
      induction l with
      | nil => intro _; rfl
      | cons p l ih =>
        intro h
        obtain ⟨ws, hws, e⟩ := h p (by simp)
        rw [List.map_cons, List.sum_cons, ih (fun q hq => h q (by simp [hq])), e]
        simp [hws]
    exact this _ (lens_nonneg (okapi_weight A P) he hi)

-- three words in document 7, two in document 3
example : (run exOkapi exPipeline exTextOps).map (fun s => s.ix.total) = .ok 5 := by decide
example : LengthsExact exArith exPipeline exTextOps ∧ NoClear exTextOps := by
  constructor
  · intro d t h
    simp only [exTextOps, List.mem_cons, List.not_mem_nil, or_false, Text.Op.index.injEq, reduceCtorEq, false_or] at h
    rcases h with ⟨rfl, rfl⟩ | ⟨rfl, rfl⟩ | ⟨rfl, rfl⟩ | ⟨rfl, rfl⟩ <;> decide
  · intro h; simp [exTextOps] at h
-- when a length is not exact in single precision, removing the document does not restore the total
example : (run exOkapi exPipeline
    [.index 1 (.list (List.replicate 17 ['d', 'o', 'g'])), .unindex 1]).map (fun s => (s.documentCount, s.ix.total)) = .ok (0, 1) := by
  decide

/-! ## C55 -/

/-- C55 for CosineIndex (and any class that keeps no total length): after `clear()` the index is the same as a new one, in every
attribute -/
theorem C55_clear_cosine (K : Kind D R) (hK : Lawful K) (ht : K.hasTotal = false) (pipeline : List Element) (ops : List (Text.Op D))
    (hs : SmallLexicon pipeline ops) (s : TI D R) (hr : run K pipeline (ops ++ [.clear]) = .ok s) :
    s.ix = Text.new ∧ s.lex = lexAfter pipeline ops := by
  have h0 : ∀ ops : List (Text.Op D), SmallLexicon pipeline ops → ∃ s, run K pipeline ops = .ok s ∧ s.lex = lexAfter pipeline ops ∧
      Text.Inv K s.ix (docWids pipeline ops) ∧ s.ix.total = 0 := by
    intro ops
    induction ops using List.reverseRecOn with
    | nil => intro _; exact ⟨_, rfl, rfl, inv_new K, rfl⟩
    | append_singleton ops op ih =>
      intro hs
      obtain ⟨s, e, hl, hi, h0⟩ := ih (small_prefix hs)
      obtain ⟨s', e', hl', hi', ht'⟩ := step_ok hK pipeline ops op s hs hl hi
      refine ⟨s', by rw [run_snoc, e]; exact e', hl', hi', ?_⟩
      rw [ht', h0, ht]
      cases op <;> simp
  obtain ⟨s0, e0, hl0, -, ht0⟩ := h0 ops hs
  rw [run_snoc, e0] at hr
  cases hr
  refine ⟨?_, hl0⟩
  show Text.clear s0.ix = Text.new
  unfold Text.clear Text.new
  rw [ht0]

/-- C55 for any class, in particular OkapiIndex: after `clear()` everything but the total length is as in a new index -/
theorem C55_clear_partial (s : Ix D R) : Text.clear s = { (Text.new : Ix D R) with total := s.total } := rfl

/-- C55 is false for OkapiIndex: it does not reset the total length, so the average document length used for scoring is wrong ever
after -/
theorem C55_okapi_fails : ∃ s, run exOkapi exPipeline [.index 1 (.str ['d', 'o', 'g', ' ', 'c', 'a', 't']), .clear] = .ok s ∧
    s.ix.total = 2 ∧ (Text.new : Ix Nat Int).total = 0 := ⟨_, rfl, by decide, by decide⟩

end Verif
