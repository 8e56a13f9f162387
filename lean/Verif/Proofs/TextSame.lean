import Verif.Spec.TxnText
import Verif.Proofs.TextRun

/-! # Two states of an index that answer alike -/

set_option autoImplicit false

namespace Verif.Text

open SetOps Spec

variable {D R : Type} [LinearOrder D]

/-- the entry as an `IF` tree -/
def D2S.toTree (A : Arith R) (e : D2S D R) : SMap D R := if e.tree then e.map else e.map.mapVals (fun _ v => A.store v)

theorem D2S.toTree_len (A : Arith R) (e : D2S D R) : (e.toTree A).len = e.map.len := by
  unfold D2S.toTree
  split
  · rfl
  · unfold SMap.len SMap.mapVals; simp

/-- two states that differ at most in which words have trees and, if `exact` is not set, in digits of weights lost in single
precision -/
structure Alike (A : Arith R) (exact : Bool) (s s' : Ix D R) : Prop where
  docwords : s.docwords = s'.docwords
  docweight : s.docweight = s'.docweight
  documentCount : s.documentCount = s'.documentCount
  wordCount : s.wordCount = s'.wordCount
  total : s.total = s'.total
  none : ∀ wid, s.wordinfo.get? wid = none ↔ s'.wordinfo.get? wid = none
  some : ∀ wid e e', s.wordinfo.get? wid = some e → s'.wordinfo.get? wid = some e' →
    e.toTree A = e'.toTree A ∧ (exact = true → e.map = e'.map)

/-- the searches of the class cannot tell such states apart -/
def Reads (K : Kind D R) : Prop :=
  ∀ s s', Alike K.arith K.hasTotal s s' → K.searchWids s = K.searchWids s' ∧ K.queryWeight s = K.queryWeight s'

section
variable {A : Arith R} {exact : Bool} {s s' : Ix D R} (h : Alike A exact s s')
include h

theorem Alike.cases (wid : Int) : (s.wordinfo.get? wid = Option.none ∧ s'.wordinfo.get? wid = Option.none) ∨
    ∃ e e', s.wordinfo.get? wid = Option.some e ∧ s'.wordinfo.get? wid = Option.some e' ∧ e.map.len = e'.map.len ∧
      e.toTree A = e'.toTree A ∧ (exact = true → e.map = e'.map) := by
  cases he : s.wordinfo.get? wid with
  | none => exact Or.inl ⟨rfl, (h.none wid).1 he⟩
  | some e =>
    cases he' : s'.wordinfo.get? wid with
    | none => rw [(h.none wid).2 he'] at he; cases he
    | some e' =>
      obtain ⟨h1, h2⟩ := h.some wid e e' he he'
      exact Or.inr ⟨e, e', rfl, rfl, by rw [← D2S.toTree_len A e, ← D2S.toTree_len A e', h1], h1, h2⟩

theorem Alike.contains (wid : Int) : s.wordinfo.contains wid = s'.wordinfo.contains wid := by
  unfold SMap.contains
  rcases h.cases wid with ⟨e1, e2⟩ | ⟨e, e', e1, e2, -⟩ <;> rw [e1, e2] <;> rfl

theorem Alike.removeOov (wids : List Int) : removeOov s wids = removeOov s' wids := by
  unfold Text.removeOov
  exact congrArg (fun p => wids.filter p) (funext h.contains)

end

theorem okapi_reads (A : Arith R) (P : Bm25 R) : Reads (okapi A P : Kind D R) := by
  intro s s' h
  have h : Alike A true s s' := h
  constructor
  · funext wids
    show okapiSearchWids A P s wids = okapiSearchWids A P s' wids
    unfold okapiSearchWids
    rw [h.documentCount, h.total]
    have : okapiWord A P s = okapiWord A P s' := by
      funext N m t
      unfold okapiWord
      rcases h.cases t with ⟨e1, e2⟩ | ⟨e, e', e1, e2, -, -, e3⟩ <;> rw [e1, e2]
      rw [h.docweight]
      dsimp only
      rw [e3 rfl]
    rw [this]
  · funext wids
    show okapiQueryWeight A P s wids = okapiQueryWeight A P s' wids
    unfold okapiQueryWeight
    rw [h.removeOov, h.docweight]
    have : okapiWeightStep A s = okapiWeightStep A s' := by
      funext N m sum t
      unfold okapiWeightStep
      rcases h.cases t with ⟨e1, e2⟩ | ⟨e, e', e1, e2, e3, -⟩ <;> rw [e1, e2]
      dsimp only
      rw [e3]
    rw [this]

theorem okapiC_reads (A : Arith R) (cdiv : R → R → R) (P : Bm25 R) : Reads (okapiC A cdiv P : Kind D R) := by
  intro s s' h
  have h : Alike A true s s' := h
  refine ⟨?_, (okapi_reads A P s s' h).2⟩
  funext wids
  show cSearchWids A cdiv P s wids = cSearchWids A cdiv P s' wids
  unfold cSearchWids
  rw [h.documentCount, h.total]
  have : cWord A cdiv P s = cWord A cdiv P s' := by
    funext N m t
    unfold cWord
    rcases h.cases t with ⟨e1, e2⟩ | ⟨e, e', e1, e2, -, -, e3⟩ <;> rw [e1, e2]
    rw [h.docweight]
    dsimp only
    rw [e3 rfl]
  rw [this]

theorem cosine_reads (A : Arith R) : Reads (cosine A : Kind D R) := by
  intro s s' h
  have h : Alike A false s s' := h
  constructor
  · funext wids
    show cosineSearchWids A s wids = cosineSearchWids A s' wids
    unfold cosineSearchWids
    rw [h.docweight]
    have : cosineWord A s = cosineWord A s' := by
      funext N t
      unfold cosineWord
      rcases h.cases t with ⟨e1, e2⟩ | ⟨e, e', e1, e2, e3, e4, -⟩ <;> rw [e1, e2]
      dsimp only
      unfold D2S.toTree at e4
      rw [e3, e4]
    rw [this]
  · funext wids
    show cosineQueryWeight A s wids = cosineQueryWeight A s' wids
    unfold cosineQueryWeight
    rw [h.removeOov, h.docweight]
    have : cosineWeightStep A s = cosineWeightStep A s' := by
      funext N sum t
      unfold cosineWeightStep
      rcases h.cases t with ⟨e1, e2⟩ | ⟨e, e', e1, e2, e3, -⟩ <;> rw [e1, e2]
      dsimp only
      rw [e3]
    rw [this]

/-- two text indexes that answer alike: the lexicons may differ in their counters -/
structure AlikeTI (K : Kind D R) (s s' : TI D R) : Prop where
  wids : s.lex.wids = s'.lex.wids
  ix : Alike K.arith K.hasTotal s.ix s'.ix

section
variable {K : Kind D R} (hK : Reads K) {s s' : TI D R} (h : AlikeTI K s s')
include h

theorem AlikeTI.termIds (pipeline : List Element) (t : TextArg) : s.lex.termToWordIds pipeline t = s'.lex.termToWordIds pipeline t := by
  have : s.lex.getWid = s'.lex.getWid := by funext w; unfold Lexicon.getWid; rw [h.wids]
  unfold Lexicon.termToWordIds; rw [this]

theorem AlikeTI.globIds (odd : Word → Except PyErr (Word → Bool)) (w : Word) :
    s.lex.globToWordIds odd w = s'.lex.globToWordIds odd w := by
  have : s.lex.getWid = s'.lex.getWid := by funext w; unfold Lexicon.getWid; rw [h.wids]
  unfold Lexicon.globToWordIds; rw [this, h.wids]

include hK

theorem AlikeTI.searchUnion (wids : List Int) : searchUnion K s.ix wids = searchUnion K s'.ix wids := by
  unfold Text.searchUnion; rw [h.ix.removeOov, (hK _ _ h.ix).1]

theorem AlikeTI.search (pipeline : List Element) (t : TextArg) :
    search K pipeline s.lex s.ix t = search K pipeline s'.lex s'.ix t := by
  have : Text.searchUnion K s.ix = Text.searchUnion K s'.ix := funext (h.searchUnion hK)
  unfold Text.search; rw [h.termIds, this]

theorem AlikeTI.searchGlob (odd : Word → Except PyErr (Word → Bool)) (w : Word) :
    searchGlob K odd s.lex s.ix w = searchGlob K odd s'.lex s'.ix w := by
  have : Text.searchUnion K s.ix = Text.searchUnion K s'.ix := funext (h.searchUnion hK)
  unfold Text.searchGlob; rw [h.globIds, this]

theorem AlikeTI.searchPhrase (pipeline : List Element) (t : TextArg) :
    searchPhrase K pipeline s.lex s.ix t = searchPhrase K pipeline s'.lex s'.ix t := by
  have h1 : Text.removeOov s.ix = Text.removeOov s'.ix := funext h.ix.removeOov
  have h2 : phraseLoop K s.ix = phraseLoop K s'.ix := by
    funext code r p; unfold phraseLoop; rw [h.ix.docwords]
  unfold Text.searchPhrase; rw [h.termIds, h1, h2, (hK _ _ h.ix).1]

theorem AlikeTI.searcher (odd : Word → Except PyErr (Word → Bool)) (pipeline : List Element) :
    searcher K odd pipeline s = searcher K odd pipeline s' := by
  unfold Text.searcher
  congr 1
  · funext w; exact h.search hK pipeline _
  · funext w; rw [h.searchPhrase hK]
  · funext w; rw [h.searchGlob hK]

theorem AlikeTI.queryWeight (pipeline : List Element) (terms : List TextArg) :
    queryWeight K pipeline s terms = queryWeight K pipeline s' terms := by
  have : ∀ terms, termWids pipeline s.lex terms = termWids pipeline s'.lex terms := by
    intro terms
    induction terms with
    | nil => rfl
    | cons t ts ih => unfold termWids; rw [h.termIds, ih]
  unfold Text.queryWeight; rw [this, (hK _ _ h.ix).2]

theorem AlikeTI.applyTree (odd : Word → Except PyErr (Word → Bool)) (pipeline : List Element) (tree : Node) :
    applyTree K odd pipeline s tree = applyTree K odd pipeline s' tree := by
  unfold Text.applyTree; rw [h.searcher hK, h.queryWeight hK]

theorem AlikeTI.apply (isSpace : Char → Bool) (upper : Word → Word) (odd : Word → Except PyErr (Word → Bool)) (pipeline : List Element)
    (q : Word) : apply K isSpace upper odd pipeline s q = apply K isSpace upper odd pipeline s' q := by
  unfold Text.apply
  have : Text.applyTree K odd pipeline s = Text.applyTree K odd pipeline s' := funext (h.applyTree hK odd pipeline)
  rw [this]

end

theorem AlikeTI.answers {K : Kind D R} (hK : Reads K) {s s' : TI D R} (h : AlikeTI K s s') (pipeline : List Element) :
    SameAnswers K pipeline s s' where
  documentCount := h.ix.documentCount
  wordCount := h.ix.wordCount
  hasDoc d := by unfold Text.hasDoc; rw [h.ix.docwords]
  getWords d := by unfold Text.getWords; rw [h.ix.docwords]
  search := h.search hK pipeline
  searchPhrase := h.searchPhrase hK pipeline
  searchGlob := h.searchGlob hK
  queryWeight := h.queryWeight hK pipeline
  apply isSpace upper odd := h.apply hK isSpace upper odd pipeline

/-! ## Weights up to single precision -/

/-- two weights that cannot be told apart by searches -/
def NearW (K : Kind D R) (x y : Option R) : Prop := x.map K.arith.store = y.map K.arith.store ∧ (K.hasTotal = true → x = y)

theorem NearW.refl (K : Kind D R) (x : Option R) : NearW K x x := ⟨rfl, fun _ => rfl⟩
theorem NearW.symm {K : Kind D R} {x y : Option R} (h : NearW K x y) : NearW K y x := ⟨h.1.symm, fun e => (h.2 e).symm⟩
theorem NearW.trans {K : Kind D R} {x y z : Option R} (h : NearW K x y) (h' : NearW K y z) : NearW K x z :=
  ⟨h.1.trans h'.1, fun e => (h.2 e).trans (h'.2 e)⟩
theorem NearW.none_iff {K : Kind D R} {x y : Option R} (h : NearW K x y) : x = none ↔ y = none := by
  have := h.1
  cases x <;> cases y <;> simp at this ⊢

/-- the numbers of occurrences are exact in single precision, if the class keeps the total length -/
def ExactW (K : Kind D R) (wids : List Int) : Prop :=
  K.hasTotal = true → (∀ w v, dget? w (fr K wids).1 = some v → K.arith.store v = v) ∧
    K.arith.toInt (K.arith.store (fr K wids).2) = wids.length

/-- states that hold the same documents, up to digits lost in single precision, answer alike -/
theorem info_alike {K : Kind D R} {s s' : Ix D R} {W : D → Option (List Int)} {P P' : D → Int → Option R}
    (hi : Info K.arith s.wordinfo P) (hi' : Info K.arith s'.wordinfo P')
    (hP : ∀ d w, NearW K (P d w) (weights K W d w)) (hP' : ∀ d w, NearW K (P' d w) (weights K W d w))
    (hx : ∀ d ws, W d = some ws → ExactW K ws) (hd : s.docwords = s'.docwords) (hdw : s.docweight = s'.docweight)
    (hc : s.documentCount = s'.documentCount) (hl : s.wordCount = s.wordinfo.len) (hl' : s'.wordCount = s'.wordinfo.len)
    (ht : s.total = s'.total) : Alike K.arith K.hasTotal s s' := by
  have hnone : ∀ {s s' : Ix D R} {P P' : D → Int → Option R}, Info K.arith s.wordinfo P → Info K.arith s'.wordinfo P' →
      (∀ d w, NearW K (P d w) (weights K W d w)) → (∀ d w, NearW K (P' d w) (weights K W d w)) →
      ∀ wid, s.wordinfo.get? wid = none → s'.wordinfo.get? wid = none := by
    intro s s' P P' hi hi' hP hP' wid h
    cases he : s'.wordinfo.get? wid with
    | none => rfl
    | some e =>
      exfalso
      obtain ⟨hne, hv⟩ := (hi' wid).1 e he
      obtain ⟨d, v, hd⟩ := (SMap.isEmpty_eq_false_iff _).1 hne
      have h1 := (hP d wid).none_iff.1 ((hi wid).2 h d)
      rw [hv d, (hP' d wid).none_iff.2 h1] at hd
      cases hd
  have hiff : ∀ wid, s.wordinfo.get? wid = none ↔ s'.wordinfo.get? wid = none :=
    fun wid => ⟨hnone hi hi' hP hP' wid, hnone hi' hi hP' hP wid⟩
  refine ⟨hd, hdw, hc, ?_, ht, hiff, ?_⟩
  · rw [hl, hl', ← SMap.len_keys, ← SMap.len_keys]
    have : s.wordinfo.keys = s'.wordinfo.keys := SMap.keys_eq_of_iff (fun k => by
      have := hiff k
      rw [SMap.get?_eq_none_iff, SMap.get?_eq_none_iff] at this
      tauto)
    rw [this]
  · have hmap : ∀ {s : Ix D R} {P : D → Int → Option R}, Info K.arith s.wordinfo P →
        (∀ d w, NearW K (P d w) (weights K W d w)) → ∀ wid e, s.wordinfo.get? wid = some e → ∀ d,
        (e.toTree K.arith).get? d = (weights K W d wid).map K.arith.store ∧
        (K.hasTotal = true → e.map.get? d = weights K W d wid) := by
      intro s P hi hP wid e he d
      obtain ⟨-, hv⟩ := (hi wid).1 e he
      have hn := hP d wid
      have hex : K.hasTotal = true → (weights K W d wid).map K.arith.store = weights K W d wid := by
        intro ht
        unfold weights
        cases hW : W d with
        | none => rfl
        | some ws =>
          rw [Option.bind_some]
          cases hg : dget? wid (fr K ws).1 with
          | none => rfl
          | some v => rw [Option.map_some, (hx d ws hW ht).1 wid v hg]
      unfold D2S.toTree
      cases htr : e.tree with
      | true =>
        have hv := hv d
        rw [htr] at hv
        have hv : e.map.get? d = (P d wid).map K.arith.store := hv
        simp only [if_true]
        refine ⟨hv.trans hn.1, fun ht => ?_⟩
        rw [hv, hn.1, hex ht]
      | false =>
        have hv := hv d
        rw [htr] at hv
        have hv : e.map.get? d = P d wid := by rw [hv]; cases P d wid <;> rfl
        simp only [Bool.false_eq_true, if_false]
        refine ⟨by rw [SMap.get?_mapVals, hv]; exact hn.1, fun ht => ?_⟩
        rw [hv]; exact hn.2 ht
    intro wid e e' he he'
    refine ⟨?_, fun ht => ?_⟩
    · ext d : 1
      rw [(hmap hi hP wid e he d).1, (hmap hi' hP' wid e' he' d).1]
    · ext d : 1
      rw [(hmap hi hP wid e he d).2 ht, (hmap hi' hP' wid e' he' d).2 ht]

end Verif.Text
