import Verif.Model.Reject
import Verif.Proofs.TextRun

/-! Lemmas about `Verif.Model.Reject`: text indexes. -/

set_option autoImplicit false

namespace Verif.Text

open Spec

variable {D R : Type} [LinearOrder D]

/-- what `_search_wids` finds for some words depends only on the entries of these words, the documents' weights and the counters -/
def Local (K : Kind D R) : Prop := ∀ (s s' : Ix D R) (wids : List Int), s.docweight = s'.docweight →
  s.documentCount = s'.documentCount → s.total = s'.total → (∀ w ∈ wids, s.wordinfo.get? w = s'.wordinfo.get? w) →
  K.searchWids s wids = K.searchWids s' wids

theorem mapM_congr {α β : Type} {f g : α → Except PyErr β} {l : List α} (h : ∀ a ∈ l, f a = g a) : l.mapM f = l.mapM g := by
  induction l with
  | nil => rfl
  | cons a l ih =>
    rw [List.mapM_cons, List.mapM_cons, h a (by simp), ih (fun b hb => h b (by simp [hb]))]

theorem okapi_local (A : Arith R) (P : Bm25 R) : Local (okapi A P : Kind D R) := by
  intro s s' wids h1 h2 h3 h4
  show okapiSearchWids A P s wids = okapiSearchWids A P s' wids
  unfold okapiSearchWids
  rw [h2, h3]
  split
  · rfl
  · dsimp only
    congr 1
    funext mean
    apply mapM_congr
    intro w hw
    unfold okapiWord
    rw [h4 w hw, h1]

theorem cosine_local (A : Arith R) : Local (cosine A : Kind D R) := by
  intro s s' wids h1 h2 h3 h4
  show cosineSearchWids A s wids = cosineSearchWids A s' wids
  unfold cosineSearchWids
  rw [h1]
  split
  · rfl
  · apply mapM_congr
    intro w hw
    unfold cosineWord
    rw [h4 w hw]

theorem massLoopChecked_other (ok : D → Bool) (A : Arith R) (docid : D) : ∀ (l : List (Int × R)) (m : SMap Int (D2S D R))
    (n : Int) (w : Int), w ∉ l.map (·.1) → (massLoopChecked ok A docid m n l).1.get? w = m.get? w := by
  intro l
  induction l with
  | nil => intro m n w _; rfl
  | cons p l ih =>
    intro m n w hw
    obtain ⟨wid, f⟩ := p
    simp only [List.map_cons, List.mem_cons, not_or] at hw
    unfold massLoopChecked
    split
    · dsimp only
      split
      · rfl
      · rw [ih _ _ _ hw.2, SMap.get?_set_ne _ hw.1]
    · split
      · rfl
      · split
        · rfl
        · rw [ih _ _ _ hw.2, SMap.get?_set_ne _ hw.1]

theorem massLoopChecked_all {ok : D → Bool} (hok : ∀ d, ok d = true) (K : Kind D R) (docid : D) : ∀ (l : List (Int × R))
    (m : SMap Int (D2S D R)) (n : Int), massLoopChecked ok K.arith docid m n l =
      ((l.foldl (massStep K docid) (m, n)).1, (l.foldl (massStep K docid) (m, n)).2, none) := by
  have hput : ∀ (e : D2S D R) f, e.putChecked ok K.arith docid f = .ok (e.put K.arith docid f) := by
    intro e f; unfold D2S.putChecked; rw [hok]; simp
  have hgrow : ∀ e : D2S D R, e.growChecked ok K.arith = .ok (e.grow K.arith) := by
    intro e
    have : e.map.keys.all ok = true := by rw [List.all_eq_true]; intro d _; exact hok d
    unfold D2S.growChecked D2S.grow
    rw [this]
    split <;> rfl
  intro l
  induction l with
  | nil => intro m n; rfl
  | cons p l ih =>
    intro m n
    obtain ⟨wid, f⟩ := p
    unfold massLoopChecked
    rw [List.foldl_cons]
    unfold massStep
    dsimp only
    cases hg : m.get? wid with
    | none => dsimp only; rw [hput]; exact ih _ _
    | some e => dsimp only; rw [hgrow]; dsimp only; rw [hput]; exact ih _ _

/-- when every docid is accepted, `indexNewChecked` is `indexDoc` -/
theorem indexNewChecked_all {ok : D → Bool} (hok : ∀ d, ok d = true) (K : Kind D R) (docid : D) (wids : List Int) (s : Ix D R)
    (hn : s.docwords.contains docid = false) (s' : Ix D R) :
    indexNewChecked ok K docid wids s = (s', none) ↔ indexDoc K docid wids s = .ok s' := by
  unfold indexNewChecked indexDoc
  rw [hn]
  cases hf : K.freqs wids with
  | error e => simp [bind, Except.bind]
  | ok r =>
    dsimp only
    rw [massLoopChecked_all hok, hok]
    simp only [Bool.not_true, Bool.false_eq_true, if_false, bind, Except.bind]
    cases hc : WidCode.encode wids with
    | error e => simp
    | ok code =>
      simp only [massAdd, Prod.mk.injEq, and_true]
      constructor
      · intro h; rw [← h]; rfl
      · intro h; exact Except.ok.inj h

/-- the loop stops with a `TypeError` or not at all -/
theorem massLoopChecked_error (ok : D → Bool) (A : Arith R) (docid : D) (l : List (Int × R)) :
    ∀ (m : SMap Int (D2S D R)) (n : Int) (e : PyErr), (massLoopChecked ok A docid m n l).2.2 = some e → e = .TypeError := by
  have hput : ∀ (x : D2S D R) f e, x.putChecked ok A docid f = .error e → e = .TypeError := by
    intro x f e h
    unfold D2S.putChecked at h
    split at h
    · cases h; rfl
    · cases h
  have hgrow : ∀ (x : D2S D R) e, x.growChecked ok A = .error e → e = .TypeError := by
    intro x e h
    unfold D2S.growChecked at h
    split at h
    · split at h
      · cases h
      · cases h; rfl
    · cases h
  induction l with
  | nil => intro m n e h; cases h
  | cons p l ih =>
    intro m n e h
    obtain ⟨wid, f⟩ := p
    unfold massLoopChecked at h
    split at h
    · dsimp only at h
      split at h
      · rename_i h1; cases h; exact hput _ _ _ h1
      · exact ih _ _ _ h
    · split at h
      · rename_i h1; cases h; exact hgrow _ _ h1
      · split at h
        · rename_i h1; cases h; exact hput _ _ _ h1
        · exact ih _ _ _ h

/-- the call fails; it may have changed the entries of the words of the text and the word count, and nothing else -/
theorem indexNewChecked_reject {ok : D → Bool} {K : Kind D R} {docid : D} (hd : ok docid = false) (wids : List Int) (s : Ix D R) :
    ((∃ r, K.freqs wids = .ok r) → (indexNewChecked ok K docid wids s).2 = some .TypeError) ∧
    (indexNewChecked ok K docid wids s).1.docweight = s.docweight ∧
    (indexNewChecked ok K docid wids s).1.docwords = s.docwords ∧
    (indexNewChecked ok K docid wids s).1.documentCount = s.documentCount ∧
    (indexNewChecked ok K docid wids s).1.total = s.total ∧
    ∀ w, (∀ r, K.freqs wids = .ok r → w ∉ r.1.map (·.1)) →
      (indexNewChecked ok K docid wids s).1.wordinfo.get? w = s.wordinfo.get? w := by
  unfold indexNewChecked
  cases hf : K.freqs wids with
  | error e => exact ⟨fun ⟨r, h⟩ => (by cases h), rfl, rfl, rfl, rfl, fun w _ => rfl⟩
  | ok r =>
    dsimp only
    have hm : ∀ w, (∀ q, (Except.ok r : Except PyErr _) = Except.ok q → w ∉ q.1.map (·.1)) →
        (massLoopChecked ok K.arith docid s.wordinfo 0 r.1).1.get? w = s.wordinfo.get? w :=
      fun w hw => massLoopChecked_other ok K.arith docid r.1 s.wordinfo 0 w (hw r rfl)
    split
    · rename_i e he
      exact ⟨fun _ => congrArg some (massLoopChecked_error ok K.arith docid r.1 _ _ e he), rfl, rfl, rfl, rfl, hm⟩
    · rw [hd]
      exact ⟨fun _ => rfl, rfl, rfl, rfl, rfl, hm⟩

/-- the ids of words that are not in a text are kept, and differ from those of its words -/
theorem source_other {lex : Lexicon} (hi : Lexicon.Inv lex) (hz : Lexicon.NoZero lex) (pipeline : List Element) (t : TextArg) {w : Word}
    (hw : w ∉ wordsOf pipeline t) : (lex.sourceToWordIds pipeline t).1.getWid w = lex.getWid w ∧
      lex.getWid w ∉ (lex.sourceToWordIds pipeline t).2 := by
  have e : lex.sourceToWordIds pipeline t = lex.createAll (wordsOf pipeline t) := by
    unfold Lexicon.sourceToWordIds wordsOf
    rw [Lexicon.runPipeline_eq, Lexicon.sourceText_eq]
  rw [e]
  have hi' := Lexicon.createAll_preserves Lexicon.Inv (fun s w h => Lexicon.create_inv h w) lex (wordsOf pipeline t) hi
  have hz' := Lexicon.createAll_preserves Lexicon.NoZero (fun s w h => Lexicon.create_noZero h w) lex (wordsOf pipeline t) hz
  have hle := Lexicon.createAll_le lex (wordsOf pipeline t)
  have hget := Lexicon.createAll_get lex (wordsOf pipeline t)
  have hdom := Lexicon.createAll_domain lex (wordsOf pipeline t) w
  have hsame : (lex.createAll (wordsOf pipeline t)).1.wids.get? w = lex.wids.get? w := by
    cases hg : lex.wids.get? w with
    | some n => exact hle w n hg
    | none =>
      rw [← SMap.contains_eq_false]
      cases hc : (lex.createAll (wordsOf pipeline t)).1.wids.contains w with
      | false => rfl
      | true =>
        rcases hdom.1 hc with h | h
        · exact absurd h hw
        · rw [(SMap.contains_eq_false _ _).2 hg] at h; cases h
  have hwid : (lex.createAll (wordsOf pipeline t)).1.getWid w = lex.getWid w := by
    unfold Lexicon.getWid; rw [hsame]
  refine ⟨hwid, ?_⟩
  rw [← hwid]
  intro hmem
  have : some ((lex.createAll (wordsOf pipeline t)).1.getWid w) ∈ (lex.createAll (wordsOf pipeline t)).2.map some :=
    List.mem_map.2 ⟨_, hmem, rfl⟩
  rw [← hget] at this
  obtain ⟨v, hv, hve⟩ := List.mem_map.1 this
  have hve' : (lex.createAll (wordsOf pipeline t)).1.wids.get? v = some ((lex.createAll (wordsOf pipeline t)).1.getWid w) := hve
  cases hg : (lex.createAll (wordsOf pipeline t)).1.wids.get? w with
  | none =>
    rw [getWid_zero hg] at hve'
    have h1 := (hi' v 0).1 hve'
    rw [hz'.2] at h1
    cases h1
  | some n =>
    rw [Lexicon.getWid_eq hg] at hve'
    have h1 := (hi' v n).1 hve'
    have h2 := (hi' w n).1 hg
    rw [h1] at h2
    cases h2
    exact hw hv

/-- searches for other words are not affected by a rejected document -/
theorem search_other {ok : D → Bool} {K : Kind D R} (hK : Lawful K) (hL : Local K) {docid : D} (hd : ok docid = false)
    {s : TI D R} (hi : Lexicon.Inv s.lex) (hz : Lexicon.NoZero s.lex) (pipeline : List Element) (text term : TextArg)
    (hw : ∀ w ∈ wordsOf pipeline term, w ∉ wordsOf pipeline text) :
    search K pipeline (s.indexNewChecked ok K pipeline docid text).1.lex (s.indexNewChecked ok K pipeline docid text).1.ix term =
      search K pipeline s.lex s.ix term := by
  obtain ⟨-, h1, h2, h3, h4, h5⟩ := indexNewChecked_reject (K := K) hd (s.lex.sourceToWordIds pipeline text).2 s.ix
  show search K pipeline (s.lex.sourceToWordIds pipeline text).1 (indexNewChecked ok K docid (s.lex.sourceToWordIds pipeline text).2 s.ix).1
    term = _
  have hwords : ∀ l, Lexicon.text2list term = some l → Lexicon.runPipeline pipeline l = wordsOf pipeline term := by
    intro l hl
    unfold wordsOf
    rw [Lexicon.runPipeline_eq]
    cases term with
    | none => cases hl
    | str a => cases hl; rfl
    | list a => cases hl; rfl
  have hterm : (s.lex.sourceToWordIds pipeline text).1.termToWordIds pipeline term = s.lex.termToWordIds pipeline term := by
    unfold Lexicon.termToWordIds
    cases hl : Lexicon.text2list term with
    | none => rfl
    | some l =>
      dsimp only
      rw [hwords l hl]
      congr 1
      exact List.map_congr_left (fun w h => (source_other hi hz pipeline text (hw w h)).1)
  unfold search
  rw [hterm]
  cases ht : s.lex.termToWordIds pipeline term with
  | error e => rfl
  | ok wids =>
    have hwids : ∀ w ∈ wids, (indexNewChecked ok K docid (s.lex.sourceToWordIds pipeline text).2 s.ix).1.wordinfo.get? w =
        s.ix.wordinfo.get? w := by
      intro w hmem
      unfold Lexicon.termToWordIds at ht
      cases hl : Lexicon.text2list term with
      | none => rw [hl] at ht; cases ht
      | some l =>
        rw [hl] at ht
        dsimp only at ht
        rw [hwords l hl] at ht
        cases ht
        obtain ⟨v, hv, rfl⟩ := List.mem_map.1 hmem
        apply h5
        intro r hr
        obtain ⟨r', e', -, hk⟩ := hK.freqs (s.lex.sourceToWordIds pipeline text).2
        rw [hr] at e'
        cases e'
        rw [hk]
        exact (source_other hi hz pipeline text (hw v hv)).2
    show (if wids.isEmpty then _ else _) = (if wids.isEmpty then _ else _)
    have hoov : removeOov (indexNewChecked ok K docid (s.lex.sourceToWordIds pipeline text).2 s.ix).1 wids = removeOov s.ix wids := by
      unfold removeOov
      apply List.filter_congr
      intro w hmem
      unfold SMap.contains
      rw [hwids w hmem]
    have hun : searchUnion K (indexNewChecked ok K docid (s.lex.sourceToWordIds pipeline text).2 s.ix).1 wids = searchUnion K s.ix wids := by
      unfold searchUnion
      rw [hoov, hL _ s.ix (removeOov s.ix wids) h1 h3 h4 (fun w hm => hwids w (List.mem_filter.1 hm).1)]
    split
    · rfl
    · rw [hun]

end Verif.Text
