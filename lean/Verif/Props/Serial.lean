import Verif.Proofs.Serial
import Verif.Props.TxnText
import Mathlib.Data.List.Permutation

/-! # C87: transactions have the effect of being run one after the other -/

set_option autoImplicit false

namespace Verif

open Spec Spec.Txn Text

/-! ## The field index -/

section field
variable {D V : Type} [LinearOrder D] [LinearOrder V]

theorem fieldUpdate_local : Verif.Txn.Local (Spec.Field.update (D := D) (V := V)) fieldNames where
  other m op d h := by
    cases op with
    | index d' v => exact if_neg h
    | unindex d' => exact if_neg h
    | clear => exact absurd trivial h
  self m m' op d h := by
    cases op with
    | index d' v => simp [Spec.Field.update, h]
    | unindex d' => simp [Spec.Field.update, h]
    | clear => rfl

/-- C87, field indexes: if no transaction names a document that was changed by others while it ran, then the committed states are those of
an index used by one thread, which executes the calls of the committed transactions, one transaction after the other.  Missing:
transactions that name a document changed by others (without changing it themselves, otherwise they are aborted), see `C87_fails`. -/
theorem C87_field_partial (ts : List (Txn (Field.Op D V))) (hc : ∀ t ∈ ts, Field.Op.clear ∉ t.ops)
    (hn : NamedUntouched HField.engine HField.new fieldNames (fun s t d => fieldAlike s.view t.view d) ts) :
    List.Forall₂ (fun (s : HField D V) done => s.view = Field.run (calls done))
      (Db.run HField.engine HField.new ts).states.reverse (committed HField.engine (HField.new : HField D V) ts).inits := by
  have hok : ∀ t ∈ ts, ∀ op ∈ t.ops, op ≠ Field.Op.clear := fun t ht op hop he => hc t ht (he ▸ hop)
  have hn := HField.sound.untouched HField.wf_new ts hok (same := fun s t d => fieldAlike s.view t.view d) (by
    intro n s t d hs ht _ h
    obtain ⟨ops, h1, h2⟩ := hs.rebuilt
    obtain ⟨ops', h1', h2'⟩ := ht.rebuilt
    show s.rev.get? d = t.rev.get? d
    have key : ∀ v, s.rev.get? d = some v ↔ t.rev.get? d = some v := by
      intro v
      obtain ⟨r, e, hr⟩ := C01_range_query ops (some v) (some v)
      obtain ⟨r', e', hr'⟩ := C01_range_query ops' (some v) (some v)
      rw [← h2] at e
      rw [← h2'] at e'
      have := h _ _ r r' e e'
      rw [hr, hr', h1, h1'] at this
      have hin : ∀ v', Spec.Field.InRange (some v) (some v) v' ↔ v' = v := by
        intro v'
        unfold Spec.Field.InRange
        constructor
        · rintro ⟨a, b⟩
          exact le_antisymm (b v rfl) (a v rfl)
        · rintro rfl
          exact ⟨fun l hl => by cases hl; exact le_refl _, fun l hl => by cases hl; exact le_refl _⟩
      simpa [hin] using this
    cases ha : s.rev.get? d with
    | none =>
      cases hb : t.rev.get? d with
      | none => rfl
      | some v => rw [(key v).2 hb] at ha; cases ha
    | some v => exact ((key v).1 ha).symm) hn
  have h := HField.sound.serial fieldUpdate_local HField.wf_new ts hok hn
  obtain ⟨-, h2, -⟩ := HField.sound.history (HField.wf_new (D := D) (V := V)) ts hok
  refine (Txn.forall₂_mem h).imp ?_
  rintro s done ⟨hs, -, ha⟩
  have hw := h2 s (List.mem_reverse.1 hs)
  obtain ⟨ops, h1, h3⟩ := hw.rebuilt
  rw [h3]
  refine C04_history_independent ops (calls done) (fun d => ?_)
  rw [h1]
  have := congrFun ha d
  exact this

end field

/-! ## The keyword index -/

section keyword
variable {D W : Type} [LinearOrder D] [LinearOrder W]

theorem kwUpdate_local (normalize : List W → List W) : Verif.Txn.Local (kwUpdate (D := D) normalize) keywordNames where
  other m op d h := by
    cases op with
    | index d' seq =>
      cases seq with
      | str => rfl
      | seq truthy items => exact if_neg h
    | unindex d' => exact if_neg h
    | clear => exact absurd trivial h
    | optimize => rfl
    | setThreshold n => rfl
  self m m' op d h := by
    cases op with
    | index d' seq =>
      cases seq with
      | str => exact h
      | seq truthy items => simp [kwUpdate, h]
    | unindex d' => simp [kwUpdate, h]
    | clear => exact h
    | optimize => exact h
    | setThreshold n => exact h

/-- the two descriptions of what a call does agree -/
theorem kwUpdate_current (normalize : List W → List W) (ops : List (Keyword.Op D W)) (hu : ∀ op ∈ ops, op ≠ .clear) (d : D) (w : W) :
    w ∈ Spec.Keyword.current normalize ops d ↔ ops.foldl (kwUpdate normalize) (fun _ _ => False) d w := by
  unfold Spec.Keyword.current
  have key : ∀ (m : D → List W) (p : D → W → Prop), (∀ d w, w ∈ m d ↔ p d w) →
      ∀ d w, w ∈ ops.foldl (Spec.Keyword.update normalize) m d ↔ ops.foldl (kwUpdate normalize) p d w := by
    induction ops with
    | nil => intro m p h; exact h
    | cons op ops ih =>
      intro m p h
      refine ih (fun o ho => hu o (by simp [ho])) _ _ ?_
      intro d w
      have hop := hu op (by simp)
      cases op with
      | index d' seq =>
        cases seq with
        | str => exact h d w
        | seq truthy items =>
          unfold Spec.Keyword.update kwUpdate
          by_cases hd : d = d' <;> cases truthy <;> simp [hd, h]
      | unindex d' =>
        unfold Spec.Keyword.update kwUpdate
        by_cases hd : d = d' <;> simp [hd, h]
      | clear => exact absurd rfl hop
      | optimize => exact h d w
      | setThreshold n => exact h d w
  exact key _ _ (by simp) d w

/-- C87, keyword indexes: the same, as long as no keyword is given to 64 documents (see `C70_keyword_fails`) -/
theorem C87_keyword_partial (normalize : List W → List W) (ts : List (Txn (Keyword.Op D W)))
    (hu : ∀ t ∈ ts, ∀ op ∈ t.ops, IsUpdate op) (hp : ∀ t ∈ ts, Spec.Keyword.Plain normalize t.ops)
    (hf : FewerThan 64 normalize ts)
    (hn : NamedUntouched (HKeyword.engine normalize) HKeyword.new keywordNames (fun s t d => keywordAlike s.view t.view d) ts) :
    List.Forall₂ (fun (s : HKeyword D W) done =>
        (∀ q op, s.view.search normalize q op = (Keyword.run normalize (calls done)).search normalize q op) ∧
        s.view.documentCount = (Keyword.run normalize (calls done)).documentCount ∧
        s.view.wordCount = (Keyword.run normalize (calls done)).wordCount ∧
        ∀ d, s.view.hasDoc d = (Keyword.run normalize (calls done)).hasDoc d)
      (Db.run (HKeyword.engine normalize) HKeyword.new ts).states.reverse
      (committed (HKeyword.engine normalize) (HKeyword.new : HKeyword D W) ts).inits := by
  have hok : ∀ t ∈ ts, ∀ op ∈ t.ops, HKeyword.OkOp normalize (Given normalize ts) op := by
    intro t ht op hop
    refine ⟨hu t ht op hop, ?_⟩
    rintro d items rfl
    exact ⟨hp t ht d items hop, fun w hw => ⟨t, ht, items, hop, hw⟩⟩
  have hn := (HKeyword.sound normalize (Given normalize ts) hf).untouched HKeyword.wfTxn_new ts hok
    (same := fun s t d => keywordAlike s.view t.view d) (by
      intro n s t d hs ht _ h
      obtain ⟨ops, p1, h1, h2, -⟩ := hs.rebuilt id
      obtain ⟨ops', p1', h1', h2', -⟩ := ht.rebuilt id
      show s.kws d = t.kws d
      funext w
      obtain ⟨r, e, hr⟩ := C11_or id ops p1 (.str w)
      obtain ⟨r', e', hr'⟩ := C11_or id ops' p1' (.str w)
      rw [← h2] at e
      rw [← h2'] at e'
      have := h _ r r' e e'
      rw [hr, hr'] at this
      simp only [Spec.Keyword.words, id, List.mem_singleton, exists_eq_left] at this
      rw [show Spec.Keyword.current id ops = Spec.Keyword.current (fun l => l) ops from rfl] at *
      exact propext ((h1 d w).symm.trans (this.trans (h1' d w)))) hn
  have h := (HKeyword.sound normalize (Given normalize ts) hf).serial (kwUpdate_local normalize) HKeyword.wfTxn_new ts hok hn
  obtain ⟨-, h2, -⟩ := (HKeyword.sound normalize (Given normalize ts) hf).history HKeyword.wfTxn_new ts hok
  refine (Txn.forall₂_mem h).imp ?_
  rintro s done ⟨hs, hd, ha⟩
  have hw := h2 s (List.mem_reverse.1 hs)
  have hplain : Spec.Keyword.Plain normalize (calls done) := by
    intro d items hop
    obtain ⟨t, ht, hop⟩ := Txn.mem_calls hd hop
    exact hp t ht d items hop
  have hup : ∀ op ∈ calls done, op ≠ .clear := by
    rintro op hop rfl
    obtain ⟨t, ht, hop⟩ := Txn.mem_calls hd hop
    exact hu t ht _ hop
  have habs : (HKeyword.sound normalize (Given normalize ts) hf).abs (HKeyword.new : HKeyword D W) = fun _ _ => False := by
    funext d w
    show (∃ ks, (SMap.empty : SMap D (SSet W)).get? d = some ks ∧ _) = _
    simp
  rw [habs] at ha
  have hsame := Keyword.same_of_inv (HKeyword.inv_view hw) (Keyword.run_inv normalize (calls done) hplain) (fun d w => by
    rw [kwUpdate_current normalize _ hup, ← ha]
    show _ ↔ ∃ ks, s.rev.get? d = some ks ∧ w ∈ ks.keys
    cases s.rev.get? d with
    | none => simp
    | some ks => simp)
  refine ⟨fun q op => Keyword.same_search hsame normalize q op, hsame.numDocs, Keyword.same_wordCount hsame, ?_⟩
  intro d
  unfold Keyword.hasDoc
  rw [hsame.rev]

end keyword

/-! ## The text index -/

section text
open Text
variable {D R : Type} [LinearOrder D] {A : Arith R} {Pos : R → Prop} {K : Kind D R}

theorem textUpdate_local (pipeline : List Element) : Verif.Txn.Local (textUpdate (D := D) pipeline) textNames where
  other m op d h := by
    cases op with
    | index d' t c => exact if_neg h
    | unindex d' => exact if_neg h
  self m m' op d h := by
    cases op with
    | index d' t c => simp [textUpdate, h]
    | unindex d' => simp [textUpdate, h]

/-- the two descriptions of what a call does agree -/
theorem textUpdate_words (pipeline : List Element) (ops : List (TOp D)) :
    ops.foldl (textUpdate pipeline) (fun _ => none) = docWords pipeline (ops.map textCall) := by
  induction ops using List.reverseRecOn with
  | nil => rfl
  | append_singleton ops op ih =>
    rw [List.foldl_append, List.foldl_cons, List.foldl_nil, ih]
    funext d
    rw [List.map_append, List.map_cons, List.map_nil]
    unfold docWords
    rw [currentText_snoc]
    cases op with
    | index d' t c => by_cases hd : d = d' <;> simp [textUpdate, textCall, textStep, hd]
    | unindex d' => by_cases hd : d = d' <;> simp [textUpdate, textCall, textStep, hd]

/-- C87, text indexes: if no transaction names a document that was changed by others while it ran, then the documents have the word
sequences that the calls of the committed transactions give them, one transaction after the other, and every committed state answers
all calls, scores included, like an index used by one thread in which the documents have these word sequences -/
theorem C87_text_partial [DecidableEq R] (hA : Positive A Pos) (hK : Ranked A Pos K) (pipeline : List Element) (ts : List (Txn (TOp D)))
    (hc : ∀ t ∈ ts, ∀ d tx c, TOp.index d tx c ∈ t.ops → 0 ≤ c)
    (he : K.hasTotal = true → ∀ t ∈ ts, ∀ d tx c, TOp.index d tx c ∈ t.ops → CountsExact A pipeline tx)
    (hn : NamedUntouched (HTI.engine K pipeline) HTI.new textNames
      (fun s t d => Text.getWords s.view.ix d = Text.getWords t.view.ix d) ts) :
    List.Forall₂ (fun (s : HTI D R) done => ∃ (ops : List (Text.Op D)) (s1 : TI D R),
        docWords pipeline ops = docWords pipeline ((calls done).map textCall) ∧
        SmallLexicon pipeline ops ∧ NoClear ops ∧ (K.hasTotal = true → LengthsExact A pipeline ops) ∧
        run K pipeline ops = .ok s1 ∧ SameAnswers K pipeline s.view s1)
      (Db.run (HTI.engine K pipeline) HTI.new ts).states.reverse
      (committed (HTI.engine K pipeline) (HTI.new : HTI D R) ts).inits := by
  have ha := hK.arith
  subst ha
  have hL := hK.lawful hA
  have hok : ∀ t ∈ ts, ∀ op ∈ t.ops, HTI.OkOp K pipeline op := by
    intro t ht op hop
    cases op with
    | index d tx c => exact ⟨hc t ht d tx c hop, fun h => he h t ht d tx c hop⟩
    | unindex d => trivial
  have hn := (HTI.sound (pipeline := pipeline) hL hK.counted).untouched HTI.wf_new ts hok
    (same := fun s t d => Text.getWords s.view.ix d = Text.getWords t.view.ix d) (by
      intro n s t d hs ht hev h
      refine HTI.abs_le hs ht hev.2 ?_
      have key : ∀ {s : HTI D R}, HTI.Wf K pipeline n s → Text.getWords s.view.ix d =
          match s.ix.wordsIn d with | none => .error .KeyError | some ws => .ok ws := by
        intro s hs
        have h1 : s.view.ix.docwords.get? d = (s.ix.wordsIn d).map WidCode.encs := hs.ok.docwords d
        unfold Text.getWords
        rw [h1]
        cases hw : s.ix.wordsIn d with
        | none => rfl
        | some ws => exact WidCode.decode_encs (hs.ok.valid d ws hw)
      rw [key hs, key ht] at h
      cases h1 : s.ix.wordsIn d <;> cases h2 : t.ix.wordsIn d <;> rw [h1, h2] at h <;> simp_all) hn
  have h := (HTI.sound (pipeline := pipeline) hL hK.counted).serial (textUpdate_local pipeline) HTI.wf_new ts hok hn
  obtain ⟨-, h2, -⟩ := (HTI.sound (pipeline := pipeline) hL hK.counted).history HTI.wf_new ts hok
  refine (Txn.forall₂_mem h).imp ?_
  rintro s done ⟨hs, -, ha⟩
  obtain ⟨ops, s1, a1, a2, a3, a4, a5, a6⟩ := (h2 s (List.mem_reverse.1 hs)).rebuilt hL hK.counted
  refine ⟨ops, s1, ?_, a2, a3, a4, a5, a6.answers hK.reads pipeline⟩
  rw [a1, ← textUpdate_words]
  exact ha

end text

/-! ## The property as stated fails -/

/-- two transactions overlap: each gives one document a new value, and another document the value it has -/
def exSkew : List (Txn (Field.Op Nat Nat)) :=
  [⟨0, [.index 1 5, .index 2 7, .index 3 5, .index 4 6, .index 5 7, .index 6 8], false⟩,
   ⟨0, [.index 1 5, .index 2 8], false⟩,
   ⟨1, [.index 1 6, .index 2 7], false⟩]

/-- C87 fails: `index_doc` writes nothing if the document has the value already, so the database does not notice that a transaction
relied on it.  Two transactions each give two documents their values, both commit, and one document has the value given by the first,
the other the value given by the second: no order of the transactions, run one after the other, gives this answer. -/
theorem C87_fails : ∃ ts : List (Txn (Field.Op Nat Nat)), (∀ t ∈ ts, Field.Op.clear ∉ t.ops) ∧
    (committed HField.engine HField.new ts).length = ts.length ∧
    ∀ order, order.Perm ts → ∃ v, ((Db.run HField.engine HField.new ts).latest.view.apply (.tuple [some v, some v])).toOption.map (·.toList) ≠
      ((Field.run (calls order)).apply (.tuple [some v, some v])).toOption.map (·.toList) := by
  refine ⟨exSkew, ?_, by decide +kernel, ?_⟩
  · intro t ht
    simp only [exSkew, List.mem_cons, List.not_mem_nil, or_false] at ht
    rcases ht with rfl | rfl | rfl <;> simp
  · intro order ho
    rw [← List.mem_permutations'] at ho
    have key : ∀ order ∈ exSkew.permutations', ∃ v ∈ [5, 6, 7, 8],
        ((Db.run HField.engine HField.new exSkew).latest.view.apply (.tuple [some v, some v])).toOption.map (·.toList) ≠
          ((Field.run (calls order)).apply (.tuple [some v, some v])).toOption.map (·.toList) := by decide +kernel
    obtain ⟨v, -, hv⟩ := key order ho
    exact ⟨v, hv⟩

/-! ## The hypotheses can be met -/

/-- overlapping transactions on different documents, and one that is aborted -/
def exSerial : List (Txn (Field.Op Nat Nat)) :=
  [⟨0, [.index 1 5, .index 2 7, .index 3 5, .index 4 6, .index 5 7], false⟩,
   ⟨0, [.index 1 6, .index 6 6], false⟩,
   ⟨1, [.index 2 5], false⟩,
   ⟨2, [.index 1 7], false⟩]

/-- documents with the same value look alike -/
theorem fieldAlike_of_value {D V : Type} [LinearOrder D] [LinearOrder V] (ts : List (Txn (Field.Op D V)))
    (hc : ∀ t ∈ ts, Field.Op.clear ∉ t.ops) (s t : HField D V) (hs : s ∈ (Db.run HField.engine HField.new ts).states)
    (ht : t ∈ (Db.run HField.engine HField.new ts).states) (d : D) (h : s.rev.get? d = t.rev.get? d) : fieldAlike s.view t.view d := by
  obtain ⟨-, h2, -⟩ := HField.sound.history (HField.wf_new (D := D) (V := V)) ts (fun t ht op hop he => hc t ht (he ▸ hop))
  obtain ⟨ops, h1, h3⟩ := (h2 s hs).rebuilt
  obtain ⟨ops', h1', h3'⟩ := (h2 t ht).rebuilt
  intro lo hi r r' e e'
  obtain ⟨q, f, hq⟩ := C01_range_query ops lo hi
  obtain ⟨q', f', hq'⟩ := C01_range_query ops' lo hi
  rw [← h3, e] at f
  rw [← h3', e'] at f'
  cases f
  cases f'
  rw [hq, hq', h1, h1', h]

/-- the hypotheses of `C87_field_partial`: the third transaction did not see the changes of the second, the fourth is aborted -/
example : (∀ t ∈ exSerial, Field.Op.clear ∉ t.ops) ∧
    NamedUntouched HField.engine HField.new fieldNames (fun s t d => fieldAlike s.view t.view d) exSerial := by
  have hc : ∀ t ∈ exSerial, Field.Op.clear ∉ t.ops := by
    intro t ht
    simp only [exSerial, List.mem_cons, List.not_mem_nil, or_false] at ht
    rcases ht with rfl | rfl | rfl | rfl <;> simp
  refine ⟨hc, ?_⟩
  intro before t after he hcm base hb op hop d hd
  have hbefore : ∀ t ∈ before, Field.Op.clear ∉ t.ops := fun t' ht => hc t' (by rw [he]; simp [ht])
  refine fieldAlike_of_value before hbefore _ _ (List.mem_of_getElem? hb) (by simp [Db.states]) d ?_
  rcases before with _ | ⟨a, _ | ⟨b, _ | ⟨c, _ | ⟨e, rest⟩⟩⟩⟩
  · obtain ⟨rfl, -⟩ : t = _ ∧ _ := by simpa [exSerial, eq_comm] using he
    cases hb; rfl
  · obtain ⟨rfl, rfl, -⟩ : a = _ ∧ t = _ ∧ _ := by simpa [exSerial, eq_comm] using he
    cases hb; rfl
  · obtain ⟨rfl, rfl, rfl, -⟩ : a = _ ∧ b = _ ∧ t = _ ∧ _ := by simpa [exSerial, eq_comm] using he
    obtain rfl : op = .index 2 5 := by simpa using hop
    obtain rfl : d = 2 := hd
    have := congrArg (Option.map (fun s => s.rev.get? 2)) hb
    refine Option.some.inj (this.symm.trans ?_)
    decide +kernel
  · obtain ⟨rfl, rfl, rfl, rfl, -⟩ : a = _ ∧ b = _ ∧ c = _ ∧ t = _ ∧ _ := by simpa [exSerial, eq_comm] using he
    exfalso
    have := congrArg List.length hcm
    revert this
    decide +kernel
  · simp [exSerial] at he
example : (committed HField.engine HField.new exSerial).length = 3 := by decide +kernel
example : (Db.run HField.engine HField.new exSerial).latest.rev.items = [(1, 6), (2, 5), (3, 5), (4, 6), (5, 7), (6, 6)] := by decide +kernel

/-- documents with the same keywords look alike -/
theorem keywordAlike_of_keywords {D W : Type} [LinearOrder D] [LinearOrder W] {P : W → D → Prop} {n : Nat} {s t : HKeyword D W}
    (hs : HKeyword.Wf P n s) (ht : HKeyword.Wf P n t) (d : D) (h : s.rev.get? d = t.rev.get? d) : keywordAlike s.view t.view d := by
  obtain ⟨ops, p1, h1, h2, -⟩ := hs.rebuilt id
  obtain ⟨ops', p1', h1', h2', -⟩ := ht.rebuilt id
  intro w r r' e e'
  obtain ⟨q, f, hq⟩ := C11_or id ops p1 (.str w)
  obtain ⟨q', f', hq'⟩ := C11_or id ops' p1' (.str w)
  rw [← h2, e] at f
  rw [← h2', e'] at f'
  cases f
  cases f'
  rw [hq, hq']
  simp only [id, Spec.Keyword.words, List.mem_singleton, exists_eq_left]
  have e1 := h1 d w
  have e2 := h1' d w
  unfold HKeyword.kws at e1 e2
  rw [h] at e1
  exact e1.trans e2.symm

/-- the hypotheses of `C87_keyword_partial`: the third transaction did not see the changes of the second -/
example : (∀ t ∈ exKeywordSmall, ∀ op ∈ t.ops, IsUpdate op) ∧ (∀ t ∈ exKeywordSmall, Spec.Keyword.Plain id t.ops) ∧
    FewerThan 64 id exKeywordSmall ∧
    NamedUntouched (HKeyword.engine id) HKeyword.new keywordNames (fun s t d => keywordAlike s.view t.view d) exKeywordSmall := by
  have hu : ∀ t ∈ exKeywordSmall, ∀ op ∈ t.ops, IsUpdate op := by
    intro t ht
    simp only [exKeywordSmall, List.mem_cons, List.not_mem_nil, or_false] at ht
    rcases ht with rfl | rfl | rfl <;> simp [IsUpdate]
  have hp : ∀ t ∈ exKeywordSmall, Spec.Keyword.Plain id t.ops := by
    intro t ht d items hop
    simp only [exKeywordSmall, List.mem_cons, List.not_mem_nil, or_false] at ht
    rcases ht with rfl | rfl | rfl
    · simp at hop; rcases hop with ⟨-, rfl⟩ | ⟨-, rfl⟩ <;> simp
    · simp at hop; rcases hop with ⟨-, rfl⟩; simp
    · simp at hop; rcases hop with ⟨-, rfl⟩; simp
  refine ⟨hu, hp, exKeywordSmall_few, ?_⟩
  intro before t after he hcm base hb op hop d hd
  have hok : ∀ t ∈ before, ∀ op ∈ t.ops, HKeyword.OkOp id (Given id exKeywordSmall) op := by
    intro t' ht' op' hop'
    have ht : t' ∈ exKeywordSmall := by rw [he]; simp [ht']
    refine ⟨hu t' ht op' hop', ?_⟩
    rintro d' items rfl
    exact ⟨hp t' ht d' items hop', fun w hw => ⟨t', ht, items, hop', hw⟩⟩
  obtain ⟨-, h2, -⟩ := (HKeyword.sound id (Given id exKeywordSmall) exKeywordSmall_few).history HKeyword.wfTxn_new before hok
  refine keywordAlike_of_keywords (h2 _ (List.mem_of_getElem? hb)) (h2 _ (by simp [Db.states])) d ?_
  rcases before with _ | ⟨a, _ | ⟨b, _ | ⟨c, rest⟩⟩⟩
  · obtain ⟨rfl, -⟩ : t = _ ∧ _ := by simpa [exKeywordSmall, eq_comm] using he
    cases hb; rfl
  · obtain ⟨rfl, rfl, -⟩ : a = _ ∧ t = _ ∧ _ := by simpa [exKeywordSmall, eq_comm] using he
    cases hb; rfl
  · obtain ⟨rfl, rfl, rfl, -⟩ : a = _ ∧ b = _ ∧ t = _ ∧ _ := by simpa [exKeywordSmall, eq_comm] using he
    obtain rfl : op = .index 1 (.seq true [9]) := by simpa using hop
    obtain rfl : d = 1 := hd
    have := congrArg (Option.map (fun s => s.rev.get? 1)) hb
    refine Option.some.inj (this.symm.trans ?_)
    decide +kernel
  · simp [exKeywordSmall] at he
example : (committed (HKeyword.engine id) HKeyword.new exKeywordSmall).length = 3 := by decide +kernel

/-- the hypotheses of `C87_text_partial`: the third transaction did not see the changes of the second, the fourth is aborted -/
example : NamedUntouched (HTI.engine (okapi exPosArith { k1 := 1, b := 1 }) []) HTI.new textNames
    (fun s t d => Text.getWords s.view.ix d = Text.getWords t.view.ix d) exTextTxns := by
  intro before t after he hcm base hb op hop d hd
  rcases before with _ | ⟨a, _ | ⟨b, _ | ⟨c, _ | ⟨e, rest⟩⟩⟩⟩
  · obtain ⟨rfl, -⟩ : t = _ ∧ _ := by simpa [exTextTxns, eq_comm] using he
    cases hb; rfl
  · obtain ⟨rfl, rfl, -⟩ : a = _ ∧ t = _ ∧ _ := by simpa [exTextTxns, eq_comm] using he
    cases hb; rfl
  · obtain ⟨rfl, rfl, rfl, -⟩ : a = _ ∧ b = _ ∧ t = _ ∧ _ := by simpa [exTextTxns, eq_comm] using he
    have := congrArg (Option.map (fun s => Text.getWords (HTI.view s).ix d)) hb
    refine Option.some.inj (this.symm.trans ?_)
    have hd : d = 1 ∨ d = 4 := by
      simp only [List.mem_cons, List.not_mem_nil, or_false] at hop
      rcases hop with rfl | rfl
      · exact Or.inl hd
      · exact Or.inr hd
    rcases hd with rfl | rfl <;> decide +kernel
  · obtain ⟨rfl, rfl, rfl, rfl, -⟩ : a = _ ∧ b = _ ∧ c = _ ∧ t = _ ∧ _ := by simpa [exTextTxns, eq_comm] using he
    exfalso
    have := congrArg List.length hcm
    revert this
    decide +kernel
  · simp [exTextTxns] at he
example : (committed (HTI.engine (okapi exPosArith { k1 := 1, b := 1 }) []) HTI.new exTextTxns).length = 3 := by decide +kernel

end Verif
