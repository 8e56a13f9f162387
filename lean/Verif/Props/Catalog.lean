import Verif.Proofs.Catalog
import Verif.Props.Serial

/-! # C93: indexes changed in the same transactions -/

set_option autoImplicit false

namespace Verif

open Spec Spec.Txn Text

section
variable {D V R : Type} [LinearOrder D] [LinearOrder V] {A : Arith R} {Pos : R → Prop} {K : Kind D R}

omit [LinearOrder V] in
/-- the calls the proofs are about -/
theorem catOk [DecidableEq R] (hK : Ranked A Pos K) (pipeline : List Element) (ts : List (Txn (CatOp D V)))
    (hc : ∀ t ∈ ts, ∀ d v tx c, CatOp.index d v tx c ∈ t.ops → 0 ≤ c)
    (he : K.hasTotal = true → ∀ t ∈ ts, ∀ d v tx c, CatOp.index d v tx c ∈ t.ops → CountsExact A pipeline tx) :
    ∀ t ∈ ts, ∀ op ∈ t.ops, op.field ≠ Field.Op.clear ∧ HTI.OkOp K pipeline op.text := by
  have ha := hK.arith
  subst ha
  intro t ht op hop
  cases op with
  | index d v tx c =>
    exact ⟨nofun, hc t ht d v tx c hop, fun h => he h t ht d v tx c hop⟩
  | unindex d => exact ⟨nofun, trivial⟩

/-- documents that range queries find alike have the same value -/
theorem fieldAlike_value {n m : Nat} {s t : HField D V} (hs : HField.Wf n s) (ht : HField.Wf m t) {d : D}
    (h : fieldAlike s.view t.view d) : s.rev.get? d = t.rev.get? d := by
  obtain ⟨ops, h1, h2⟩ := hs.rebuilt
  obtain ⟨ops', h1', h2'⟩ := ht.rebuilt
  have key : ∀ v, s.rev.get? d = some v ↔ t.rev.get? d = some v := by
    intro v
    obtain ⟨r, e, hr⟩ := C01_range_query ops (some v) (some v)
    obtain ⟨r', e', hr'⟩ := C01_range_query ops' (some v) (some v)
    rw [← h2] at e
    rw [← h2'] at e'
    have := h _ _ r r' e e'
    rw [hr, hr', h1, h1'] at this
    have hin : ∀ v', Spec.Field.InRange (some v) (some v) v' ↔ v' = v := by
      intro v'
      unfold Spec.Field.InRange
      constructor
      · rintro ⟨a, b⟩
        exact le_antisymm (b v rfl) (a v rfl)
      · rintro rfl
        exact ⟨fun l hl => by cases hl; exact le_refl _, fun l hl => by cases hl; exact le_refl _⟩
    simpa [hin] using this
  cases ha : s.rev.get? d with
  | none =>
    cases hb : t.rev.get? d with
    | none => rfl
    | some v => rw [(key v).2 hb] at ha; cases ha
  | some v => exact ((key v).1 ha).symm

/-- documents with the same word ids have the same words -/
theorem getWords_words {n m : Nat} {pipeline : List Element} {s t : HTI D R} (hs : HTI.Wf K pipeline n s) (ht : HTI.Wf K pipeline m t)
    (hl : Lexicon.Le s.lex t.lex) {d : D} (h : Text.getWords s.view.ix d = Text.getWords t.view.ix d) : HTI.abs s d = HTI.abs t d := by
  refine HTI.abs_le hs ht hl ?_
  have key : ∀ {n : Nat} {s : HTI D R}, HTI.Wf K pipeline n s → Text.getWords s.view.ix d =
      match s.ix.wordsIn d with | none => .error .KeyError | some ws => .ok ws := by
    intro n s hs
    have h1 : s.view.ix.docwords.get? d = (s.ix.wordsIn d).map WidCode.encs := hs.ok.docwords d
    unfold Text.getWords
    rw [h1]
    cases hw : s.ix.wordsIn d with
    | none => rfl
    | some ws => exact WidCode.decode_encs (hs.ok.valid d ws hw)
  rw [key hs, key ht] at h
  cases h1 : s.ix.wordsIn d <;> cases h2 : t.ix.wordsIn d <;> rw [h1, h2] at h <;> simp_all

/-- C93: a program keeps a field index and a text index, and each of its transactions gives documents values and texts, or removes them.
However the transactions overlap, the committed values follow the history of the calls on the field index, the committed word sequences
that of the calls on the text index, with the same transactions aborted in both; a document has a value if and only if it has a text;
and the two indexes answer all calls like indexes used by one thread to which these values and texts were given -/
theorem C93_together [DecidableEq R] (hA : Positive A Pos) (hK : Ranked A Pos K) (pipeline : List Element) (ts : List (Txn (CatOp D V)))
    (hc : ∀ t ∈ ts, ∀ d v tx c, CatOp.index d v tx c ∈ t.ops → 0 ≤ c)
    (he : K.hasTotal = true → ∀ t ∈ ts, ∀ d v tx c, CatOp.index d v tx c ∈ t.ops → CountsExact A pipeline tx) :
    ∃ ms : List ((D → Option V) × (D → Option (List Word))),
      History Spec.Field.update (fun _ => none) (ts.map (part CatOp.field)) (ms.map Prod.fst) ∧
      History (textUpdate pipeline) (fun _ => none) (ts.map (part CatOp.text)) (ms.map Prod.snd) ∧
      (∀ m ∈ ms, ∀ d, (m.1 d).isSome = (m.2 d).isSome) ∧
      List.Forall₂ (fun (s : HField D V × HTI D R) m =>
          (∃ ops, Spec.Field.current ops = m.1 ∧ s.1.view = Field.run ops) ∧
          ∃ (ops : List (Text.Op D)) (s1 : TI D R), docWords pipeline ops = m.2 ∧
            SmallLexicon pipeline ops ∧ NoClear ops ∧ (K.hasTotal = true → LengthsExact A pipeline ops) ∧
            run K pipeline ops = .ok s1 ∧ SameAnswers K pipeline s.2.view s1)
        (Db.run (catEngine K pipeline) catNew ts).states ms := by
  have hok := catOk hK pipeline ts hc he
  have ha := hK.arith
  subst ha
  have hL := hK.lawful hA
  let S := Txn.Sound.both (HField.sound (D := D) (V := V)) (HTI.sound (pipeline := pipeline) hL hK.counted) CatOp.field CatOp.text none none
  obtain ⟨h1, h2, -⟩ := S.history (s₀ := catNew) ⟨HField.wf_new, HTI.wf_new⟩ ts hok
  refine ⟨(Db.run (catEngine K pipeline) catNew ts).states.map (fun s => (s.1.rev.get?, HTI.abs s.2)), ?_, ?_, ?_, ?_⟩
  · have := Txn.History.left h1
    rw [List.map_map] at this
    rw [List.map_map]
    exact this
  · have := Txn.History.right h1
    rw [List.map_map] at this
    rw [List.map_map]
    exact this
  · intro m hm d
    obtain ⟨s, hs, rfl⟩ := List.mem_map.1 hm
    refine Txn.History.agree (p₁ := Option.isSome) (p₂ := Option.isSome) ?_ h1 (fun d => rfl) (S.abs s) (List.mem_map.2 ⟨s, hs, rfl⟩) d
    intro m₁ m₂ op h d
    cases op with
    | index d' v t c =>
      show (if d = d' then some v else m₁ d).isSome = (if d = d' then some (wordsOf pipeline t) else m₂ d).isSome
      split
      · rfl
      · exact h d
    | unindex d' =>
      show (if d = d' then none else m₁ d).isSome = (if d = d' then none else m₂ d).isSome
      split
      · rfl
      · exact h d
  · rw [List.forall₂_map_right_iff, List.forall₂_same]
    intro s hs
    obtain ⟨w1, w2⟩ := h2 s hs
    refine ⟨HField.Wf.rebuilt w1, ?_⟩
    obtain ⟨ops, s1, a1, a2, a3, a4, a5, a6⟩ := w2.rebuilt hL hK.counted
    exact ⟨ops, s1, a1, a2, a3, a4, a5, a6.answers hK.reads pipeline⟩

/-- C93: in every committed state, each document is in both indexes or in neither: the range query without bounds finds exactly the
documents that the text index has, and both indexes count the same number of documents -/
theorem C93_present [DecidableEq R] (hA : Positive A Pos) (hK : Ranked A Pos K) (pipeline : List Element) (ts : List (Txn (CatOp D V)))
    (hc : ∀ t ∈ ts, ∀ d v tx c, CatOp.index d v tx c ∈ t.ops → 0 ≤ c)
    (he : K.hasTotal = true → ∀ t ∈ ts, ∀ d v tx c, CatOp.index d v tx c ∈ t.ops → CountsExact A pipeline tx) :
    ∀ s ∈ (Db.run (catEngine K pipeline) catNew ts).states,
      (∃ r, s.1.view.apply (.tuple [none, none]) = .ok r ∧ ∀ d, d ∈ r.toList ↔ hasDoc s.2.view.ix d = true) ∧
      s.1.view.documentCount = s.2.view.documentCount := by
  intro s hs
  obtain ⟨ms, -, -, hsome, h2⟩ := C93_together hA hK pipeline ts hc he
  obtain ⟨i, hi, rfl⟩ := List.getElem_of_mem hs
  have hi' : i < ms.length := h2.length_eq ▸ hi
  have hm : ms[i] ∈ ms := List.getElem_mem _
  obtain ⟨⟨ops, e1, e2⟩, ops', s1, f1, f2, -, -, f3, f4⟩ := List.Forall₂.get h2 hi hi'
  simp only [List.get_eq_getElem] at e1 e2 f1 f4
  have hex : ∀ d, (∃ v, Spec.Field.current ops d = some v) ↔ ∃ t, currentText ops' d = some t := by
    intro d
    have := hsome _ hm d
    rw [← e1, ← f1] at this
    unfold docWords at this
    rw [Option.isSome_map] at this
    rw [← Option.isSome_iff_exists, ← Option.isSome_iff_exists, this]
  refine ⟨?_, ?_⟩
  · obtain ⟨r, hr, hd⟩ := C01_range_query ops none none
    rw [e2]
    refine ⟨r, hr, fun d => ?_⟩
    obtain ⟨s', g1, -, g2, -⟩ := C51_documents K (hK.lawful hA) pipeline ops' f2
    obtain rfl : s' = s1 := Except.ok.inj (g1.symm.trans f3)
    rw [hd, f4.hasDoc, g2, ← hex]
    exact exists_congr (fun v => and_iff_left ⟨nofun, nofun⟩)
  · rw [e2, f4.documentCount]
    obtain ⟨n, c1, c2⟩ := C02_document_count ops
    obtain ⟨⟨n', c3, c4⟩, -⟩ := C52_statistics K (hK.lawful hA) pipeline ops' f2 s1 f3
    rw [c1, c3]
    refine congrArg Int.ofNat (C02_count_unique _ n n' c2 ?_)
    have : (fun d => (Spec.Field.current ops d).isSome = true) = (fun d => ∃ t, currentText ops' d = some t) := by
      funext d
      rw [Option.isSome_iff_exists, hex]
    rw [this]; exact c4

/-- C93: if no transaction names a document that was changed by others while it ran, then the two indexes are together as if one thread
had executed the calls of the committed transactions, one transaction after the other: each document has the value and the text that the
same transaction gave it.  Missing: transactions that name a document changed by others, see `C93_fails`. -/
theorem C93_serial_partial [DecidableEq R] (hA : Positive A Pos) (hK : Ranked A Pos K) (pipeline : List Element) (ts : List (Txn (CatOp D V)))
    (hc : ∀ t ∈ ts, ∀ d v tx c, CatOp.index d v tx c ∈ t.ops → 0 ≤ c)
    (he : K.hasTotal = true → ∀ t ∈ ts, ∀ d v tx c, CatOp.index d v tx c ∈ t.ops → CountsExact A pipeline tx)
    (hn : NamedUntouched (catEngine K pipeline) catNew catNames
      (fun s t d => fieldAlike s.1.view t.1.view d ∧ Text.getWords s.2.view.ix d = Text.getWords t.2.view.ix d) ts) :
    List.Forall₂ (fun (s : HField D V × HTI D R) done =>
        s.1.view = Field.run ((calls done).map CatOp.field) ∧
        ∃ (ops : List (Text.Op D)) (s1 : TI D R),
          docWords pipeline ops = docWords pipeline (((calls done).map CatOp.text).map textCall) ∧
          SmallLexicon pipeline ops ∧ NoClear ops ∧ (K.hasTotal = true → LengthsExact A pipeline ops) ∧
          run K pipeline ops = .ok s1 ∧ SameAnswers K pipeline s.2.view s1)
      (Db.run (catEngine K pipeline) catNew ts).states.reverse
      (committed (catEngine K pipeline) (catNew : HField D V × HTI D R) ts).inits := by
  have hok := catOk hK pipeline ts hc he
  have ha := hK.arith
  subst ha
  have hL := hK.lawful hA
  let S := Txn.Sound.both (HField.sound (D := D) (V := V)) (HTI.sound (pipeline := pipeline) hL hK.counted) CatOp.field CatOp.text none none
  have hnew : S.Wf 0 catNew := ⟨HField.wf_new, HTI.wf_new⟩
  have hn : NamedUntouched (catEngine K pipeline) (catNew : HField D V × HTI D R)
      (fun op (x : D ⊕ D) => match x with | .inl d => fieldNames (CatOp.field op) d | .inr d => textNames (CatOp.text op) d)
      (fun s t x => match x with
        | .inl d => fieldAlike s.1.view t.1.view d
        | .inr d => Text.getWords s.2.view.ix d = Text.getWords t.2.view.ix d) ts := by
    intro before t after he hcm base hb op hop x hx
    cases x with
    | inl d => exact (hn before t after he hcm base hb op hop d (by cases op <;> exact hx)).1
    | inr d => exact (hn before t after he hcm base hb op hop d (by cases op <;> exact hx)).2
  have hn := S.untouched hnew ts hok (by
    intro n s t x hs ht hev h
    cases x with
    | inl d => exact Prod.ext (fieldAlike_value hs.1 ht.1 h) rfl
    | inr d => exact Prod.ext rfl (getWords_words hs.2 ht.2 hev.2.2 h)) hn
  have h := S.serial (Txn.Local.both fieldUpdate_local (textUpdate_local pipeline)) hnew ts hok hn
  obtain ⟨-, h2, -⟩ := S.history hnew ts hok
  refine (Txn.forall₂_mem h).imp ?_
  rintro s done ⟨hs, -, ha⟩
  obtain ⟨w1, w2⟩ := h2 s (List.mem_reverse.1 hs)
  refine ⟨?_, ?_⟩
  · obtain ⟨ops, h1, h3⟩ := w1.rebuilt
    rw [h3]
    refine C04_history_independent ops _ (fun d => ?_)
    rw [h1]
    have := congrFun ha (.inl d)
    rw [Txn.bothUpd_left] at this
    exact congrArg Prod.fst this
  · obtain ⟨ops, s1, a1, a2, a3, a4, a5, a6⟩ := w2.rebuilt hL hK.counted
    refine ⟨ops, s1, ?_, a2, a3, a4, a5, a6.answers hK.reads pipeline⟩
    rw [a1, ← textUpdate_words]
    funext d
    have := congrFun ha (.inr d)
    rw [Txn.bothUpd_right] at this
    exact congrArg Prod.snd this

end

/-! ## The property as stated fails -/

/-- two transactions overlap: both give document 1 a value and a text, the first keeps the text it had, the second the value it had -/
def exMixed : List (Txn (CatOp Nat Nat)) :=
  [⟨0, [.index 1 5 (.list [['d', 'o', 'g']]) 0, .index 2 5 (.list [['d', 'o', 'g']]) 1, .index 3 6 (.list [['c', 'a', 't']]) 2], false⟩,
   ⟨0, [.index 1 6 (.list [['d', 'o', 'g']]) 3], false⟩,
   ⟨1, [.index 1 5 (.list [['c', 'a', 't']]) 3], false⟩]

/-- C93 fails: two transactions give the same document a value and a text.  Both commit, because each index was changed by only one of
them, and afterwards the document has the value given by the one and the text given by the other, which no call gave it. -/
theorem C93_fails : ∃ ts : List (Txn (CatOp Nat Nat)),
    (committed (catEngine (okapi exPosArith { k1 := 1, b := 1 }) []) catNew ts).length = ts.length ∧
    ∃ v w, ((Db.run (catEngine (okapi exPosArith { k1 := 1, b := 1 }) []) catNew ts).latest.1.view.apply
        (.tuple [some v, some v])).toOption.map (fun r => r.toList.contains 1) = some true ∧
      ((search (okapi exPosArith { k1 := 1, b := 1 }) []
        (Db.run (catEngine (V := Nat) (okapi exPosArith { k1 := 1, b := 1 }) []) catNew ts).latest.2.view.lex
        (Db.run (catEngine (V := Nat) (okapi exPosArith { k1 := 1, b := 1 }) []) catNew ts).latest.2.view.ix
        (.list [w])).toOption.map (fun r => r.map (fun m => m.contains 1))) = some (some true) ∧
      ∀ t ∈ ts, ∀ tx c, CatOp.index 1 v tx c ∈ t.ops → w ∉ wordsOf [] tx := by
  refine ⟨exMixed, by decide +kernel, 6, ['c', 'a', 't'], by decide +kernel, by decide +kernel, ?_⟩
  intro t ht tx c h
  simp only [exMixed, List.mem_cons, List.not_mem_nil, or_false] at ht
  rcases ht with rfl | rfl | rfl <;> simp at h
  obtain ⟨rfl, -⟩ := h
  decide

/-! ## The hypotheses can be met -/

/-- documents with the same value are found alike -/
theorem catAlike_of_value {D V R : Type} [LinearOrder D] [LinearOrder V] {A : Arith R} {Pos : R → Prop} {K : Kind D R} [DecidableEq R]
    (hA : Positive A Pos) (hK : Ranked A Pos K) (pipeline : List Element) (ts : List (Txn (CatOp D V)))
    (hc : ∀ t ∈ ts, ∀ d v tx c, CatOp.index d v tx c ∈ t.ops → 0 ≤ c)
    (he : K.hasTotal = true → ∀ t ∈ ts, ∀ d v tx c, CatOp.index d v tx c ∈ t.ops → CountsExact A pipeline tx)
    {s t : HField D V × HTI D R} (hs : s ∈ (Db.run (catEngine K pipeline) catNew ts).states)
    (ht : t ∈ (Db.run (catEngine K pipeline) catNew ts).states) {d : D} (h : s.1.rev.get? d = t.1.rev.get? d) :
    fieldAlike s.1.view t.1.view d := by
  have hok := catOk hK pipeline ts hc he
  have ha := hK.arith
  subst ha
  let S := Txn.Sound.both (HField.sound (D := D) (V := V)) (HTI.sound (pipeline := pipeline) (hK.lawful hA) hK.counted)
    CatOp.field CatOp.text none none
  obtain ⟨-, h2, -⟩ := S.history (s₀ := catNew) ⟨HField.wf_new, HTI.wf_new⟩ ts hok
  obtain ⟨ops, h1, h3⟩ := (h2 s hs).1.rebuilt
  obtain ⟨ops', h1', h3'⟩ := (h2 t ht).1.rebuilt
  intro lo hi r r' e e'
  obtain ⟨q, f, hq⟩ := C01_range_query ops lo hi
  obtain ⟨q', f', hq'⟩ := C01_range_query ops' lo hi
  rw [← h3, e] at f
  rw [← h3', e'] at f'
  cases f
  cases f'
  rw [hq, hq', h1, h1', h]

/-- overlapping transactions on different documents, and one that is aborted -/
def exCatalog : List (Txn (CatOp Nat Nat)) :=
  [⟨0, [.index 1 5 (.list [['d', 'o', 'g'], ['c', 'a', 't']]) 0, .index 2 7 (.list [['d', 'o', 'g']]) 1, .index 5 7 (.list [['c', 'a', 't']]) 2,
      .index 6 5 (.list [['c', 'a', 't']]) 2], false⟩,
   ⟨0, [.index 3 8 (.list [['e', 'e', 'l'], ['e', 'e', 'l']]) 2], false⟩,
   ⟨1, [.unindex 1, .index 4 9 (.list [['f', 'o', 'x']]) 3], false⟩,
   ⟨2, [.index 3 8 (.list [['d', 'o', 'g']]) 9], false⟩]

example : (∀ t ∈ exCatalog, ∀ d v tx c, CatOp.index d v tx c ∈ t.ops → 0 ≤ c) ∧
    ∀ t ∈ exCatalog, ∀ d v tx c, CatOp.index d v tx c ∈ t.ops → CountsExact exPosArith [] tx := by
  refine ⟨?_, fun _ _ _ _ _ _ _ => ⟨fun _ _ => rfl, rfl⟩⟩
  intro t ht d v tx c h
  simp only [exCatalog, List.mem_cons, List.not_mem_nil, or_false] at ht
  rcases ht with rfl | rfl | rfl | rfl <;> simp at h <;> omega
example : (Db.run (catEngine (okapi exPosArith { k1 := 1, b := 1 }) []) catNew exCatalog).states.map
    (fun s => (s.1.rev.items, s.2.ix.docwords.items)) =
    [([(2, 7), (3, 8), (4, 9), (5, 7), (6, 5)], [(2, [129]), (3, [131, 131]), (4, [132]), (5, [130]), (6, [130])]),
     ([(1, 5), (2, 7), (3, 8), (5, 7), (6, 5)], [(1, [129, 130]), (2, [129]), (3, [131, 131]), (5, [130]), (6, [130])]),
     ([(1, 5), (2, 7), (5, 7), (6, 5)], [(1, [129, 130]), (2, [129]), (5, [130]), (6, [130])]),
     ([], [])] := by decide +kernel

/-- the hypotheses of `C93_serial_partial`: the third transaction did not see the changes of the second, the fourth is aborted, because
the text cannot be merged -/
example : NamedUntouched (catEngine (okapi exPosArith { k1 := 1, b := 1 }) []) (catNew : HField Nat Nat × HTI Nat _) catNames
    (fun s t d => fieldAlike s.1.view t.1.view d ∧ Text.getWords s.2.view.ix d = Text.getWords t.2.view.ix d) exCatalog := by
  intro before t after he hcm base hb op hop d hd
  have halike : ∀ {s t : Field Nat Nat}, s = t → fieldAlike s t d := by
    rintro s _ rfl lo hi r r' e e'
    rw [e] at e'
    cases e'
    rfl
  rcases before with _ | ⟨a, _ | ⟨b, _ | ⟨c, _ | ⟨e, rest⟩⟩⟩⟩
  · obtain ⟨rfl, -⟩ : t = _ ∧ _ := by simpa [exCatalog, eq_comm] using he
    cases hb; exact ⟨halike rfl, rfl⟩
  · obtain ⟨rfl, rfl, -⟩ : a = _ ∧ t = _ ∧ _ := by simpa [exCatalog, eq_comm] using he
    cases hb; exact ⟨halike rfl, rfl⟩
  · obtain ⟨rfl, rfl, rfl, -⟩ : a = _ ∧ b = _ ∧ t = _ ∧ _ := by simpa [exCatalog, eq_comm] using he
    have hd : d = 1 ∨ d = 4 := by
      simp only [List.mem_cons, List.not_mem_nil, or_false] at hop
      rcases hop with rfl | rfl
      · exact Or.inl hd
      · exact Or.inr hd
    constructor
    · refine catAlike_of_value exPositive exRanked_okapi [] _ ?_ (fun _ _ _ _ _ _ _ _ => ⟨fun _ _ => rfl, rfl⟩) (List.mem_of_getElem? hb)
        (by simp [Db.states]) ?_
      · intro t ht d v tx c h
        simp only [List.mem_cons, List.not_mem_nil, or_false] at ht
        rcases ht with rfl | rfl <;> simp at h <;> omega
      · have := congrArg (Option.map (fun s => (Prod.fst s).rev.get? d)) hb
        refine Option.some.inj (this.symm.trans ?_)
        rcases hd with rfl | rfl <;> decide +kernel
    · have := congrArg (Option.map (fun s => Text.getWords (HTI.view s.2).ix d)) hb
      refine Option.some.inj (this.symm.trans ?_)
      rcases hd with rfl | rfl <;> decide +kernel
  · obtain ⟨rfl, rfl, rfl, rfl, -⟩ : a = _ ∧ b = _ ∧ c = _ ∧ t = _ ∧ _ := by simpa [exCatalog, eq_comm] using he
    exfalso
    have := congrArg List.length hcm
    revert this
    decide +kernel
  · simp [exCatalog] at he
example : (committed (catEngine (okapi exPosArith { k1 := 1, b := 1 }) []) catNew exCatalog).length = 3 := by decide +kernel

end Verif
