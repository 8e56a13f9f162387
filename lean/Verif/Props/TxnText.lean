import Verif.Proofs.TxnTextRun
import Verif.Proofs.TextSearch
import Verif.Props.TextSearch
import Verif.Props.Txn

/-! # C70: concurrent transactions on a text index; C53: answers do not depend on the history -/

set_option autoImplicit false

namespace Verif

open Spec Spec.Txn Text

section
variable {D R : Type} [LinearOrder D] {A : Arith R} {Pos : R → Prop} {K : Kind D R}

theorem Text.Ranked.counted (hK : Ranked A Pos K) : Counted K := by
  cases hK with
  | okapi P _ => exact okapi_counted A P
  | cosine => exact cosine_counted A

theorem Text.Ranked.reads (hK : Ranked A Pos K) : Reads K := by
  cases hK with
  | okapi P _ => exact okapi_reads A P
  | cosine => exact cosine_reads A

/-- C53, in full for CosineIndex: with equal lexicons, all answers, scores included, depend only on the texts currently assigned to the docids, not on the
calls that led there.  (For OkapiIndex, whose scores use the lengths: without `clear()`, see `C53_okapi_fails`, and as long as numbers up
to the lengths of the texts are exact in single precision.) -/
theorem C53_same_answers_partial (hA : Positive A Pos) (hK : Ranked A Pos K) (pipeline : List Element) (ops ops' : List (Text.Op D))
    (hs : SmallLexicon pipeline ops) (hs' : SmallLexicon pipeline ops') (hlex : lexAfter pipeline ops = lexAfter pipeline ops')
    (hcur : ∀ d, currentText ops d = currentText ops' d)
    (he : K.hasTotal = true → NoClear ops ∧ NoClear ops' ∧ ∀ d t, Text.Op.index d t ∈ ops ++ ops' → CountsExact A pipeline t)
    (s s' : TI D R) (hr : run K pipeline ops = .ok s) (hr' : run K pipeline ops' = .ok s') : SameAnswers K pipeline s s' := by
  have ha := hK.arith
  subst ha
  have hL := hK.lawful hA
  obtain ⟨t, e, hl, hi⟩ := run_ok hL pipeline ops hs
  obtain rfl : t = s := Except.ok.inj (e.symm.trans hr)
  obtain ⟨t', e', hl', hi'⟩ := run_ok hL pipeline ops' hs'
  obtain rfl : t' = s' := Except.ok.inj (e'.symm.trans hr')
  have hW : docWids pipeline ops' = docWids pipeline ops := by
    funext d
    unfold docWids docWords
    rw [hcur d, hlex]
  rw [hW] at hi'
  have hdw : t.ix.docwords = t'.ix.docwords := by
    ext1 d
    rw [hi.docwords, hi'.docwords]
  have hwt : t.ix.docweight = t'.ix.docweight := by
    ext1 d
    rw [hi.docweight, hi'.docweight]
  have hfrom : ∀ ops : List (Text.Op D), ∀ d tx, currentText ops d = some tx → Text.Op.index d tx ∈ ops := by
    intro ops
    induction ops using List.reverseRecOn with
    | nil => intro d tx h; cases h
    | append_singleton ops op ih =>
      intro d tx h
      rw [currentText_snoc] at h
      cases op with
      | index d' t' =>
        simp only [textStep] at h
        split at h
        · rename_i hd
          cases h; subst hd; simp
        · exact List.mem_append_left _ (ih d tx h)
      | unindex d' =>
        simp only [textStep] at h
        split at h
        · cases h
        · exact List.mem_append_left _ (ih d tx h)
      | clear => cases h
      | lexicon o => exact List.mem_append_left _ (ih d tx h)
  refine AlikeTI.answers hK.reads ⟨by rw [hl, hl', hlex], ?_⟩ pipeline
  refine info_alike hi.toP.info hi'.toP.info (fun _ _ => NearW.refl _ _) (fun _ _ => NearW.refl _ _) ?_ hdw hwt ?_ hi.wordCount
    hi'.wordCount ?_
  · intro d ws hws
    unfold docWids docWords at hws
    cases hc : currentText ops d with
    | none => rw [hc] at hws; cases hws
    | some tx =>
      rw [hc] at hws
      cases hws
      exact hK.counted.exact (pipeline := pipeline) (t := tx) (by simp)
        (fun ht => (he ht).2.2 d tx (List.mem_append_left _ (hfrom ops d tx hc)))
  · rw [hi.documentCount, hi'.documentCount, hdw]
  · cases ht : K.hasTotal with
    | false =>
      rw [HTI.run_total_zero hL ht pipeline ops hs _ hr, HTI.run_total_zero hL ht pipeline ops' hs' _ hr']
    | true =>
      obtain ⟨h1, h2, h3⟩ := he ht
      have hW : WeightIsLength K := fun wids => (hK.counted ht wids).2
      rw [(total_ok hL ht hW pipeline ops hs (fun d t h => (h3 d t (List.mem_append_left _ h)).2) _ hr).2 h1,
        (total_ok hL ht hW pipeline ops' hs' (fun d t h => (h3 d t (List.mem_append_right _ h)).2) _ hr').2 h2]
      unfold lens
      rw [hwt]

/-- C70: any number of transactions, each working on the state that was the latest when it began, index and unindex documents of a
text index with its lexicon and commit.  However they overlap, the committed assignments of word sequences to docids follow
`History`, and every committed state answers all calls, scores included, like an index and lexicon used by one thread to which these
texts were given -/
theorem C70_text [DecidableEq R] (hA : Positive A Pos) (hK : Ranked A Pos K) (pipeline : List Element) (ts : List (Txn (TOp D)))
    (hc : ∀ t ∈ ts, ∀ d tx c, TOp.index d tx c ∈ t.ops → 0 ≤ c)
    (he : K.hasTotal = true → ∀ t ∈ ts, ∀ d tx c, TOp.index d tx c ∈ t.ops → CountsExact A pipeline tx) :
    ∃ ms, History (textUpdate pipeline) (fun _ => none) ts ms ∧
      List.Forall₂ (fun (s : HTI D R) m => ∃ (ops : List (Text.Op D)) (s1 : TI D R), docWords pipeline ops = m ∧
          SmallLexicon pipeline ops ∧ NoClear ops ∧ (K.hasTotal = true → LengthsExact A pipeline ops) ∧
          run K pipeline ops = .ok s1 ∧ SameAnswers K pipeline s.view s1)
        (Db.run (HTI.engine K pipeline) HTI.new ts).states ms := by
  have ha := hK.arith
  subst ha
  have hL := hK.lawful hA
  obtain ⟨h1, h2, -⟩ := (HTI.sound hL hK.counted).history HTI.wf_new ts (by
    intro t ht op hop
    cases op with
    | index d tx c => exact ⟨hc t ht d tx c hop, fun h => he h t ht d tx c hop⟩
    | unindex d => trivial)
  refine ⟨_, h1, ?_⟩
  rw [List.forall₂_map_right_iff, List.forall₂_same]
  intro s hs
  obtain ⟨ops, s1, a1, a2, a3, a4, a5, a6⟩ := (h2 s hs).rebuilt hL hK.counted
  exact ⟨ops, s1, a1, a2, a3, a4, a5, a6.answers hK.reads pipeline⟩

/-- C70: so in every committed state `search` finds exactly the documents whose committed text has one of the words, and the
documents are counted -/
theorem C70_text_answers [DecidableEq R] (hA : Positive A Pos) (hK : Ranked A Pos K) (pipeline : List Element) (ts : List (Txn (TOp D)))
    (hc : ∀ t ∈ ts, ∀ d tx c, TOp.index d tx c ∈ t.ops → 0 ≤ c)
    (he : K.hasTotal = true → ∀ t ∈ ts, ∀ d tx c, TOp.index d tx c ∈ t.ops → CountsExact A pipeline tx) :
    ∃ ms, History (textUpdate pipeline) (fun _ => none) ts ms ∧
      List.Forall₂ (fun (s : HTI D R) m =>
          (∀ t, t ≠ .none → wordsOf pipeline t ≠ [] → ∃ r, search K pipeline s.view.lex s.view.ix t = .ok (some r) ∧
            ∀ d, d ∈ r.keys ↔ ∃ w ∈ wordsOf pipeline t, ∃ ws, m d = some ws ∧ w ∈ ws) ∧
          (∃ n : Nat, s.view.documentCount = n ∧ CountIs (fun d => (m d).isSome) n) ∧
          ∃ n : Nat, s.view.wordCount = n ∧ CountIs (fun w => ∃ d ws, m d = some ws ∧ w ∈ ws) n)
        (Db.run (HTI.engine K pipeline) HTI.new ts).states ms := by
  obtain ⟨ms, h1, h2⟩ := C70_text hA hK pipeline ts hc he
  refine ⟨ms, h1, h2.imp ?_⟩
  rintro s m ⟨ops, s1, rfl, hs, -, hl, hr, hsame⟩
  refine ⟨?_, ?_, ?_⟩
  · intro t ht hne
    rw [hsame.search]
    exact (C56_search hA hK pipeline ops hs hl s1 hr t ht).2 hne
  · rw [hsame.documentCount]
    obtain ⟨⟨n, e1, e2⟩, -⟩ := C52_statistics K (hK.lawful hA) pipeline ops hs s1 hr
    refine ⟨n, e1, ?_⟩
    have : (fun d => ∃ t, currentText ops d = some t) = (fun d => (docWords pipeline ops d).isSome = true) := by
      funext d
      unfold docWords
      rw [Option.isSome_map, Option.isSome_iff_exists]
    rw [← this]; exact e2
  · rw [hsame.wordCount]
    exact (C52_statistics K (hK.lawful hA) pipeline ops hs s1 hr).2

/-- C70: a transaction that no other committed transaction overlapped, and none of whose calls raises, is not aborted by conflict
resolution: the latest state is then the one it made -/
theorem C70_text_alone [DecidableEq R] (hA : Positive A Pos) (hK : Ranked A Pos K) (pipeline : List Element) (ts : List (Txn (TOp D)))
    (t : Txn (TOp D)) (hc : ∀ t' ∈ ts ++ [t], ∀ d tx c, TOp.index d tx c ∈ t'.ops → 0 ≤ c)
    (he : K.hasTotal = true → ∀ t' ∈ ts ++ [t], ∀ d tx c, TOp.index d tx c ∈ t'.ops → CountsExact A pipeline tx)
    (hb : t.back = 0) (hr : t.refused = false) (s : HTI D R)
    (hx : HTI.exec K pipeline (Db.run (HTI.engine K pipeline) HTI.new ts).next (Db.run (HTI.engine K pipeline) HTI.new ts).latest t.ops = .ok s) :
    (Db.run (HTI.engine K pipeline) HTI.new (ts ++ [t])).states = s :: (Db.run (HTI.engine K pipeline) HTI.new ts).states := by
  have ha := hK.arith
  subst ha
  have hL := hK.lawful hA
  have hok : ∀ t' ∈ ts ++ [t], ∀ op ∈ t'.ops, HTI.OkOp K pipeline op := by
    intro t' ht op hop
    cases op with
    | index d tx c => exact ⟨hc t' ht d tx c hop, fun h => he h t' ht d tx c hop⟩
    | unindex d => trivial
  obtain ⟨-, h2, -⟩ := (HTI.sound hL hK.counted).history HTI.wf_new ts (fun t' ht => hok t' (by simp [ht]))
  have hrun : Db.run (HTI.engine K pipeline) HTI.new (ts ++ [t]) =
      Db.commit (HTI.engine K pipeline) (Db.run (HTI.engine K pipeline) (HTI.new : HTI D R) ts) t := by simp [Db.run]
  rw [hrun]
  generalize Db.run (HTI.engine K pipeline) (HTI.new : HTI D R) ts = db at h2 hx
  have hw := h2 db.latest (by simp [Db.states])
  obtain ⟨-, hex⟩ := (HTI.sound hL hK.counted).exec db.next db.latest t.ops hw (hok t (by simp))
  have hfails : (HTI.engine K pipeline).fails db.next db.latest t.ops = false := by unfold HTI.engine; dsimp only; rw [hx]
  have hst : ((HTI.engine K pipeline).run db.next db.latest t.ops).1 = s := by unfold HTI.engine; dsimp only; rw [hx]
  obtain ⟨-, hev, -⟩ := hex hfails
  rw [hst] at hev
  have hgrow : ∀ a m, db.latest.ix.heap.get? a = some m → ∃ m', s.ix.heap.get? a = some m' :=
    fun a m hs => hev.1.has a ⟨m, hs⟩
  have hlen : ∀ x y : Int, mergeLength x x y = y := by intro x y; unfold mergeLength; omega
  have hl : Lexicon.merge db.latest.lex db.latest.lex s.lex = some s.lex := by
    unfold Lexicon.merge
    rw [mergeTree_same, mergeTree_same, hlen]; rfl
  have hi : HIx.merge db.latest.ix db.latest.ix s.ix = some s.ix := by
    unfold HIx.merge
    rw [mergeHeap_same mergeTree_same hgrow, mergeTree_same, mergeTree_same, mergeTree_same]
    rw [hlen, hlen, hlen]; rfl
  have hm : HTI.merge db.latest db.latest s = some s := by
    unfold HTI.merge
    rw [hl, hi]; rfl
  unfold Db.commit
  have hs : db.states[t.back]? = some db.latest := by rw [hb]; rfl
  rw [hs, hr]
  dsimp only
  rw [hfails]
  simp only [Bool.or_self, Bool.false_eq_true, if_false]
  rw [hst, show (HTI.engine K pipeline).merge db.latest db.latest s = _ from hm]
  rfl

end

/-! ## Examples -/

/-- transactions on a text index: the second and third overlap, so do the second and the fourth, which is aborted -/
def exTextTxns : List (Txn (TOp Nat)) :=
  [⟨0, [.index 1 (.list [['d', 'o', 'g'], ['c', 'a', 't']]) 0, .index 2 (.list [['d', 'o', 'g']]) 1], false⟩,
   ⟨0, [.index 3 (.list [['e', 'e', 'l'], ['e', 'e', 'l']]) 2], false⟩,
   ⟨1, [.unindex 1, .index 4 (.list [['f', 'o', 'x']]) 3], false⟩,
   ⟨2, [.index 3 (.list [['d', 'o', 'g']]) 9], false⟩]

example : (∀ t ∈ exTextTxns, ∀ d tx c, TOp.index d tx c ∈ t.ops → 0 ≤ c) ∧
    ∀ t ∈ exTextTxns, ∀ d tx c, TOp.index d tx c ∈ t.ops → CountsExact exPosArith [] tx := by
  refine ⟨?_, fun _ _ _ _ _ _ => ⟨fun _ _ => rfl, rfl⟩⟩
  intro t ht d tx c h
  simp only [exTextTxns, List.mem_cons, List.not_mem_nil, or_false] at ht
  rcases ht with rfl | rfl | rfl | rfl <;> simp at h <;> omega

example : (Db.run (HTI.engine (okapi exPosArith { k1 := 1, b := 1 }) []) HTI.new exTextTxns).states.map
    (fun s => (s.ix.docwords.items, s.lex.wids.items, s.ix.total)) =
    [([(2, [129]), (3, [131, 131]), (4, [132])],
      [(['c', 'a', 't'], 2), (['d', 'o', 'g'], 1), (['e', 'e', 'l'], 3), (['f', 'o', 'x'], 4)], 4),
     ([(1, [129, 130]), (2, [129]), (3, [131, 131])], [(['c', 'a', 't'], 2), (['d', 'o', 'g'], 1), (['e', 'e', 'l'], 3)], 5),
     ([(1, [129, 130]), (2, [129])], [(['c', 'a', 't'], 2), (['d', 'o', 'g'], 1)], 3),
     ([], [], 0)] := by decide +kernel
example : ((search (okapi exPosArith { k1 := 1, b := 1 }) []
    (Db.run (HTI.engine (okapi exPosArith { k1 := 1, b := 1 }) []) HTI.new exTextTxns).latest.view.lex
    (Db.run (HTI.engine (okapi exPosArith { k1 := 1, b := 1 }) []) HTI.new exTextTxns).latest.view.ix
    (.list [['d', 'o', 'g']])).toOption.map (fun r => r.map (·.items))) = some (some [(2, 5)]) := by decide +kernel

/-- a conflict: both transactions change the entry of `dog`, which is a dict in a bucket, so the second one is aborted although it
changes another document; the third one leaves the entry alone and commits -/
example : (Db.run (HTI.engine (cosine exPosArith) []) HTI.new
    ([⟨0, [.index 1 (.list [['d', 'o', 'g']]) 0], false⟩, ⟨0, [.index 2 (.list [['d', 'o', 'g']]) 1], false⟩,
      ⟨1, [.index 3 (.list [['d', 'o', 'g']]) 1], false⟩, ⟨1, [.index 4 (.list [['c', 'a', 't']]) 1], false⟩] :
      List (Txn (TOp Nat)))).states.map (fun s => s.ix.docwords.keys) = [[1, 2, 4], [1, 2], [1], []] := by decide +kernel

/-- a call that raises aborts its transaction: the counter loaded gives an id of more than 28 bits -/
example : (Db.run (HTI.engine (cosine exPosArith) []) HTI.new
    ([⟨0, [.index 1 (.list [['d', 'o', 'g']]) 0, .index 2 (.list [['c', 'a', 't']]) 0x10000000], false⟩,
      ⟨0, [.index 3 (.list [['e', 'e', 'l']]) 0], false⟩] :
      List (Txn (TOp Nat)))).states.map (fun s => s.ix.docwords.keys) = [[3], []] := by decide +kernel

/-- two histories that lead to the same texts and the same lexicon -/
def exDirect : List (Text.Op Nat) := [.index 1 (.list [['d', 'o', 'g'], ['c', 'a', 't']]), .index 2 (.list [['d', 'o', 'g']])]
def exDetour : List (Text.Op Nat) :=
  [.index 1 (.list [['d', 'o', 'g']]), .index 2 (.list [['c', 'a', 't']]), .index 1 (.list [['d', 'o', 'g'], ['c', 'a', 't']]),
   .unindex 2, .index 2 (.list [['d', 'o', 'g']])]

example : SameAnswers (okapi exPosArith { k1 := 1, b := 1 }) []
    ((run (okapi exPosArith { k1 := 1, b := 1 }) [] exDirect).toOption.getD ⟨Lexicon.new, Text.new⟩)
    ((run (okapi exPosArith { k1 := 1, b := 1 }) [] exDetour).toOption.getD ⟨Lexicon.new, Text.new⟩) := by
  have hl : lexAfter [] exDetour = lexAfter [] exDirect := by rfl
  have small : SmallLexicon [] exDirect := by
    refine ⟨by intro n hn; simp [lexCalls, exDirect] at hn, ?_⟩
    intro w
    have : (lexAfter [] exDirect).wids = ⟨[(['c', 'a', 't'], 2), (['d', 'o', 'g'], 1)], by decide⟩ := by rfl
    unfold Lexicon.getWid
    rw [this]
    unfold SMap.get?
    simp only [List.find?_cons, List.find?_nil]
    split <;> [decide; (split <;> decide)]
  have small' : SmallLexicon [] exDetour := by
    refine ⟨by intro n hn; simp [lexCalls, exDetour] at hn, ?_⟩
    rw [hl]; exact small.2
  obtain ⟨s, e, -⟩ := C51_documents _ (exRanked_okapi.lawful exPositive) [] exDirect small
  obtain ⟨s', e', -⟩ := C51_documents _ (exRanked_okapi.lawful exPositive) [] exDetour small'
  rw [e, e']
  refine C53_same_answers_partial exPositive exRanked_okapi [] exDirect exDetour small small' hl.symm ?_
    (fun _ => ⟨by simp [NoClear, exDirect], by simp [NoClear, exDetour], fun _ _ _ => ⟨fun _ _ => rfl, rfl⟩⟩) s s' e e'
  intro d
  by_cases h1 : d = 1
  · subst h1; rfl
  · by_cases h2 : d = 2
    · subst h2; rfl
    · simp [currentText, exDirect, exDetour, textStep, h1, h2]

/-- C53 in full is false for OkapiIndex: two histories with the same lexicon and the same current texts, one of them with a
`clear()`, which leaves the total length as it was (`C55_okapi_fails`), after which the scores differ -/
theorem C53_okapi_fails : ∃ (ops ops' : List (Text.Op Nat)) (s s' : TI Nat Int), run (okapi exPosArith { k1 := 10, b := 1 }) [] ops = .ok s ∧
    run (okapi exPosArith { k1 := 10, b := 1 }) [] ops' = .ok s' ∧ s.lex = s'.lex ∧ (∀ d, currentText ops d = currentText ops' d) ∧
    ((search (okapi exPosArith { k1 := 10, b := 1 }) [] s.lex s.ix (.str ['d', 'o', 'g'])).toOption.map (fun r => r.map (·.items))) =
      some (some [(1, 12), (2, 3)]) ∧
    ((search (okapi exPosArith { k1 := 10, b := 1 }) [] s'.lex s'.ix (.str ['d', 'o', 'g'])).toOption.map (fun r => r.map (·.items))) =
      some (some [(1, 9), (2, 3)]) := by
  refine ⟨[.index 1 (.list (List.replicate 8 ['d', 'o', 'g'])), .index 2 (.list [['d', 'o', 'g'], ['c', 'a', 't']]), .clear,
      .index 1 (.list (List.replicate 8 ['d', 'o', 'g'])), .index 2 (.list [['d', 'o', 'g'], ['c', 'a', 't']])],
    [.index 1 (.list (List.replicate 8 ['d', 'o', 'g'])), .index 2 (.list [['d', 'o', 'g'], ['c', 'a', 't']])],
    _, _, rfl, rfl, rfl, ?_, by decide +kernel, by decide +kernel⟩
  intro d
  by_cases h1 : d = 1
  · subst h1; rfl
  · by_cases h2 : d = 2
    · subst h2; rfl
    · simp [currentText, textStep, h1, h2]

end Verif
