import Verif.Proofs.TxnText

/-! Concurrent transactions on a text index with its lexicon: the schedule theorem applies, and every committed state answers like an
index used by one thread. -/

set_option autoImplicit false

namespace Verif.Lexicon

/-- ids are positive, and so is the next one -/
def Pos (s : Lexicon) : Prop := 0 ≤ s.count ∧ ∀ w n, s.wids.get? w = some n → 0 < n

theorem create_pos {s : Lexicon} (h : Pos s) (w : Word) : Pos (s.getWordIdCreate w).1 := by
  cases hw : s.wids.get? w with
  | some n => rw [getWordIdCreate_some hw]; exact h
  | none =>
    rw [getWordIdCreate_none hw]
    have hg := newWid_gt s
    have h0 := h.1
    refine ⟨by show 0 ≤ s.newWid; omega, ?_⟩
    intro v n hv
    have hv : (s.wids.set w s.newWid).get? v = some n := hv
    rw [SMap.get?_set] at hv
    split at hv
    · cases hv; omega
    · exact h.2 v n hv

/-- words already known get no new ids -/
theorem createAll_known {s : Lexicon} {ws : List Word} (h : ∀ w ∈ ws, s.wids.contains w = true) : (s.createAll ws).1 = s := by
  induction ws with
  | nil => rfl
  | cons w ws ih =>
    obtain ⟨n, hn⟩ := (SMap.contains_iff _ _).1 (h w (by simp))
    show ((s.getWordIdCreate w).1.createAll ws).1 = s
    rw [getWordIdCreate_some hn]
    exact ih (fun v hv => h v (by simp [hv]))

theorem source_known {pipeline : List Element} {s : Lexicon} {t : TextArg} (h : ∀ w ∈ Spec.wordsOf pipeline t, s.wids.contains w = true) :
    (s.sourceToWordIds pipeline t).1 = s := by
  unfold sourceToWordIds
  rw [runPipeline_eq, sourceText_eq]
  exact createAll_known h

end Verif.Lexicon

namespace Verif.Text.HTI

open Txn Txn.View Spec Spec.Txn HIx

variable {D R : Type} [LinearOrder D] {K : Kind D R} {pipeline : List Element}

/-- the words of the documents -/
def abs (s : HTI D R) (d : D) : Option (List Word) :=
  (s.ix.wordsIn d).map (fun ws => ws.map (fun i => (s.lex.words.get? i).getD []))

/-- the document's word ids are those of a text -/
def Says (K : Kind D R) (pipeline : List Element) (lex : Lexicon) (ws : List Int) (t : TextArg) : Prop :=
  ws = (wordsOf pipeline t).map lex.getWid ∧ (∀ w ∈ wordsOf pipeline t, lex.wids.contains w = true) ∧
  (K.hasTotal = true → CountsExact K.arith pipeline t)

structure Wf (K : Kind D R) (pipeline : List Element) (n : Nat) (s : HTI D R) : Prop where
  good : s.ix.tv.Good
  below : ∀ a, s.ix.tv.has a → a < n
  ok : IxOk K s.ix
  lex : ∃ calls : List (Int × TextArg), (∀ p ∈ calls, 0 ≤ p.1) ∧ Lexicon.Same s.lex (Lexicon.replay pipeline Lexicon.new calls)
  ids : ∀ w n, s.lex.wids.get? w = some n → 0 < n ∧ n < 0x10000000
  docs : ∀ d ws, s.ix.wordsIn d = some ws → ∃ t, Says K pipeline s.lex ws t

theorem replay_inv (pipeline : List Element) (calls : List (Int × TextArg)) : Lexicon.Inv (Lexicon.replay pipeline Lexicon.new calls) :=
  (Lexicon.exec_spec pipeline calls Lexicon.inv_new).1

theorem Wf.inv {n : Nat} {s : HTI D R} (h : Wf K pipeline n s) : Lexicon.Inv s.lex := by
  obtain ⟨calls, -, hs⟩ := h.lex
  exact hs.symm.inv (replay_inv pipeline calls)

theorem Says.mono {lex lex' : Lexicon} (h : Lexicon.Le lex lex') {ws : List Int} {t : TextArg} (hs : Says K pipeline lex ws t) :
    Says K pipeline lex' ws t := by
  obtain ⟨h1, h2, h3⟩ := hs
  refine ⟨?_, ?_, h3⟩
  · rw [h1]
    refine List.map_congr_left (fun w hw => ?_)
    obtain ⟨n, hn⟩ := (SMap.contains_iff _ _).1 (h2 w hw)
    rw [Lexicon.getWid_eq hn, Lexicon.getWid_eq (h w n hn)]
  · intro w hw
    obtain ⟨n, hn⟩ := (SMap.contains_iff _ _).1 (h2 w hw)
    exact SMap.contains_of_get? (h w n hn)

theorem Says.words {lex : Lexicon} (hi : Lexicon.Inv lex) {ws : List Int} {t : TextArg} (hs : Says K pipeline lex ws t) :
    ws.map (fun i => (lex.words.get? i).getD []) = wordsOf pipeline t := by
  obtain ⟨h1, h2, -⟩ := hs
  rw [h1, List.map_map]
  conv_rhs => rw [← List.map_id (wordsOf pipeline t)]
  refine List.map_congr_left (fun w hw => ?_)
  obtain ⟨n, hn⟩ := (SMap.contains_iff _ _).1 (h2 w hw)
  simp only [Function.comp, Lexicon.getWid_eq hn, (hi w n).1 hn]
  rfl

theorem Says.exact (hK : Counted K) {lex : Lexicon} {ws : List Int} {t : TextArg} (hs : Says K pipeline lex ws t) : ExactW K ws :=
  hK.exact (pipeline := pipeline) (t := t) (by rw [hs.1]; simp) hs.2.2

theorem Wf.exact (hK : Counted K) {n : Nat} {s : HTI D R} (h : Wf K pipeline n s) (d : D) (ws : List Int) (hw : s.ix.wordsIn d = some ws) :
    ExactW K ws := by
  obtain ⟨t, ht⟩ := h.docs d ws hw
  exact ht.exact hK

/-- later lexicons give the words the same meaning -/
theorem abs_le {n m : Nat} {s t : HTI D R} (hs : Wf K pipeline n s) (ht : Wf K pipeline m t) (hl : Lexicon.Le s.lex t.lex) {d : D}
    (hd : s.ix.wordsIn d = t.ix.wordsIn d) : abs s d = abs t d := by
  unfold abs
  rw [← hd]
  cases hw : s.ix.wordsIn d with
  | none => rfl
  | some ws =>
    obtain ⟨tx, h1⟩ := hs.docs d ws hw
    simp only [Option.map_some, Option.some.injEq]
    rw [h1.words hs.inv, (h1.mono hl).words ht.inv]

/-- the calls covered: the counter loaded is not negative, and the lengths are exact in single precision -/
def OkOp (K : Kind D R) (pipeline : List Element) : TOp D → Prop
  | .index _ t c => 0 ≤ c ∧ (K.hasTotal = true → CountsExact K.arith pipeline t)
  | .unindex _ => True

/-- the lexicon of the second state is that of the first after some calls -/
def LexFrom (pipeline : List Element) (s t : HTI D R) : Prop :=
  ∃ calls : List (Int × TextArg), (∀ p ∈ calls, 0 ≤ p.1) ∧ Lexicon.Same t.lex (Lexicon.replay pipeline s.lex calls)

theorem LexFrom.refl (s : HTI D R) : LexFrom pipeline s s := ⟨[], by simp, Lexicon.Same.refl _⟩

theorem LexFrom.trans {s t u : HTI D R} (h1 : LexFrom pipeline s t) (h2 : LexFrom pipeline t u) : LexFrom pipeline s u := by
  obtain ⟨a, ha, ha'⟩ := h1
  obtain ⟨b, hb, hb'⟩ := h2
  refine ⟨a ++ b, ?_, ?_⟩
  · intro p hp
    rcases List.mem_append.1 hp with h | h
    · exact ha p h
    · exact hb p h
  · rw [Lexicon.replay_append]
    exact hb'.trans (ha'.replay pipeline b)

theorem step_wf (hK : Lawful K) (hC : Counted K) {s t : HTI D R} (h : Wf K pipeline s.ix.heap.next s) (op : TOp D)
    (hop : OkOp K pipeline op) (e : step K pipeline s op = .ok t) :
    Wf K pipeline t.ix.heap.next t ∧ Next s.ix t.ix ∧ Lexicon.Le s.lex t.lex ∧ LexFrom pipeline s t ∧
    ∀ d, abs t d = textUpdate pipeline (abs s) op d := by
  have hok : Ok s.ix := ⟨h.good, h.below⟩
  cases op with
  | unindex d =>
    obtain ⟨ix, e1, e2⟩ := bind_inv e
    cases e2
    obtain ⟨i1, i2, i3⟩ := h.ok.unindex hK hok e1
    refine ⟨⟨i2.ok.good, i2.ok.below, i1, h.lex, h.ids, ?_⟩, i2, Lexicon.Le.refl _, LexFrom.refl _, ?_⟩
    · intro x ws hx
      have hx : ix.wordsIn x = some ws := hx
      rw [i3] at hx
      unfold setDoc at hx
      split at hx
      · cases hx
      · exact h.docs x ws hx
    · intro x
      show (ix.wordsIn x).map _ = if x = d then none else (s.ix.wordsIn x).map _
      rw [i3]
      unfold setDoc
      by_cases hx : x = d
      · rw [if_pos hx, if_pos hx]; rfl
      · rw [if_neg hx, if_neg hx]
  | index d tx c =>
    obtain ⟨h0, hx⟩ := hop
    obtain ⟨ix, e1, e2⟩ := bind_inv e
    cases e2
    have hi' : Lexicon.Inv (Lexicon.sourceToWordIds pipeline { s.lex with count := c } tx).1 :=
      Lexicon.createAll_preserves Lexicon.Inv (fun s w hs => Lexicon.create_inv hs w) { s.lex with count := c } _ h.inv
    have hpos : Lexicon.Pos (Lexicon.sourceToWordIds pipeline { s.lex with count := c } tx).1 :=
      Lexicon.createAll_preserves Lexicon.Pos (fun s w hs => Lexicon.create_pos hs w) { s.lex with count := c } _
        ⟨h0, fun w n hw => (h.ids w n hw).1⟩
    have hle : Lexicon.Le s.lex (Lexicon.sourceToWordIds pipeline { s.lex with count := c } tx).1 :=
      Lexicon.createAll_le { s.lex with count := c } _
    have hdom : ∀ w, (Lexicon.sourceToWordIds pipeline { s.lex with count := c } tx).1.wids.contains w = true ↔
        w ∈ wordsOf pipeline tx ∨ s.lex.wids.contains w = true := by
      intro w
      have := Lexicon.createAll_domain { s.lex with count := c } (Lexicon.runPipeline pipeline (Lexicon.sourceText tx)) w
      rw [Lexicon.runPipeline_eq, Lexicon.sourceText_eq] at this
      unfold Lexicon.sourceToWordIds
      rw [Lexicon.runPipeline_eq, Lexicon.sourceText_eq]
      exact this
    have hwids := source_wids pipeline { s.lex with count := c } tx
    have hlex : LexFrom pipeline s { lex := (Lexicon.sourceToWordIds pipeline { s.lex with count := c } tx).1, ix := ix } :=
      ⟨[(c, tx)], by simpa using h0, Lexicon.Same.refl _⟩
    generalize Lexicon.sourceToWordIds pipeline { s.lex with count := c } tx = r at *
    have hp : ∀ w ∈ r.2, 0 ≤ w := by
      intro i hi
      rw [hwids, List.mem_map] at hi
      obtain ⟨w, hw, rfl⟩ := hi
      obtain ⟨n, hn⟩ := (SMap.contains_iff _ _).1 ((hdom w).2 (Or.inl hw))
      rw [Lexicon.getWid_eq hn]
      exact le_of_lt (hpos.2 w n hn)
    have hsays : Says K pipeline r.1 r.2 tx := ⟨hwids, fun w hw => (hdom w).2 (Or.inl hw), hx⟩
    have henc := index_encodes e1
    obtain ⟨i1, i2, i3⟩ := h.ok.index hK hok hp (hsays.exact hC) (h.exact hC) e1
    have hwf : Wf K pipeline ix.heap.next ({ lex := r.1, ix := ix } : HTI D R) := by
      refine ⟨i2.ok.good, i2.ok.below, i1, ?_, ?_, ?_⟩
      · obtain ⟨calls, hc, hs⟩ := h.lex
        obtain ⟨more, hm, hs'⟩ := hlex
        refine ⟨calls ++ more, ?_, ?_⟩
        · intro p hp
          rcases List.mem_append.1 hp with h | h
          · exact hc p h
          · exact hm p h
        · rw [Lexicon.replay_append]
          exact hs'.trans (hs.replay pipeline more)
      · intro w n hn
        have hn : r.1.wids.get? w = some n := hn
        refine ⟨hpos.2 w n hn, ?_⟩
        rcases (hdom w).1 (SMap.contains_of_get? hn) with hw | hw
        · refine henc n ?_
          rw [hwids, List.mem_map]
          exact ⟨w, hw, Lexicon.getWid_eq hn⟩
        · obtain ⟨m, hm⟩ := (SMap.contains_iff _ _).1 hw
          rw [hle w m hm] at hn
          cases hn
          exact (h.ids w _ hm).2
      · intro x ws hx
        have hx : ix.wordsIn x = some ws := hx
        rw [i3] at hx
        unfold setDoc at hx
        split at hx
        · cases hx; exact ⟨tx, hsays⟩
        · obtain ⟨t, ht⟩ := h.docs x ws hx
          exact ⟨t, ht.mono hle⟩
    refine ⟨hwf, i2, hle, hlex, ?_⟩
    intro x
    show _ = if x = d then some (wordsOf pipeline tx) else abs s x
    by_cases hxd : x = d
    · rw [if_pos hxd]
      show (ix.wordsIn x).map _ = _
      rw [i3]
      unfold setDoc
      rw [if_pos hxd]
      simp only [Option.map_some, Option.some.injEq]
      exact hsays.words hi'
    · rw [if_neg hxd]
      refine (abs_le h hwf hle ?_).symm
      show s.ix.wordsIn x = ix.wordsIn x
      rw [i3]
      unfold setDoc
      rw [if_neg hxd]

theorem steps_wf (hK : Lawful K) (hC : Counted K) {s t : HTI D R} (h : Wf K pipeline s.ix.heap.next s) (ops : List (TOp D))
    (hop : ∀ op ∈ ops, OkOp K pipeline op) (e : ops.foldlM (step K pipeline) s = .ok t) :
    Wf K pipeline t.ix.heap.next t ∧ Next s.ix t.ix ∧ Lexicon.Le s.lex t.lex ∧ LexFrom pipeline s t ∧
    ∀ d, abs t d = ops.foldl (textUpdate pipeline) (abs s) d := by
  induction ops generalizing s with
  | nil =>
    cases e
    exact ⟨h, Next.refl ⟨h.good, h.below⟩, Lexicon.Le.refl _, LexFrom.refl _, fun _ => rfl⟩
  | cons op ops ih =>
    rw [List.foldlM_cons] at e
    obtain ⟨u, e1, e2⟩ := bind_inv e
    obtain ⟨a1, a2, a3, a4, a5⟩ := step_wf hK hC h op (hop op (by simp)) e1
    obtain ⟨b1, b2, b3, b4, b5⟩ := ih a1 (fun o ho => hop o (by simp [ho])) e2
    refine ⟨b1, a2.trans ⟨h.good, h.below⟩ b2, a3.trans b3, a4.trans b4, fun d => ?_⟩
    rw [b5 d, List.foldl_cons, show abs u = _ from funext a5]

variable [DecidableEq R]

/-- the schedule theorem applies to text indexes -/
def sound (hK : Lawful K) (hC : Counted K) : Txn.Sound (engine K pipeline) (textUpdate pipeline) (OkOp K pipeline) where
  abs := abs
  Wf := Wf K pipeline
  Evo s t := Evo s.ix.tv t.ix.tv ∧ Lexicon.Le s.lex t.lex
  NewFrom n s t := (∀ a, t.ix.tv.has a → s.ix.tv.has a ∨ n ≤ a) ∧ LexFrom pipeline s t
  mono n m s hnm h := ⟨h.good, fun a ha => lt_of_lt_of_le (h.below a ha) hnm, h.ok, h.lex, h.ids, h.docs⟩
  refl s := ⟨Evo.refl _, Lexicon.Le.refl _⟩
  trans n a b c ha hb h1 h2 := ⟨Evo.trans hb.good h1.1 h2.1 ha.good, h1.2.trans h2.2⟩
  exec n s ops h hops := by
    unfold engine
    dsimp only
    cases e : exec K pipeline n s ops with
    | error err => exact ⟨le_refl _, fun h => by cases h⟩
    | ok t =>
      dsimp only
      have h' : Wf K pipeline n ({ s with ix := { s.ix with heap := { s.ix.heap with next := n } } } : HTI D R) :=
        ⟨h.good, h.below, ⟨h.ok.docwords, h.ok.docweight, h.ok.fits, h.ok.wordCount, h.ok.documentCount, h.ok.valid, h.ok.total⟩,
          h.lex, h.ids, h.docs⟩
      obtain ⟨h1, h2, h3, h4, h5⟩ := steps_wf hK hC
        (s := { s with ix := { s.ix with heap := { s.ix.heap with next := n } } }) h' ops hops e
      exact ⟨h2.le, fun _ => ⟨h1, ⟨h2.evo, h3⟩, ⟨h2.new, h4⟩, h5⟩⟩
  merge n m o c x r ho hc hoc hnm hx hox hnew hmerge := by
    have hmerge : merge o c x = some r := hmerge
    unfold merge at hmerge
    cases hl : Lexicon.merge o.lex c.lex x.lex with
    | none => rw [hl] at hmerge; cases hmerge
    | some lex =>
    cases hi : HIx.merge o.ix c.ix x.ix with
    | none => rw [hl, hi] at hmerge; cases hmerge
    | some ix =>
    rw [hl, hi] at hmerge
    cases hmerge
    have hp := merge_parts hi
    have hM := hp.merged
    have fresh : ∀ a, c.ix.tv.has a → x.ix.tv.has a → o.ix.tv.has a := by
      intro a h1 h2
      rcases hnew.1 a h2 with h' | h'
      · exact h'
      · exact absurd (hc.below a h1) (not_lt.2 h')
    have hok := IxOk.merge hi ho.good hc.good hx.good hoc.1 hox.1 fresh ho.ok hc.ok hx.ok (ho.exact hC) (hc.exact hC) (hx.exact hC)
    obtain ⟨linv, lec, lex'⟩ := Lexicon.merge_spec ho.inv hc.inv hx.inv hoc.2 hox.2 hl
    have hw := hp.words
    have hwf : Wf K pipeline m ({ lex := lex, ix := ix } : HTI D R) := by
      refine ⟨hM.good hc.good hx.good ho.good hoc.1 hox.1 fresh, ?_, hok, ?_, ?_, ?_⟩
      · intro a ha
        rcases (hM.has a).1 ha with h' | h'
        · exact lt_of_lt_of_le (hc.below a h') hnm
        · exact hx.below a h'
      · obtain ⟨calls, h1, h2⟩ := hc.lex
        obtain ⟨more, h3, h4⟩ := hnew.2
        have := Lexicon.merge_serial ho.inv hc.inv hx.inv hoc.2 hox.2 hl pipeline more h4
        refine ⟨calls ++ more, ?_, ?_⟩
        · intro p hp
          rcases List.mem_append.1 hp with h | h
          · exact h1 p h
          · exact h3 p h
        · rw [Lexicon.replay_append]
          exact this.trans (h2.replay pipeline more)
      · intro w n hn
        have hn : lex.wids.get? w = some n := hn
        have := hl
        unfold Lexicon.merge at this
        cases hws : mergeTree o.lex.wids c.lex.wids x.lex.wids with
        | none => rw [hws] at this; cases this
        | some wids =>
        cases hns : mergeTree o.lex.words c.lex.words x.lex.words with
        | none => rw [hws, hns] at this; cases this
        | some words =>
        rw [hws, hns] at this
        cases this
        rcases mergeTree_keywise hws w with ⟨-, e2⟩ | ⟨-, e2⟩
        · exact hx.ids w n (e2 ▸ hn)
        · exact hc.ids w n (e2 ▸ hn)
      · intro d ws h
        have h : ix.wordsIn d = some ws := h
        rcases hw d with ⟨-, w2⟩ | ⟨-, w2⟩
        · obtain ⟨t, ht⟩ := hx.docs d ws (w2 ▸ h)
          exact ⟨t, ht.mono lex'⟩
        · obtain ⟨t, ht⟩ := hc.docs d ws (w2 ▸ h)
          exact ⟨t, ht.mono lec⟩
    refine ⟨hwf, ⟨hM.evo ho.good hx.good hoc.1 hox.1 fresh, lec⟩, ?_⟩
    intro d
    rcases hw d with ⟨w1, w2⟩ | ⟨w1, w2⟩
    · exact Or.inl ⟨abs_le ho hc hoc.2 w1, (abs_le hx hwf lex' w2.symm).symm⟩
    · exact Or.inr ⟨abs_le ho hx hox.2 w1, (abs_le hc hwf lec w2.symm).symm⟩

omit [DecidableEq R] in
theorem wf_new : Wf K pipeline 0 (new : HTI D R) where
  good := ⟨by intro k a h; (cases h), by intro k a h; (cases h), by intro k k' a h; (cases h)⟩
  below a := by rintro ⟨s, hs⟩; cases hs
  ok := by
    refine ⟨fun d => rfl, fun d => rfl, ?_, rfl, rfl, ?_, ?_⟩
    · intro k d; rfl
    · intro d ws h; cases h
    · show (0 : Int) = _
      split <;> rfl
  lex := ⟨[], by simp, Lexicon.Same.refl _⟩
  ids w n h := by cases h
  docs d ws h := by cases h

/-! ### A committed state answers like an index used by one thread -/

omit [DecidableEq R] in
theorem run_total_zero (hK : Lawful K) (ht : K.hasTotal = false) (pipeline : List Element) (ops : List (Op D))
    (hs : SmallLexicon pipeline ops) (s : TI D R) (hr : run K pipeline ops = .ok s) : s.ix.total = 0 := by
  induction ops using List.reverseRecOn generalizing s with
  | nil => cases hr; rfl
  | append_singleton ops op ih =>
    obtain ⟨s0, e, hl, hi⟩ := run_ok hK pipeline ops (small_prefix hs)
    have i0 := ih (small_prefix hs) s0 e
    obtain ⟨s', e', -, -, htot⟩ := step_ok hK pipeline ops op s0 hs hl hi
    have : s' = s := by
      rw [run_snoc, e] at hr
      exact Except.ok.inj (e'.symm.trans hr)
    subst this
    rw [htot, i0, ht]
    cases op <;> simp

/-- the calls on the lexicon, then one call per document -/
def rebuild (calls : List (Int × TextArg)) (docs : List D) (tx : D → TextArg) : List (Op D) :=
  calls.flatMap (fun p => [.lexicon (.reload p.1), .lexicon (.source p.2)]) ++ docs.map (fun d => .index d (tx d))

omit [LinearOrder D] in
theorem lexCalls_rebuild (calls : List (Int × TextArg)) (docs : List D) (tx : D → TextArg) :
    lexCalls (rebuild calls docs tx) = calls.flatMap (fun p => [.reload p.1, .source p.2]) ++ docs.map (fun d => .source (tx d)) := by
  unfold rebuild lexCalls
  rw [List.filterMap_append]
  congr 1
  · induction calls with
    | nil => rfl
    | cons p calls ih => rw [List.flatMap_cons, List.filterMap_append, ih, List.flatMap_cons]; rfl
  · induction docs with
    | nil => rfl
    | cons d docs ih => rw [List.map_cons, List.filterMap_cons, ih]; rfl

omit [LinearOrder D] in
theorem runFrom_known (pipeline : List Element) (docs : List D) (tx : D → TextArg) (s : Lexicon)
    (h : ∀ d ∈ docs, ∀ w ∈ wordsOf pipeline (tx d), s.wids.contains w = true) :
    Lexicon.runFrom pipeline s (docs.map (fun d => .source (tx d))) = s := by
  induction docs with
  | nil => rfl
  | cons d docs ih =>
    show Lexicon.runFrom pipeline (s.sourceToWordIds pipeline (tx d)).1 _ = s
    rw [Lexicon.source_known (h d (by simp))]
    exact ih (fun d' hd' => h d' (by simp [hd']))

theorem currentText_rebuild (calls : List (Int × TextArg)) (docs : List D) (tx : D → TextArg) (d : D) :
    currentText (rebuild calls docs tx) d = if d ∈ docs then some (tx d) else none := by
  unfold currentText rebuild
  rw [List.foldl_append]
  have h1 : ∀ m : D → Option TextArg,
      (calls.flatMap (fun p => [Op.lexicon (D := D) (.reload p.1), .lexicon (.source p.2)])).foldl textStep m = m := by
    intro m
    induction calls with
    | nil => rfl
    | cons p calls ih => rw [List.flatMap_cons, List.foldl_append]; exact ih
  rw [h1]
  have h2 : ∀ m : D → Option TextArg, (docs.map (fun d => Op.index d (tx d))).foldl textStep m d = if d ∈ docs then some (tx d) else m d := by
    intro m
    induction docs generalizing m with
    | nil => rfl
    | cons a docs ih =>
      rw [List.map_cons, List.foldl_cons, ih]
      by_cases hd : d ∈ docs
      · simp [hd]
      · by_cases ha : d = a
        · subst ha; simp [hd, textStep]
        · simp [hd, ha, textStep]
  exact h2 _

omit [DecidableEq R] in
/-- a well-formed state answers like a state of the single-threaded model that holds the same documents -/
theorem Wf.rebuilt (hK : Lawful K) (hC : Counted K) {n : Nat} {s : HTI D R} (h : Wf K pipeline n s) :
    ∃ (ops : List (Op D)) (s1 : TI D R), docWords pipeline ops = abs s ∧ SmallLexicon pipeline ops ∧ NoClear ops ∧
      (K.hasTotal = true → LengthsExact K.arith pipeline ops) ∧ run K pipeline ops = .ok s1 ∧ AlikeTI K s.view s1 := by
  obtain ⟨calls, hcalls, hsame⟩ := h.lex
  have hex : ∀ d, ∃ t, ∀ ws, s.ix.wordsIn d = some ws → Says K pipeline s.lex ws t := by
    intro d
    cases hw : s.ix.wordsIn d with
    | none => exact ⟨.list [], fun ws hws => by cases hws⟩
    | some ws =>
      obtain ⟨t, ht⟩ := h.docs d ws hw
      exact ⟨t, fun ws' hws => by cases hws; exact ht⟩
  choose tx htx using hex
  have hmem : ∀ d, d ∈ s.ix.docwords.keys ↔ ∃ ws, s.ix.wordsIn d = some ws := by
    intro d
    rw [SMap.mem_keys_iff, h.ok.docwords]
    cases s.ix.wordsIn d <;> simp
  let ops : List (Op D) := rebuild calls s.ix.docwords.keys tx
  have hlex : lexAfter pipeline ops = Lexicon.replay pipeline Lexicon.new calls := by
    unfold lexAfter
    rw [lexCalls_rebuild, run_append]
    unfold Lexicon.run
    rw [Lexicon.run_calls]
    refine runFrom_known pipeline _ tx _ ?_
    intro d hd w hw
    obtain ⟨ws, hws⟩ := (hmem d).1 hd
    rw [← hsame.1]
    exact (htx d ws hws).2.1 w hw
  have hlex' : Lexicon.Same s.lex (lexAfter pipeline ops) := by rw [hlex]; exact hsame
  have hdoc : ∀ d, currentText ops d = if d ∈ s.ix.docwords.keys then some (tx d) else none := currentText_rebuild _ _ _
  have hwids : docWids pipeline ops = s.ix.wordsIn := by
    funext d
    unfold docWids docWords
    rw [hdoc, ← hlex'.getWid]
    cases hw : s.ix.wordsIn d with
    | none =>
      rw [if_neg (by rw [hmem, hw]; simp)]; rfl
    | some ws =>
      rw [if_pos ((hmem d).2 ⟨ws, hw⟩)]
      simp only [Option.map_some, Option.some.injEq]
      exact (htx d ws hw).1.symm
  have hsmall : SmallLexicon pipeline ops := by
    refine ⟨?_, ?_⟩
    · intro m hm
      rw [lexCalls_rebuild, List.mem_append, List.mem_flatMap] at hm
      rcases hm with ⟨p, hp, hm⟩ | hm
      · simp only [List.mem_cons, List.not_mem_nil, or_false] at hm
        rcases hm with hm | hm
        · cases hm; exact hcalls p hp
        · cases hm
      · obtain ⟨d, -, he⟩ := List.mem_map.1 hm
        cases he
    · intro w
      rw [← hlex'.getWid]
      unfold Lexicon.getWid
      cases hw : s.lex.wids.get? w with
      | none => simp
      | some i =>
        have := (h.ids w i hw).2
        simp only [Option.getD_some]
        omega
  have hnc : NoClear ops := by
    intro hm
    rcases List.mem_append.1 hm with hm | hm
    · obtain ⟨p, -, hm⟩ := List.mem_flatMap.1 hm
      simp at hm
    · obtain ⟨d, -, he⟩ := List.mem_map.1 hm
      cases he
  have hexact : K.hasTotal = true → LengthsExact K.arith pipeline ops := by
    intro ht d t hm
    rcases List.mem_append.1 hm with hm | hm
    · obtain ⟨p, -, hm⟩ := List.mem_flatMap.1 hm
      simp at hm
    · obtain ⟨d', hd, he⟩ := List.mem_map.1 hm
      cases he
      obtain ⟨ws, hws⟩ := (hmem d).1 hd
      exact ((htx d ws hws).2.2 ht).2
  obtain ⟨s1, hrun, hl1, hi1⟩ := run_ok hK pipeline ops hsmall
  rw [hwids] at hi1
  refine ⟨ops, s1, ?_, hsmall, hnc, hexact, hrun, ⟨?_, ?_⟩⟩
  · funext d
    unfold docWords abs
    rw [hdoc]
    cases hw : s.ix.wordsIn d with
    | none => rw [if_neg (by rw [hmem, hw]; simp)]; rfl
    | some ws =>
      rw [if_pos ((hmem d).2 ⟨ws, hw⟩)]
      simp only [Option.map_some, Option.some.injEq]
      exact ((htx d ws hw).words h.inv).symm
  · rw [hl1]; exact hlex'.1
  · obtain ⟨P, hi, hP⟩ := h.ok.toInv h.good
    have hdw : s.view.ix.docwords = s1.ix.docwords := by
      ext1 d
      rw [show s.view.ix.docwords.get? d = _ from hi.docwords d, hi1.docwords]
    have hwt : s.view.ix.docweight = s1.ix.docweight := by
      ext1 d
      rw [show s.view.ix.docweight.get? d = _ from hi.docweight d, hi1.docweight]
    refine info_alike hi.info hi1.toP.info hP (fun d w => NearW.refl _ _) (h.exact hC) hdw hwt ?_ hi.wordCount hi1.wordCount ?_
    · rw [show s.view.ix.documentCount = _ from hi.documentCount, hi1.documentCount, ← hdw]; rfl
    · show s.ix.total = _
      rw [h.ok.total]
      cases ht : K.hasTotal with
      | false =>
        rw [run_total_zero hK ht pipeline ops hsmall s1 hrun]; rfl
      | true =>
        have hW : WeightIsLength K := fun wids => (hC ht wids).2
        rw [(total_ok hK ht hW pipeline ops hsmall (hexact ht) s1 hrun).2 hnc]
        show sumVals _ s.ix.docweight = lens K s1.ix
        unfold lens
        rw [← hwt]; rfl

end Verif.Text.HTI
