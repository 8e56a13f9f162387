import Verif.Proofs.TxnReplace
import Verif.Spec.TxnContend

/-! When no keyword with many documents is contended, no set is replaced while others change it. -/

set_option autoImplicit false

namespace Verif.Txn.View

variable {K D : Type} {o c n r x y : View K D}

theorem Keeps.trans {k : K} (ho : o.Good) (hx : x.Good) (h1 : Keeps o x k) (hl : Later o x) (h2 : Keeps x y k) (hl' : Later x y) :
    Keeps o y k := by
  intro a ha
  have hh := hl.has a (ho.refs k a ha)
  rcases h1 a ha with h' | h'
  · exact h2 a h'
  · refine Or.inr fun d hd => h' d ((hl'.frozen a hh ?_ d).1 hd)
    intro k' hk'
    obtain ⟨d', hd'⟩ := hx.ne k' a hk'
    exact h' d' hd'

theorem Merged.keepsKey {k : K} (ho : o.Good) (h : Merged o c n r) (h2 : Keeps o n k) : Keeps c r k := by
  intro a ha
  rcases h.fwd k with ⟨e1, e2⟩ | ⟨e1, e2⟩
  · rw [← e1] at ha
    rcases h2 a ha with h' | h'
    · exact Or.inl (e2.trans h')
    · exact Or.inr (h.symm.emptied (ho.refs k a ha) (ho.ne k a ha) h').2
  · exact Or.inl (e2.trans ha)

theorem Merged.stillKey {k : K} (hc : c.Good) (h1 : Later o c) (h : Merged o c n r) (hs : Still o n k) : Still c r k := by
  have hfwd : r.fwd k = c.fwd k := by
    rcases h.fwd k with ⟨e1, e2⟩ | ⟨-, e2⟩
    · rw [e2, hs.1, e1]
    · exact e2
  refine ⟨hfwd, fun a ha d => ?_⟩
  by_cases hoa : o.has a
  · have e := hs.2 a (h1.back k a hoa ha) d
    rcases h.bitAt hoa d with ⟨x, y⟩ | ⟨-, y⟩
    · rw [y, e, x]
    · exact y
  · exact h.newC a hoa (hc.refs k a ha) d

end Verif.Txn.View

namespace Verif.Db

variable {S O : Type}

theorem commit_cases (E : Engine S O) (db : Db S) (t : Txn O) :
    (db.commit E t).states = db.states ∨
    ∃ base r, db.states[t.back]? = some base ∧ E.merge base db.latest (E.run db.next base t.ops).1 = some r ∧
      db.commit E t = { latest := r, older := db.states, next := (E.run db.next base t.ops).2 } := by
  unfold Db.commit
  cases hb : db.states[t.back]? with
  | none => exact Or.inl rfl
  | some base =>
    dsimp only
    cases hm : (if (t.refused || E.fails db.next base t.ops) = true then none else E.merge base db.latest (E.run db.next base t.ops).1) with
    | none => exact Or.inl rfl
    | some r =>
      refine Or.inr ⟨base, r, rfl, ?_, rfl⟩
      split at hm
      · cases hm
      · exact hm

end Verif.Db

namespace Verif.HKeyword

open Txn Txn.View
open Keyword (SeqArg Op insertReverse)
open Spec.Txn

variable {D W : Type} [LinearOrder D] [LinearOrder W] {P : W → D → Prop}

theorem kept_refl (s : HKeyword D W) (w : W) : Kept s s w := ⟨rfl, fun _ _ => rfl⟩

theorem kept_trans {s t u : HKeyword D W} {w : W} (h1 : Kept s t w) (h2 : Kept t u w) : Kept s u w :=
  ⟨h2.1.trans h1.1, fun a ha => (h2.2 a (h1.1.trans ha)).trans (h1.2 a ha)⟩

theorem kept_of_still {s t : HKeyword D W} {w : W} (h : Still s.vw t.vw w) : Kept s t w := by
  refine ⟨h.1, fun a ha => ?_⟩
  apply SSet.ext_mem
  intro d
  rw [← mem_setAt, ← mem_setAt]
  exact h.2 a ha d

theorem keeps_of_kept {s t : HKeyword D W} {w : W} (h : Kept s t w) : Keeps s.vw t.vw w := fun _ ha => Or.inl (h.1.trans ha)

theorem setAt_put_ne (s : HKeyword D W) (f : SMap W Nat) {a b : Nat} (set : DocSet D) (hb : b ≠ a) :
    ({ s with heap := s.heap.put a set, fwd := f } : HKeyword D W).setAt b = s.setAt b := by
  unfold setAt Heap.setAt
  dsimp only
  rw [Heap.get?_put, if_neg hb]

theorem setAt_alloc_ne (s : HKeyword D W) (f : SMap W Nat) {b : Nat} (set : DocSet D) (hb : b ≠ s.heap.next) :
    ({ s with heap := s.heap.alloc set, fwd := f } : HKeyword D W).setAt b = s.setAt b := by
  unfold setAt Heap.setAt
  dsimp only
  rw [Heap.get?_alloc, if_neg hb]

theorem removeWord_kept {s t : HKeyword D W} (h : Fw P s.heap.next s) {d : D} {w w' : W} (ht : s.removeWord d w = some t) (hw : w' ≠ w) :
    Kept s t w' := by
  unfold removeWord at ht
  cases ha : s.fwd.get? w with
  | none => rw [ha] at ht; cases ht
  | some a =>
    rw [ha] at ht
    dsimp only at ht
    split at ht
    · have hne : ∀ b, s.fwd.get? w' = some b → b ≠ a := by
        rintro b hb rfl
        exact hw (h.good.inj w' w b hb ha)
      split at ht <;> cases ht
      · exact ⟨SMap.get?_del_ne _ hw, fun b hb => by rw [setAt_put_ne s _ _ (hne b hb)]⟩
      · exact ⟨rfl, fun b hb => by rw [show (HKeyword.setAt _ b) = _ from setAt_put_ne s s.fwd _ (hne b hb)]⟩
    · cases ht

theorem removeWords_kept (d : D) (ws : List W) {s : HKeyword D W} (h : Fw P s.heap.next s) (hn : ws.Nodup)
    (hb : ∀ w ∈ ws, s.vw.Bit w d) {w' : W} (hw : w' ∉ ws) : Kept s (s.removeWords d ws).1 w' := by
  induction ws generalizing s with
  | nil => exact kept_refl _ _
  | cons w ws ih =>
    obtain ⟨t, t1, t2, t3, t4, t5⟩ := removeWord_txn h (hb w (by simp))
    rw [List.nodup_cons] at hn
    have hb' : ∀ w' ∈ ws, t.vw.Bit w' d := by
      intro w' hw'
      refine (t5 w' d).2 ⟨hb w' (by simp [hw']), ?_⟩
      rintro ⟨rfl, -⟩
      exact hn.1 hw'
    have hw : w' ≠ w ∧ w' ∉ ws := by simpa using hw
    unfold removeWords
    rw [t1]
    exact kept_trans (removeWord_kept h t1 hw.1) (ih t2.fw hn.2 hb' hw.2)

theorem copyTo_kept {s : HKeyword D W} (h : Fw P s.heap.next s) {w w' : W} (a : Nat) (tree : Bool) (hw : w' ≠ w) :
    Kept s (s.copyTo w a tree) w' := by
  refine ⟨SMap.get?_set_ne _ hw _, fun b hb => ?_⟩
  have : b ≠ s.heap.next := (h.below b (h.good.refs w' b hb)).ne
  unfold copyTo
  rw [setAt_alloc_ne s _ _ this]

theorem addWord_kept {s : HKeyword D W} (h : Fw P s.heap.next s) (d : D) {w w' : W} (hw : w' ≠ w) : Kept s (addWord d s w) w' := by
  unfold addWord wordIdx
  cases ha : s.fwd.get? w with
  | none =>
    dsimp only
    refine ⟨SMap.get?_set_ne _ hw _, fun b hb => ?_⟩
    have hne : b ≠ s.heap.next := (h.below b (h.good.refs w' b hb)).ne
    have e := setAt_put_ne ({ s with heap := s.heap.alloc emptySet, fwd := s.fwd.set w s.heap.next } : HKeyword D W)
      (s.fwd.set w s.heap.next) { HKeyword.setAt ({ s with heap := s.heap.alloc emptySet, fwd := s.fwd.set w s.heap.next }) s.heap.next with
        ids := SSet.insert (HKeyword.setAt ({ s with heap := s.heap.alloc emptySet, fwd := s.fwd.set w s.heap.next }) s.heap.next).ids d } hne
    refine congrArg DocSet.ids (Eq.trans e ?_)
    exact setAt_alloc_ne s _ _ hne
  | some a =>
    dsimp only
    have hne : ∀ b, s.fwd.get? w' = some b → b ≠ a := by
      rintro b hb rfl
      exact hw (h.good.inj w' w b hb ha)
    exact ⟨rfl, fun b hb => congrArg DocSet.ids (setAt_put_ne s s.fwd _ (hne b hb))⟩

theorem insertWord_cases' (d : D) (s : HKeyword D W) (w : W) :
    insertWord d s w = addWord d s w ∨ (insertWord d s w = (addWord d s w).copyTo w (s.wordIdx w).2 true ∧
      s.treeThreshold ≤ ((((addWord d s w).setAt (s.wordIdx w).2).ids.len : Nat) : Int)) := by
  unfold copyTo
  rw [setAt_addWord]
  unfold insertWord
  dsimp only
  split
  · rename_i hc
    right
    refine ⟨rfl, ?_⟩
    rw [Bool.and_eq_true] at hc
    have := of_decide_eq_true hc.2
    have ht : (s.wordIdx w).1.treeThreshold = s.treeThreshold := by unfold wordIdx; split <;> rfl
    rw [ht] at this
    exact this
  · left; rfl

theorem insertWord_kept {s : HKeyword D W} (h : Fw P s.heap.next s) {d : D} {w w' : W} (hp : P w d) (hw : w' ≠ w) :
    Kept s (insertWord d s w) w' := by
  rcases insertWord_cases d s w with e | e <;> rw [e]
  · exact addWord_kept h d hw
  · exact kept_trans (addWord_kept h d hw) (copyTo_kept (addWord_txn h hp).1.fw _ _ hw)

/-- a keyword with few documents -/
def FewAt (P : W → D → Prop) (w : W) : Prop := ∀ l : List D, l.Nodup → (∀ d ∈ l, P w d) → l.length < 64

theorem insertWord_keeps {s : HKeyword D W} (h : Fw P s.heap.next s) {d : D} {w w' : W} (hp : P w d) (hf : FewAt P w') :
    Keeps s.vw (insertWord d s w).vw w' := by
  by_cases hw : w' = w
  · subst hw
    obtain ⟨a1, -, -, -, a5⟩ := addWord_txn h hp
    rcases insertWord_cases' d s w' with e | ⟨-, e⟩
    · rw [e]; exact fun a ha => a1.evo.keep w' a ha
    · rw [h.threshold, ← SMap.len_keys] at e
      have := hf ((addWord d s w').setAt (s.wordIdx w').2).ids.keys (SMap.keys_nodup _) (by
        intro x hx
        exact a1.fw.bits w' x ⟨_, a5, (mem_setAt _ _ _).2 hx⟩)
      omega
  · exact keeps_of_kept (insertWord_kept h hp hw)

theorem insertForward_kept (d : D) (ws : List W) {s : HKeyword D W} (h : Fw P s.heap.next s) (hp : ∀ w ∈ ws, P w d) {w' : W}
    (hw : w' ∉ ws) : Kept s (s.insertForward d ws) w' := by
  unfold insertForward
  induction ws generalizing s with
  | nil => exact kept_refl _ _
  | cons w ws ih =>
    have hw : w' ≠ w ∧ w' ∉ ws := by simpa using hw
    rw [List.foldl_cons]
    exact kept_trans (insertWord_kept h (hp w (by simp)) hw.1)
      (ih (insertWord_comes h (hp w (by simp))).1.fw (fun w' hw' => hp w' (by simp [hw'])) hw.2)

theorem insertForward_keeps (d : D) (ws : List W) {s : HKeyword D W} (h : Fw P s.heap.next s) (hp : ∀ w ∈ ws, P w d) {w' : W}
    (hf : FewAt P w') : Keeps s.vw (s.insertForward d ws).vw w' := by
  unfold insertForward
  induction ws generalizing s with
  | nil => exact keeps_of_kept (kept_refl _ _)
  | cons w ws ih =>
    rw [List.foldl_cons]
    have h1 := (insertWord_comes h (hp w (by simp))).1
    have h2 := (insertForward_comes d ws h1.fw (fun w' hw' => hp w' (by simp [hw']))).1
    exact Keeps.trans h.good h1.fw.good (insertWord_keeps h (hp w (by simp)) hf) h1.evo
      (ih h1.fw (fun w' hw' => hp w' (by simp [hw']))) h2.evo

/-- what a call does to the forward index -/
theorem step_shape (normalize : List W → List W) {s : HKeyword D W} (h : Wf P s.heap.next s) (op : Op D W) (hu : IsUpdate op)
    (hok : PlainOp normalize P op) :
    ∃ d ws us, keywordNames op d ∧ ws.Nodup ∧ (∀ w ∈ ws, s.vw.Bit w d) ∧ (∀ w ∈ us, P w d) ∧
      (s.step normalize op).1.fwd = ((s.removeWords d ws).1.insertForward d us).fwd ∧
      (s.step normalize op).1.heap = ((s.removeWords d ws).1.insertForward d us).heap := by
  have hun : ∀ d, ∃ ws : List W, ws.Nodup ∧ (∀ w ∈ ws, s.vw.Bit w d) ∧ (s.unindexDoc d).fwd = (s.removeWords d ws).1.fwd ∧
      (s.unindexDoc d).heap = (s.removeWords d ws).1.heap := by
    intro d
    unfold unindexDoc
    cases hk : s.rev.get? d with
    | none => exact ⟨[], List.nodup_nil, by simp, rfl, rfl⟩
    | some ks =>
      refine ⟨ks.keys, SMap.keys_nodup _, fun w hw => (h.agree w d).2 ⟨ks, hk, hw⟩, ?_⟩
      dsimp only
      split <;> exact ⟨rfl, rfl⟩
  cases op with
  | index d seq =>
    have none : ∃ (d' : D) (ws us : List W), d' = d ∧ ws.Nodup ∧ (∀ w ∈ ws, s.vw.Bit w d') ∧ (∀ w ∈ us, P w d') ∧
        s.fwd = ((s.removeWords d' ws).1.insertForward d' us).fwd ∧ s.heap = ((s.removeWords d' ws).1.insertForward d' us).heap :=
      ⟨d, [], [], rfl, List.nodup_nil, by simp, by simp, rfl, rfl⟩
    show ∃ (d' : D) (ws us : List W), d' = d ∧ ws.Nodup ∧ (∀ w ∈ ws, s.vw.Bit w d') ∧ (∀ w ∈ us, P w d') ∧
        (s.indexDoc normalize d seq).1.fwd = _ ∧ (s.indexDoc normalize d seq).1.heap = _
    unfold indexDoc
    cases seq with
    | str => exact none
    | seq truthy items =>
      dsimp only
      cases truthy with
      | false =>
        simp only [Bool.not_false, if_true]
        cases hk : s.rev.get? d with
        | none => exact none
        | some ks =>
          dsimp only
          split
          · exact none
          · obtain ⟨ws, w1, w2, w3, w4⟩ := hun d
            exact ⟨d, ws, [], rfl, w1, w2, by simp, w3, w4⟩
      | true =>
        simp only [Bool.not_true, Bool.false_eq_true, if_false]
        obtain ⟨hitems, hPs⟩ := hok.2 d items rfl
        cases hk : s.rev.get? d with
        | none =>
          exact ⟨d, [], (SSet.ofList (normalize items)).keys, rfl, List.nodup_nil, by simp,
            fun w hw => hPs w ((SSet.mem_keys_ofList _ w).1 hw), rfl, rfl⟩
        | some old =>
          dsimp only
          have hbit : ∀ w ∈ (SSet.diff old (SSet.ofList (normalize items))).keys, s.vw.Bit w d :=
            fun w hw => (h.agree w d).2 ⟨old, hk, ((SSet.mem_keys_diff _ _ _).1 hw).1⟩
          obtain ⟨r1, -⟩ := removeWords_txn d (SSet.diff old (SSet.ofList (normalize items))).keys h.fw (SMap.keys_nodup _) hbit
          refine ⟨d, (SSet.diff old (SSet.ofList (normalize items))).keys, (SSet.diff (SSet.ofList (normalize items)) old).keys, rfl,
            SMap.keys_nodup _, hbit, fun w hw => hPs w ((SSet.mem_keys_ofList _ w).1 ((SSet.mem_keys_diff _ _ _).1 hw).1), ?_⟩
          rw [r1]
          exact ⟨rfl, rfl⟩
  | unindex d =>
    obtain ⟨ws, w1, w2, w3, w4⟩ := hun d
    exact ⟨d, ws, [], rfl, w1, w2, by simp, w3, w4⟩
  | clear => cases hu
  | optimize => cases hu
  | setThreshold n => cases hu

theorem kept_congr {s t u : HKeyword D W} (h1 : t.fwd = u.fwd) (h2 : t.heap = u.heap) {w : W} (h : Kept s u w) : Kept s t w := by
  unfold Kept setAt at *
  rw [h1, h2]; exact h

theorem keeps_congr {s t u : HKeyword D W} (h1 : t.fwd = u.fwd) (h2 : t.heap = u.heap) {w : W} (h : Keeps s.vw u.vw w) :
    Keeps s.vw t.vw w := by
  unfold vw at *
  rw [h1, h2]; exact h

theorem steps_kept (normalize : List W → List W) (ops : List (Op D W)) {s : HKeyword D W} (h : Wf P s.heap.next s)
    (hu : ∀ op ∈ ops, IsUpdate op) (hok : ∀ op ∈ ops, PlainOp normalize P op) {w : W}
    (hw : ∀ op ∈ ops, ∀ d, keywordNames op d → ¬ P w d) : Kept s (s.runFrom normalize ops) w := by
  unfold runFrom
  induction ops generalizing s with
  | nil => exact kept_refl _ _
  | cons op ops ih =>
    obtain ⟨h1, -⟩ := step_comes normalize h op (hok op (by simp))
    rw [List.foldl_cons]
    refine kept_trans ?_ (ih h1.2 (fun o ho => hu o (by simp [ho])) (fun o ho => hok o (by simp [ho])) (fun o ho => hw o (by simp [ho])))
    obtain ⟨d, ws, us, n0, n1, n2, n3, n4, n5⟩ := step_shape normalize h op (hu op (by simp)) (hok op (by simp))
    have hd := hw op (by simp) d n0
    obtain ⟨-, r2, -⟩ := removeWords_txn d ws h.fw n1 n2
    exact kept_congr n4 n5 (kept_trans
      (removeWords_kept d ws h.fw n1 n2 (fun hm => hd (h.fw.bits w d (n2 w hm))))
      (insertForward_kept d us r2.fw n3 (fun hm => hd (n3 w hm))))

theorem steps_keeps (normalize : List W → List W) (ops : List (Op D W)) {s : HKeyword D W} (h : Wf P s.heap.next s)
    (hu : ∀ op ∈ ops, IsUpdate op) (hok : ∀ op ∈ ops, PlainOp normalize P op) {w : W} (hf : FewAt P w) :
    Keeps s.vw (s.runFrom normalize ops).vw w := by
  unfold runFrom
  induction ops generalizing s with
  | nil => exact keeps_of_kept (kept_refl _ _)
  | cons op ops ih =>
    obtain ⟨h1, -⟩ := step_comes normalize h op (hok op (by simp))
    obtain ⟨h3, -⟩ := steps_comes normalize ops h1.2 (fun o ho => hok o (by simp [ho]))
    rw [List.foldl_cons]
    refine Keeps.trans h.fw.good h1.2.fw.good ?_ h1.1.evo
      (ih h1.2 (fun o ho => hu o (by simp [ho])) (fun o ho => hok o (by simp [ho]))) h3.1.evo
    obtain ⟨d, ws, us, n0, n1, n2, n3, n4, n5⟩ := step_shape normalize h op (hu op (by simp)) (hok op (by simp))
    obtain ⟨-, r2, -⟩ := removeWords_txn d ws h.fw n1 n2
    obtain ⟨i2, -⟩ := insertForward_comes d us r2.fw n3
    exact keeps_congr n4 n5 (Keeps.trans h.fw.good r2.fw.good (fun a ha => r2.evo.keep w a ha) r2.evo.later
      (insertForward_keeps d us r2.fw n3 hf) i2.evo)

theorem merged_of_merge {o c x r : HKeyword D W} (hmerge : merge o c x = some r) : Merged o.vw c.vw x.vw r.vw := by
  unfold merge at hmerge
  cases hh : mergeHeap mergeDocSet o.heap c.heap x.heap with
  | none => rw [hh] at hmerge; cases hmerge
  | some heap =>
  cases hf : mergeTree o.fwd c.fwd x.fwd with
  | none => rw [hh, hf] at hmerge; cases hmerge
  | some fwd =>
  cases hr : mergeTree o.rev c.rev x.rev with
  | none => rw [hh, hf, hr] at hmerge; cases hmerge
  | some rev =>
  rw [hh, hf, hr] at hmerge
  cases hmerge
  refine merged_view (ids := DocSet.ids) ?_ hh hf
  intro o c n r h
  unfold mergeDocSet at h
  cases hq : mergeTree o.ids c.ids n.ids with
  | none => rw [hq] at h; cases h
  | some ids => rw [hq] at h; cases h; rfl

theorem not_replaced_of_keeps {o x : HKeyword D W} {w : W} (h : Keeps o.vw x.vw w) : ¬ Replaced o x w := by
  rintro ⟨a, ha, hb, hc⟩
  rw [SMap.isEmpty_eq_false_iff] at hc
  obtain ⟨d, v, hv⟩ := hc
  rcases h a ha with h' | h'
  · exact hb h'
  · exact h' d ((mem_setAt x a d).2 ((SMap.mem_keys_iff _ _).2 ⟨v, hv⟩))

theorem not_replaced_of_kept {o x : HKeyword D W} {w : W} (h : Kept o x w) : ¬ Replaced o x w :=
  not_replaced_of_keeps (keeps_of_kept h)

/-- the facts about a prefix of the schedule -/
theorem prefix_facts (normalize : List W → List W) (ts : List (Txn (Op D W))) (hok : ∀ t ∈ ts, ∀ op ∈ t.ops, PlainOp normalize P op)
    (ha : ReplacedApart normalize ts) :
    (∀ s ∈ (Db.run (engine normalize) (new : HKeyword D W) ts).states, Wf P (Db.run (engine normalize) (new : HKeyword D W) ts).next s) ∧
    (Db.run (engine normalize) (new : HKeyword D W) ts).states.Pairwise (fun newer older => Later older.vw newer.vw) := by
  obtain ⟨-, h2, h3⟩ := (strictSound normalize P).history (s₀ := new) wfTxn_new ts hok
  rw [strict_run normalize ts ha] at h2 h3
  exact ⟨h2, h3⟩

theorem of_pairwise_head {S : Type} {R : S → S → Prop} (hr : ∀ s, R s s) {x : S} {l : List S} (h : (x :: l).Pairwise R) {s : S}
    (hs : s ∈ x :: l) : R x s := by
  rcases List.mem_cons.1 hs with rfl | hs
  · exact hr _
  · exact List.rel_of_pairwise_cons h hs

theorem uncontended_prefix (normalize : List W → List W) (ts : List (Txn (Op D W))) (hu : ∀ t ∈ ts, ∀ op ∈ t.ops, IsUpdate op)
    (hok : ∀ t ∈ ts, ∀ op ∈ t.ops, PlainOp normalize (Given normalize ts) op) (hl : LargeUncontended normalize ts)
    (ts₀ : List (Txn (Op D W))) : ∀ rest, ts = ts₀ ++ rest →
    ReplacedApart normalize ts₀ ∧
    (∀ w, FewAt (Given normalize ts) w →
      (Db.run (engine normalize) (new : HKeyword D W) ts₀).states.Pairwise (fun newer older => Keeps older.vw newer.vw w)) ∧
    (∀ w k base, (Db.run (engine normalize) (new : HKeyword D W) ts₀).states[k]? = some base →
      (∀ b t₁ b', ts₀ = b ++ t₁ :: b' →
        (Db.run (engine normalize) (new : HKeyword D W) (b ++ [t₁])).older = (Db.run (engine normalize) (new : HKeyword D W) b).states →
        (Db.run (engine normalize) (new : HKeyword D W) ts₀).states.length ≤ k + (Db.run (engine normalize) (new : HKeyword D W) b).states.length →
        ¬ Concerns normalize ts t₁ w) →
      Kept base (Db.run (engine normalize) (new : HKeyword D W) ts₀).latest w) := by
  induction ts₀ using List.reverseRecOn with
  | nil =>
    intro rest _
    refine ⟨?_, ?_, ?_⟩
    · intro before t after he
      exact absurd he (by simp)
    · intro w _
      simp [Db.run, Db.new, Db.states]
    · intro w k base hb _
      cases k with
      | zero =>
        obtain rfl := Option.some.inj hb
        exact kept_refl _ _
      | succ k => simp [Db.run, Db.new, Db.states] at hb
  | append_singleton ts₀ t ih =>
    intro rest he
    obtain ⟨iA, iK, iS⟩ := ih (t :: rest) (by rw [he]; simp)
    have ht : t ∈ ts := by rw [he]; simp
    have hsub : ∀ t' ∈ ts₀, t' ∈ ts := fun t' h => by rw [he]; simp [h]
    obtain ⟨f1, f2⟩ := prefix_facts normalize ts₀ (fun t' h => hok t' (hsub t' h)) iA
    have e2 : Db.run (engine normalize) (new : HKeyword D W) (ts₀ ++ [t]) =
        Db.commit (engine normalize) (Db.run (engine normalize) (new : HKeyword D W) ts₀) t := by simp [Db.run]
    -- the transaction's own work
    have hown : ∀ base, base ∈ (Db.run (engine normalize) (new : HKeyword D W) ts₀).states →
        ∀ w,
        (FewAt (Given normalize ts) w →
          Keeps base.vw (exec normalize (Db.run (engine normalize) (new : HKeyword D W) ts₀).next base t.ops).vw w) ∧
        (¬ Concerns normalize ts t w →
          Kept base (exec normalize (Db.run (engine normalize) (new : HKeyword D W) ts₀).next base t.ops) w) := by
      intro base hb w
      have h := f1 base hb
      have h' : Wf (Given normalize ts) (Db.run (engine normalize) (new : HKeyword D W) ts₀).next
          ({ base with heap := { base.heap with next := (Db.run (engine normalize) (new : HKeyword D W) ts₀).next } } : HKeyword D W) :=
        ⟨⟨h.fw.good, h.fw.below, h.fw.bits, h.fw.threshold⟩, h.agree, h.ne, h.count⟩
      refine ⟨fun hf => ?_, fun hc => ?_⟩
      · exact steps_keeps normalize t.ops
          (s := { base with heap := { base.heap with next := (Db.run (engine normalize) (new : HKeyword D W) ts₀).next } }) h' (hu t ht) (hok t ht) hf
      · exact steps_kept normalize t.ops
          (s := { base with heap := { base.heap with next := (Db.run (engine normalize) (new : HKeyword D W) ts₀).next } }) h' (hu t ht) (hok t ht)
          (fun op hop d hd hg => hc ⟨d, hg, op, hop, hd⟩)
    have hA : ReplacedApart normalize (ts₀ ++ [t]) := by
      intro before t' after he'
      rcases List.eq_nil_or_concat after with rfl | ⟨after, x, rfl⟩
      · obtain ⟨rfl, he''⟩ := List.append_inj' he' rfl
        obtain rfl : t = t' := by simpa using he''
        intro hc base hb mine w
        have hmem := List.mem_of_getElem? hb
        obtain ⟨o1, o2⟩ := hown base hmem w
        rcases hl w with hf | hn
        · exact ⟨fun h => absurd h (not_replaced_of_keeps (of_pairwise_head (R := fun newer older : HKeyword D W => Keeps older.vw newer.vw w)
            (fun s => keeps_of_kept (kept_refl s w)) (iK w hf) hmem)), fun h => absurd h (not_replaced_of_keeps (o1 hf))⟩
        · by_cases hcw : Concerns normalize ts t w
          · have hk := iS w t.back base hb (by
              intro b t₁ b' hs h1 h2 h3
              refine hn b t₁ b' t rest (by rw [he, hs]; simp) ⟨h1, ?_, ?_⟩ ⟨h3, hcw⟩
              · rw [← hs]; exact hc
              · rw [← hs]; exact h2)
            exact ⟨fun h => absurd h (not_replaced_of_kept hk), fun _ => hk⟩
          · exact ⟨fun _ => o2 hcw, fun h => absurd h (not_replaced_of_kept (o2 hcw))⟩
      · have : ts₀ = before ++ t' :: after := by
          have he' : ts₀ ++ [t] = (before ++ t' :: after) ++ [x] := by rw [he']; simp
          exact (List.append_inj' he' rfl).1
        exact iA before t' after this
    have hts : ∀ t' ∈ ts₀ ++ [t], t' ∈ ts := fun t' h => by rw [he]; simp at h ⊢; tauto
    obtain ⟨g1, g2⟩ := prefix_facts normalize (ts₀ ++ [t]) (fun t' h => hok t' (hts t' h)) hA
    refine ⟨hA, ?_⟩
    rcases Db.commit_cases (engine normalize) (Db.run (engine normalize) (new : HKeyword D W) ts₀) t with hst | ⟨base, r, hb, hm, hcm⟩
    · have hst' : (Db.run (engine normalize) (new : HKeyword D W) (ts₀ ++ [t])).states = (Db.run (engine normalize) (new : HKeyword D W) ts₀).states := by
        rw [e2, hst]
      have hlat : (Db.run (engine normalize) (new : HKeyword D W) (ts₀ ++ [t])).latest = (Db.run (engine normalize) (new : HKeyword D W) ts₀).latest :=
        (List.cons.inj hst').1
      refine ⟨fun w hf => by rw [hst']; exact iK w hf, fun w k s hs hno => ?_⟩
      rw [hlat]
      rw [hst'] at hs hno
      exact iS w k s hs (fun b t₁ b' hb' => hno b t₁ (b' ++ [t]) (by rw [hb']; simp))
    · rw [← e2] at hcm
      have hst' : (Db.run (engine normalize) (new : HKeyword D W) (ts₀ ++ [t])).states = r :: (Db.run (engine normalize) (new : HKeyword D W) ts₀).states := by
        rw [hcm]; rfl
      have hmem := List.mem_of_getElem? hb
      have hM := merged_of_merge (show merge base _ (exec normalize _ base t.ops) = some r from hm)
      have hlat := f1 _ (List.mem_cons_self : (Db.run (engine normalize) (new : HKeyword D W) ts₀).latest ∈ _)
      have hevo : Later base.vw (Db.run (engine normalize) (new : HKeyword D W) ts₀).latest.vw :=
        of_pairwise_head (R := fun newer older : HKeyword D W => Later older.vw newer.vw) (fun s => Later.refl _) f2 hmem
      rw [hst'] at g1 g2
      have hcr : Later (Db.run (engine normalize) (new : HKeyword D W) ts₀).latest.vw r.vw := List.rel_of_pairwise_cons g2 List.mem_cons_self
      refine ⟨fun w hf => ?_, fun w k s hs hno => ?_⟩
      · rw [hst', List.pairwise_cons]
        refine ⟨fun s hs => ?_, iK w hf⟩
        have k1 : Keeps s.vw (Db.run (engine normalize) (new : HKeyword D W) ts₀).latest.vw w :=
          of_pairwise_head (R := fun newer older : HKeyword D W => Keeps older.vw newer.vw w) (fun s => keeps_of_kept (kept_refl s w)) (iK w hf) hs
        have k2 := hM.keepsKey (f1 base hmem).fw.good ((hown base hmem w).1 hf)
        exact Keeps.trans (f1 s hs).fw.good hlat.fw.good k1
          (of_pairwise_head (R := fun newer older : HKeyword D W => Later older.vw newer.vw) (fun s => Later.refl _) f2 hs) k2 hcr
      · have hl' : (Db.run (engine normalize) (new : HKeyword D W) (ts₀ ++ [t])).latest = r := by rw [hcm]
        rw [hl']
        rw [hst'] at hs hno
        cases k with
        | zero =>
          obtain rfl := Option.some.inj hs
          exact kept_refl _ _
        | succ k =>
          have hk := iS w k s hs (fun b t₁ b' hb' h1 h2 => hno b t₁ (b' ++ [t]) (by rw [hb']; simp) h1 (by
            rw [List.length_cons]; omega))
          have hnt : ¬ Concerns normalize ts t w := hno ts₀ t [] rfl (by rw [hcm]) (by rw [List.length_cons]; omega)
          exact kept_trans hk (kept_of_still (hM.stillKey hlat.fw.good hevo (still_of_kept ((hown base hmem w).2 hnt))))

theorem replacedApart_of_uncontended (normalize : List W → List W) (ts : List (Txn (Op D W))) (hu : ∀ t ∈ ts, ∀ op ∈ t.ops, IsUpdate op)
    (hp : ∀ t ∈ ts, Spec.Keyword.Plain normalize t.ops) (hl : LargeUncontended normalize ts) : ReplacedApart normalize ts := by
  refine (uncontended_prefix normalize ts hu ?_ hl ts [] (by simp)).1
  intro t ht op hop
  refine ⟨?_, ?_⟩
  · have := hu t ht op hop
    cases op <;> first | trivial | exact this
  · rintro d items rfl
    exact ⟨hp t ht d items hop, fun w hw => ⟨t, ht, items, hop, hw⟩⟩

end Verif.HKeyword
