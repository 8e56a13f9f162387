import Verif.Proofs.TxnMerge
import Verif.Proofs.Keyword

/-! Concurrent transactions on a keyword index, as long as no set becomes large enough to be converted. -/

set_option autoImplicit false

namespace Verif.HKeyword

open Txn Txn.View
open Keyword (SeqArg Op insertReverse)
open Spec.Txn (kwUpdate IsUpdate)

variable {D W : Type} [LinearOrder D] [LinearOrder W]

/-- the view of a keyword index -/
def vw (s : HKeyword D W) : View W D := viewOf DocSet.ids s.fwd s.heap

/-- a predicate with few documents per word -/
def Few (P : W → D → Prop) : Prop := ∀ (w : W) (l : List D), l.Nodup → (∀ d ∈ l, P w d) → l.length < 64

/-- the part of the invariant about the forward index -/
structure Fw (P : W → D → Prop) (n : Nat) (s : HKeyword D W) : Prop where
  good : s.vw.Good
  below : ∀ a, s.vw.has a → a < n
  bits : ∀ w d, s.vw.Bit w d → P w d
  threshold : s.treeThreshold = 64

/-- invariant: `n` is above all addresses -/
structure Wf (P : W → D → Prop) (n : Nat) (s : HKeyword D W) : Prop where
  fw : Fw P n s
  agree : ∀ w d, s.vw.Bit w d ↔ ∃ kws, s.rev.get? d = some kws ∧ w ∈ kws.keys
  ne : ∀ d kws, s.rev.get? d = some kws → ∃ w, w ∈ kws.keys
  count : s.numDocs = s.rev.len

/-- one forward index follows another within a transaction -/
structure Follows (P : W → D → Prop) (s t : HKeyword D W) : Prop where
  fw : Fw P t.heap.next t
  evo : Evo s.vw t.vw
  le : s.heap.next ≤ t.heap.next
  new : ∀ a, t.vw.has a → s.vw.has a ∨ s.heap.next ≤ a

variable {P : W → D → Prop}

theorem Follows.refl {s : HKeyword D W} (h : Fw P s.heap.next s) : Follows P s s :=
  ⟨h, Evo.refl _, le_refl _, fun _ h => Or.inl h⟩

theorem Follows.trans {s t u : HKeyword D W} (h : Fw P s.heap.next s) (h1 : Follows P s t) (h2 : Follows P t u) : Follows P s u where
  fw := h2.fw
  evo := Evo.trans h1.fw.good h1.evo h2.evo h.good
  le := h1.le.trans h2.le
  new a ha := by
    rcases h2.new a ha with h' | h'
    · exact h1.new a h'
    · exact Or.inr (h1.le.trans h')

theorem mem_setAt (s : HKeyword D W) (a : Nat) (d : D) : s.vw.mem a d ↔ d ∈ (s.setAt a).ids.keys := by
  unfold setAt Heap.setAt
  cases h : s.heap.get? a with
  | some set =>
    constructor
    · rintro ⟨x, hx, hd⟩
      rw [h] at hx; cases hx; exact hd
    · intro hd; exact ⟨set, h, hd⟩
  | none =>
    constructor
    · rintro ⟨x, hx, -⟩
      rw [h] at hx; cases hx
    · intro hd
      have := (SMap.mem_keys_iff _ _).1 hd
      simp [emptySet] at this

theorem mem_put (h : Heap (DocSet D)) (f : SMap W Nat) (a b : Nat) (set : DocSet D) (d : D) :
    (viewOf DocSet.ids f (h.put a set)).mem b d ↔
      if b = a then d ∈ set.ids.keys else (viewOf DocSet.ids f h).mem b d := by
  show (∃ x, (h.put a set).get? b = some x ∧ d ∈ x.ids.keys) ↔ _
  rw [Heap.get?_put]
  by_cases hb : b = a
  · rw [if_pos hb, if_pos hb]; simp
  · rw [if_neg hb, if_neg hb]; rfl

theorem has_put (h : Heap (DocSet D)) (f : SMap W Nat) (a b : Nat) (set : DocSet D) :
    (viewOf DocSet.ids f (h.put a set)).has b ↔ (viewOf DocSet.ids f h).has b ∨ b = a := by
  show (∃ x, (h.put a set).get? b = some x) ↔ (∃ x, h.get? b = some x) ∨ b = a
  rw [Heap.get?_put]
  by_cases hb : b = a
  · rw [if_pos hb]; simp [hb]
  · rw [if_neg hb]; simp [hb]

theorem removeWord_txn {s : HKeyword D W} (h : Fw P s.heap.next s) {d : D} {w : W} (hb : s.vw.Bit w d) :
    ∃ t, s.removeWord d w = some t ∧ Follows P s t ∧ t.rev = s.rev ∧ t.numDocs = s.numDocs ∧
      ∀ w' e, t.vw.Bit w' e ↔ s.vw.Bit w' e ∧ ¬ (w' = w ∧ e = d) := by
  obtain ⟨a, ha, hd⟩ := hb
  have ha' : s.fwd.get? w = some a := ha
  have hc : (s.setAt a).ids.contains d = true := (SMap.contains_iff_mem _ _).2 ((mem_setAt s a d).1 hd)
  unfold removeWord
  rw [ha']
  dsimp only
  rw [if_pos hc]
  refine ⟨_, rfl, ?_⟩
  have key : ∀ t : HKeyword D W, t.heap = s.heap.put a { s.setAt a with ids := SMap.del (s.setAt a).ids d } →
      t.rev = s.rev → t.numDocs = s.numDocs → t.treeThreshold = s.treeThreshold →
      (∀ k', k' ≠ w → t.fwd.get? k' = s.fwd.get? k') →
      ((t.fwd.get? w = some a ∧ (SMap.del (s.setAt a).ids d).isEmpty = false) ∨
        (t.fwd.get? w = none ∧ (SMap.del (s.setAt a).ids d).isEmpty = true)) →
      Follows P s t ∧ t.rev = s.rev ∧ t.numDocs = s.numDocs ∧
        ∀ w' e, t.vw.Bit w' e ↔ s.vw.Bit w' e ∧ ¬ (w' = w ∧ e = d) := by
    intro t t1 t2 t3 t4 t5 t6
    have hR : Removed s.vw t.vw w a d := by
      refine ⟨ha, ?_, t5, ?_, ?_⟩
      · intro b e
        show (viewOf DocSet.ids t.fwd t.heap).mem b e ↔ _
        rw [t1, mem_put]
        by_cases hb : b = a
        · subst hb
          rw [if_pos rfl, SSet.mem_keys_del, mem_setAt]
          tauto
        · rw [if_neg hb]
          show s.vw.mem b e ↔ _
          tauto
      · rcases t6 with ⟨x1, x2⟩ | ⟨x1, x2⟩
        · refine Or.inl ⟨x1, ?_⟩
          rw [SMap.isEmpty_eq_false_iff] at x2
          obtain ⟨e, v, he⟩ := x2
          refine ⟨e, ?_⟩
          show (viewOf DocSet.ids t.fwd t.heap).mem a e
          rw [t1, mem_put, if_pos rfl]
          exact (SMap.mem_keys_iff _ _).2 ⟨v, he⟩
        · refine Or.inr ⟨x1, ?_⟩
          intro e hm
          have hm : (viewOf DocSet.ids t.fwd t.heap).mem a e := hm
          rw [t1, mem_put, if_pos rfl] at hm
          exact (SSet.isEmpty_iff_keys _).1 x2 e hm
      · intro b
        show (viewOf DocSet.ids t.fwd t.heap).has b ↔ _
        rw [t1, has_put]
        constructor
        · rintro (h' | rfl)
          · exact h'
          · exact h.good.refs w b ha
        · exact Or.inl
    obtain ⟨g1, g2, g3⟩ := hR.spec h.good
    refine ⟨⟨⟨g1, ?_, ?_, t4.trans h.threshold⟩, g2, ?_, ?_⟩, t2, t3, g3⟩
    · intro b hb
      have : t.heap.next = s.heap.next := by rw [t1]; rfl
      rw [this]
      exact h.below b ((hR.has b).1 hb)
    · intro w' e he
      exact h.bits w' e ((g3 w' e).1 he).1
    · rw [t1]; exact le_refl _
    · intro b hb; exact Or.inl ((hR.has b).1 hb)
  by_cases he : (SMap.del (s.setAt a).ids d).isEmpty = true
  · rw [if_pos he]
    exact key _ rfl rfl rfl rfl (fun k' hk => SMap.get?_del_ne _ hk) (Or.inr ⟨SMap.get?_del_self _ _, he⟩)
  · rw [if_neg he]
    exact key _ rfl rfl rfl rfl (fun k' hk => rfl) (Or.inl ⟨ha, by simpa using he⟩)

theorem removeWords_txn (d : D) (ws : List W) {s : HKeyword D W} (h : Fw P s.heap.next s) (hn : ws.Nodup)
    (hb : ∀ w ∈ ws, s.vw.Bit w d) :
    (s.removeWords d ws).2 = false ∧ Follows P s (s.removeWords d ws).1 ∧ (s.removeWords d ws).1.rev = s.rev ∧
      (s.removeWords d ws).1.numDocs = s.numDocs ∧
      ∀ w' e, (s.removeWords d ws).1.vw.Bit w' e ↔ s.vw.Bit w' e ∧ ¬ (w' ∈ ws ∧ e = d) := by
  induction ws generalizing s with
  | nil => exact ⟨rfl, Follows.refl h, rfl, rfl, fun w' e => by simp [removeWords]⟩
  | cons w ws ih =>
    obtain ⟨t, t1, t2, t3, t4, t5⟩ := removeWord_txn h (hb w (by simp))
    rw [List.nodup_cons] at hn
    have hb' : ∀ w' ∈ ws, t.vw.Bit w' d := by
      intro w' hw'
      refine (t5 w' d).2 ⟨hb w' (by simp [hw']), ?_⟩
      rintro ⟨rfl, -⟩
      exact hn.1 hw'
    obtain ⟨i1, i2, i3, i4, i5⟩ := ih t2.fw hn.2 hb'
    unfold removeWords
    rw [t1]
    refine ⟨i1, t2.trans h i2, i3.trans t3, i4.trans t4, fun w' e => ?_⟩
    dsimp only
    rw [i5, t5]
    simp only [List.mem_cons]
    tauto

theorem insertWord_txn (hP : Few P) {s : HKeyword D W} (h : Fw P s.heap.next s) {d : D} {w : W} (hp : P w d) :
    Follows P s (insertWord d s w) ∧ (insertWord d s w).rev = s.rev ∧ (insertWord d s w).numDocs = s.numDocs ∧
      ∀ w' e, (insertWord d s w).vw.Bit w' e ↔ s.vw.Bit w' e ∨ (w' = w ∧ e = d) := by
  -- the object that gets the docid
  have key : ∀ (t : HKeyword D W) (a : Nat), Added s.vw t.vw w a d → t.rev = s.rev → t.numDocs = s.numDocs →
      t.treeThreshold = s.treeThreshold → s.heap.next ≤ t.heap.next → a < t.heap.next → (s.vw.has a ∨ a = s.heap.next) →
      Follows P s t ∧ t.rev = s.rev ∧ t.numDocs = s.numDocs ∧ ∀ w' e, t.vw.Bit w' e ↔ s.vw.Bit w' e ∨ (w' = w ∧ e = d) := by
    intro t a hA t1 t2 t3 t4 t5 t6
    obtain ⟨g1, g2, g3⟩ := hA.spec h.good
    refine ⟨⟨⟨g1, ?_, ?_, t3.trans h.threshold⟩, g2, t4, ?_⟩, t1, t2, g3⟩
    · intro b hb
      rcases (hA.has b).1 hb with h' | rfl
      · exact lt_of_lt_of_le (h.below b h') t4
      · exact t5
    · intro w' e he
      rcases (g3 w' e).1 he with h' | ⟨rfl, rfl⟩
      · exact h.bits w' e h'
      · exact hp
    · intro b hb
      rcases (hA.has b).1 hb with h' | rfl
      · exact Or.inl h'
      · rcases t6 with h' | h'
        · exact Or.inl h'
        · exact Or.inr h'.ge
  unfold insertWord wordIdx
  cases ha : s.fwd.get? w with
  | none =>
    dsimp only
    have hset : (HKeyword.setAt ({ s with heap := s.heap.alloc emptySet, fwd := s.fwd.set w s.heap.next }) s.heap.next)
        = (emptySet : DocSet D) := Heap.setAt_alloc_self _ _
    rw [hset]
    have hlen : ¬ ((SSet.insert (emptySet : DocSet D).ids d).len : Int) ≥ s.treeThreshold := by
      rw [h.threshold]
      have : (SSet.insert (emptySet : DocSet D).ids d).len = 1 := rfl
      rw [this]; decide
    rw [if_neg (by simp only [Bool.and_eq_true, decide_eq_true_eq, not_and]; exact fun _ => hlen)]
    have hnew : ¬ s.vw.has s.heap.next := fun h' => absurd (h.below _ h') (lt_irrefl _)
    have hno : ∀ e, ¬ s.vw.mem s.heap.next e := fun e ⟨x, hx, _⟩ => hnew ⟨x, hx⟩
    refine key _ s.heap.next ⟨Or.inr ⟨ha, hnew, hno⟩, ?_, ?_, ?_, ?_⟩ rfl rfl rfl (Nat.le_succ _) (Nat.lt_succ_self _) (Or.inr rfl)
    · intro b e
      show (∃ x, Heap.get? (Heap.put (s.heap.alloc emptySet) s.heap.next _) b = some x ∧ e ∈ x.ids.keys) ↔ _
      rw [Heap.get?_put, Heap.get?_alloc]
      by_cases hbn : b = s.heap.next
      · subst hbn
        rw [if_pos rfl]
        have := hno e
        constructor
        · rintro ⟨x, hx, he⟩
          cases hx
          rw [SSet.mem_keys_insert] at he
          rcases he with h' | h'
          · exact Or.inr ⟨rfl, h'⟩
          · have := (SMap.mem_keys_iff _ _).1 h'; simp [emptySet] at this
        · rintro (h' | ⟨-, h'⟩)
          · exact absurd h' this
          · exact ⟨_, rfl, (SSet.mem_keys_insert _ _ _).2 (Or.inl h')⟩
      · rw [if_neg hbn, if_neg hbn]
        show s.vw.mem b e ↔ _
        tauto
    · intro k' hk
      show (s.fwd.set w s.heap.next).get? k' = _
      exact SMap.get?_set_ne _ hk _
    · exact SMap.get?_set_self _ _ _
    · intro b
      show (∃ x, Heap.get? (Heap.put (s.heap.alloc emptySet) s.heap.next _) b = some x) ↔ (∃ x, s.heap.get? b = some x) ∨ _
      rw [Heap.get?_put, Heap.get?_alloc]
      by_cases hbn : b = s.heap.next
      · rw [if_pos hbn]; simp [hbn]
      · rw [if_neg hbn, if_neg hbn]; simp [hbn]
  | some a =>
    dsimp only
    have hha := h.good.refs w a ha
    have hlen : ¬ ((SSet.insert (s.setAt a).ids d).len : Int) ≥ s.treeThreshold := by
      rw [h.threshold, ← SMap.len_keys]
      have := hP w (SSet.insert (s.setAt a).ids d).keys (SMap.keys_nodup _) (by
        intro e he
        rw [SSet.mem_keys_insert] at he
        rcases he with rfl | he
        · exact hp
        · exact h.bits w e ⟨a, ha, (mem_setAt s a e).2 he⟩)
      omega
    rw [if_neg (by simp only [Bool.and_eq_true, decide_eq_true_eq, not_and]; exact fun _ => hlen)]
    refine key _ a ⟨Or.inl ha, ?_, fun _ _ => rfl, ha, ?_⟩ rfl rfl rfl (le_refl _) (h.below a hha) (Or.inl hha)
    · intro b e
      show (viewOf DocSet.ids s.fwd (s.heap.put a _)).mem b e ↔ _
      rw [mem_put]
      by_cases hba : b = a
      · subst hba
        rw [if_pos rfl, SSet.mem_keys_insert, mem_setAt]
        tauto
      · rw [if_neg hba]
        show s.vw.mem b e ↔ _
        tauto
    · intro b
      exact has_put _ _ _ _ _

theorem insertForward_txn (hP : Few P) (d : D) (ws : List W) {s : HKeyword D W} (h : Fw P s.heap.next s)
    (hp : ∀ w ∈ ws, P w d) :
    Follows P s (s.insertForward d ws) ∧ (s.insertForward d ws).rev = s.rev ∧ (s.insertForward d ws).numDocs = s.numDocs ∧
      ∀ w' e, (s.insertForward d ws).vw.Bit w' e ↔ s.vw.Bit w' e ∨ (w' ∈ ws ∧ e = d) := by
  unfold insertForward
  induction ws generalizing s with
  | nil => exact ⟨Follows.refl h, rfl, rfl, fun w' e => by simp⟩
  | cons w ws ih =>
    obtain ⟨t2, t3, t4, t5⟩ := insertWord_txn hP h (hp w (by simp))
    obtain ⟨i2, i3, i4, i5⟩ := ih t2.fw (fun w' hw' => hp w' (by simp [hw']))
    rw [List.foldl_cons]
    refine ⟨t2.trans h i2, i3.trans t3, i4.trans t4, fun w' e => ?_⟩
    rw [i5, t5]
    simp only [List.mem_cons]
    tauto

/-- the keywords of a document -/
def kws (s : HKeyword D W) (d : D) : W → Prop := fun w => ∃ ks, s.rev.get? d = some ks ∧ w ∈ ks.keys

/-- a call succeeded in moving from `s` to `t` -/
def Stepped (P : W → D → Prop) (s t : HKeyword D W) : Prop := Follows P s t ∧ Wf P t.heap.next t

theorem unindex_txn {s : HKeyword D W} (h : Wf P s.heap.next s) (d : D) :
    Stepped P s (s.unindexDoc d) ∧ ∀ x, (s.unindexDoc d).kws x = if x = d then (fun _ => False) else s.kws x := by
  unfold unindexDoc
  cases hk : s.rev.get? d with
  | none =>
    refine ⟨⟨Follows.refl h.fw, h⟩, fun x => ?_⟩
    by_cases hx : x = d
    · subst hx; rw [if_pos rfl]; funext w; simp [kws, hk]
    · rw [if_neg hx]
  | some ks =>
    dsimp only
    obtain ⟨r1, r2, r3, r4, r5⟩ := removeWords_txn d ks.keys h.fw (SMap.keys_nodup _)
      (fun w hw => (h.agree w d).2 ⟨ks, hk, hw⟩)
    rw [r1]
    simp only [Bool.false_eq_true, if_false]
    set t := (s.removeWords d ks.keys).1 with ht
    have hrev : ∀ x, (t.rev.del d).get? x = if x = d then none else s.rev.get? x := by
      intro x; rw [r3, SMap.get?_del]
    refine ⟨⟨⟨⟨r2.fw.good, r2.fw.below, r2.fw.bits, r2.fw.threshold⟩, r2.evo, r2.le, r2.new⟩,
      ⟨r2.fw.good, r2.fw.below, r2.fw.bits, r2.fw.threshold⟩, ?_, ?_, ?_⟩, ?_⟩
    · intro w e
      show t.vw.Bit w e ↔ ∃ ks, (t.rev.del d).get? e = some ks ∧ w ∈ ks.keys
      rw [r5, h.agree, hrev]
      by_cases he : e = d
      · subst he
        rw [if_pos rfl, hk]
        simp only [Option.some.injEq, exists_eq_left', and_true, reduceCtorEq, false_and, exists_false, iff_false, not_and,
          not_not]
        exact id
      · rw [if_neg he]; tauto
    · intro e ks' he
      have he : (t.rev.del d).get? e = some ks' := he
      rw [hrev] at he
      split at he
      · cases he
      · exact h.ne e ks' he
    · show t.numDocs - 1 = ((t.rev.del d).len : Int)
      rw [r4, r3, h.count]
      have hl := SMap.len_del s.rev d
      rw [SMap.contains_of_get? hk] at hl
      have hp : 0 < s.rev.len := by
        rcases Nat.eq_zero_or_pos s.rev.len with h0 | h0
        · have := (SMap.isEmpty_iff _).1 ((SMap.isEmpty_iff_len _).2 h0) d
          rw [hk] at this; cases this
        · exact h0
      simp at hl
      omega
    · intro x
      funext w
      show (∃ ks, (t.rev.del d).get? x = some ks ∧ w ∈ ks.keys) = _
      rw [hrev]
      by_cases hx : x = d
      · rw [if_pos hx, if_pos hx]; simp
      · rw [if_neg hx, if_neg hx]; rfl

/-- what is asked of the calls of the transactions -/
def OkOp (normalize : List W → List W) (P : W → D → Prop) (op : Op D W) : Prop :=
  IsUpdate op ∧ ∀ d items, op = .index d (.seq true items) → normalize items ≠ [] ∧ ∀ w ∈ normalize items, P w d

theorem index_txn (hP : Few P) (normalize : List W → List W) {s : HKeyword D W} (h : Wf P s.heap.next s) (d : D) (seq : SeqArg W)
    (hok : OkOp normalize P (.index d seq)) :
    Stepped P s (s.indexDoc normalize d seq).1 ∧
      ∀ x, (s.indexDoc normalize d seq).1.kws x = kwUpdate normalize s.kws (.index d seq) x := by
  unfold indexDoc
  cases seq with
  | str => exact ⟨⟨Follows.refl h.fw, h⟩, fun _ => rfl⟩
  | seq truthy items =>
    dsimp only
    cases truthy with
    | false =>
      simp only [Bool.not_false, if_true]
      have hu := unindex_txn h d
      have hspec : ∀ x, kwUpdate normalize s.kws (.index d (.seq false items)) x =
          if x = d then (fun _ => False) else s.kws x := by
        intro x
        show (if x = d then (fun w => false = true ∧ w ∈ normalize items) else s.kws x) = _
        simp
      cases hk : s.rev.get? d with
      | none =>
        refine ⟨⟨Follows.refl h.fw, h⟩, fun x => ?_⟩
        rw [hspec]
        by_cases hx : x = d
        · subst hx; rw [if_pos rfl]; funext w; simp [kws, hk]
        · rw [if_neg hx]
      | some ks =>
        dsimp only
        have hne : ¬ ks.isEmpty = true := by
          intro he
          obtain ⟨w, hw⟩ := h.ne d ks hk
          exact (SSet.isEmpty_iff_keys _).1 he w hw
        rw [if_neg hne]
        exact ⟨hu.1, fun x => (hu.2 x).trans (hspec x).symm⟩
    | true =>
      simp only [Bool.not_true, Bool.false_eq_true, if_false]
      obtain ⟨hitems, hPs⟩ := hok.2 d items rfl
      have hne : (SSet.ofList (normalize items)).isEmpty = false := by
        rw [SMap.isEmpty_eq_false_iff]
        obtain ⟨w, hw⟩ := List.exists_mem_of_ne_nil _ hitems
        obtain ⟨v, hv⟩ := (SMap.mem_keys_iff _ _).1 ((SSet.mem_keys_ofList _ w).2 hw)
        exact ⟨w, v, hv⟩
      have hrevEq : ∀ r : SMap D (SSet W), insertReverse r d (SSet.ofList (normalize items)) =
          r.set d (SSet.ofList (normalize items)) := by
        intro r; unfold insertReverse; rw [hne]; rfl
      have fin : ∀ (t : HKeyword D W) (r : SMap D (SSet W)) (n : Int), Follows P s t →
          (∀ w e, t.vw.Bit w e ↔ (e ≠ d ∧ s.vw.Bit w e) ∨ (e = d ∧ w ∈ normalize items)) →
          (r = s.rev.set d (SSet.ofList (normalize items))) → n = r.len →
          Stepped P s { t with rev := r, numDocs := n } ∧
          ∀ x, kws { t with rev := r, numDocs := n } x =
            kwUpdate normalize s.kws (.index d (.seq true items)) x := by
        intro t r n f1 f2 f3 f4
        have hrev : ∀ x, r.get? x = if x = d then some (SSet.ofList (normalize items)) else s.rev.get? x := by
          intro x; rw [f3, SMap.get?_set]
        have g1 : Fw P t.heap.next { t with rev := r, numDocs := n } :=
          ⟨f1.fw.good, f1.fw.below, f1.fw.bits, f1.fw.threshold⟩
        refine ⟨⟨⟨g1, f1.evo, f1.le, f1.new⟩, g1, ?_, ?_, f4⟩, ?_⟩
        · intro w e
          show t.vw.Bit w e ↔ ∃ ks, r.get? e = some ks ∧ w ∈ ks.keys
          rw [f2, hrev]
          by_cases he : e = d
          · subst he; rw [if_pos rfl]; simp
          · rw [if_neg he, h.agree]; simp [he]
        · intro e ks he
          have he : r.get? e = some ks := he
          rw [hrev] at he
          split at he
          · cases he
            obtain ⟨w, hw⟩ := List.exists_mem_of_ne_nil _ hitems
            exact ⟨w, (SSet.mem_keys_ofList _ w).2 hw⟩
          · exact h.ne e ks he
        · intro x
          funext w
          show (∃ ks, r.get? x = some ks ∧ w ∈ ks.keys) =
            (if x = d then (fun w => true = true ∧ w ∈ normalize items) else s.kws x) w
          rw [hrev]
          by_cases hx : x = d
          · rw [if_pos hx, if_pos hx]; simp
          · rw [if_neg hx, if_neg hx]; rfl
      cases hk : s.rev.get? d with
      | none =>
        dsimp only
        obtain ⟨i2, i3, i4, i5⟩ := insertForward_txn hP d (SSet.ofList (normalize items)).keys h.fw
          (fun w hw => hPs w ((SSet.mem_keys_ofList _ w).1 hw))
        refine fin _ _ _ i2 ?_ (by rw [hrevEq, i3]) ?_
        · intro w e
          rw [i5, SSet.mem_keys_ofList]
          by_cases he : e = d
          · subst he
            have : ¬ s.vw.Bit w e := by
              rw [h.agree]; rintro ⟨ks, hks, -⟩; rw [hk] at hks; cases hks
            tauto
          · tauto
        · rw [i4, h.count, hrevEq, i3, SMap.len_set]
          simp [SMap.contains, hk]
      | some old =>
        dsimp only
        obtain ⟨r1, r2, r3, r4, r5⟩ := removeWords_txn d (SSet.diff old (SSet.ofList (normalize items))).keys h.fw
          (SMap.keys_nodup _) (fun w hw => (h.agree w d).2 ⟨old, hk, ((SSet.mem_keys_diff _ _ _).1 hw).1⟩)
        rw [r1]
        simp only [Bool.false_eq_true, if_false]
        obtain ⟨i2, i3, i4, i5⟩ := insertForward_txn hP d (SSet.diff (SSet.ofList (normalize items)) old).keys r2.fw
          (fun w hw => hPs w ((SSet.mem_keys_ofList _ w).1 ((SSet.mem_keys_diff _ _ _).1 hw).1))
        refine fin _ _ _ (r2.trans h.fw i2) ?_ (by rw [hrevEq, i3, r3]) ?_
        · intro w e
          rw [i5, r5, SSet.mem_keys_diff, SSet.mem_keys_diff, SSet.mem_keys_ofList]
          by_cases he : e = d
          · subst he
            have : s.vw.Bit w e ↔ w ∈ old.keys := by
              rw [h.agree]
              constructor
              · rintro ⟨ks, hks, hw⟩; rw [hk] at hks; cases hks; exact hw
              · intro hw; exact ⟨old, hk, hw⟩
            tauto
          · tauto
        · rw [i4, r4, h.count, hrevEq, i3, r3, SMap.len_set]
          simp [SMap.contains, hk]

theorem step_txn (hP : Few P) (normalize : List W → List W) {s : HKeyword D W} (h : Wf P s.heap.next s) (op : Op D W)
    (hok : OkOp normalize P op) :
    Stepped P s (s.step normalize op).1 ∧ ∀ x, (s.step normalize op).1.kws x = kwUpdate normalize s.kws op x := by
  cases op with
  | index d seq => exact index_txn hP normalize h d seq hok
  | unindex d => exact unindex_txn h d
  | clear => exact absurd hok.1 id
  | optimize => exact absurd hok.1 id
  | setThreshold n => exact absurd hok.1 id

theorem steps_txn (hP : Few P) (normalize : List W → List W) (ops : List (Op D W)) {s : HKeyword D W} (h : Wf P s.heap.next s)
    (hok : ∀ op ∈ ops, OkOp normalize P op) :
    Stepped P s (s.runFrom normalize ops) ∧
      ∀ x, (s.runFrom normalize ops).kws x = ops.foldl (kwUpdate normalize) s.kws x := by
  unfold runFrom
  induction ops generalizing s with
  | nil => exact ⟨⟨Follows.refl h.fw, h⟩, fun _ => rfl⟩
  | cons op ops ih =>
    obtain ⟨h1, h2⟩ := step_txn hP normalize h op (hok op (by simp))
    obtain ⟨h3, h4⟩ := ih h1.2 (fun o ho => hok o (by simp [ho]))
    rw [List.foldl_cons, List.foldl_cons]
    refine ⟨⟨h1.1.trans h.fw h3.1, h3.2⟩, fun x => ?_⟩
    rw [h4 x, show (s.step normalize op).1.kws = _ from funext h2]

theorem pick_new {R N C : Prop} (h : ((C ↔ C) ∧ (R ↔ N)) ∨ ((C ↔ N) ∧ (R ↔ C))) : R ↔ N := by tauto

theorem pick_committed {R N C : Prop} (h : ((N ↔ C) ∧ (R ↔ N)) ∨ ((N ↔ N) ∧ (R ↔ C))) : R ↔ C := by tauto

/-- the schedule theorem applies to keyword indexes in which no set gets large -/
def sound (normalize : List W → List W) (P : W → D → Prop) (hP : Few P) :
    Txn.Sound (engine normalize : Engine (HKeyword D W) (Op D W)) (kwUpdate normalize) (OkOp normalize P) where
  abs s := s.kws
  Wf := Wf P
  Evo s t := Evo s.vw t.vw
  NewFrom n s t := ∀ a, t.vw.has a → s.vw.has a ∨ n ≤ a
  mono n m s hnm h := ⟨⟨h.fw.good, fun a ha => lt_of_lt_of_le (h.fw.below a ha) hnm, h.fw.bits, h.fw.threshold⟩,
    h.agree, h.ne, h.count⟩
  refl s := Evo.refl _
  trans n a b c ha hb h1 h2 := Evo.trans hb.fw.good h1 h2 ha.fw.good
  exec n s ops h hops := by
    have h' : Wf P n ({ s with heap := { s.heap with next := n } } : HKeyword D W) :=
      ⟨⟨h.fw.good, h.fw.below, h.fw.bits, h.fw.threshold⟩, h.agree, h.ne, h.count⟩
    obtain ⟨⟨h1, h3⟩, h2⟩ := steps_txn hP normalize ops (s := { s with heap := { s.heap with next := n } }) h' hops
    exact ⟨h1.le, fun _ => ⟨h3, h1.evo, h1.new, h2⟩⟩
  merge n m o c x r ho hc hoc hnm hx hox hnew hmerge := by
    have hmerge : merge o c x = some r := hmerge
    unfold merge at hmerge
    cases hh : mergeHeap mergeDocSet o.heap c.heap x.heap with
    | none => rw [hh] at hmerge; cases hmerge
    | some heap =>
    cases hf : mergeTree o.fwd c.fwd x.fwd with
    | none => rw [hh, hf] at hmerge; cases hmerge
    | some fwd =>
    cases hr : mergeTree o.rev c.rev x.rev with
    | none => rw [hh, hf, hr] at hmerge; cases hmerge
    | some rev =>
    rw [hh, hf, hr] at hmerge
    cases hmerge
    have hM : Merged o.vw c.vw x.vw (viewOf DocSet.ids fwd heap) := by
      refine merged_view (ids := DocSet.ids) ?_ hh hf
      intro o c n r h
      unfold mergeDocSet at h
      cases hq : mergeTree o.ids c.ids n.ids with
      | none => rw [hq] at h; cases h
      | some ids => rw [hq] at h; cases h; rfl
    have fresh : ∀ a, c.vw.has a → x.vw.has a → o.vw.has a := by
      intro a h1 h2
      rcases hnew a h2 with h' | h'
      · exact h'
      · exact absurd (hc.fw.below a h1) (not_lt.2 h')
    have hbits := hM.bits ho.fw.good hc.fw.good hx.fw.good hoc hox fresh
    have hrev := fun d => mergeTree_keywise hr d
    refine ⟨⟨⟨hM.good hc.fw.good hx.fw.good ho.fw.good hoc hox fresh, ?_, ?_, hc.fw.threshold⟩, ?_, ?_, ?_⟩,
      hM.evo ho.fw.good hx.fw.good hoc hox fresh, ?_⟩
    · intro a ha
      rcases (hM.has a).1 ha with h' | h'
      · exact lt_of_lt_of_le (hc.fw.below a h') hnm
      · exact hx.fw.below a h'
    · intro w d hb
      have hb : (viewOf DocSet.ids fwd heap).Bit w d := hb
      rcases hbits w d with ⟨-, e⟩ | ⟨-, e⟩
      · exact hx.fw.bits w d (e.1 hb)
      · exact hc.fw.bits w d (e.1 hb)
    · intro w d
      show (viewOf DocSet.ids fwd heap).Bit w d ↔ ∃ ks, rev.get? d = some ks ∧ w ∈ ks.keys
      have hb := hbits w d
      rw [ho.agree, hc.agree, hx.agree] at hb
      rcases hrev d with ⟨e1, e2⟩ | ⟨e1, e2⟩ <;> rw [e2] <;> rw [e1] at hb
      · exact pick_new hb
      · exact pick_committed hb
    · intro d ks hd
      have hd : rev.get? d = some ks := hd
      rcases hrev d with ⟨-, e⟩ | ⟨-, e⟩
      · exact hx.ne d ks (e ▸ hd)
      · exact hc.ne d ks (e ▸ hd)
    · show c.numDocs + x.numDocs - o.numDocs = (rev.len : Int)
      have := mergeTree_len hr
      rw [ho.count, hc.count, hx.count]
      omega
    · intro d
      unfold kws
      dsimp only
      rcases hrev d with ⟨e1, e2⟩ | ⟨e1, e2⟩
      · left; rw [e1, e2]; exact ⟨rfl, rfl⟩
      · right; rw [e1, e2]; exact ⟨rfl, rfl⟩

theorem wfTxn_new : Wf P 0 (new : HKeyword D W) where
  fw := ⟨⟨by intro k a h; (cases h), by intro k a h; (cases h), by intro k k' a h; (cases h)⟩,
    by rintro a ⟨s, hs⟩; (cases hs), by rintro w d ⟨a, h, -⟩; (cases h), rfl⟩
  agree w d := by
    constructor
    · rintro ⟨a, h, -⟩; cases h
    · rintro ⟨ks, h, -⟩; cases h
  ne d ks h := by cases h
  count := rfl

/-- a well-formed state is, addresses apart, a state of the single-threaded model -/
theorem inv_view {n : Nat} {s : HKeyword D W} (h : Wf P n s) :
    Keyword.Inv s.view (fun d => ((s.rev.get? d).map SMap.keys).getD []) where
  fwd w d := by
    have hb : Keyword.Holds s.view.fwd w d ↔ s.vw.Bit w d := by
      unfold Keyword.Holds
      constructor
      · rintro ⟨set, hs, hd⟩
        rw [get?_view] at hs
        cases ha : s.fwd.get? w with
        | none => rw [ha] at hs; cases hs
        | some a => rw [ha] at hs; cases hs; exact ⟨a, ha, (mem_setAt s a d).2 hd⟩
      · rintro ⟨a, ha, hd⟩
        have ha : s.fwd.get? w = some a := ha
        exact ⟨s.setAt a, by rw [get?_view, ha]; rfl, (mem_setAt s a d).1 hd⟩
    rw [hb, h.agree]
    cases hk : s.rev.get? d with
    | none => simp
    | some ks => simp
  ne w set hs := by
    rw [get?_view] at hs
    cases ha : s.fwd.get? w with
    | none => rw [ha] at hs; cases hs
    | some a =>
      rw [ha] at hs; cases hs
      obtain ⟨d, hd⟩ := h.fw.good.ne w a ha
      exact ⟨d, (mem_setAt s a d).1 hd⟩
  rev d := by
    show (_ → s.rev.get? d = none) ∧ (_ → ∃ kws, s.rev.get? d = some kws ∧ _)
    cases hk : s.rev.get? d with
    | none => simp
    | some ks =>
      obtain ⟨w, hw⟩ := h.ne d ks hk
      refine ⟨fun h0 => ?_, fun _ => ⟨ks, rfl, fun w => Iff.rfl⟩⟩
      simp only [Option.map_some, Option.getD_some] at h0
      rw [h0] at hw; cases hw
  count := h.count

end Verif.HKeyword

namespace Verif.Keyword

variable {D W : Type} [LinearOrder D] [LinearOrder W]

/-- two states with the same keywords are equal up to how sets are stored -/
theorem same_of_inv {s t : Keyword D W} {m m' : D → List W} (hs : Inv s m) (ht : Inv t m') (h : ∀ d w, w ∈ m d ↔ w ∈ m' d) :
    Same s t := by
  have hnil : ∀ d, m d = [] ↔ m' d = [] := by
    intro d
    simp only [List.eq_nil_iff_forall_not_mem]
    constructor
    · intro h' w hw; exact h' w ((h d w).2 hw)
    · intro h' w hw; exact h' w ((h d w).1 hw)
  have hrev : s.rev = t.rev := by
    ext1 d
    by_cases hm : m d = []
    · rw [(hs.rev d).1 hm, (ht.rev d).1 ((hnil d).1 hm)]
    · obtain ⟨k1, h1, h2⟩ := (hs.rev d).2 hm
      obtain ⟨k2, h3, h4⟩ := (ht.rev d).2 (fun h' => hm ((hnil d).2 h'))
      rw [h1, h3]
      congr 1
      apply SSet.ext_mem
      intro w
      rw [h2, h4, h]
  refine ⟨hrev, by rw [hs.count, ht.count, hrev], fun w => ?_⟩
  have hb : ∀ d, Holds s.fwd w d ↔ Holds t.fwd w d := fun d => by rw [hs.fwd, ht.fwd, h]
  cases h1 : s.fwd.get? w with
  | none =>
    cases h2 : t.fwd.get? w with
    | none => rfl
    | some b =>
      obtain ⟨d, hd⟩ := ht.ne w b h2
      obtain ⟨x, hx, -⟩ := (hb d).2 ⟨b, h2, hd⟩
      rw [h1] at hx; cases hx
  | some a =>
    cases h2 : t.fwd.get? w with
    | none =>
      obtain ⟨d, hd⟩ := hs.ne w a h1
      obtain ⟨x, hx, -⟩ := (hb d).1 ⟨a, h1, hd⟩
      rw [h2] at hx; cases hx
    | some b =>
      show some a.ids = some b.ids
      congr 1
      apply SSet.ext_mem
      intro d
      have := hb d
      unfold Holds at this
      rw [h1, h2] at this
      simpa using this

end Verif.Keyword
