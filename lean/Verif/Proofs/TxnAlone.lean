import Verif.Proofs.TxnClear

/-! A transaction that no other committed transaction overlapped commits. -/

set_option autoImplicit false

namespace Verif

theorem mergeLength_same (x y : Int) : mergeLength x x y = y := by unfold mergeLength; omega

/-- nothing to resolve -/
theorem mergeHeap_alone {S : Type} {mergeV : S → S → S → Option S} (hv : ∀ o n, (mergeV o o n).isSome = true) {o n : Heap S}
    (hg : ∀ a s, o.get? a = some s → ∃ t, n.get? a = some t) : ∃ r, mergeHeap mergeV o o n = some r := by
  have hcell : ∀ a, (mergeCell mergeV (o.get? a) (o.get? a) (n.get? a)).isSome = true := by
    intro a
    cases ho : o.get? a with
    | none => cases n.get? a <;> rfl
    | some s =>
      obtain ⟨t, ht⟩ := hg a s ho
      rw [ht]
      simp only [mergeCell, Option.isSome_map, hv]
  unfold mergeHeap
  dsimp only
  rw [if_pos (by rw [List.all_eq_true]; intro a _; exact hcell a)]
  exact ⟨_, rfl⟩

/-- the transaction commits when conflict resolution gives a state -/
theorem Db.commit_alone {S O : Type} {E : Engine S O} {db : Db S} {t : Txn O} (hb : t.back = 0) (hr : t.refused = false)
    (hf : E.fails db.next db.latest t.ops = false) {r : S} (hm : E.merge db.latest db.latest (E.run db.next db.latest t.ops).1 = some r) :
    (Db.commit E db t).older = db.states ∧ (Db.commit E db t).latest = r := by
  unfold Db.commit
  have hs : db.states[t.back]? = some db.latest := by rw [hb]; rfl
  rw [hs, hr]
  dsimp only
  rw [hf]
  simp only [Bool.or_self, Bool.false_eq_true, if_false]
  rw [hm]
  exact ⟨rfl, rfl⟩

theorem Housed.exec_ok {S O C : Type} {E : Engine S O} {Z : Clearing S O C} (hE : ∀ n s ops, E.fails n s ops = false) (n : Nat) (s : Housed S)
    (cs : List C) : (Housed.exec E Z n s cs).2 = false := by
  induction cs using List.reverseRecOn with
  | nil => rfl
  | append_singleton cs c ih =>
    have hex : Housed.exec E Z n s (cs ++ [c]) = Housed.step E Z (Housed.exec E Z n s cs) c := by simp [Housed.exec]
    rw [hex]
    unfold Housed.step
    rw [ih]
    simp only [Bool.false_eq_true, if_false]
    cases Z.keeps c with
    | none => rfl
    | some op => exact hE _ _ _

namespace Txn

variable {S O C D X : Type} {E : Engine S O} {upd : (D → X) → O → D → X} {okOp : O → Prop}
  {h : Sound E upd okOp} {Z : Clearing S O C} {updC : (D → X) → C → D → X} {m₀ : D → X}

theorem Sound.alone (h : Sound E upd okOp) {s₀ : S} (h₀ : h.Wf 0 s₀) (hsame : ∀ a b, h.Evo a b → ∃ r, E.merge a a b = some r ∧ h.abs r = h.abs b)
    (ts : List (Txn O)) (t : Txn O) (hok : ∀ t' ∈ ts ++ [t], ∀ op ∈ t'.ops, okOp op) (hb : t.back = 0) (hr : t.refused = false)
    (hf : E.fails (Db.run E s₀ ts).next (Db.run E s₀ ts).latest t.ops = false) :
    (Db.run E s₀ (ts ++ [t])).older = (Db.run E s₀ ts).states ∧
      h.abs (Db.run E s₀ (ts ++ [t])).latest = t.ops.foldl upd (h.abs (Db.run E s₀ ts).latest) := by
  obtain ⟨-, h2, -⟩ := h.history h₀ ts (fun t' ht => hok t' (by simp [ht]))
  have hrun : Db.run E s₀ (ts ++ [t]) = Db.commit E (Db.run E s₀ ts) t := by simp [Db.run]
  rw [hrun]
  generalize Db.run E s₀ ts = db at h2 hf
  obtain ⟨-, he⟩ := h.exec db.next db.latest t.ops (h2 db.latest (by simp [Db.states])) (hok t (by simp))
  obtain ⟨-, he, -, ha⟩ := he hf
  obtain ⟨r, hm, hra⟩ := hsame _ _ he
  obtain ⟨c1, c2⟩ := Db.commit_alone hb hr hf hm
  refine ⟨c1, ?_⟩
  rw [c2, hra]
  exact funext ha

theorem ClearSound.alone (hz : ClearSound h Z updC m₀) {s₀ : S} (h₀ : h.Wf 0 s₀) (hm₀ : ∀ d, h.abs s₀ d = m₀ d)
    (hsame : ∀ a b, h.Evo a b → ∃ r, E.merge a a b = some r ∧ h.abs r = h.abs b)
    (hover : ∀ a b, ∃ r, Z.over a a b = some r ∧ h.abs r = h.abs b)
    (ts : List (Txn C)) (t : Txn C) (hok : ∀ t' ∈ ts ++ [t], ∀ c ∈ t'.ops, ∀ op, Z.keeps c = some op → okOp op)
    (hb : t.back = 0) (hr : t.refused = false)
    (hf : (Housed.engine E Z).fails (Db.run (Housed.engine E Z) ⟨0, s₀⟩ ts).next (Db.run (Housed.engine E Z) ⟨0, s₀⟩ ts).latest t.ops = false) :
    (Db.run (Housed.engine E Z) ⟨0, s₀⟩ (ts ++ [t])).older = (Db.run (Housed.engine E Z) ⟨0, s₀⟩ ts).states ∧
      h.abs (Db.run (Housed.engine E Z) ⟨0, s₀⟩ (ts ++ [t])).latest.inner =
        t.ops.foldl updC (h.abs (Db.run (Housed.engine E Z) ⟨0, s₀⟩ ts).latest.inner) := by
  obtain ⟨-, -, -, h3, -⟩ := hz.history h₀ hm₀ ts (fun t' ht => hok t' (by simp [ht]))
  have hrun : Db.run (Housed.engine E Z) ⟨0, s₀⟩ (ts ++ [t]) = Db.commit (Housed.engine E Z) (Db.run (Housed.engine E Z) ⟨0, s₀⟩ ts) t := by
    simp [Db.run]
  rw [hrun]
  generalize Db.run (Housed.engine E Z) ⟨0, s₀⟩ ts = db at h3 hf
  obtain ⟨hw, hhome⟩ := h3 db.latest (by simp [Db.states])
  obtain ⟨-, he⟩ := exec_le hz t.ops (hok t (by simp)) db.next db.latest hw
  have j := he hf
  have hm : ∃ r, Housed.merge E Z db.latest db.latest (Housed.exec E Z db.next db.latest t.ops).1.1 = some r ∧
      h.abs r.inner = h.abs (Housed.exec E Z db.next db.latest t.ops).1.1.inner := by
    unfold Housed.merge
    rcases j.home with ⟨g1, -, g3, -⟩ | ⟨g1, -, -⟩
    · obtain ⟨r, e1, e2⟩ := hsame _ _ g3
      rw [if_pos g1, if_pos rfl, e1]
      exact ⟨_, rfl, e2⟩
    · obtain ⟨r, e1, e2⟩ := hover db.latest.inner (Housed.exec E Z db.next db.latest t.ops).1.1.inner
      rw [if_neg (by omega), if_pos rfl, e1]
      exact ⟨_, rfl, e2⟩
  obtain ⟨r, hm, hra⟩ := hm
  obtain ⟨c1, c2⟩ := Db.commit_alone (E := Housed.engine E Z) hb hr hf hm
  refine ⟨c1, ?_⟩
  rw [c2, hra]
  exact funext j.abs

end Txn

open Txn

theorem HField.merge_alone {D V : Type} [LinearOrder D] [LinearOrder V] (a b : HField D V) (h : (HField.sound (D := D) (V := V)).Evo a b) :
    ∃ r, (HField.engine : Engine (HField D V) _).merge a a b = some r ∧ (HField.sound (D := D) (V := V)).abs r = HField.sound.abs b := by
  refine ⟨b, ?_, rfl⟩
  show HField.merge a a b = some b
  unfold HField.merge
  rw [mergeHeap_same mergeTree_same (fun x s hs => h.has x ⟨s, hs⟩), mergeTree_same, mergeTree_same, mergeLength_same]
  rfl

theorem HKeyword.merge_alone {D W : Type} [LinearOrder D] [LinearOrder W] (normalize : List W → List W) (P : W → D → Prop) (hP : Few P)
    (a b : HKeyword D W) (h : (HKeyword.sound normalize P hP).Evo a b) :
    ∃ r, (HKeyword.engine normalize : Engine (HKeyword D W) _).merge a a b = some r ∧
      (HKeyword.sound normalize P hP).abs r = (HKeyword.sound normalize P hP).abs b := by
  obtain ⟨hp, hh⟩ := mergeHeap_alone (mergeV := mergeDocSet (D := D)) (o := a.heap) (n := b.heap)
    (by intro o n; simp [mergeDocSet, mergeTree_same]) (fun x s hs => h.has x ⟨s, hs⟩)
  refine ⟨{ heap := hp, fwd := b.fwd, rev := b.rev, numDocs := mergeLength a.numDocs a.numDocs b.numDocs, treeThreshold := a.treeThreshold }, ?_, rfl⟩
  show HKeyword.merge a a b = some _
  unfold HKeyword.merge
  rw [hh, mergeTree_same, mergeTree_same]
  rfl

theorem Lexicon.merge_alone (a b : Lexicon) : Lexicon.merge a a b = some b := by
  unfold Lexicon.merge
  rw [mergeTree_same, mergeTree_same, mergeLength_same]; rfl

theorem Text.HTI.merge_alone {D R : Type} [LinearOrder D] [DecidableEq R] {K : Text.Kind D R} {pipeline : List Element}
    (hK : Text.Lawful K) (hC : Text.Counted K) (a b : Text.HTI D R) (h : (Text.HTI.sound (pipeline := pipeline) hK hC).Evo a b) :
    (Text.HTI.engine K pipeline).merge a a b = some b := by
  show Text.HTI.merge a a b = some b
  have hi : Text.HIx.merge a.ix a.ix b.ix = some b.ix := by
    unfold Text.HIx.merge
    rw [mergeHeap_same mergeTree_same (fun x s hs => h.1.has x ⟨s, hs⟩), mergeTree_same, mergeTree_same, mergeTree_same]
    rw [mergeLength_same, mergeLength_same, mergeLength_same]; rfl
  unfold Text.HTI.merge
  rw [Lexicon.merge_alone, hi]; rfl

end Verif
