import Verif.Model.Stored
import Verif.Proofs.TxnTextHeap
import Verif.Spec.Stored

/-! Whatever a call changes is marked; so a commit writes everything. -/

set_option autoImplicit false

namespace Verif.Text

variable {D R : Type} [LinearOrder D]

theorem mark_false {K : Type} [DecidableEq K] {m : K → Bool} {k j : K} (h : mark m k j = false) : j ≠ k ∧ m j = false := by
  unfold mark at h
  simpa using h

theorem overlay_eq {K V : Type} [LinearOrder K] {w : K → Bool} {saved live : SMap K V}
    (h : ∀ k, w k = false → live.get? k = saved.get? k) : overlay w saved live = live := by
  ext1 k
  unfold overlay
  rw [SMap.get?_build]
  have e : (if w k = true then live.get? k else saved.get? k) = live.get? k := by
    cases hw : w k with
    | true => rfl
    | false => exact (h k hw).symm
  rw [e]
  by_cases hk : k ∈ live.keys ++ saved.keys
  · rw [if_pos hk]
  · rw [if_neg hk]
    have : k ∉ live.keys := fun h => hk (List.mem_append_left _ h)
    rw [SMap.mem_keys_iff] at this
    cases hg : live.get? k with
    | none => rfl
    | some v => exact absurd ⟨v, hg⟩ this

namespace MIx

/-- what is not marked is as in the database; `x` is a key of `_wordinfo` for which this may be wrong at the moment -/
structure Agrees (saved : HIx D R) (x : Option Int) (s : MIx D R) : Prop where
  trees : ∀ a, s.marks.trees a = false → s.ix.heap.get? a = saved.heap.get? a
  wordinfo : ∀ k, some k ≠ x → s.marks.wordinfo k = false → s.ix.wordinfo.get? k = saved.wordinfo.get? k
  docweight : ∀ d, s.marks.docweight d = false → s.ix.docweight.get? d = saved.docweight.get? d
  docwords : ∀ d, s.marks.docwords d = false → s.ix.docwords.get? d = saved.docwords.get? d
  wordCount : s.marks.wordCount = false → s.ix.wordCount = saved.wordCount
  documentCount : s.marks.documentCount = false → s.ix.documentCount = saved.documentCount
  total : s.marks.total = false → s.ix.total = saved.total

variable {saved : HIx D R} {x : Option Int} {s : MIx D R}

theorem Agrees.weaken (h : Agrees saved none s) (x : Option Int) : Agrees saved x s :=
  ⟨h.trees, fun k _ => h.wordinfo k (by simp), h.docweight, h.docwords, h.wordCount, h.documentCount, h.total⟩

theorem Agrees.poke (h : Agrees saved none s) (wid : Int) (m : SMap D R) : Agrees saved (some wid) (s.poke wid m) := by
  unfold MIx.poke
  split
  · refine ⟨h.trees, ?_, h.docweight, h.docwords, h.wordCount, h.documentCount, h.total⟩
    intro k hk hm
    show (s.ix.wordinfo.set wid _).get? k = _
    rw [SMap.get?_set_ne _ (fun e => hk (by rw [e]))]
    exact h.wordinfo k (by simp) hm
  · exact h.weaken _

theorem Agrees.assign {wid : Int} (h : Agrees saved (some wid) s) (same : Bool) (p : Posting D R) :
    Agrees saved none (s.assign true same wid p) := by
  unfold MIx.assign
  simp only [Bool.not_true, Bool.and_false, Bool.false_eq_true, if_false]
  refine ⟨h.trees, ?_, h.docweight, h.docwords, h.wordCount, h.documentCount, h.total⟩
  intro k _ hm
  obtain ⟨h1, h2⟩ := mark_false hm
  show (s.ix.wordinfo.set wid p).get? k = _
  rw [SMap.get?_set_ne _ h1]
  exact h.wordinfo k (fun e => h1 (Option.some.inj e)) h2

theorem Agrees.delete {wid : Int} (h : Agrees saved (some wid) s) : Agrees saved none (s.delete wid) := by
  refine ⟨h.trees, ?_, h.docweight, h.docwords, h.wordCount, h.documentCount, h.total⟩
  intro k _ hm
  obtain ⟨h1, h2⟩ := mark_false hm
  show (s.ix.wordinfo.del wid).get? k = _
  rw [SMap.get?_del, if_neg h1]
  exact h.wordinfo k (fun e => h1 (Option.some.inj e)) h2

theorem Agrees.putTree (h : Agrees saved x s) (a : Nat) (m : SMap D R) : Agrees saved x (s.putTree a m) := by
  refine ⟨?_, h.wordinfo, h.docweight, h.docwords, h.wordCount, h.documentCount, h.total⟩
  intro b hm
  obtain ⟨h1, h2⟩ := mark_false hm
  show (s.ix.heap.put a m).get? b = _
  rw [Heap.get?_put, if_neg h1]
  exact h.trees b h2

theorem Agrees.newTree (h : Agrees saved x s) (m : SMap D R) : Agrees saved x (s.newTree m) := by
  refine ⟨?_, h.wordinfo, h.docweight, h.docwords, h.wordCount, h.documentCount, h.total⟩
  intro b hm
  obtain ⟨h1, h2⟩ := mark_false hm
  show (s.ix.heap.cells.set s.ix.heap.next m).get? b = _
  rw [SMap.get?_set_ne _ h1]
  exact h.trees b h2

theorem Agrees.changeWordCount (h : Agrees saved x s) (n : Int) : Agrees saved x (s.changeWordCount n) :=
  ⟨h.trees, h.wordinfo, h.docweight, h.docwords, fun e => (by cases e), h.documentCount, h.total⟩

theorem Agrees.changeDocumentCount (h : Agrees saved x s) (n : Int) : Agrees saved x (s.changeDocumentCount n) :=
  ⟨h.trees, h.wordinfo, h.docweight, h.docwords, h.wordCount, fun e => (by cases e), h.total⟩

theorem Agrees.setDoc (h : Agrees saved x s) (d : D) (w : R) (code : List Nat) : Agrees saved x (s.setDoc d w code) := by
  refine ⟨h.trees, h.wordinfo, ?_, ?_, h.wordCount, h.documentCount, h.total⟩
  · intro k hm
    obtain ⟨h1, h2⟩ := mark_false hm
    show (s.ix.docweight.set d w).get? k = _
    rw [SMap.get?_set_ne _ h1]
    exact h.docweight k h2
  · intro k hm
    obtain ⟨h1, h2⟩ := mark_false hm
    show (s.ix.docwords.set d code).get? k = _
    rw [SMap.get?_set_ne _ h1]
    exact h.docwords k h2

theorem Agrees.delDoc (h : Agrees saved x s) (d : D) : Agrees saved x (s.delDoc d) := by
  refine ⟨h.trees, h.wordinfo, ?_, ?_, h.wordCount, h.documentCount, h.total⟩
  · intro k hm
    obtain ⟨h1, h2⟩ := mark_false hm
    show (s.ix.docweight.del d).get? k = _
    rw [SMap.get?_del, if_neg h1]
    exact h.docweight k h2
  · intro k hm
    obtain ⟨h1, h2⟩ := mark_false hm
    show (s.ix.docwords.del d).get? k = _
    rw [SMap.get?_del, if_neg h1]
    exact h.docwords k h2

theorem Agrees.clear (h : Agrees saved x s) : Agrees saved none s.clear :=
  ⟨h.trees, fun _ _ e => (by cases e), fun _ e => (by cases e), fun _ e => (by cases e), fun e => (by cases e), fun e => (by cases e), h.total⟩

/-! ### The functions of baseindex.py -/

theorem poke_ix (s : MIx D R) (wid : Int) (m : SMap D R) (p : Posting D R) :
    (s.poke wid m).ix.wordinfo.set wid p = s.ix.wordinfo.set wid p ∧ (s.poke wid m).ix.heap = s.ix.heap ∧
    (s.poke wid m).ix.wordinfo.del wid = s.ix.wordinfo.del wid ∧
    { (s.poke wid m).ix with wordinfo := s.ix.wordinfo } = s.ix := by
  unfold MIx.poke
  split
  · refine ⟨?_, rfl, ?_, rfl⟩
    · ext1 k
      simp only [SMap.get?_set]
      split <;> rfl
    · ext1 k
      simp only [SMap.get?_del, SMap.get?_set]
      split <;> rfl
  · exact ⟨rfl, rfl, rfl, rfl⟩

theorem set_word {i j : HIx D R} (h : { i with wordinfo := j.wordinfo } = j) (w : SMap Int (Posting D R)) :
    ({ i with wordinfo := w } : HIx D R) = { j with wordinfo := w } := by
  rw [← h]

variable (K : Kind D R)

theorem save_ok (h : Agrees saved none s) (same : Bool) (wid : Int) (p : Posting D R) (d : D) (f : R) :
    Agrees saved none (save true K s same wid p d f) ∧ (save true K s same wid p d f).ix = HIx.save K s.ix wid p d f := by
  cases p with
  | dict m =>
    cases same with
    | false => exact ⟨(h.weaken _).assign false _, rfl⟩
    | true =>
      refine ⟨(h.poke wid _).assign true _, ?_⟩
      obtain ⟨h1, -, -, h4⟩ := poke_ix s wid (m.set d f) (.dict (m.set d f))
      show ({ (s.poke wid (m.set d f)).ix with wordinfo := (s.poke wid (m.set d f)).ix.wordinfo.set wid _ } : HIx D R) = _
      rw [h1]
      exact set_word h4 _
  | tree a => exact ⟨((h.putTree a _).weaken _).assign same _, rfl⟩

theorem grow_ok (h : Agrees saved none s) (p : Posting D R) :
    Agrees saved none (grow K s p).1 ∧ ((grow K s p).1.ix, (grow K s p).2.1) = HIx.grow K s.ix p := by
  unfold grow HIx.grow
  cases p with
  | dict m =>
    dsimp only
    split
    · exact ⟨h.newTree _, rfl⟩
    · exact ⟨h, rfl⟩
  | tree a => exact ⟨h, rfl⟩

theorem growSave_ok (h : Agrees saved none s) (wid : Int) (p : Posting D R) (d : D) (f : R) :
    Agrees saved none (save true K (grow K s p).1 (grow K s p).2.2 wid (grow K s p).2.1 d f) ∧
    (save true K (grow K s p).1 (grow K s p).2.2 wid (grow K s p).2.1 d f).ix =
      HIx.save K (HIx.grow K s.ix p).1 wid (HIx.grow K s.ix p).2 d f := by
  obtain ⟨h1, h2⟩ := grow_ok K h p
  obtain ⟨h3, h4⟩ := save_ok K h1 (grow K s p).2.2 wid (grow K s p).2.1 d f
  refine ⟨h3, ?_⟩
  rw [h4, ← h2]

theorem add_ok (h : Agrees saved none s) (wid : Int) (f : R) (d : D) :
    Agrees saved none (addWordinfo true K wid f d s) ∧ (addWordinfo true K wid f d s).ix = HIx.addWordinfo K wid f d s.ix := by
  unfold addWordinfo HIx.addWordinfo
  cases s.ix.wordinfo.get? wid with
  | none =>
    obtain ⟨h1, h2⟩ := save_ok K (h.changeWordCount 1) false wid (.dict SMap.empty) d f
    exact ⟨h1, by rw [h2]; rfl⟩
  | some p => exact growSave_ok K h wid p d f

theorem massStep_ok (h : Agrees saved none s) (d : D) (n : Int) (p : Int × R) :
    Agrees saved none (massStep true K d (s, n) p).1 ∧
    ((massStep true K d (s, n) p).1.ix, (massStep true K d (s, n) p).2) = HIx.massStep K d (s.ix, n) p := by
  unfold massStep HIx.massStep
  dsimp only
  cases s.ix.wordinfo.get? p.1 with
  | none =>
    obtain ⟨h1, h2⟩ := save_ok K h false p.1 (.dict SMap.empty) d p.2
    exact ⟨h1, by rw [h2]⟩
  | some q =>
    obtain ⟨h1, h2⟩ := growSave_ok K h p.1 q d p.2
    exact ⟨h1, by dsimp only; rw [h2]⟩

theorem massLoop_ok (d : D) (l : List (Int × R)) {s : MIx D R} (h : Agrees saved none s) (n : Int) :
    Agrees saved none (l.foldl (massStep true K d) (s, n)).1 ∧
    ((l.foldl (massStep true K d) (s, n)).1.ix, (l.foldl (massStep true K d) (s, n)).2) = l.foldl (HIx.massStep K d) (s.ix, n) := by
  induction l generalizing s n with
  | nil => exact ⟨h, rfl⟩
  | cons p l ih =>
    obtain ⟨h1, h2⟩ := massStep_ok K h d n p
    rw [List.foldl_cons, List.foldl_cons]
    obtain ⟨h3, h4⟩ := ih h1 (massStep true K d (s, n) p).2
    refine ⟨h3, ?_⟩
    rw [← h2]
    exact h4

theorem mass_ok (h : Agrees saved none s) (l : List (Int × R)) (d : D) :
    Agrees saved none (massAdd true K l d s) ∧ (massAdd true K l d s).ix = HIx.massAdd K l d s.ix := by
  obtain ⟨h1, h2⟩ := massLoop_ok K d l h 0
  refine ⟨h1.changeWordCount _, ?_⟩
  unfold massAdd HIx.massAdd
  rw [← h2]
  rfl

/-- the marked function does what the function does, and marks what it changes -/
def Sim (saved : HIx D R) (x : Except PyErr (MIx D R)) (y : Except PyErr (HIx D R)) : Prop :=
  (∃ t, x = .ok t ∧ y = .ok t.ix ∧ Agrees saved none t) ∨ ∃ e, x = .error e ∧ y = .error e

theorem Sim.bind {x : Except PyErr (MIx D R)} {y : Except PyErr (HIx D R)} (hs : Sim saved x y)
    {f : MIx D R → Except PyErr (MIx D R)} {g : HIx D R → Except PyErr (HIx D R)}
    (hf : ∀ t, Agrees saved none t → Sim saved (f t) (g t.ix)) : Sim saved (x >>= f) (y >>= g) := by
  rcases hs with ⟨t, rfl, rfl, hn⟩ | ⟨e, rfl, rfl⟩
  · exact hf t hn
  · exact Or.inr ⟨e, rfl, rfl⟩

theorem Sim.loop {α : Type} {s : MIx D R} (h : Agrees saved none s) {f : MIx D R → α → Except PyErr (MIx D R)}
    {g : HIx D R → α → Except PyErr (HIx D R)} (hf : ∀ t a, Agrees saved none t → Sim saved (f t a) (g t.ix a)) (l : List α) :
    Sim saved (l.foldlM f s) (l.foldlM g s.ix) := by
  induction l generalizing s with
  | nil => exact Or.inl ⟨s, rfl, rfl, h⟩
  | cons a l ih =>
    rw [List.foldlM_cons, List.foldlM_cons]
    exact (hf s a h).bind (fun t ht => ih ht)

theorem Sim.same {α : Type} (x : Except PyErr α) {f : α → Except PyErr (MIx D R)} {g : α → Except PyErr (HIx D R)}
    (hf : ∀ a, Sim saved (f a) (g a)) : Sim saved (x >>= f) (x >>= g) := by
  cases x with
  | ok a => exact hf a
  | error e => exact Or.inr ⟨e, rfl, rfl⟩

theorem del_sim (h : Agrees saved none s) (wid : Int) (d : D) :
    Sim saved (delWordinfo true wid d s) (HIx.delWordinfo wid d s.ix) := by
  unfold delWordinfo HIx.delWordinfo
  cases hp : s.ix.wordinfo.get? wid with
  | none => exact Or.inr ⟨_, rfl, rfl⟩
  | some p =>
    dsimp only
    by_cases hc : (s.ix.entry p).map.contains d = true
    · rw [if_pos hc, if_pos hc]
      left
      cases p with
      | dict m =>
        obtain ⟨h1, -, h3, h4⟩ := poke_ix s wid (m.del d) (.dict (m.del d))
        have ha := h.poke wid (m.del d)
        have he : ((remove s wid (.dict m) d).1.ix.entry (remove s wid (.dict m) d).2).map = m.del d := rfl
        have he' : ((HIx.remove s.ix (.dict m) d).1.entry (HIx.remove s.ix (.dict m) d).2).map = m.del d := rfl
        rw [he, he']
        by_cases hem : (m.del d).isEmpty = true
        · rw [if_pos hem, if_pos hem]
          refine ⟨_, rfl, ?_, ha.delete.changeWordCount _⟩
          congr 1
          show _ = ({ (s.poke wid (m.del d)).ix with
            wordinfo := (s.poke wid (m.del d)).ix.wordinfo.del wid
            wordCount := (s.poke wid (m.del d)).ix.wordCount + -1 } : HIx D R)
          rw [h3]
          have hw : (s.poke wid (m.del d)).ix.wordCount = s.ix.wordCount := by conv_rhs => rw [← h4]
          rw [hw, ← Int.sub_eq_add_neg]
          have := set_word h4 (s.ix.wordinfo.del wid)
          show ({ ({ s.ix with wordinfo := s.ix.wordinfo.del wid } : HIx D R) with wordCount := s.ix.wordCount - 1 } : HIx D R) = _
          rw [← this]
        · rw [if_neg hem, if_neg hem]
          refine ⟨_, rfl, ?_, ha.assign true _⟩
          congr 1
          show _ = ({ (s.poke wid (m.del d)).ix with wordinfo := (s.poke wid (m.del d)).ix.wordinfo.set wid (.dict (m.del d)) } : HIx D R)
          rw [h1]
          exact (set_word h4 _).symm
      | tree a =>
        have ha := h.putTree a ((s.ix.treeAt a).del d)
        have he : ((remove s wid (.tree a) d).1.ix.entry (remove s wid (.tree a) d).2).map =
            ((HIx.remove s.ix (.tree a) d).1.entry (HIx.remove s.ix (.tree a) d).2).map := rfl
        rw [he]
        by_cases hem : ((HIx.remove s.ix (.tree a) d).1.entry (HIx.remove s.ix (.tree a) d).2).map.isEmpty = true
        · rw [if_pos hem, if_pos hem]
          exact ⟨_, rfl, rfl, (ha.weaken _).delete.changeWordCount _⟩
        · rw [if_neg hem, if_neg hem]
          exact ⟨_, rfl, rfl, (ha.weaken _).assign true _⟩
    · rw [if_neg hc, if_neg hc]; exact Or.inr ⟨_, rfl, rfl⟩

theorem change_ok (h : Agrees saved none s) (n : Int) :
    Agrees saved none (changeDocLen K n s) ∧ (changeDocLen K n s).ix = HIx.changeDocLen K n s.ix := by
  unfold changeDocLen HIx.changeDocLen
  split
  · exact ⟨⟨h.trees, h.wordinfo, h.docweight, h.docwords, h.wordCount, h.documentCount, fun e => (by cases e)⟩, rfl⟩
  · exact ⟨h, rfl⟩

theorem sub_sim (h : Agrees saved none s) (d : D) : Sim saved (subDocLen K d s) (HIx.subDocLen K d s.ix) := by
  unfold subDocLen HIx.subDocLen
  split
  · cases s.ix.docweight.get? d with
    | none => exact Or.inr ⟨_, rfl, rfl⟩
    | some w =>
      obtain ⟨h1, h2⟩ := change_ok K h (-(K.arith.toInt w))
      exact Or.inl ⟨_, rfl, by dsimp only; rw [h2], h1⟩
  · exact Or.inl ⟨s, rfl, rfl, h⟩

theorem addStep_sim (h : Agrees saved none s) (newW : List (Int × R)) (d : D) (wid : Int) :
    Sim saved (addStep true K newW d s wid) (HIx.addStep K newW d s.ix wid) := by
  unfold addStep HIx.addStep
  refine Sim.same _ (fun f => ?_)
  obtain ⟨h1, h2⟩ := add_ok K h wid f d
  exact Or.inl ⟨_, rfl, by rw [h2]; rfl, h1⟩

theorem bothStep_sim (h : Agrees saved none s) (oldW newW : List (Int × R)) (d : D) (wid : Int) :
    Sim saved (bothStep true K oldW newW d s wid) (HIx.bothStep K oldW newW d s.ix wid) := by
  unfold bothStep HIx.bothStep
  refine Sim.same _ (fun f => Sim.same _ (fun f' => ?_))
  obtain ⟨h1, h2⟩ := add_ok K h wid f d
  split
  · exact Or.inl ⟨_, rfl, by rw [h2]; rfl, h1⟩
  · exact Or.inl ⟨_, rfl, rfl, h⟩

theorem reindex_sim (h : Agrees saved none s) (d : D) (wids : List Int) :
    Sim saved (reindexDoc true K d wids s) (HIx.reindexDoc K d wids s.ix) := by
  unfold reindexDoc HIx.reindexDoc
  refine (sub_sim K h d).bind (fun s h => ?_)
  refine Sim.same (s.ix.getWords d) (fun old => Sim.same _ (fun o => Sim.same _ (fun n => ?_)))
  refine (Sim.loop h (fun t w ht => del_sim ht w d) _).bind (fun s h => ?_)
  refine (Sim.loop h (fun t w ht => addStep_sim K ht _ d w) _).bind (fun s h => ?_)
  refine (Sim.loop h (fun t w ht => bothStep_sim K ht _ _ d w) _).bind (fun s h => ?_)
  refine Sim.same _ (fun code => ?_)
  exact Or.inl ⟨_, rfl, rfl, h.setDoc _ _ _⟩

theorem index_sim (h : Agrees saved none s) (d : D) (wids : List Int) :
    Sim saved (indexDoc true K d wids s) (HIx.indexDoc K d wids s.ix) := by
  unfold indexDoc HIx.indexDoc
  by_cases hc : s.ix.docwords.contains d = true
  · rw [if_pos hc, if_pos hc]
    refine (reindex_sim K h d wids).bind (fun t ht => ?_)
    obtain ⟨h1, h2⟩ := change_ok K ht wids.length
    exact Or.inl ⟨_, rfl, by rw [h2]; rfl, h1⟩
  · rw [if_neg hc, if_neg hc]
    refine Sim.same _ (fun r => Sim.same _ (fun code => ?_))
    obtain ⟨h1, h2⟩ := mass_ok K h r.1 d
    obtain ⟨h3, h4⟩ := change_ok K ((h1.setDoc d (K.arith.store r.2) code).changeDocumentCount 1) wids.length
    refine Or.inl ⟨_, rfl, ?_, h3⟩
    rw [h4, ← h2]
    rfl

theorem unindex_sim (h : Agrees saved none s) (d : D) : Sim saved (unindexDoc true K d s) (HIx.unindexDoc K d s.ix) := by
  unfold unindexDoc HIx.unindexDoc
  by_cases hc : s.ix.docwords.contains d = true
  · rw [if_pos hc, if_pos hc]
    refine (sub_sim K h d).bind (fun s h => ?_)
    refine Sim.same (s.ix.getWords d) (fun old => ?_)
    refine (Sim.loop h (fun t w ht => del_sim ht w d) _).bind (fun s h => ?_)
    refine Or.inl ⟨_, rfl, ?_, (h.delDoc d).changeDocumentCount (-1)⟩
    rfl
  · rw [if_neg hc, if_neg hc]
    exact Or.inl ⟨_, rfl, rfl, h⟩

theorem Agrees.write (h : Agrees saved none s) (w : IxMarks D) : (s.marks.or w).write saved s.ix = s.ix := by
  have hb : ∀ {a b : Bool}, (a || b) = false → a = false := by intro a b; cases a <;> simp
  have hif : ∀ {b c : Bool} {u v : Int}, (b = false → u = v) → (if (b || c) = true then u else v) = u := by
    intro b c u v h
    cases b with
    | true => rfl
    | false => cases c with
      | true => rfl
      | false => exact (h rfl).symm
  unfold IxMarks.write IxMarks.or
  dsimp only
  rw [overlay_eq (fun k e => h.trees k (hb e)), overlay_eq (fun k e => h.wordinfo k (by simp) (hb e)),
    overlay_eq (fun k e => h.docweight k (hb e)), overlay_eq (fun k e => h.docwords k (hb e)),
    hif h.wordCount, hif h.documentCount, hif h.total]

theorem Agrees.fresh (saved : HIx D R) : Agrees saved none ⟨saved, IxMarks.none⟩ :=
  ⟨fun _ _ => rfl, fun _ _ _ => rfl, fun _ _ => rfl, fun _ _ => rfl, fun _ => rfl, fun _ => rfl, fun _ => rfl⟩

end MIx

namespace MLex

/-- what is not marked is as in the database -/
structure Agrees (saved : Lexicon) (s : MLex) : Prop where
  wids : ∀ w, s.marks.wids w = false → s.lex.wids.get? w = saved.wids.get? w
  words : ∀ n, s.marks.words n = false → s.lex.words.get? n = saved.words.get? n
  count : s.marks.count = false → s.lex.count = saved.count

variable {saved : Lexicon} {s : MLex}

theorem getWordIdCreate_ok (h : Agrees saved s) (w : Word) :
    Agrees saved (s.getWordIdCreate w).1 ∧ ((s.getWordIdCreate w).1.lex, (s.getWordIdCreate w).2) = s.lex.getWordIdCreate w := by
  unfold getWordIdCreate Lexicon.getWordIdCreate
  cases s.lex.wids.get? w with
  | some wid => exact ⟨h, rfl⟩
  | none =>
    refine ⟨⟨?_, ?_, fun e => (by cases e)⟩, rfl⟩
    · intro k hm
      obtain ⟨h1, h2⟩ := mark_false hm
      show (s.lex.wids.set w _).get? k = _
      rw [SMap.get?_set_ne _ h1]
      exact h.wids k h2
    · intro k hm
      obtain ⟨h1, h2⟩ := mark_false hm
      show (s.lex.words.set _ w).get? k = _
      rw [SMap.get?_set_ne _ h1]
      exact h.words k h2

theorem createAll_ok (l : List Word) {s : MLex} (h : Agrees saved s) :
    Agrees saved (s.createAll l).1 ∧ ((s.createAll l).1.lex, (s.createAll l).2) = s.lex.createAll l := by
  induction l generalizing s with
  | nil => exact ⟨h, rfl⟩
  | cons w l ih =>
    obtain ⟨h1, h2⟩ := getWordIdCreate_ok h w
    obtain ⟨h3, h4⟩ := ih h1
    refine ⟨h3, ?_⟩
    unfold createAll Lexicon.createAll
    rw [← h2]
    dsimp only
    rw [← h4]

theorem deactivate_eq (h : Agrees saved s) : s.deactivate saved = s := by
  unfold deactivate
  split
  · rfl
  · rename_i hc
    rw [← h.count (by simpa using hc)]

theorem source_ok (h : Agrees saved s) (pipeline : List Element) (t : TextArg) :
    Agrees saved (s.sourceToWordIds saved pipeline t).1 ∧
    ((s.sourceToWordIds saved pipeline t).1.lex, (s.sourceToWordIds saved pipeline t).2) = s.lex.sourceToWordIds pipeline t := by
  unfold sourceToWordIds
  rw [deactivate_eq h]
  exact createAll_ok _ h

theorem Agrees.write (h : Agrees saved s) (w : LexMarks) : (s.marks.or w).write saved s.lex = s.lex := by
  have hb : ∀ {a b : Bool}, (a || b) = false → a = false := by intro a b; cases a <;> simp
  unfold LexMarks.write LexMarks.or
  dsimp only
  rw [overlay_eq (fun k e => h.wids k (hb e)), overlay_eq (fun k e => h.words k (hb e))]
  have : (if (s.marks.count || w.count) = true then s.lex.count else saved.count) = s.lex.count := by
    split
    · rfl
    · rename_i hc
      exact (h.count (hb (by simpa using hc))).symm
  rw [this]

theorem Agrees.fresh (saved : Lexicon) : Agrees saved ⟨saved, LexMarks.none⟩ := ⟨fun _ _ => rfl, fun _ _ => rfl, fun _ => rfl⟩

end MLex

/-- forgetting the trees -/
theorem HIx.Ok.clear {s t : HIx D R} (h : HIx.Ok s) (hh : t.heap = s.heap) (hw : t.wordinfo = SMap.empty) : HIx.Ok t := by
  have hno : ∀ k, t.tv.fwd k = none := by
    intro k
    show (t.wordinfo.get? k).bind _ = _
    rw [hw]; rfl
  refine ⟨⟨?_, ?_, ?_⟩, ?_⟩
  · intro k a e; rw [hno k] at e; cases e
  · intro k a e; rw [hno k] at e; cases e
  · intro k k' a e; rw [hno k] at e; cases e
  · intro a ha
    rw [hh]
    refine h.below a ?_
    obtain ⟨m, hm⟩ := ha
    exact ⟨m, by rw [← hh]; exact hm⟩

theorem HIx.ok_new : HIx.Ok (HIx.new : HIx D R) := by
  refine ⟨⟨?_, ?_, ?_⟩, ?_⟩
  · intro k a e; cases e
  · intro k a e; cases e
  · intro k k' a e; cases e
  · rintro a ⟨m, hm⟩; cases hm

namespace TextDb

/-- the invariant of a connection: unmarked parts are as in the database; both states are well-formed -/
structure Inv (t : TextDb D R) : Prop where
  ix : MIx.Agrees t.savedIx none t.ix
  lex : MLex.Agrees t.savedLex t.lex
  live : HIx.Ok t.ix.ix
  saved : HIx.Ok t.savedIx

theorem inv_new : Inv (new : TextDb D R) := ⟨MIx.Agrees.fresh _, MLex.Agrees.fresh _, HIx.ok_new, HIx.ok_new⟩

open Spec.Stored

variable (K : Kind D R) (pipeline : List Element) {t : TextDb D R}

theorem call_ok (h : Inv t) (op : SOp D) :
    (∃ u, call true K pipeline t op = .ok u ∧ Text.step K pipeline t.live.view (toOp op) = .ok u.live.view ∧ Inv u ∧
      u.savedIx = t.savedIx ∧ u.savedLex = t.savedLex) ∨
    ∃ e, call true K pipeline t op = .error e ∧ Text.step K pipeline t.live.view (toOp op) = .error e := by
  cases op with
  | index d tx =>
    obtain ⟨h1, h2⟩ := MLex.source_ok h.lex pipeline tx
    simp only [call, toOp, Text.step]
    show (∃ u, (_ >>= _) = _ ∧ (_ >>= _) = _ ∧ _) ∨ ∃ e, (_ >>= _) = _ ∧ (_ >>= _) = _
    have e2 : t.live.view.lex.sourceToWordIds pipeline tx = _ := h2.symm
    rw [e2]
    dsimp only
    rcases MIx.index_sim K h.ix d (MLex.sourceToWordIds t.savedLex pipeline t.lex tx).2 with ⟨i, a1, a2, a3⟩ | ⟨e, a1, a2⟩
    · rw [a1]
      rcases HIx.index_sim K h.live d (MLex.sourceToWordIds t.savedLex pipeline t.lex tx).2 with ⟨i', b1, b2, b3⟩ | ⟨e, b1, b2⟩
      · rw [a2] at b1
        cases b1
        left
        refine ⟨_, rfl, ?_, ⟨a3, h1, b3.ok, h.saved⟩, rfl, rfl⟩
        rw [show t.live.view.ix = t.ix.ix.view from rfl, b2]
        rfl
      · rw [a2] at b1; cases b1
    · rw [a1]
      rcases HIx.index_sim K h.live d (MLex.sourceToWordIds t.savedLex pipeline t.lex tx).2 with ⟨i', b1, b2, b3⟩ | ⟨e', b1, b2⟩
      · rw [a2] at b1; cases b1
      · rw [a2] at b1
        cases b1
        right
        refine ⟨_, rfl, ?_⟩
        rw [show t.live.view.ix = t.ix.ix.view from rfl, b2]
        rfl
  | unindex d =>
    simp only [call, toOp, Text.step]
    show (∃ u, (_ >>= _) = _ ∧ (_ >>= _) = _ ∧ _) ∨ ∃ e, (_ >>= _) = _ ∧ (_ >>= _) = _
    rcases MIx.unindex_sim K h.ix d with ⟨i, a1, a2, a3⟩ | ⟨e, a1, a2⟩
    · rw [a1]
      rcases HIx.unindex_sim K h.live d with ⟨i', b1, b2, b3⟩ | ⟨e, b1, b2⟩
      · rw [a2] at b1
        cases b1
        left
        refine ⟨_, rfl, ?_, ⟨a3, h.lex, b3.ok, h.saved⟩, rfl, rfl⟩
        rw [show t.live.view.ix = t.ix.ix.view from rfl, b2]
        rfl
      · rw [a2] at b1; cases b1
    · rw [a1]
      rcases HIx.unindex_sim K h.live d with ⟨i', b1, b2, b3⟩ | ⟨e', b1, b2⟩
      · rw [a2] at b1; cases b1
      · rw [a2] at b1
        cases b1
        right
        refine ⟨_, rfl, ?_⟩
        rw [show t.live.view.ix = t.ix.ix.view from rfl, b2]
        rfl
  | clear =>
    left
    refine ⟨_, rfl, ?_, ⟨h.ix.clear, h.lex, h.live.clear rfl rfl, h.saved⟩, rfl, rfl⟩
    rfl

theorem abort_inv (h : Inv t) : Inv t.abort := ⟨MIx.Agrees.fresh _, MLex.Agrees.fresh _, h.saved, h.saved⟩

theorem commit_ok (h : Inv t) (wi : IxMarks D) (wl : LexMarks) :
    Inv (step true K pipeline t (.commit wi wl)) ∧ (step true K pipeline t (.commit wi wl)).live = t.live ∧
    (step true K pipeline t (.commit wi wl)).saved = t.live := by
  have e1 : (step true K pipeline t (.commit wi wl)).savedIx = t.ix.ix := h.ix.write wi
  have e2 : (step true K pipeline t (.commit wi wl)).savedLex = t.lex.lex := h.lex.write wl
  refine ⟨⟨?_, ?_, h.live, ?_⟩, rfl, ?_⟩
  · rw [e1]; exact MIx.Agrees.fresh _
  · rw [e2]; exact MLex.Agrees.fresh _
  · rw [e1]; exact h.live
  · unfold saved
    rw [e1, e2]; rfl

theorem evict_eq (h : Inv t) (wi : IxMarks D) (wl : LexMarks) : step true K pipeline t (.evict wi wl) = t := by
  simp only [step]
  rw [h.ix.write wi, h.lex.write wl]

theorem step_inv (h : Inv t) (st : DbStep D) : Inv (step true K pipeline t st) := by
  cases st with
  | call op =>
    rcases call_ok K pipeline h op with ⟨u, h1, -, h2, -⟩ | ⟨e, h1, -⟩
    · simp only [step, h1]; exact h2
    · simp only [step, h1]; exact abort_inv h
  | commit wi wl => exact (commit_ok K pipeline h wi wl).1
  | evict wi wl => rw [evict_eq K pipeline h]; exact h
  | abort => exact abort_inv h

theorem run_inv (steps : List (DbStep D)) : Inv (run true K pipeline steps) := by
  induction steps using List.reverseRecOn with
  | nil => exact inv_new
  | append_singleton l st ih =>
    unfold run at *
    rw [List.foldl_append]
    exact step_inv K pipeline ih st

theorem run_snoc (notices : Bool) (steps : List (DbStep D)) (st : DbStep D) :
    run notices K pipeline (steps ++ [st]) = step notices K pipeline (run notices K pipeline steps) st := by
  simp [run]

theorem history_snoc (steps : List (DbStep D)) (st : DbStep D) :
    history K pipeline (steps ++ [st]) = historyStep K pipeline (history K pipeline steps) st := by
  simp [history]

theorem run_step {ops : List (Op D)} {s : TI D R} (h : Text.run K pipeline ops = .ok s) (op : Op D) :
    Text.run K pipeline (ops ++ [op]) = Text.step K pipeline s op := by
  unfold Text.run at *
  rw [List.foldlM_append, h]
  show (List.foldlM (Text.step K pipeline) s [op]) = _
  rw [List.foldlM_cons]
  simp only [List.foldlM_nil, bind_pure]

theorem history_ok (steps : List (DbStep D)) :
    Text.run K pipeline ((history K pipeline steps).1 ++ (history K pipeline steps).2) = .ok (run true K pipeline steps).live.view ∧
    Text.run K pipeline (history K pipeline steps).1 = .ok (run true K pipeline steps).saved.view := by
  induction steps using List.reverseRecOn with
  | nil => exact ⟨rfl, rfl⟩
  | append_singleton l st ih =>
    have hi := run_inv K pipeline l
    rw [run_snoc, history_snoc]
    generalize run true K pipeline l = t at *
    obtain ⟨ih1, ih2⟩ := ih
    generalize history K pipeline l = h at *
    cases st with
    | call op =>
      rcases call_ok K pipeline hi op with ⟨u, h1, h2, -, h3, h4⟩ | ⟨e, h1, h2⟩
      · have hr : Text.run K pipeline (h.1 ++ h.2 ++ [toOp op]) = .ok u.live.view := by rw [run_step K pipeline ih1, h2]
        simp only [step, h1, historyStep, hr]
        refine ⟨by rw [← List.append_assoc, hr], ?_⟩
        rw [ih2]
        unfold saved
        rw [h3, h4]
      · have hr : Text.run K pipeline (h.1 ++ h.2 ++ [toOp op]) = .error e := by rw [run_step K pipeline ih1, h2]
        simp only [step, h1, historyStep, hr, List.append_nil]
        exact ⟨ih2, ih2⟩
    | commit wi wl =>
      obtain ⟨-, h1, h2⟩ := commit_ok K pipeline hi wi wl
      rw [h1, h2]
      simp only [historyStep, List.append_nil]
      exact ⟨ih1, ih1⟩
    | evict wi wl => rw [evict_eq K pipeline hi]; exact ⟨ih1, ih2⟩
    | abort =>
      simp only [historyStep, List.append_nil]
      exact ⟨ih2, ih2⟩

end TextDb
end Verif.Text
