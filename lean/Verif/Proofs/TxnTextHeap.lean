import Verif.Proofs.TxnMerge
import Verif.Proofs.TextIx
import Verif.Model.TxnText

/-! The objects of a text index: forgetting their addresses gives the index of `Verif.Model.TextIndex`, and a transaction only makes
an index evolve in the way `Verif.Proofs.Txn` describes. -/

set_option autoImplicit false

namespace Verif.Text

open Txn Txn.View

variable {D R : Type} [LinearOrder D]

/-- the tree of a value of `_wordinfo` -/
def Posting.addr : Posting D R → Option Nat
  | .dict _ => none
  | .tree a => some a

namespace HIx

/-- the trees of an index -/
def tv (s : HIx D R) : View Int D where
  fwd k := (s.wordinfo.get? k).bind Posting.addr
  mem a d := ∃ m, s.heap.get? a = some m ∧ d ∈ m.keys
  has a := ∃ m, s.heap.get? a = some m

/-- well-formed, with addresses below the next one -/
structure Ok (s : HIx D R) : Prop where
  good : s.tv.Good
  below : ∀ a, s.tv.has a → a < s.heap.next

/-- one state follows another within a transaction -/
structure Next (s t : HIx D R) : Prop where
  ok : Ok t
  evo : Evo s.tv t.tv
  le : s.heap.next ≤ t.heap.next
  new : ∀ a, t.tv.has a → s.tv.has a ∨ s.heap.next ≤ a

theorem Next.refl {s : HIx D R} (h : Ok s) : Next s s := ⟨h, Evo.refl _, le_refl _, fun _ h => Or.inl h⟩

theorem Next.trans {s t u : HIx D R} (h : Ok s) (h1 : Next s t) (h2 : Next t u) : Next s u where
  ok := h2.ok
  evo := Evo.trans h1.ok.good h1.evo h2.evo h.good
  le := h1.le.trans h2.le
  new a ha := by
    rcases h2.new a ha with h' | h'
    · exact h1.new a h'
    · exact Or.inr (h1.le.trans h')

/-- only the trees matter -/
theorem Next.of_tv {s t : HIx D R} (h : Ok s) (hv : t.tv = s.tv) (hn : t.heap.next = s.heap.next) : Next s t := by
  refine ⟨⟨by rw [hv]; exact h.good, by rw [hv, hn]; exact h.below⟩, by rw [hv]; exact Evo.refl _, by rw [hn], ?_⟩
  intro a ha
  rw [hv] at ha; exact Or.inl ha

theorem Next.congr {s t t' : HIx D R} (h : Next s t) (hv : t'.tv = t.tv) (hn : t'.heap.next = t.heap.next) : Next s t' := by
  refine ⟨⟨by rw [hv]; exact h.ok.good, by rw [hv, hn]; exact h.ok.below⟩, by rw [hv]; exact h.evo, by rw [hn]; exact h.le, ?_⟩
  intro a ha
  rw [hv] at ha; exact h.new a ha

theorem view_get (s : HIx D R) (k : Int) : s.view.wordinfo.get? k = (s.wordinfo.get? k).map s.entry :=
  SMap.get?_mapVals _ _ _

theorem fwd_tree {s : HIx D R} {k : Int} {a : Nat} : s.tv.fwd k = some a ↔ s.wordinfo.get? k = some (.tree a) := by
  show (s.wordinfo.get? k).bind Posting.addr = some a ↔ _
  cases s.wordinfo.get? k with
  | none => simp
  | some p => cases p <;> simp [Posting.addr]

theorem tree_below {s : HIx D R} (h : Ok s) {k : Int} {a : Nat} (e : s.wordinfo.get? k = some (.tree a)) : a < s.heap.next :=
  h.below a (h.good.refs k a (fwd_tree.2 e))

/-- an entry whose cell was not touched -/
theorem entry_congr {s t : HIx D R} (p : Posting D R) (h : ∀ a, p = .tree a → t.heap.get? a = s.heap.get? a) : t.entry p = s.entry p := by
  cases p with
  | dict m => rfl
  | tree a =>
    show ({ tree := true, map := (t.heap.get? a).getD SMap.empty } : D2S D R) = { tree := true, map := (s.heap.get? a).getD SMap.empty }
    rw [h a rfl]

/-! ### Single changes -/

/-- a value of `_wordinfo` is set to a tree, whose content is replaced: its own, or a new one -/
theorem put_next {s t : HIx D R} (h : Ok s) {wid : Int} {a : Nat} {m : SMap D R}
    (hheap : ∀ b, t.heap.get? b = if b = a then some m else s.heap.get? b)
    (hw : t.wordinfo = s.wordinfo.set wid (.tree a)) (hm : m.isEmpty = false) (hn : s.heap.next ≤ t.heap.next)
    (ha : s.tv.fwd wid = some a ∨ (s.tv.fwd wid = none ∧ a = s.heap.next ∧ a < t.heap.next)) :
    Next s t ∧ t.view.wordinfo = s.view.wordinfo.set wid { tree := true, map := m } := by
  have hfwd : ∀ k, t.tv.fwd k = if k = wid then some a else s.tv.fwd k := by
    intro k
    show (t.wordinfo.get? k).bind _ = _
    rw [hw, SMap.get?_set]
    by_cases hk : k = wid
    · rw [if_pos hk, if_pos hk]; rfl
    · rw [if_neg hk, if_neg hk]; rfl
  have hhas : ∀ b, t.tv.has b ↔ b = a ∨ s.tv.has b := by
    intro b
    show (∃ m, t.heap.get? b = some m) ↔ _
    rw [hheap]
    by_cases hb : b = a
    · rw [if_pos hb]; simp [hb]
    · rw [if_neg hb]; simp only [hb, false_or]; rfl
  have hmem : ∀ b d, b ≠ a → (t.tv.mem b d ↔ s.tv.mem b d) := by
    intro b d hb
    show (∃ m, t.heap.get? b = some m ∧ _) ↔ _
    rw [hheap, if_neg hb]; rfl
  have hother : ∀ k, k ≠ wid → s.tv.fwd k ≠ some a := by
    intro k hk e
    rcases ha with ha | ⟨-, rfl, -⟩
    · exact hk (h.good.inj k wid a e ha)
    · exact absurd (h.below _ (h.good.refs k _ e)) (lt_irrefl _)
  have hlt : a < t.heap.next := by
    rcases ha with ha | ⟨-, -, ha⟩
    · exact lt_of_lt_of_le (h.below a (h.good.refs wid a ha)) hn
    · exact ha
  refine ⟨⟨⟨⟨?_, ?_, ?_⟩, ?_⟩, ⟨?_, ?_, ?_, ?_⟩, hn, ?_⟩, ?_⟩
  · intro k b hb
    rw [hfwd] at hb
    rw [hhas]
    split at hb
    · cases hb; exact Or.inl rfl
    · exact Or.inr (h.good.refs k b hb)
  · intro k b hb
    rw [hfwd] at hb
    split at hb
    · cases hb
      obtain ⟨d, v, hd⟩ := (SMap.isEmpty_eq_false_iff _).1 hm
      exact ⟨d, m, by rw [hheap, if_pos rfl], (SMap.mem_keys_iff _ _).2 ⟨v, hd⟩⟩
    · rename_i hk
      obtain ⟨d, hd⟩ := h.good.ne k b hb
      exact ⟨d, (hmem b d (fun e => hother k hk (e ▸ hb))).2 hd⟩
  · intro k k' b h1 h2
    rw [hfwd] at h1 h2
    split at h1 <;> split at h2
    · rename_i e1 e2; rw [e1, e2]
    · rename_i e1 e2; cases h1; exact absurd h2 (hother _ e2)
    · rename_i e1 e2; cases h2; exact absurd h1 (hother _ e1)
    · exact h.good.inj k k' b h1 h2
  · intro b hb
    rcases (hhas b).1 hb with rfl | hb
    · exact hlt
    · exact lt_of_lt_of_le (h.below b hb) hn
  · intro b hb; exact (hhas b).2 (Or.inr hb)
  · intro k b hb
    left
    rw [hfwd]
    by_cases hk : k = wid
    · subst hk
      rcases ha with ha | ⟨ha, -⟩
      · rw [if_pos rfl, ← ha, hb]
      · rw [ha] at hb; cases hb
    · rw [if_neg hk]; exact hb
  · intro k b hb hk'
    rw [hfwd] at hk'
    split at hk'
    · rename_i hk
      cases hk'
      subst hk
      rcases ha with ha | ⟨-, rfl, -⟩
      · exact ha
      · exact absurd (h.below _ hb) (lt_irrefl _)
    · exact hk'
  · intro b hb hf d
    refine hmem b d ?_
    rintro rfl
    rcases ha with ha | ⟨-, rfl, -⟩
    · exact hf wid ha
    · exact absurd (h.below _ hb) (lt_irrefl _)
  · intro b hb
    rcases (hhas b).1 hb with rfl | hb
    · rcases ha with ha | ⟨-, ha, -⟩
      · exact Or.inl (h.good.refs wid _ ha)
      · exact Or.inr ha.ge
    · exact Or.inl hb
  · ext1 k
    rw [view_get, SMap.get?_set, view_get, hw, SMap.get?_set]
    by_cases hk : k = wid
    · rw [if_pos hk, if_pos hk]
      simp only [Option.map_some, entry, treeAt]
      rw [hheap, if_pos rfl]; rfl
    · rw [if_neg hk, if_neg hk]
      cases hp : s.wordinfo.get? k with
      | none => rfl
      | some p =>
        rw [Option.map_some, Option.map_some]
        congr 1
        apply entry_congr
        rintro b rfl
        rw [hheap, if_neg]
        rintro rfl
        exact hother k hk (fwd_tree.2 hp)

/-- the tree of a word became empty, and the word is dropped -/
theorem drop_next {s t : HIx D R} (h : Ok s) {wid : Int} {a : Nat} {m : SMap D R}
    (hheap : ∀ b, t.heap.get? b = if b = a then some m else s.heap.get? b)
    (hw : t.wordinfo = s.wordinfo.del wid) (hm : m.isEmpty = true) (hn : t.heap.next = s.heap.next) (ha : s.tv.fwd wid = some a) :
    Next s t ∧ t.view.wordinfo = s.view.wordinfo.del wid := by
  have hfwd : ∀ k, t.tv.fwd k = if k = wid then none else s.tv.fwd k := by
    intro k
    show (t.wordinfo.get? k).bind _ = _
    rw [hw, SMap.get?_del]
    by_cases hk : k = wid
    · rw [if_pos hk, if_pos hk]; rfl
    · rw [if_neg hk, if_neg hk]; rfl
  have hha := h.good.refs wid a ha
  have hhas : ∀ b, t.tv.has b ↔ s.tv.has b := by
    intro b
    show (∃ m, t.heap.get? b = some m) ↔ _
    rw [hheap]
    by_cases hb : b = a
    · rw [if_pos hb, hb]; simp [hha]
    · rw [if_neg hb]; rfl
  have hmem : ∀ b d, b ≠ a → (t.tv.mem b d ↔ s.tv.mem b d) := by
    intro b d hb
    show (∃ m, t.heap.get? b = some m ∧ _) ↔ _
    rw [hheap, if_neg hb]; rfl
  have hother : ∀ k, k ≠ wid → s.tv.fwd k ≠ some a := fun k hk e => hk (h.good.inj k wid a e ha)
  have hsub : ∀ k b, t.tv.fwd k = some b → s.tv.fwd k = some b ∧ k ≠ wid := by
    intro k b hb
    rw [hfwd] at hb
    split at hb
    · cases hb
    · rename_i hk; exact ⟨hb, hk⟩
  refine ⟨⟨⟨⟨?_, ?_, ?_⟩, ?_⟩, ⟨?_, ?_, ?_, ?_⟩, hn.ge, ?_⟩, ?_⟩
  · intro k b hb
    rw [hhas]; exact h.good.refs k b (hsub k b hb).1
  · intro k b hb
    obtain ⟨hb, hk⟩ := hsub k b hb
    obtain ⟨d, hd⟩ := h.good.ne k b hb
    exact ⟨d, (hmem b d (fun e => hother k hk (e ▸ hb))).2 hd⟩
  · intro k k' b h1 h2
    exact h.good.inj k k' b (hsub _ _ h1).1 (hsub _ _ h2).1
  · intro b hb; rw [hn]; exact h.below b ((hhas b).1 hb)
  · intro b hb; exact (hhas b).2 hb
  · intro k b hb
    by_cases hk : k = wid
    · subst hk
      right
      rw [ha] at hb; cases hb
      rintro d ⟨m', hm', hd⟩
      rw [hheap, if_pos rfl] at hm'
      cases hm'
      exact (SSet.isEmpty_iff_keys m).1 hm d hd
    · left; rw [hfwd, if_neg hk]; exact hb
  · intro k b _ hb; exact (hsub k b hb).1
  · intro b _ hf d
    exact hmem b d (fun e => hf wid (e ▸ ha))
  · intro b hb; exact Or.inl ((hhas b).1 hb)
  · ext1 k
    rw [view_get, SMap.get?_del, view_get, hw, SMap.get?_del]
    by_cases hk : k = wid
    · rw [if_pos hk, if_pos hk]; rfl
    · rw [if_neg hk, if_neg hk]
      cases hp : s.wordinfo.get? k with
      | none => rfl
      | some p =>
        rw [Option.map_some, Option.map_some]
        congr 1
        apply entry_congr
        rintro b rfl
        rw [hheap, if_neg]
        rintro rfl
        exact hother k hk (fwd_tree.2 hp)

/-- a dict is set, for a word without tree -/
theorem dict_next {s t : HIx D R} (h : Ok s) {wid : Int} {m : SMap D R} (hh : t.heap = s.heap)
    (hw : t.wordinfo = s.wordinfo.set wid (.dict m)) (hno : s.tv.fwd wid = none) :
    Next s t ∧ t.view.wordinfo = s.view.wordinfo.set wid { tree := false, map := m } := by
  refine ⟨Next.of_tv h ?_ (by rw [hh]), ?_⟩
  · unfold tv
    rw [hh, hw]
    congr 1
    funext k
    rw [SMap.get?_set]
    by_cases hk : k = wid
    · rw [if_pos hk, hk]; exact hno.symm
    · rw [if_neg hk]
  · ext1 k
    rw [view_get, SMap.get?_set, view_get, hw, SMap.get?_set]
    by_cases hk : k = wid
    · rw [if_pos hk, if_pos hk]; rfl
    · rw [if_neg hk, if_neg hk]
      congr 1
      funext p
      exact entry_congr p (fun a _ => by rw [hh])

/-- a word with a dict is dropped -/
theorem undict_next {s t : HIx D R} (h : Ok s) {wid : Int} (hh : t.heap = s.heap)
    (hw : t.wordinfo = s.wordinfo.del wid) (hno : s.tv.fwd wid = none) :
    Next s t ∧ t.view.wordinfo = s.view.wordinfo.del wid := by
  refine ⟨Next.of_tv h ?_ (by rw [hh]), ?_⟩
  · unfold tv
    rw [hh, hw]
    congr 1
    funext k
    rw [SMap.get?_del]
    by_cases hk : k = wid
    · rw [if_pos hk, hk]; exact hno.symm
    · rw [if_neg hk]
  · ext1 k
    rw [view_get, SMap.get?_del, view_get, hw, SMap.get?_del]
    by_cases hk : k = wid
    · rw [if_pos hk, if_pos hk]; rfl
    · rw [if_neg hk, if_neg hk]
      congr 1
      funext p
      exact entry_congr p (fun a _ => by rw [hh])

/-! ### The functions of the index -/

theorem set_isEmpty (m : SMap D R) (d : D) (v : R) : (m.set d v).isEmpty = false :=
  (SMap.isEmpty_eq_false_iff _).2 ⟨d, v, SMap.get?_set_self _ _ _⟩

variable (K : Kind D R)

/-- `grow` and `save` -/
theorem growSave_next {s : HIx D R} (h : Ok s) {wid : Int} {p : Posting D R} (hp : s.wordinfo.get? wid = some p) (docid : D) (f : R) :
    Next s (save K (grow K s p).1 wid (grow K s p).2 docid f) ∧
    (save K (grow K s p).1 wid (grow K s p).2 docid f).view =
      { s.view with wordinfo := s.view.wordinfo.set wid (((s.entry p).grow K.arith).put K.arith docid f) } := by
  have lift : ∀ {t : HIx D R} {e : D2S D R}, Next s t ∧ t.view.wordinfo = s.view.wordinfo.set wid e →
      t.docweight = s.docweight → t.docwords = s.docwords → t.wordCount = s.wordCount →
      t.documentCount = s.documentCount → t.total = s.total →
      Next s t ∧ t.view = { s.view with wordinfo := s.view.wordinfo.set wid e } := by
    intro t e ⟨h1, h2⟩ a1 a2 a3 a4 a5
    refine ⟨h1, ?_⟩
    rw [← h2]
    unfold view
    rw [a1, a2, a3, a4, a5]
  cases p with
  | dict m =>
    have hno : s.tv.fwd wid = none := by
      show (s.wordinfo.get? wid).bind _ = _
      rw [hp]; rfl
    by_cases hl : m.len = 10
    · have hg : grow K s (.dict m) = ({ s with heap := s.heap.alloc (m.mapVals (fun _ v => K.arith.store v)) }, .tree s.heap.next) := by
        simp only [grow, if_pos hl]
      have he : ((s.entry (.dict m)).grow K.arith).put K.arith docid f =
          { tree := true, map := (m.mapVals (fun _ v => K.arith.store v)).set docid (K.arith.store f) } := by
        unfold entry D2S.grow D2S.put
        simp [hl]
      rw [hg, he]
      refine lift (put_next (a := s.heap.next) h ?_ rfl (set_isEmpty _ docid (K.arith.store f)) (Nat.le_succ _)
        (Or.inr ⟨hno, rfl, Nat.lt_succ_self _⟩)) rfl rfl rfl rfl rfl
      intro b
      show ((s.heap.alloc _).put s.heap.next _).get? b = _
      rw [Heap.get?_put]
      by_cases hb : b = s.heap.next
      · rw [if_pos hb, if_pos hb]
        unfold treeAt
        dsimp only
        rw [Heap.get?_alloc, if_pos rfl]; rfl
      · rw [if_neg hb, if_neg hb, Heap.get?_alloc, if_neg hb]
    · have hg : grow K s (.dict m) = (s, .dict m) := by
        simp only [grow, if_neg hl]
      have he : ((s.entry (.dict m)).grow K.arith).put K.arith docid f = { tree := false, map := m.set docid f } := by
        unfold entry D2S.grow D2S.put
        simp [hl]
      rw [hg, he]
      exact lift (dict_next (s := s) h rfl rfl hno) rfl rfl rfl rfl rfl
  | tree a =>
    have hg : grow K s (.tree a) = (s, .tree a) := rfl
    have he : ((s.entry (.tree a)).grow K.arith).put K.arith docid f = { tree := true, map := (s.treeAt a).set docid (K.arith.store f) } := by
      unfold entry D2S.grow D2S.put
      simp
    rw [hg, he]
    exact lift (put_next h (fun b => Heap.get?_put _ _ _ _) rfl (set_isEmpty _ _ _) (le_refl _) (Or.inl (fwd_tree.2 hp))) rfl rfl rfl rfl rfl

/-- the first document of a word -/
theorem saveNew_next {s : HIx D R} (h : Ok s) {wid : Int} (hp : s.wordinfo.get? wid = none) (docid : D) (f : R) :
    Next s (save K s wid (.dict SMap.empty) docid f) ∧
    (save K s wid (.dict SMap.empty) docid f).view =
      { s.view with wordinfo := s.view.wordinfo.set wid (D2S.put K.arith { tree := false, map := SMap.empty } docid f) } := by
  have hno : s.tv.fwd wid = none := by
    show (s.wordinfo.get? wid).bind _ = _
    rw [hp]; rfl
  obtain ⟨h1, h2⟩ := dict_next (s := s) (t := save K s wid (.dict SMap.empty) docid f) h rfl rfl hno
  refine ⟨h1, ?_⟩
  have : D2S.put K.arith { tree := false, map := SMap.empty } docid f = { tree := false, map := SMap.empty.set docid f } := by
    unfold D2S.put; simp
  rw [this, ← h2]
  rfl

theorem add_next {s : HIx D R} (h : Ok s) (wid : Int) (f : R) (docid : D) :
    Next s (addWordinfo K wid f docid s) ∧ (addWordinfo K wid f docid s).view = Text.addWordinfo K wid f docid s.view := by
  unfold addWordinfo Text.addWordinfo
  rw [view_get]
  cases hp : s.wordinfo.get? wid with
  | none =>
    obtain ⟨h1, h2⟩ := saveNew_next K h hp docid f
    refine ⟨h1.congr rfl rfl, ?_⟩
    dsimp only [Option.map_none]
    rw [show ({ save K s wid (.dict SMap.empty) docid f with
        wordCount := (save K s wid (.dict SMap.empty) docid f).wordCount + 1 } : HIx D R).view =
        { (save K s wid (.dict SMap.empty) docid f).view with
          wordCount := (save K s wid (.dict SMap.empty) docid f).view.wordCount + 1 } from rfl, h2]
  | some p =>
    dsimp only [Option.map_some]
    exact growSave_next K h hp docid f

theorem massStep_next {s : HIx D R} (h : Ok s) (docid : D) (n : Int) (p : Int × R) :
    Next s (massStep K docid (s, n) p).1 ∧
    (massStep K docid (s, n) p).1.view = { s.view with wordinfo := (Text.massStep K docid (s.view.wordinfo, n) p).1 } ∧
    (massStep K docid (s, n) p).2 = (Text.massStep K docid (s.view.wordinfo, n) p).2 := by
  unfold massStep Text.massStep
  dsimp only
  rw [view_get]
  cases hp : s.wordinfo.get? p.1 with
  | none =>
    obtain ⟨h1, h2⟩ := saveNew_next K h hp docid p.2
    exact ⟨h1, h2, rfl⟩
  | some q =>
    obtain ⟨h1, h2⟩ := growSave_next K h hp docid p.2
    exact ⟨h1, h2, rfl⟩

theorem massLoop_next (docid : D) (l : List (Int × R)) {s : HIx D R} (h : Ok s) (n : Int) :
    Next s (l.foldl (massStep K docid) (s, n)).1 ∧
    (l.foldl (massStep K docid) (s, n)).1.view =
      { s.view with wordinfo := (l.foldl (Text.massStep K docid) (s.view.wordinfo, n)).1 } ∧
    (l.foldl (massStep K docid) (s, n)).2 = (l.foldl (Text.massStep K docid) (s.view.wordinfo, n)).2 := by
  induction l generalizing s n with
  | nil => exact ⟨Next.refl h, rfl, rfl⟩
  | cons p l ih =>
    obtain ⟨h1, h2, h3⟩ := massStep_next K h docid n p
    obtain ⟨i1, i2, i3⟩ := ih h1.ok (massStep K docid (s, n) p).2
    rw [List.foldl_cons, List.foldl_cons]
    refine ⟨h1.trans h i1, ?_, ?_⟩
    · rw [i2, h2, h3]
    · rw [i3, h2, h3]

theorem mass_next {s : HIx D R} (h : Ok s) (l : List (Int × R)) (docid : D) :
    Next s (massAdd K l docid s) ∧ (massAdd K l docid s).view = Text.massAdd K l docid s.view := by
  obtain ⟨h1, h2, h3⟩ := massLoop_next K docid l h 0
  refine ⟨h1.congr rfl rfl, ?_⟩
  unfold massAdd Text.massAdd
  dsimp only
  rw [show ({ (l.foldl (massStep K docid) (s, 0)).1 with
      wordCount := (l.foldl (massStep K docid) (s, 0)).1.wordCount + (l.foldl (massStep K docid) (s, 0)).2 } : HIx D R).view =
      { (l.foldl (massStep K docid) (s, 0)).1.view with
        wordCount := (l.foldl (massStep K docid) (s, 0)).1.view.wordCount + (l.foldl (massStep K docid) (s, 0)).2 } from rfl, h2, h3]

/-- a function on the objects that does what a function on the contents does -/
def Sim (s : HIx D R) (x : Except PyErr (HIx D R)) (y : Except PyErr (Ix D R)) : Prop :=
  (∃ t, x = .ok t ∧ y = .ok t.view ∧ Next s t) ∨ ∃ e, x = .error e ∧ y = .error e

theorem Sim.bind {s : HIx D R} (h : Ok s) {x : Except PyErr (HIx D R)} {y : Except PyErr (Ix D R)} (hs : Sim s x y)
    {f : HIx D R → Except PyErr (HIx D R)} {g : Ix D R → Except PyErr (Ix D R)} (hf : ∀ t, Ok t → Sim t (f t) (g t.view)) :
    Sim s (x >>= f) (y >>= g) := by
  rcases hs with ⟨t, rfl, rfl, hn⟩ | ⟨e, rfl, rfl⟩
  · rcases hf t hn.ok with ⟨u, e1, e2, hu⟩ | ⟨e, e1, e2⟩
    · exact Or.inl ⟨u, e1, e2, hn.trans h hu⟩
    · exact Or.inr ⟨e, e1, e2⟩
  · exact Or.inr ⟨e, rfl, rfl⟩

theorem Sim.loop {α : Type} {s : HIx D R} (h : Ok s) {f : HIx D R → α → Except PyErr (HIx D R)} {g : Ix D R → α → Except PyErr (Ix D R)}
    (hf : ∀ t a, Ok t → Sim t (f t a) (g t.view a)) (l : List α) : Sim s (l.foldlM f s) (l.foldlM g s.view) := by
  induction l generalizing s with
  | nil => exact Or.inl ⟨s, rfl, rfl, Next.refl h⟩
  | cons a l ih =>
    rw [List.foldlM_cons, List.foldlM_cons]
    exact (hf s a h).bind h (fun t ht => ih ht)

theorem Sim.same {α : Type} {s : HIx D R} (x : Except PyErr α) {f : α → Except PyErr (HIx D R)} {g : α → Except PyErr (Ix D R)}
    (hf : ∀ a, Sim s (f a) (g a)) : Sim s (x >>= f) (x >>= g) := by
  cases x with
  | ok a => exact hf a
  | error e => exact Or.inr ⟨e, rfl, rfl⟩

theorem del_sim {s : HIx D R} (h : Ok s) (wid : Int) (docid : D) :
    Sim s (delWordinfo wid docid s) (Text.delWordinfo wid docid s.view) := by
  unfold delWordinfo Text.delWordinfo
  rw [view_get]
  cases hp : s.wordinfo.get? wid with
  | none => exact Or.inr ⟨_, rfl, rfl⟩
  | some p =>
    dsimp only [Option.map_some]
    by_cases hc : (s.entry p).map.contains docid = true
    · rw [if_pos hc, if_pos hc]
      cases p with
      | dict m =>
        have hno : s.tv.fwd wid = none := by
          show (s.wordinfo.get? wid).bind _ = _
          rw [hp]; rfl
        have he : (entry (remove s (.dict m) docid).1 (remove s (.dict m) docid).2).map = m.del docid := rfl
        have he' : (s.entry (.dict m)).map = m := rfl
        rw [he, he']
        left
        by_cases hem : (m.del docid).isEmpty = true
        · rw [if_pos hem, if_pos hem]
          obtain ⟨h1, h2⟩ := undict_next (s := s) (t := { s with wordinfo := s.wordinfo.del wid, wordCount := s.wordCount - 1 }) h rfl rfl hno
          refine ⟨_, rfl, ?_, h1⟩
          rw [← h2]; rfl
        · rw [if_neg hem, if_neg hem]
          obtain ⟨h1, h2⟩ := dict_next (s := s) (t := { s with wordinfo := s.wordinfo.set wid (.dict (m.del docid)) }) h rfl rfl hno
          refine ⟨_, rfl, ?_, h1⟩
          rw [show ({ s.entry (.dict m) with map := m.del docid } : D2S D R) = { tree := false, map := m.del docid } from rfl, ← h2]
          rfl
      | tree a =>
        have he : (entry (remove s (.tree a) docid).1 (remove s (.tree a) docid).2).map = (s.treeAt a).del docid := by
          show (((s.heap.put a _).get? a).getD SMap.empty) = _
          rw [Heap.get?_put, if_pos rfl]; rfl
        have he' : (s.entry (.tree a)).map = s.treeAt a := rfl
        rw [he, he']
        left
        by_cases hem : ((s.treeAt a).del docid).isEmpty = true
        · rw [if_pos hem, if_pos hem]
          obtain ⟨h1, h2⟩ := drop_next (s := s) (t := { s with heap := s.heap.put a ((s.treeAt a).del docid), wordinfo := s.wordinfo.del wid, wordCount := s.wordCount - 1 }) h (fun b => Heap.get?_put _ _ _ _) rfl hem rfl (fwd_tree.2 hp)
          refine ⟨_, rfl, ?_, h1⟩
          rw [← h2]; rfl
        · rw [if_neg hem, if_neg hem]
          obtain ⟨h1, h2⟩ := put_next (s := s) (t := { s with heap := s.heap.put a ((s.treeAt a).del docid), wordinfo := s.wordinfo.set wid (.tree a) }) h (fun b => Heap.get?_put _ _ _ _) rfl (by simpa using hem) (le_refl _) (Or.inl (fwd_tree.2 hp))
          refine ⟨_, rfl, ?_, h1⟩
          rw [show ({ s.entry (.tree a) with map := (s.treeAt a).del docid } : D2S D R) = { tree := true, map := (s.treeAt a).del docid } from rfl, ← h2]
          rfl
    · rw [if_neg hc, if_neg hc]; exact Or.inr ⟨_, rfl, rfl⟩

theorem change_sim {s : HIx D R} (h : Ok s) (n : Int) :
    Next s (changeDocLen K n s) ∧ (changeDocLen K n s).view = Text.changeDocLen K n s.view := by
  unfold changeDocLen Text.changeDocLen
  split
  · exact ⟨Next.of_tv h rfl rfl, rfl⟩
  · exact ⟨Next.refl h, rfl⟩

theorem sub_sim {s : HIx D R} (h : Ok s) (docid : D) : Sim s (subDocLen K docid s) (Text.subDocLen K docid s.view) := by
  unfold subDocLen Text.subDocLen
  split
  · rw [show s.view.docweight = s.docweight from rfl]
    cases s.docweight.get? docid with
    | none => exact Or.inr ⟨_, rfl, rfl⟩
    | some w =>
      obtain ⟨h1, h2⟩ := change_sim K h (-(K.arith.toInt w))
      exact Or.inl ⟨_, rfl, by dsimp only; rw [h2], h1⟩
  · exact Or.inl ⟨s, rfl, rfl, Next.refl h⟩

theorem addStep_sim {s : HIx D R} (h : Ok s) (newW : List (Int × R)) (docid : D) (wid : Int) :
    Sim s (addStep K newW docid s wid) (Text.addStep K newW docid s.view wid) := by
  unfold addStep Text.addStep
  refine Sim.same _ (fun f => ?_)
  obtain ⟨h1, h2⟩ := add_next K h wid f docid
  exact Or.inl ⟨_, rfl, by rw [h2]; rfl, h1⟩

theorem bothStep_sim {s : HIx D R} (h : Ok s) (oldW newW : List (Int × R)) (docid : D) (wid : Int) :
    Sim s (bothStep K oldW newW docid s wid) (Text.bothStep K oldW newW docid s.view wid) := by
  unfold bothStep Text.bothStep
  refine Sim.same _ (fun f => Sim.same _ (fun f' => ?_))
  obtain ⟨h1, h2⟩ := add_next K h wid f docid
  split
  · exact Or.inl ⟨_, rfl, by rw [h2]; rfl, h1⟩
  · exact Or.inl ⟨_, rfl, rfl, Next.refl h⟩

theorem reindex_sim {s : HIx D R} (h : Ok s) (docid : D) (wids : List Int) :
    Sim s (reindexDoc K docid wids s) (Text.reindexDoc K docid wids s.view) := by
  unfold reindexDoc Text.reindexDoc
  refine (sub_sim K h docid).bind h (fun s h => ?_)
  refine Sim.same (getWords s docid) (fun old => Sim.same _ (fun o => Sim.same _ (fun n => ?_)))
  refine (Sim.loop h (fun t w ht => del_sim ht w docid) _).bind h (fun s h => ?_)
  refine (Sim.loop h (fun t w ht => addStep_sim K ht _ docid w) _).bind h (fun s h => ?_)
  refine (Sim.loop h (fun t w ht => bothStep_sim K ht _ _ docid w) _).bind h (fun s h => ?_)
  refine Sim.same _ (fun code => ?_)
  exact Or.inl ⟨_, rfl, rfl, Next.of_tv h rfl rfl⟩

theorem index_sim {s : HIx D R} (h : Ok s) (docid : D) (wids : List Int) :
    Sim s (indexDoc K docid wids s) (Text.indexDoc K docid wids s.view) := by
  unfold indexDoc Text.indexDoc
  rw [show s.view.docwords = s.docwords from rfl]
  by_cases hc : s.docwords.contains docid = true
  · rw [if_pos hc, if_pos hc]
    refine (reindex_sim K h docid wids).bind h (fun t ht => ?_)
    obtain ⟨h1, h2⟩ := change_sim K ht wids.length
    exact Or.inl ⟨_, rfl, by rw [h2]; rfl, h1⟩
  · rw [if_neg hc, if_neg hc]
    refine Sim.same _ (fun r => Sim.same _ (fun code => ?_))
    obtain ⟨h1, h2⟩ := mass_next K h r.1 docid
    have h3 : Next s { massAdd K r.1 docid s with
        docweight := (massAdd K r.1 docid s).docweight.set docid (K.arith.store r.2),
        docwords := (massAdd K r.1 docid s).docwords.set docid code,
        documentCount := (massAdd K r.1 docid s).documentCount + 1 } := h1.congr rfl rfl
    obtain ⟨h4, h5⟩ := change_sim K h3.ok wids.length
    refine Or.inl ⟨_, rfl, ?_, h3.trans h h4⟩
    rw [h5, ← h2]
    rfl

theorem unindex_sim {s : HIx D R} (h : Ok s) (docid : D) : Sim s (unindexDoc K docid s) (Text.unindexDoc K docid s.view) := by
  unfold unindexDoc Text.unindexDoc
  rw [show s.view.docwords = s.docwords from rfl]
  by_cases hc : s.docwords.contains docid = true
  · rw [if_pos hc, if_pos hc]
    refine (sub_sim K h docid).bind h (fun s h => ?_)
    refine Sim.same (getWords s docid) (fun old => ?_)
    refine (Sim.loop h (fun t w ht => del_sim ht w docid) _).bind h (fun s h => ?_)
    exact Or.inl ⟨_, rfl, rfl, Next.of_tv h rfl rfl⟩
  · rw [if_neg hc, if_neg hc]
    exact Or.inl ⟨_, rfl, rfl, Next.refl h⟩

end HIx
end Verif.Text
