import Mathlib.Tactic.ByContra
import Mathlib.Tactic.Basic
import Mathlib.Tactic.Tauto
import Mathlib.Logic.Basic
import Mathlib.Order.Basic

/-! Inverted indexes whose posting sets are separate database objects: how such an index evolves, and what a keywise
three-way merge of two evolutions of it looks like.  Shared by the field and the keyword index. -/

set_option autoImplicit false

namespace Verif.Txn

variable {K D : Type}

/-- what matters of an inverted index: the set object of each key, the members of each set object, the existing objects -/
structure View (K D : Type) where
  fwd : K → Option Nat
  mem : Nat → D → Prop
  has : Nat → Prop

namespace View

/-- the index lists `d` under `k` -/
def Bit (x : View K D) (k : K) (d : D) : Prop := ∃ a, x.fwd k = some a ∧ x.mem a d

/-- a well-formed index -/
structure Good (x : View K D) : Prop where
  refs : ∀ k a, x.fwd k = some a → x.has a
  ne : ∀ k a, x.fwd k = some a → ∃ d, x.mem a d
  inj : ∀ k k' a, x.fwd k = some a → x.fwd k' = some a → k = k'

/-- `x` is a later state of `o` -/
structure Evo (o x : View K D) : Prop where
  has : ∀ a, o.has a → x.has a
  keep : ∀ k a, o.fwd k = some a → x.fwd k = some a ∨ ∀ d, ¬ x.mem a d
  back : ∀ k a, o.has a → x.fwd k = some a → o.fwd k = some a
  frozen : ∀ a, o.has a → (∀ k, o.fwd k ≠ some a) → ∀ d, x.mem a d ↔ o.mem a d

theorem Evo.refl (o : View K D) : Evo o o :=
  ⟨fun _ h => h, fun _ _ h => Or.inl h, fun _ _ _ h => h, fun _ _ _ _ => Iff.rfl⟩

theorem Evo.trans {o x y : View K D} (hx : x.Good) (h1 : Evo o x) (h2 : Evo x y) (ho : o.Good) : Evo o y where
  has a h := h2.has a (h1.has a h)
  keep k a h := by
    have hh := h1.has a (ho.refs k a h)
    rcases h1.keep k a h with h' | h'
    · exact h2.keep k a h'
    · refine Or.inr fun d hd => h' d ((h2.frozen a hh ?_ d).1 hd)
      intro k' hk'
      obtain ⟨d', hd'⟩ := hx.ne k' a hk'
      exact h' d' hd'
  back k a h h' := h1.back k a h (h2.back k a (h1.has a h) h')
  frozen a h hn d := by
    rw [h2.frozen a (h1.has a h) (fun k hk => hn k (h1.back k a h hk)) d]
    exact h1.frozen a h hn d

/-- `r` is a merge of `c` and `n`, which both started from `o` -/
structure Merged (o c n r : View K D) : Prop where
  fwd : ∀ k, (o.fwd k = c.fwd k ∧ r.fwd k = n.fwd k) ∨ (o.fwd k = n.fwd k ∧ r.fwd k = c.fwd k)
  cell : ∀ a, o.has a →
    ((∀ d, o.mem a d ↔ c.mem a d) ∧ ∀ d, r.mem a d ↔ n.mem a d) ∨
    ((∀ d, o.mem a d ↔ n.mem a d) ∧ ∀ d, r.mem a d ↔ c.mem a d) ∨
    ((∀ d, ((o.mem a d ↔ c.mem a d) ∧ (r.mem a d ↔ n.mem a d)) ∨ ((o.mem a d ↔ n.mem a d) ∧ (r.mem a d ↔ c.mem a d))) ∧
      (∃ d, c.mem a d) ∧ (∃ d, n.mem a d) ∧ ∃ d, r.mem a d)
  newC : ∀ a, ¬ o.has a → c.has a → ∀ d, r.mem a d ↔ c.mem a d
  newN : ∀ a, ¬ o.has a → n.has a → ∀ d, r.mem a d ↔ n.mem a d
  has : ∀ a, r.has a ↔ c.has a ∨ n.has a

section merge
variable {o c n r : View K D}

theorem Merged.symm (h : Merged o c n r) : Merged o n c r where
  fwd k := (h.fwd k).symm
  cell a ha := by
    rcases h.cell a ha with h1 | h1 | ⟨h1, h2, h3, h4⟩
    · exact Or.inr (Or.inl h1)
    · exact Or.inl h1
    · exact Or.inr (Or.inr ⟨fun d => (h1 d).symm, h3, h2, h4⟩)
  newC := h.newN
  newN := h.newC
  has a := (h.has a).trans or_comm

/-- keywise view of a merged object -/
theorem Merged.bitAt (h : Merged o c n r) {a : Nat} (ha : o.has a) (d : D) :
    ((o.mem a d ↔ c.mem a d) ∧ (r.mem a d ↔ n.mem a d)) ∨ ((o.mem a d ↔ n.mem a d) ∧ (r.mem a d ↔ c.mem a d)) := by
  rcases h.cell a ha with ⟨h1, h2⟩ | ⟨h1, h2⟩ | ⟨h1, -⟩
  · exact Or.inl ⟨h1 d, h2 d⟩
  · exact Or.inr ⟨h1 d, h2 d⟩
  · exact h1 d

/-- if one side emptied an object, the other left it alone -/
theorem Merged.emptied (h : Merged o c n r) {a : Nat} (ha : o.has a) (hne : ∃ d, o.mem a d) (hc : ∀ d, ¬ c.mem a d) :
    (∀ d, o.mem a d ↔ n.mem a d) ∧ ∀ d, ¬ r.mem a d := by
  rcases h.cell a ha with ⟨h1, h2⟩ | ⟨h1, h2⟩ | ⟨-, ⟨d, hd⟩, -⟩
  · obtain ⟨d, hd⟩ := hne
    exact absurd ((h1 d).1 hd) (hc d)
  · exact ⟨h1, fun d hd => hc d ((h2 d).1 hd)⟩
  · exact absurd hd (hc d)

/-- an object still in use on one side, after a merge, holds at least one docid -/
theorem Merged.keepsOne (h : Merged o c n r) {a : Nat} (ha : o.has a) (hc : ∃ d, c.mem a d) (hn : ∃ d, n.mem a d) :
    ∃ d, r.mem a d := by
  rcases h.cell a ha with ⟨-, h2⟩ | ⟨-, h2⟩ | ⟨-, -, -, h4⟩
  · exact hn.imp fun d hd => (h2 d).2 hd
  · exact hc.imp fun d hd => (h2 d).2 hd
  · exact h4

theorem Merged.evo (ho : o.Good) (hn : n.Good) (h1 : Evo o c) (h2 : Evo o n) (h : Merged o c n r)
    (fresh : ∀ a, c.has a → n.has a → o.has a) : Evo c r where
  has a ha := (h.has a).2 (Or.inl ha)
  keep k a ha := by
    rcases h.fwd k with ⟨e1, e2⟩ | ⟨e1, e2⟩
    · rw [← e1] at ha
      rcases h2.keep k a ha with h' | h'
      · exact Or.inl (e2.trans h')
      · exact Or.inr (h.symm.emptied (ho.refs k a ha) (ho.ne k a ha) h').2
    · exact Or.inl (e2.trans ha)
  back k a ha hr := by
    rcases h.fwd k with ⟨e1, e2⟩ | ⟨e1, e2⟩
    · rw [e2] at hr
      rw [← e1]
      exact h2.back k a (fresh a ha (hn.refs k a hr)) hr
    · rw [← e2]; exact hr
  frozen a ha hf d := by
    by_cases hoa : o.has a
    · by_cases hu : ∃ k, o.fwd k = some a
      · obtain ⟨k, hk⟩ := hu
        have hc : ∀ d, ¬ c.mem a d := by
          rcases h1.keep k a hk with h' | h'
          · exact absurd h' (hf k)
          · exact h'
        have := (h.emptied hoa (ho.ne k a hk) hc).2 d
        exact ⟨fun x => absurd x this, fun x => absurd x (hc d)⟩
      · have hu : ∀ k, o.fwd k ≠ some a := fun k hk => hu ⟨k, hk⟩
        have e1 := h1.frozen a hoa hu d
        have e2 := h2.frozen a hoa hu d
        rcases h.bitAt hoa d with ⟨-, e⟩ | ⟨-, e⟩
        · rw [e, e2, e1]
        · exact e
    · exact h.newC a hoa ha d

theorem Merged.good (hc : c.Good) (hn : n.Good) (ho : o.Good) (h1 : Evo o c) (h2 : Evo o n) (h : Merged o c n r)
    (fresh : ∀ a, c.has a → n.has a → o.has a) : r.Good where
  refs k a ha := by
    rw [h.has]
    rcases h.fwd k with ⟨-, e2⟩ | ⟨-, e2⟩
    · exact Or.inr (hn.refs k a (e2 ▸ ha))
    · exact Or.inl (hc.refs k a (e2 ▸ ha))
  ne := by
    have key : ∀ {c n : View K D}, c.Good → n.Good → Evo o c → Evo o n → Merged o c n r →
        (∀ a, c.has a → n.has a → o.has a) →
        ∀ k a, o.fwd k = c.fwd k → n.fwd k = some a → ∃ d, r.mem a d := by
      intro c n hc hn h1 h2 h fresh k a e1 ha
      by_cases hoa : o.has a
      · have hok := h2.back k a hoa ha
        exact h.keepsOne hoa (hc.ne k a (e1 ▸ hok)) (hn.ne k a ha)
      · obtain ⟨d, hd⟩ := hn.ne k a ha
        exact ⟨d, (h.newN a hoa (hn.refs k a ha) d).2 hd⟩
    intro k a ha
    rcases h.fwd k with ⟨e1, e2⟩ | ⟨e1, e2⟩
    · exact key hc hn h1 h2 h fresh k a e1 (e2 ▸ ha)
    · exact key hn hc h2 h1 h.symm (fun a x y => fresh a y x) k a e1 (e2 ▸ ha)
  inj k k' a ha hb := by
    rcases h.fwd k with ⟨e1, e2⟩ | ⟨e1, e2⟩ <;> rcases h.fwd k' with ⟨f1, f2⟩ | ⟨f1, f2⟩ <;>
      rw [e2] at ha <;> rw [f2] at hb
    · exact hn.inj k k' a ha hb
    · have hoa := fresh a (hc.refs _ _ hb) (hn.refs _ _ ha)
      exact hc.inj k k' a (e1 ▸ h2.back k a hoa ha) hb
    · have hoa := fresh a (hc.refs _ _ ha) (hn.refs _ _ hb)
      exact hc.inj k k' a ha (f1 ▸ h2.back k' a hoa hb)
    · exact hc.inj k k' a ha hb

/-- the entries of the merged index come entry by entry from the side that changed them -/
theorem Merged.bits (ho : o.Good) (hc : c.Good) (hn : n.Good) (h1 : Evo o c) (h2 : Evo o n) (h : Merged o c n r)
    (fresh : ∀ a, c.has a → n.has a → o.has a) (k : K) (d : D) :
    ((o.Bit k d ↔ c.Bit k d) ∧ (r.Bit k d ↔ n.Bit k d)) ∨ ((o.Bit k d ↔ n.Bit k d) ∧ (r.Bit k d ↔ c.Bit k d)) := by
  have key : ∀ {c n : View K D}, c.Good → n.Good → Evo o c → Evo o n → Merged o c n r →
      (∀ a, c.has a → n.has a → o.has a) → o.fwd k = c.fwd k → r.fwd k = n.fwd k →
      ((o.Bit k d ↔ c.Bit k d) ∧ (r.Bit k d ↔ n.Bit k d)) ∨ ((o.Bit k d ↔ n.Bit k d) ∧ (r.Bit k d ↔ c.Bit k d)) := by
    intro c n hc hn h1 h2 h fresh e1 e2
    have toBit : ∀ {x : View K D} {a : Nat}, x.fwd k = some a → (x.Bit k d ↔ x.mem a d) := by
      intro x a hx
      constructor
      · rintro ⟨b, hb, hm⟩
        rw [hx] at hb; cases hb; exact hm
      · intro hm; exact ⟨a, hx, hm⟩
    have noBit : ∀ {x : View K D}, x.fwd k = none → ¬ x.Bit k d := by
      rintro x hx ⟨b, hb, -⟩
      rw [hx] at hb; cases hb
    cases hno : n.fwd k with
    | none =>
      have hr := e2.trans hno
      cases hok : o.fwd k with
      | none =>
        left
        rw [hok] at e1
        have x1 := noBit hok; have x2 := noBit e1.symm; have x3 := noBit hr; have x4 := noBit hno
        tauto
      | some a =>
        left
        have hoa := ho.refs k a hok
        have hem : ∀ d, ¬ n.mem a d := by
          rcases h2.keep k a hok with h' | h'
          · rw [hno] at h'; cases h'
          · exact h'
        have := (h.symm.emptied hoa (ho.ne k a hok) hem).1 d
        rw [hok] at e1
        rw [toBit hok, toBit e1.symm]
        have x3 := noBit hr; have x4 := noBit hno
        tauto
    | some a =>
      have hr := e2.trans hno
      by_cases hoa : o.has a
      · have hok := h2.back k a hoa hno
        have hck := e1.symm.trans hok
        rw [toBit hok, toBit hno, toBit hck, toBit hr]
        exact h.bitAt hoa d
      · have hnew := h.newN a hoa (hn.refs k a hno) d
        rw [toBit hno, toBit hr]
        cases hok : o.fwd k with
        | none =>
          left
          rw [hok] at e1
          have x1 := noBit hok; have x2 := noBit e1.symm
          tauto
        | some b =>
          left
          have hob := ho.refs k b hok
          have hem : ∀ d, ¬ n.mem b d := by
            rcases h2.keep k b hok with h' | h'
            · rw [hno] at h'; cases h'; exact absurd hob hoa
            · exact h'
          have := (h.symm.emptied hob (ho.ne k b hok) hem).1 d
          rw [hok] at e1
          rw [toBit hok, toBit e1.symm]
          exact ⟨this, hnew⟩
  rcases h.fwd k with ⟨e1, e2⟩ | ⟨e1, e2⟩
  · exact key hc hn h1 h2 h fresh e1 e2
  · exact (key hn hc h2 h1 h.symm (fun a x y => fresh a y x) e1 e2).symm

end merge

/-! ### Single changes -/

/-- a docid is removed from the set of a key, and the key dropped when the set became empty -/
structure Removed (x y : View K D) (k : K) (a : Nat) (d : D) : Prop where
  old : x.fwd k = some a
  mem : ∀ b e, y.mem b e ↔ x.mem b e ∧ ¬ (b = a ∧ e = d)
  other : ∀ k', k' ≠ k → y.fwd k' = x.fwd k'
  this : (y.fwd k = some a ∧ ∃ e, y.mem a e) ∨ (y.fwd k = none ∧ ∀ e, ¬ y.mem a e)
  has : ∀ b, y.has b ↔ x.has b

theorem Removed.spec {x y : View K D} {k : K} {a : Nat} {d : D} (hx : x.Good) (h : Removed x y k a d) :
    y.Good ∧ Evo x y ∧ ∀ k' e, y.Bit k' e ↔ x.Bit k' e ∧ ¬ (k' = k ∧ e = d) := by
  have hsub : ∀ k' b, y.fwd k' = some b → x.fwd k' = some b := by
    intro k' b hb
    by_cases hk : k' = k
    · subst hk
      rcases h.this with ⟨h1, -⟩ | ⟨h1, -⟩ <;> rw [h1] at hb <;> cases hb
      exact h.old
    · rwa [h.other k' hk] at hb
  have hne : ∀ k' b, k' ≠ k → x.fwd k' = some b → b ≠ a := by
    rintro k' b hk hb rfl
    exact hk (hx.inj k' k b hb h.old)
  refine ⟨⟨?_, ?_, ?_⟩, ⟨?_, ?_, ?_, ?_⟩, ?_⟩
  · intro k' b hb
    rw [h.has]; exact hx.refs k' b (hsub k' b hb)
  · intro k' b hb
    by_cases hk : k' = k
    · subst hk
      rcases h.this with ⟨h1, h2⟩ | ⟨h1, -⟩ <;> rw [h1] at hb <;> cases hb
      exact h2
    · have hb' := hsub k' b hb
      obtain ⟨e, he⟩ := hx.ne k' b hb'
      exact ⟨e, (h.mem b e).2 ⟨he, fun q => hne k' b hk hb' q.1⟩⟩
  · intro k1 k2 b h1 h2
    exact hx.inj k1 k2 b (hsub _ _ h1) (hsub _ _ h2)
  · intro b hb; rwa [h.has]
  · intro k' b hb
    by_cases hk : k' = k
    · subst hk
      rw [h.old] at hb; cases hb
      rcases h.this with ⟨h1, -⟩ | ⟨-, h2⟩
      · exact Or.inl h1
      · exact Or.inr h2
    · exact Or.inl ((h.other k' hk).trans hb)
  · intro k' b _ hb; exact hsub k' b hb
  · intro b _ hn e
    rw [h.mem]
    have : b ≠ a := by rintro rfl; exact hn k h.old
    tauto
  · intro k' e
    by_cases hk : k' = k
    · subst hk
      constructor
      · rintro ⟨b, hb, hm⟩
        have hb' := hsub _ _ hb
        rw [h.old] at hb'; cases hb'
        have := (h.mem a e).1 hm
        exact ⟨⟨a, h.old, this.1⟩, fun q => this.2 ⟨rfl, q.2⟩⟩
      · rintro ⟨⟨b, hb, hm⟩, hq⟩
        rw [h.old] at hb; cases hb
        have hm' := (h.mem a e).2 ⟨hm, fun q => hq ⟨rfl, q.2⟩⟩
        rcases h.this with ⟨h1, -⟩ | ⟨-, h2⟩
        · exact ⟨a, h1, hm'⟩
        · exact absurd hm' (h2 e)
    · constructor
      · rintro ⟨b, hb, hm⟩
        exact ⟨⟨b, hsub _ _ hb, ((h.mem b e).1 hm).1⟩, fun q => hk q.1⟩
      · rintro ⟨⟨b, hb, hm⟩, -⟩
        exact ⟨b, (h.other k' hk).trans hb, (h.mem b e).2 ⟨hm, fun q => hne k' b hk hb q.1⟩⟩

/-- a docid is added to the set of a key, which is a new object when the key had none -/
structure Added (x y : View K D) (k : K) (a : Nat) (d : D) : Prop where
  old : x.fwd k = some a ∨ (x.fwd k = none ∧ ¬ x.has a ∧ ∀ e, ¬ x.mem a e)
  mem : ∀ b e, y.mem b e ↔ x.mem b e ∨ (b = a ∧ e = d)
  other : ∀ k', k' ≠ k → y.fwd k' = x.fwd k'
  this : y.fwd k = some a
  has : ∀ b, y.has b ↔ x.has b ∨ b = a

theorem Added.spec {x y : View K D} {k : K} {a : Nat} {d : D} (hx : x.Good) (h : Added x y k a d) :
    y.Good ∧ Evo x y ∧ ∀ k' e, y.Bit k' e ↔ x.Bit k' e ∨ (k' = k ∧ e = d) := by
  have hne : ∀ k' b, k' ≠ k → x.fwd k' = some b → b ≠ a := by
    rintro k' b hk hb rfl
    rcases h.old with h1 | ⟨-, h1, -⟩
    · exact hk (hx.inj k' k b hb h1)
    · exact h1 (hx.refs k' b hb)
  refine ⟨⟨?_, ?_, ?_⟩, ⟨?_, ?_, ?_, ?_⟩, ?_⟩
  · intro k' b hb
    rw [h.has]
    by_cases hk : k' = k
    · subst hk
      rw [h.this] at hb; cases hb; exact Or.inr rfl
    · rw [h.other k' hk] at hb
      exact Or.inl (hx.refs k' b hb)
  · intro k' b hb
    by_cases hk : k' = k
    · subst hk
      rw [h.this] at hb; cases hb
      exact ⟨d, (h.mem a d).2 (Or.inr ⟨rfl, rfl⟩)⟩
    · rw [h.other k' hk] at hb
      obtain ⟨e, he⟩ := hx.ne k' b hb
      exact ⟨e, (h.mem b e).2 (Or.inl he)⟩
  · intro k1 k2 b h1 h2
    by_cases hk1 : k1 = k <;> by_cases hk2 : k2 = k
    · rw [hk1, hk2]
    · subst hk1
      rw [h.this] at h1; cases h1
      rw [h.other k2 hk2] at h2
      exact absurd rfl (hne k2 _ hk2 h2)
    · subst hk2
      rw [h.this] at h2; cases h2
      rw [h.other k1 hk1] at h1
      exact absurd rfl (hne k1 _ hk1 h1)
    · rw [h.other k1 hk1] at h1
      rw [h.other k2 hk2] at h2
      exact hx.inj k1 k2 b h1 h2
  · intro b hb; rw [h.has]; exact Or.inl hb
  · intro k' b hb
    by_cases hk : k' = k
    · subst hk
      rcases h.old with h1 | ⟨h1, -⟩
      · rw [h1] at hb; cases hb; exact Or.inl h.this
      · rw [h1] at hb; cases hb
    · exact Or.inl ((h.other k' hk).trans hb)
  · intro k' b hb hy
    by_cases hk : k' = k
    · subst hk
      rw [h.this] at hy; cases hy
      rcases h.old with h1 | ⟨-, h1, -⟩
      · exact h1
      · exact absurd hb h1
    · rwa [h.other k' hk] at hy
  · intro b hb hn e
    rw [h.mem]
    have : b ≠ a := by
      rintro rfl
      rcases h.old with h1 | ⟨-, h1, -⟩
      · exact hn k h1
      · exact h1 hb
    tauto
  · intro k' e
    by_cases hk : k' = k
    · subst hk
      constructor
      · rintro ⟨b, hb, hm⟩
        rw [h.this] at hb; cases hb
        rcases (h.mem a e).1 hm with hm | hm
        · rcases h.old with h1 | ⟨-, -, h1⟩
          · exact Or.inl ⟨a, h1, hm⟩
          · exact absurd hm (h1 e)
        · exact Or.inr ⟨rfl, hm.2⟩
      · rintro (⟨b, hb, hm⟩ | ⟨-, rfl⟩)
        · rcases h.old with h1 | ⟨h1, -⟩
          · rw [h1] at hb; cases hb
            exact ⟨a, h.this, (h.mem a e).2 (Or.inl hm)⟩
          · rw [h1] at hb; cases hb
        · exact ⟨a, h.this, (h.mem a e).2 (Or.inr ⟨rfl, rfl⟩)⟩
    · constructor
      · rintro ⟨b, hb, hm⟩
        rw [h.other k' hk] at hb
        rcases (h.mem b e).1 hm with hm | hm
        · exact Or.inl ⟨b, hb, hm⟩
        · exact absurd hm.1 (hne k' b hk hb)
      · rintro (⟨b, hb, hm⟩ | ⟨rfl, -⟩)
        · exact ⟨b, (h.other k' hk).trans hb, (h.mem b e).2 (Or.inl hm)⟩
        · exact absurd rfl hk

end View
end Verif.Txn
