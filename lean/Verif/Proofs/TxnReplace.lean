import Verif.Proofs.TxnKeyword
import Verif.Proofs.TxnAlone
import Verif.Proofs.Serial
import Verif.Spec.TxnReplace

/-! Concurrent transactions on a keyword index in which sets are replaced by other set objects. -/

set_option autoImplicit false

namespace Verif.Txn.View

variable {K D : Type}

/-- `x` is a later state of `o`; sets may have been replaced -/
structure Later (o x : View K D) : Prop where
  has : ∀ a, o.has a → x.has a
  back : ∀ k a, o.has a → x.fwd k = some a → o.fwd k = some a
  frozen : ∀ a, o.has a → (∀ k, o.fwd k ≠ some a) → ∀ d, x.mem a d ↔ o.mem a d

theorem Evo.later {o x : View K D} (h : Evo o x) : Later o x := ⟨h.has, h.back, h.frozen⟩

theorem Later.refl (o : View K D) : Later o o := (Evo.refl o).later

theorem Later.trans {o x y : View K D} (h1 : Later o x) (h2 : Later x y) : Later o y where
  has a h := h2.has a (h1.has a h)
  back k a h h' := h1.back k a h (h2.back k a (h1.has a h) h')
  frozen a h hn d := by
    rw [h2.frozen a (h1.has a h) (fun k hk => hn k (h1.back k a h hk)) d]
    exact h1.frozen a h hn d

/-- the set of `k` has not been replaced -/
def Keeps (o x : View K D) (k : K) : Prop := ∀ a, o.fwd k = some a → x.fwd k = some a ∨ ∀ d, ¬ x.mem a d

/-- nothing has changed at `k` -/
def Still (o x : View K D) (k : K) : Prop := x.fwd k = o.fwd k ∧ ∀ a, o.fwd k = some a → ∀ d, x.mem a d ↔ o.mem a d

/-- at each key, no side replaced the set, or one side changed nothing -/
def Apart (o c n : View K D) : Prop := ∀ k, (Keeps o c k ∧ Keeps o n k) ∨ Still o c k ∨ Still o n k

theorem Apart.symm {o c n : View K D} (h : Apart o c n) : Apart o n c := by
  intro k
  rcases h k with ⟨h1, h2⟩ | h | h
  · exact Or.inl ⟨h2, h1⟩
  · exact Or.inr (Or.inr h)
  · exact Or.inr (Or.inl h)

section merge
variable {o c n r : View K D}

theorem Merged.later (ho : o.Good) (hn : n.Good) (h1 : Later o c) (h2 : Later o n) (h : Merged o c n r)
    (hap : Apart o c n) (fresh : ∀ a, c.has a → n.has a → o.has a) : Later c r where
  has a ha := (h.has a).2 (Or.inl ha)
  back k a ha hr := by
    rcases h.fwd k with ⟨e1, e2⟩ | ⟨e1, e2⟩
    · rw [e2] at hr
      rw [← e1]
      exact h2.back k a (fresh a ha (hn.refs k a hr)) hr
    · rw [← e2]; exact hr
  frozen a ha hf d := by
    by_cases hoa : o.has a
    · by_cases hu : ∃ k, o.fwd k = some a
      · obtain ⟨k, hk⟩ := hu
        rcases hap k with ⟨h', -⟩ | h' | h'
        · have hc : ∀ d, ¬ c.mem a d := by
            rcases h' a hk with h' | h'
            · exact absurd h' (hf k)
            · exact h'
          have := (h.emptied hoa (ho.ne k a hk) hc).2 d
          exact ⟨fun x => absurd x this, fun x => absurd x (hc d)⟩
        · exact absurd (h'.1.trans hk) (hf k)
        · have e := h'.2 a hk d
          rcases h.bitAt hoa d with ⟨x, y⟩ | ⟨-, y⟩
          · rw [y, e, x]
          · exact y
      · have hu : ∀ k, o.fwd k ≠ some a := fun k hk => hu ⟨k, hk⟩
        have e1 := h1.frozen a hoa hu d
        have e2 := h2.frozen a hoa hu d
        rcases h.bitAt hoa d with ⟨-, e⟩ | ⟨-, e⟩
        · rw [e, e2, e1]
        · exact e
    · exact h.newC a hoa ha d

theorem Merged.goodLater (hc : c.Good) (hn : n.Good) (h1 : Later o c) (h2 : Later o n) (h : Merged o c n r)
    (fresh : ∀ a, c.has a → n.has a → o.has a) : r.Good where
  refs k a ha := by
    rw [h.has]
    rcases h.fwd k with ⟨-, e2⟩ | ⟨-, e2⟩
    · exact Or.inr (hn.refs k a (e2 ▸ ha))
    · exact Or.inl (hc.refs k a (e2 ▸ ha))
  ne := by
    have key : ∀ {c n : View K D}, c.Good → n.Good → Later o n → Merged o c n r →
        ∀ k a, o.fwd k = c.fwd k → n.fwd k = some a → ∃ d, r.mem a d := by
      intro c n hc hn h2 h k a e1 ha
      by_cases hoa : o.has a
      · have hok := h2.back k a hoa ha
        exact h.keepsOne hoa (hc.ne k a (e1 ▸ hok)) (hn.ne k a ha)
      · obtain ⟨d, hd⟩ := hn.ne k a ha
        exact ⟨d, (h.newN a hoa (hn.refs k a ha) d).2 hd⟩
    intro k a ha
    rcases h.fwd k with ⟨e1, e2⟩ | ⟨e1, e2⟩
    · exact key hc hn h2 h k a e1 (e2 ▸ ha)
    · exact key hn hc h1 h.symm k a e1 (e2 ▸ ha)
  inj k k' a ha hb := by
    rcases h.fwd k with ⟨e1, e2⟩ | ⟨e1, e2⟩ <;> rcases h.fwd k' with ⟨f1, f2⟩ | ⟨f1, f2⟩ <;>
      rw [e2] at ha <;> rw [f2] at hb
    · exact hn.inj k k' a ha hb
    · have hoa := fresh a (hc.refs _ _ hb) (hn.refs _ _ ha)
      exact hc.inj k k' a (e1 ▸ h2.back k a hoa ha) hb
    · have hoa := fresh a (hc.refs _ _ ha) (hn.refs _ _ hb)
      exact hc.inj k k' a ha (f1 ▸ h2.back k' a hoa hb)
    · exact hc.inj k k' a ha hb

/-- where one side changed nothing, the merged index has what the other side has -/
theorem Merged.still (ho : o.Good) (hc : c.Good) (h1 : Later o c) (h : Merged o c n r) {k : K} (hs : Still o n k) (d : D) :
    (o.Bit k d ↔ n.Bit k d) ∧ (r.Bit k d ↔ c.Bit k d) := by
  have hfwd : r.fwd k = c.fwd k := by
    rcases h.fwd k with ⟨e1, e2⟩ | ⟨-, e2⟩
    · rw [e2, hs.1, e1]
    · exact e2
  constructor
  · unfold Bit
    rw [hs.1]
    exact exists_congr fun a => and_congr_right fun ha => (hs.2 a ha d).symm
  · unfold Bit
    rw [hfwd]
    refine exists_congr fun a => and_congr_right fun ha => ?_
    by_cases hoa : o.has a
    · have e := hs.2 a (h1.back k a hoa ha) d
      rcases h.bitAt hoa d with ⟨x, y⟩ | ⟨-, y⟩
      · rw [y, e, x]
      · exact y
    · exact h.newC a hoa (hc.refs k a ha) d

/-- the entries of the merged index come entry by entry from the side that changed them -/
theorem Merged.bitsLater (ho : o.Good) (hc : c.Good) (hn : n.Good) (h1 : Later o c) (h2 : Later o n) (h : Merged o c n r)
    (hap : Apart o c n) (k : K) (d : D) :
    ((o.Bit k d ↔ c.Bit k d) ∧ (r.Bit k d ↔ n.Bit k d)) ∨ ((o.Bit k d ↔ n.Bit k d) ∧ (r.Bit k d ↔ c.Bit k d)) := by
  rcases hap k with ⟨k1, k2⟩ | hs | hs
  · have key : ∀ {c n : View K D}, n.Good → Later o n → Keeps o n k → Merged o c n r →
        o.fwd k = c.fwd k → r.fwd k = n.fwd k →
        ((o.Bit k d ↔ c.Bit k d) ∧ (r.Bit k d ↔ n.Bit k d)) ∨ ((o.Bit k d ↔ n.Bit k d) ∧ (r.Bit k d ↔ c.Bit k d)) := by
      intro c n hn h2 k2 h e1 e2
      have toBit : ∀ {x : View K D} {a : Nat}, x.fwd k = some a → (x.Bit k d ↔ x.mem a d) := by
        intro x a hx
        constructor
        · rintro ⟨b, hb, hm⟩
          rw [hx] at hb; cases hb; exact hm
        · intro hm; exact ⟨a, hx, hm⟩
      have noBit : ∀ {x : View K D}, x.fwd k = none → ¬ x.Bit k d := by
        rintro x hx ⟨b, hb, -⟩
        rw [hx] at hb; cases hb
      cases hno : n.fwd k with
      | none =>
        have hr := e2.trans hno
        cases hok : o.fwd k with
        | none =>
          left
          rw [hok] at e1
          have x1 := noBit hok; have x2 := noBit e1.symm; have x3 := noBit hr; have x4 := noBit hno
          tauto
        | some a =>
          left
          have hoa := ho.refs k a hok
          have hem : ∀ d, ¬ n.mem a d := by
            rcases k2 a hok with h' | h'
            · rw [hno] at h'; cases h'
            · exact h'
          have := (h.symm.emptied hoa (ho.ne k a hok) hem).1 d
          rw [hok] at e1
          rw [toBit hok, toBit e1.symm]
          have x3 := noBit hr; have x4 := noBit hno
          tauto
      | some a =>
        have hr := e2.trans hno
        by_cases hoa : o.has a
        · have hok := h2.back k a hoa hno
          have hck := e1.symm.trans hok
          rw [toBit hok, toBit hno, toBit hck, toBit hr]
          exact h.bitAt hoa d
        · have hnew := h.newN a hoa (hn.refs k a hno) d
          rw [toBit hno, toBit hr]
          cases hok : o.fwd k with
          | none =>
            left
            rw [hok] at e1
            have x1 := noBit hok; have x2 := noBit e1.symm
            tauto
          | some b =>
            left
            have hob := ho.refs k b hok
            have hem : ∀ d, ¬ n.mem b d := by
              rcases k2 b hok with h' | h'
              · rw [hno] at h'; cases h'; exact absurd hob hoa
              · exact h'
            have := (h.symm.emptied hob (ho.ne k b hok) hem).1 d
            rw [hok] at e1
            rw [toBit hok, toBit e1.symm]
            exact ⟨this, hnew⟩
    rcases h.fwd k with ⟨e1, e2⟩ | ⟨e1, e2⟩
    · exact key hn h2 k2 h e1 e2
    · exact (key hc h1 k1 h.symm e1 e2).symm
  · exact Or.inl (h.symm.still ho hn h2 hs d)
  · exact Or.inr (h.still ho hc h1 hs d)

end merge

/-- the set of a key is replaced by a copy -/
structure Copied (x y : View K D) (k : K) (a b : Nat) : Prop where
  old : x.fwd k = some a
  new : ¬ x.has b
  mem : ∀ c e, y.mem c e ↔ if c = b then x.mem a e else x.mem c e
  other : ∀ k', k' ≠ k → y.fwd k' = x.fwd k'
  this : y.fwd k = some b
  has : ∀ c, y.has c ↔ x.has c ∨ c = b

theorem Copied.spec {x y : View K D} {k : K} {a b : Nat} (hx : x.Good) (h : Copied x y k a b) :
    y.Good ∧ Later x y ∧ ∀ k' e, y.Bit k' e ↔ x.Bit k' e := by
  have hne : ∀ c, x.has c → c ≠ b := by rintro c hc rfl; exact h.new hc
  refine ⟨⟨?_, ?_, ?_⟩, ⟨?_, ?_, ?_⟩, ?_⟩
  · intro k' c hc
    rw [h.has]
    by_cases hk : k' = k
    · subst hk; rw [h.this] at hc; cases hc; exact Or.inr rfl
    · rw [h.other k' hk] at hc; exact Or.inl (hx.refs k' c hc)
  · intro k' c hc
    by_cases hk : k' = k
    · subst hk; rw [h.this] at hc; cases hc
      obtain ⟨d, hd⟩ := hx.ne k' a h.old
      exact ⟨d, by rw [h.mem, if_pos rfl]; exact hd⟩
    · rw [h.other k' hk] at hc
      obtain ⟨d, hd⟩ := hx.ne k' c hc
      exact ⟨d, by rw [h.mem, if_neg (hne c (hx.refs k' c hc))]; exact hd⟩
  · intro k1 k2 c h1 h2
    by_cases e1 : k1 = k <;> by_cases e2 : k2 = k
    · rw [e1, e2]
    · rw [h.other k2 e2] at h2; rw [e1, h.this] at h1; cases h1
      exact absurd rfl (hne _ (hx.refs k2 _ h2))
    · rw [h.other k1 e1] at h1; rw [e2, h.this] at h2; cases h2
      exact absurd rfl (hne _ (hx.refs k1 _ h1))
    · rw [h.other k1 e1] at h1; rw [h.other k2 e2] at h2
      exact hx.inj k1 k2 c h1 h2
  · intro c hc; exact (h.has c).2 (Or.inl hc)
  · intro k' c hc h'
    by_cases hk : k' = k
    · subst hk; rw [h.this] at h'; cases h'; exact absurd rfl (hne _ hc)
    · rwa [h.other k' hk] at h'
  · intro c hc _ d
    rw [h.mem, if_neg (hne c hc)]
  · intro k' e
    unfold Bit
    by_cases hk : k' = k
    · subst hk
      rw [h.this, h.old]
      constructor
      · rintro ⟨c, hc, hm⟩
        cases hc
        rw [h.mem, if_pos rfl] at hm
        exact ⟨a, rfl, hm⟩
      · rintro ⟨c, hc, hm⟩
        cases hc
        exact ⟨b, rfl, by rw [h.mem, if_pos rfl]; exact hm⟩
    · rw [h.other k' hk]
      refine exists_congr fun c => and_congr_right fun hc => ?_
      rw [h.mem, if_neg (hne c (hx.refs k' c hc))]

end Verif.Txn.View

namespace Verif.HKeyword

open Txn Txn.View
open Keyword (SeqArg Op insertReverse)
open Spec.Txn

variable {D W : Type} [LinearOrder D] [LinearOrder W]

/-- no condition on the documents of a keyword -/
abbrev Any : W → D → Prop := fun _ _ => True

/-- one forward index follows another within a transaction; sets may have been replaced -/
structure Comes (P : W → D → Prop) (s t : HKeyword D W) : Prop where
  fw : Fw P t.heap.next t
  evo : Later s.vw t.vw
  le : s.heap.next ≤ t.heap.next
  new : ∀ a, t.vw.has a → s.vw.has a ∨ s.heap.next ≤ a

variable {P : W → D → Prop}

theorem Follows.comes {s t : HKeyword D W} (h : Follows P s t) : Comes P s t := ⟨h.fw, h.evo.later, h.le, h.new⟩

theorem Comes.refl {s : HKeyword D W} (h : Fw P s.heap.next s) : Comes P s s := (Follows.refl h).comes

theorem Comes.trans {s t u : HKeyword D W} (h1 : Comes P s t) (h2 : Comes P t u) : Comes P s u where
  fw := h2.fw
  evo := h1.evo.trans h2.evo
  le := h1.le.trans h2.le
  new a ha := by
    rcases h2.new a ha with h' | h'
    · exact h1.new a h'
    · exact Or.inr (h1.le.trans h')

/-- the set of `w` replaced by a copy of the one at `a` -/
def copyTo (s : HKeyword D W) (w : W) (a : Nat) (tree : Bool) : HKeyword D W :=
  { s with heap := s.heap.alloc { isTree := tree, ids := (s.setAt a).ids }, fwd := s.fwd.set w s.heap.next }

theorem copyTo_txn {s : HKeyword D W} (h : Fw P s.heap.next s) {w : W} {a : Nat} (ha : s.fwd.get? w = some a) (tree : Bool) :
    Comes P s (s.copyTo w a tree) ∧ (s.copyTo w a tree).rev = s.rev ∧ (s.copyTo w a tree).numDocs = s.numDocs ∧
      ∀ w' e, (s.copyTo w a tree).vw.Bit w' e ↔ s.vw.Bit w' e := by
  have hnew : ¬ s.vw.has s.heap.next := fun h' => absurd (h.below _ h') (lt_irrefl _)
  have hC : Copied s.vw (s.copyTo w a tree).vw w a s.heap.next := by
    refine ⟨ha, hnew, ?_, ?_, ?_, ?_⟩
    · intro c e
      show (∃ x, Heap.get? (s.heap.alloc _) c = some x ∧ e ∈ x.ids.keys) ↔ _
      rw [Heap.get?_alloc]
      by_cases hc : c = s.heap.next
      · rw [if_pos hc, if_pos hc, mem_setAt]; simp
      · rw [if_neg hc, if_neg hc]; rfl
    · intro k' hk; exact SMap.get?_set_ne _ hk _
    · exact SMap.get?_set_self _ _ _
    · intro c
      show (∃ x, Heap.get? (s.heap.alloc _) c = some x) ↔ (∃ x, s.heap.get? c = some x) ∨ _
      rw [Heap.get?_alloc]
      by_cases hc : c = s.heap.next
      · rw [if_pos hc]; simp [hc]
      · rw [if_neg hc]; simp [hc]
  obtain ⟨g1, g2, g3⟩ := hC.spec h.good
  refine ⟨⟨⟨g1, ?_, fun w' e he => h.bits w' e ((g3 w' e).1 he), h.threshold⟩, g2, Nat.le_succ _, ?_⟩, rfl, rfl, g3⟩
  · intro b hb
    rcases (hC.has b).1 hb with h' | rfl
    · exact lt_of_lt_of_le (h.below b h') (Nat.le_succ _)
    · exact Nat.lt_succ_self _
  · intro b hb
    rcases (hC.has b).1 hb with h' | rfl
    · exact Or.inl h'
    · exact Or.inr (le_refl _)

/-- the first part of `insertWord` -/
def addWord (d : D) (s : HKeyword D W) (w : W) : HKeyword D W :=
  let r := s.wordIdx w
  let set := r.1.setAt r.2
  { r.1 with heap := r.1.heap.put r.2 { set with ids := SSet.insert set.ids d } }

theorem addWord_txn {s : HKeyword D W} (h : Fw P s.heap.next s) {d : D} {w : W} (hp : P w d) :
    Follows P s (addWord d s w) ∧ (addWord d s w).rev = s.rev ∧ (addWord d s w).numDocs = s.numDocs ∧
      (∀ w' e, (addWord d s w).vw.Bit w' e ↔ s.vw.Bit w' e ∨ (w' = w ∧ e = d)) ∧
      (addWord d s w).fwd.get? w = some (s.wordIdx w).2 := by
  have key : ∀ (t : HKeyword D W) (a : Nat), Added s.vw t.vw w a d → t.rev = s.rev → t.numDocs = s.numDocs →
      t.treeThreshold = s.treeThreshold → s.heap.next ≤ t.heap.next → a < t.heap.next → (s.vw.has a ∨ a = s.heap.next) →
      Follows P s t ∧ t.rev = s.rev ∧ t.numDocs = s.numDocs ∧ (∀ w' e, t.vw.Bit w' e ↔ s.vw.Bit w' e ∨ (w' = w ∧ e = d)) ∧
      t.fwd.get? w = some a := by
    intro t a hA t1 t2 t3 t4 t5 t6
    obtain ⟨g1, g2, g3⟩ := hA.spec h.good
    refine ⟨⟨⟨g1, ?_, ?_, t3.trans h.threshold⟩, g2, t4, ?_⟩, t1, t2, g3, hA.this⟩
    · intro b hb
      rcases (hA.has b).1 hb with h' | rfl
      · exact lt_of_lt_of_le (h.below b h') t4
      · exact t5
    · intro w' e he
      rcases (g3 w' e).1 he with h' | ⟨rfl, rfl⟩
      · exact h.bits w' e h'
      · exact hp
    · intro b hb
      rcases (hA.has b).1 hb with h' | rfl
      · exact Or.inl h'
      · rcases t6 with h' | h'
        · exact Or.inl h'
        · exact Or.inr h'.ge
  unfold addWord wordIdx
  cases ha : s.fwd.get? w with
  | none =>
    dsimp only
    have hset : (HKeyword.setAt ({ s with heap := s.heap.alloc emptySet, fwd := s.fwd.set w s.heap.next }) s.heap.next)
        = (emptySet : DocSet D) := Heap.setAt_alloc_self _ _
    rw [hset]
    have hnew : ¬ s.vw.has s.heap.next := fun h' => absurd (h.below _ h') (lt_irrefl _)
    have hno : ∀ e, ¬ s.vw.mem s.heap.next e := fun e ⟨x, hx, _⟩ => hnew ⟨x, hx⟩
    refine key _ s.heap.next ⟨Or.inr ⟨ha, hnew, hno⟩, ?_, ?_, ?_, ?_⟩ rfl rfl rfl (Nat.le_succ _) (Nat.lt_succ_self _) (Or.inr rfl)
    · intro b e
      show (∃ x, Heap.get? (Heap.put (s.heap.alloc emptySet) s.heap.next _) b = some x ∧ e ∈ x.ids.keys) ↔ _
      rw [Heap.get?_put, Heap.get?_alloc]
      by_cases hbn : b = s.heap.next
      · subst hbn
        rw [if_pos rfl]
        have := hno e
        constructor
        · rintro ⟨x, hx, he⟩
          cases hx
          rw [SSet.mem_keys_insert] at he
          rcases he with h' | h'
          · exact Or.inr ⟨rfl, h'⟩
          · have := (SMap.mem_keys_iff _ _).1 h'; simp [emptySet] at this
        · rintro (h' | ⟨-, h'⟩)
          · exact absurd h' this
          · exact ⟨_, rfl, (SSet.mem_keys_insert _ _ _).2 (Or.inl h')⟩
      · rw [if_neg hbn, if_neg hbn]
        show s.vw.mem b e ↔ _
        tauto
    · intro k' hk
      show (s.fwd.set w s.heap.next).get? k' = _
      exact SMap.get?_set_ne _ hk _
    · exact SMap.get?_set_self _ _ _
    · intro b
      show (∃ x, Heap.get? (Heap.put (s.heap.alloc emptySet) s.heap.next _) b = some x) ↔ (∃ x, s.heap.get? b = some x) ∨ _
      rw [Heap.get?_put, Heap.get?_alloc]
      by_cases hbn : b = s.heap.next
      · rw [if_pos hbn]; simp [hbn]
      · rw [if_neg hbn, if_neg hbn]; simp [hbn]
  | some a =>
    dsimp only
    have hha := h.good.refs w a ha
    refine key _ a ⟨Or.inl ha, ?_, fun _ _ => rfl, ha, ?_⟩ rfl rfl rfl (le_refl _) (h.below a hha) (Or.inl hha)
    · intro b e
      show (viewOf DocSet.ids s.fwd (s.heap.put a _)).mem b e ↔ _
      rw [mem_put]
      by_cases hba : b = a
      · subst hba
        rw [if_pos rfl, SSet.mem_keys_insert, mem_setAt]
        tauto
      · rw [if_neg hba]
        show s.vw.mem b e ↔ _
        tauto
    · intro b
      exact has_put _ _ _ _ _

theorem setAt_addWord (d : D) (s : HKeyword D W) (w : W) :
    (addWord d s w).setAt (s.wordIdx w).2 =
      { (s.wordIdx w).1.setAt (s.wordIdx w).2 with ids := SSet.insert ((s.wordIdx w).1.setAt (s.wordIdx w).2).ids d } := by
  unfold addWord setAt Heap.setAt
  dsimp only
  rw [Heap.get?_put, if_pos rfl]
  rfl

theorem insertWord_cases (d : D) (s : HKeyword D W) (w : W) :
    insertWord d s w = addWord d s w ∨ insertWord d s w = (addWord d s w).copyTo w (s.wordIdx w).2 true := by
  unfold copyTo
  rw [setAt_addWord]
  unfold insertWord
  dsimp only
  split
  · right; rfl
  · left; rfl

theorem insertWord_comes {s : HKeyword D W} (h : Fw P s.heap.next s) {d : D} {w : W} (hp : P w d) :
    Comes P s (insertWord d s w) ∧ (insertWord d s w).rev = s.rev ∧ (insertWord d s w).numDocs = s.numDocs ∧
      ∀ w' e, (insertWord d s w).vw.Bit w' e ↔ s.vw.Bit w' e ∨ (w' = w ∧ e = d) := by
  obtain ⟨a1, a2, a3, a4, a5⟩ := addWord_txn h hp
  rcases insertWord_cases d s w with e | e <;> rw [e]
  · exact ⟨a1.comes, a2, a3, a4⟩
  · obtain ⟨c1, c2, c3, c4⟩ := copyTo_txn a1.fw a5 true
    exact ⟨a1.comes.trans c1, c2.trans a2, c3.trans a3, fun w' e => (c4 w' e).trans (a4 w' e)⟩

theorem insertForward_comes (d : D) (ws : List W) {s : HKeyword D W} (h : Fw P s.heap.next s) (hp : ∀ w ∈ ws, P w d) :
    Comes P s (s.insertForward d ws) ∧ (s.insertForward d ws).rev = s.rev ∧ (s.insertForward d ws).numDocs = s.numDocs ∧
      ∀ w' e, (s.insertForward d ws).vw.Bit w' e ↔ s.vw.Bit w' e ∨ (w' ∈ ws ∧ e = d) := by
  unfold insertForward
  induction ws generalizing s with
  | nil => exact ⟨Comes.refl h, rfl, rfl, fun w' e => by simp⟩
  | cons w ws ih =>
    obtain ⟨t2, t3, t4, t5⟩ := insertWord_comes h (hp w (by simp))
    obtain ⟨i2, i3, i4, i5⟩ := ih t2.fw (fun w' hw' => hp w' (by simp [hw']))
    rw [List.foldl_cons]
    refine ⟨t2.trans i2, i3.trans t3, i4.trans t4, fun w' e => ?_⟩
    rw [i5, t5]
    simp only [List.mem_cons]
    tauto

theorem optimizeWord_comes {s : HKeyword D W} (h : Fw P s.heap.next s) {p : W × Nat} (hp : s.fwd.get? p.1 = some p.2) :
    Comes P s (s.optimizeWord p) ∧ (s.optimizeWord p).rev = s.rev ∧ (s.optimizeWord p).numDocs = s.numDocs ∧
      (∀ w' e, (s.optimizeWord p).vw.Bit w' e ↔ s.vw.Bit w' e) ∧
      ∀ w', w' ≠ p.1 → (s.optimizeWord p).fwd.get? w' = s.fwd.get? w' := by
  have key : ∀ tree, Comes P s (s.copyTo p.1 p.2 tree) ∧ (s.copyTo p.1 p.2 tree).rev = s.rev ∧
      (s.copyTo p.1 p.2 tree).numDocs = s.numDocs ∧ (∀ w' e, (s.copyTo p.1 p.2 tree).vw.Bit w' e ↔ s.vw.Bit w' e) ∧
      ∀ w', w' ≠ p.1 → (s.copyTo p.1 p.2 tree).fwd.get? w' = s.fwd.get? w' := fun tree =>
    ⟨(copyTo_txn h hp tree).1, rfl, rfl, (copyTo_txn h hp tree).2.2.2, fun w' hw => SMap.get?_set_ne _ hw _⟩
  have same : Comes P s s ∧ s.rev = s.rev ∧ s.numDocs = s.numDocs ∧ (∀ w' e, s.vw.Bit w' e ↔ s.vw.Bit w' e) ∧
      ∀ w', w' ≠ p.1 → s.fwd.get? w' = s.fwd.get? w' := ⟨Comes.refl h, rfl, rfl, fun _ _ => Iff.rfl, fun _ _ => rfl⟩
  unfold optimizeWord
  dsimp only
  split
  · split
    · exact key true
    · exact same
  · split
    · exact key false
    · exact same

theorem optimize_comes {s : HKeyword D W} (h : Fw P s.heap.next s) :
    Comes P s s.optimize ∧ s.optimize.rev = s.rev ∧ s.optimize.numDocs = s.numDocs ∧
      ∀ w' e, s.optimize.vw.Bit w' e ↔ s.vw.Bit w' e := by
  have main : ∀ (l : List (W × Nat)) (s : HKeyword D W), Fw P s.heap.next s → (l.map Prod.fst).Nodup →
      (∀ p ∈ l, s.fwd.get? p.1 = some p.2) →
      Comes P s (l.foldl optimizeWord s) ∧ (l.foldl optimizeWord s).rev = s.rev ∧ (l.foldl optimizeWord s).numDocs = s.numDocs ∧
      ∀ w' e, (l.foldl optimizeWord s).vw.Bit w' e ↔ s.vw.Bit w' e := by
    intro l
    induction l with
    | nil => intro s h _ _; exact ⟨Comes.refl h, rfl, rfl, fun _ _ => Iff.rfl⟩
    | cons p l ih =>
      intro s h hn hl
      rw [List.map_cons, List.nodup_cons] at hn
      obtain ⟨t1, t2, t3, t4, t5⟩ := optimizeWord_comes h (hl p (by simp))
      obtain ⟨i1, i2, i3, i4⟩ := ih (s.optimizeWord p) t1.fw hn.2 (by
        intro q hq
        rw [t5 q.1 (by rintro e; exact hn.1 (e ▸ List.mem_map_of_mem hq))]
        exact hl q (by simp [hq]))
      rw [List.foldl_cons]
      exact ⟨t1.trans i1, i2.trans t2, i3.trans t3, fun w e => (i4 w e).trans (t4 w e)⟩
  exact main _ s h (SMap.keys_nodup s.fwd) (fun p hp => (SMap.get?_eq_some_iff _ _ _).2 hp)

/-- what is asked of the calls of the transactions -/
def PlainOp (normalize : List W → List W) (P : W → D → Prop) (op : Op D W) : Prop :=
  IsUpdateOrOptimize op ∧ ∀ d items, op = .index d (.seq true items) → normalize items ≠ [] ∧ ∀ w ∈ normalize items, P w d

theorem index_comes (normalize : List W → List W) {s : HKeyword D W} (h : Wf P s.heap.next s) (d : D) (seq : SeqArg W)
    (hok : PlainOp normalize P (.index d seq)) :
    (Comes P s (s.indexDoc normalize d seq).1 ∧ Wf P (s.indexDoc normalize d seq).1.heap.next (s.indexDoc normalize d seq).1) ∧
      ∀ x, (s.indexDoc normalize d seq).1.kws x = kwUpdate normalize s.kws (.index d seq) x := by
  unfold indexDoc
  cases seq with
  | str => exact ⟨⟨Comes.refl h.fw, h⟩, fun _ => rfl⟩
  | seq truthy items =>
    dsimp only
    cases truthy with
    | false =>
      simp only [Bool.not_false, if_true]
      have hu := unindex_txn h d
      have hspec : ∀ x, kwUpdate normalize s.kws (.index d (.seq false items)) x =
          if x = d then (fun _ => False) else s.kws x := by
        intro x
        show (if x = d then (fun w => false = true ∧ w ∈ normalize items) else s.kws x) = _
        simp
      cases hk : s.rev.get? d with
      | none =>
        refine ⟨⟨Comes.refl h.fw, h⟩, fun x => ?_⟩
        rw [hspec]
        by_cases hx : x = d
        · subst hx; rw [if_pos rfl]; funext w; simp [kws, hk]
        · rw [if_neg hx]
      | some ks =>
        dsimp only
        have hne : ¬ ks.isEmpty = true := by
          intro he
          obtain ⟨w, hw⟩ := h.ne d ks hk
          exact (SSet.isEmpty_iff_keys _).1 he w hw
        rw [if_neg hne]
        exact ⟨⟨hu.1.1.comes, hu.1.2⟩, fun x => (hu.2 x).trans (hspec x).symm⟩
    | true =>
      simp only [Bool.not_true, Bool.false_eq_true, if_false]
      obtain ⟨hitems, hPs⟩ := hok.2 d items rfl
      have hne : (SSet.ofList (normalize items)).isEmpty = false := by
        rw [SMap.isEmpty_eq_false_iff]
        obtain ⟨w, hw⟩ := List.exists_mem_of_ne_nil _ hitems
        obtain ⟨v, hv⟩ := (SMap.mem_keys_iff _ _).1 ((SSet.mem_keys_ofList _ w).2 hw)
        exact ⟨w, v, hv⟩
      have hrevEq : ∀ r : SMap D (SSet W), insertReverse r d (SSet.ofList (normalize items)) =
          r.set d (SSet.ofList (normalize items)) := by
        intro r; unfold insertReverse; rw [hne]; rfl
      have fin : ∀ (t : HKeyword D W) (r : SMap D (SSet W)) (n : Int), Comes P s t →
          (∀ w e, t.vw.Bit w e ↔ (e ≠ d ∧ s.vw.Bit w e) ∨ (e = d ∧ w ∈ normalize items)) →
          (r = s.rev.set d (SSet.ofList (normalize items))) → n = r.len →
          (Comes P s { t with rev := r, numDocs := n } ∧ Wf P t.heap.next { t with rev := r, numDocs := n }) ∧
          ∀ x, kws { t with rev := r, numDocs := n } x =
            kwUpdate normalize s.kws (.index d (.seq true items)) x := by
        intro t r n f1 f2 f3 f4
        have hrev : ∀ x, r.get? x = if x = d then some (SSet.ofList (normalize items)) else s.rev.get? x := by
          intro x; rw [f3, SMap.get?_set]
        have g1 : Fw P t.heap.next { t with rev := r, numDocs := n } :=
          ⟨f1.fw.good, f1.fw.below, f1.fw.bits, f1.fw.threshold⟩
        refine ⟨⟨⟨g1, f1.evo, f1.le, f1.new⟩, g1, ?_, ?_, f4⟩, ?_⟩
        · intro w e
          show t.vw.Bit w e ↔ ∃ ks, r.get? e = some ks ∧ w ∈ ks.keys
          rw [f2, hrev]
          by_cases he : e = d
          · subst he; rw [if_pos rfl]; simp
          · rw [if_neg he, h.agree]; simp [he]
        · intro e ks he
          have he : r.get? e = some ks := he
          rw [hrev] at he
          split at he
          · cases he
            obtain ⟨w, hw⟩ := List.exists_mem_of_ne_nil _ hitems
            exact ⟨w, (SSet.mem_keys_ofList _ w).2 hw⟩
          · exact h.ne e ks he
        · intro x
          funext w
          show (∃ ks, r.get? x = some ks ∧ w ∈ ks.keys) =
            (if x = d then (fun w => true = true ∧ w ∈ normalize items) else s.kws x) w
          rw [hrev]
          by_cases hx : x = d
          · rw [if_pos hx, if_pos hx]; simp
          · rw [if_neg hx, if_neg hx]; rfl
      cases hk : s.rev.get? d with
      | none =>
        dsimp only
        obtain ⟨i2, i3, i4, i5⟩ := insertForward_comes d (SSet.ofList (normalize items)).keys h.fw
          (fun w hw => hPs w ((SSet.mem_keys_ofList _ w).1 hw))
        refine fin _ _ _ i2 ?_ (by rw [hrevEq, i3]) ?_
        · intro w e
          rw [i5, SSet.mem_keys_ofList]
          by_cases he : e = d
          · subst he
            have : ¬ s.vw.Bit w e := by
              rw [h.agree]; rintro ⟨ks, hks, -⟩; rw [hk] at hks; cases hks
            tauto
          · tauto
        · rw [i4, h.count, hrevEq, i3, SMap.len_set]
          simp [SMap.contains, hk]
      | some old =>
        dsimp only
        obtain ⟨r1, r2, r3, r4, r5⟩ := removeWords_txn d (SSet.diff old (SSet.ofList (normalize items))).keys h.fw
          (SMap.keys_nodup _) (fun w hw => (h.agree w d).2 ⟨old, hk, ((SSet.mem_keys_diff _ _ _).1 hw).1⟩)
        rw [r1]
        simp only [Bool.false_eq_true, if_false]
        obtain ⟨i2, i3, i4, i5⟩ := insertForward_comes d (SSet.diff (SSet.ofList (normalize items)) old).keys r2.fw
          (fun w hw => hPs w ((SSet.mem_keys_ofList _ w).1 ((SSet.mem_keys_diff _ _ _).1 hw).1))
        refine fin _ _ _ (r2.comes.trans i2) ?_ (by rw [hrevEq, i3, r3]) ?_
        · intro w e
          rw [i5, r5, SSet.mem_keys_diff, SSet.mem_keys_diff, SSet.mem_keys_ofList]
          by_cases he : e = d
          · subst he
            have : s.vw.Bit w e ↔ w ∈ old.keys := by
              rw [h.agree]
              constructor
              · rintro ⟨ks, hks, hw⟩; rw [hk] at hks; cases hks; exact hw
              · intro hw; exact ⟨old, hk, hw⟩
            tauto
          · tauto
        · rw [i4, r4, h.count, hrevEq, i3, r3, SMap.len_set]
          simp [SMap.contains, hk]

theorem step_comes (normalize : List W → List W) {s : HKeyword D W} (h : Wf P s.heap.next s) (op : Op D W)
    (hok : PlainOp normalize P op) :
    (Comes P s (s.step normalize op).1 ∧ Wf P (s.step normalize op).1.heap.next (s.step normalize op).1) ∧
      ∀ x, (s.step normalize op).1.kws x = kwUpdate normalize s.kws op x := by
  cases op with
  | index d seq => exact index_comes normalize h d seq hok
  | unindex d =>
    have := unindex_txn h d
    exact ⟨⟨this.1.1.comes, this.1.2⟩, this.2⟩
  | clear => exact absurd hok.1 id
  | optimize =>
    obtain ⟨o1, o2, o3, o4⟩ := optimize_comes h.fw
    refine ⟨⟨o1, o1.fw, ?_, ?_, ?_⟩, ?_⟩
    · intro w d
      rw [show (s.step normalize .optimize).1 = s.optimize from rfl, o4, o2]
      exact h.agree w d
    · intro d ks hd
      rw [show (s.step normalize .optimize).1 = s.optimize from rfl, o2] at hd
      exact h.ne d ks hd
    · rw [show (s.step normalize .optimize).1 = s.optimize from rfl, o2, o3]
      exact h.count
    · intro x
      show s.optimize.kws x = s.kws x
      unfold kws
      rw [o2]
  | setThreshold n => exact absurd hok.1 id

theorem steps_comes (normalize : List W → List W) (ops : List (Op D W)) {s : HKeyword D W} (h : Wf P s.heap.next s)
    (hok : ∀ op ∈ ops, PlainOp normalize P op) :
    (Comes P s (s.runFrom normalize ops) ∧ Wf P (s.runFrom normalize ops).heap.next (s.runFrom normalize ops)) ∧
      ∀ x, (s.runFrom normalize ops).kws x = ops.foldl (kwUpdate normalize) s.kws x := by
  unfold runFrom
  induction ops generalizing s with
  | nil => exact ⟨⟨Comes.refl h.fw, h⟩, fun _ => rfl⟩
  | cons op ops ih =>
    obtain ⟨h1, h2⟩ := step_comes normalize h op (hok op (by simp))
    obtain ⟨h3, h4⟩ := ih h1.2 (fun o ho => hok o (by simp [ho]))
    rw [List.foldl_cons, List.foldl_cons]
    refine ⟨⟨h1.1.trans h3.1, h3.2⟩, fun x => ?_⟩
    rw [h4 x, show (s.step normalize op).1.kws = _ from funext h2]

/-- what the two sides of a merge did to sets that were replaced -/
def ApartS (o c n : HKeyword D W) : Prop := ∀ w, (Replaced o c w → Kept o n w) ∧ (Replaced o n w → Kept o c w)

theorem replaced_of_not_keeps {o x : HKeyword D W} {w : W} (h : ¬ Keeps o.vw x.vw w) : Replaced o x w := by
  unfold Keeps at h
  push Not at h
  obtain ⟨a, ha, hb, d, hd⟩ := h
  refine ⟨a, ha, hb, ?_⟩
  rw [SMap.isEmpty_eq_false_iff]
  obtain ⟨v, hv⟩ := (SMap.mem_keys_iff _ _).1 ((mem_setAt x a d).1 hd)
  exact ⟨d, v, hv⟩

theorem still_of_kept {o x : HKeyword D W} {w : W} (h : Kept o x w) : Still o.vw x.vw w := by
  refine ⟨h.1, fun a ha d => ?_⟩
  rw [mem_setAt, mem_setAt, h.2 a ha]

theorem ApartS.apart {o c n : HKeyword D W} (h : ApartS o c n) : Apart o.vw c.vw n.vw := by
  intro w
  by_cases h1 : Keeps o.vw c.vw w
  · by_cases h2 : Keeps o.vw n.vw w
    · exact Or.inl ⟨h1, h2⟩
    · exact Or.inr (Or.inl (still_of_kept ((h w).2 (replaced_of_not_keeps h2))))
  · exact Or.inr (Or.inr (still_of_kept ((h w).1 (replaced_of_not_keeps h1))))

open Classical in
/-- the engine that refuses to commit unless the two sides are apart -/
noncomputable def strict (normalize : List W → List W) : Engine (HKeyword D W) (Op D W) where
  run := (engine normalize).run
  merge o c n := if ApartS o c n then merge o c n else none

/-- the schedule theorem applies to it -/
noncomputable def strictSound (normalize : List W → List W) (P : W → D → Prop) :
    Txn.Sound (strict normalize : Engine (HKeyword D W) (Op D W)) (kwUpdate normalize) (PlainOp normalize P) where
  abs s := s.kws
  Wf := Wf P
  Evo s t := Later s.vw t.vw
  NewFrom n s t := ∀ a, t.vw.has a → s.vw.has a ∨ n ≤ a
  mono n m s hnm h := ⟨⟨h.fw.good, fun a ha => lt_of_lt_of_le (h.fw.below a ha) hnm, h.fw.bits, h.fw.threshold⟩,
    h.agree, h.ne, h.count⟩
  refl s := Later.refl _
  trans n a b c ha hb h1 h2 := h1.trans h2
  exec n s ops h hops := by
    have h' : Wf P n ({ s with heap := { s.heap with next := n } } : HKeyword D W) :=
      ⟨⟨h.fw.good, h.fw.below, h.fw.bits, h.fw.threshold⟩, h.agree, h.ne, h.count⟩
    obtain ⟨⟨h1, h3⟩, h2⟩ := steps_comes normalize ops (s := { s with heap := { s.heap with next := n } }) h' hops
    exact ⟨h1.le, fun _ => ⟨h3, h1.evo, h1.new, h2⟩⟩
  merge n m o c x r ho hc hoc hnm hx hox hnew hmerge := by
    classical
    have hmerge : (if ApartS o c x then merge o c x else none) = some r := by
      rw [← hmerge]; unfold strict; dsimp only
    split at hmerge
    case isFalse => cases hmerge
    rename_i hap
    have hap := hap.apart
    unfold merge at hmerge
    cases hh : mergeHeap mergeDocSet o.heap c.heap x.heap with
    | none => rw [hh] at hmerge; cases hmerge
    | some heap =>
    cases hf : mergeTree o.fwd c.fwd x.fwd with
    | none => rw [hh, hf] at hmerge; cases hmerge
    | some fwd =>
    cases hr : mergeTree o.rev c.rev x.rev with
    | none => rw [hh, hf, hr] at hmerge; cases hmerge
    | some rev =>
    rw [hh, hf, hr] at hmerge
    cases hmerge
    have hM : Merged o.vw c.vw x.vw (viewOf DocSet.ids fwd heap) := by
      refine merged_view (ids := DocSet.ids) ?_ hh hf
      intro o c n r h
      unfold mergeDocSet at h
      cases hq : mergeTree o.ids c.ids n.ids with
      | none => rw [hq] at h; cases h
      | some ids => rw [hq] at h; cases h; rfl
    have fresh : ∀ a, c.vw.has a → x.vw.has a → o.vw.has a := by
      intro a h1 h2
      rcases hnew a h2 with h' | h'
      · exact h'
      · exact absurd (hc.fw.below a h1) (not_lt.2 h')
    have hbits := hM.bitsLater ho.fw.good hc.fw.good hx.fw.good hoc hox hap
    have hrev := fun d => mergeTree_keywise hr d
    refine ⟨⟨⟨hM.goodLater hc.fw.good hx.fw.good hoc hox fresh, ?_, ?_, hc.fw.threshold⟩, ?_, ?_, ?_⟩,
      hM.later ho.fw.good hx.fw.good hoc hox hap fresh, ?_⟩
    · intro a ha
      rcases (hM.has a).1 ha with h' | h'
      · exact lt_of_lt_of_le (hc.fw.below a h') hnm
      · exact hx.fw.below a h'
    · intro w d hb
      have hb : (viewOf DocSet.ids fwd heap).Bit w d := hb
      rcases hbits w d with ⟨-, e⟩ | ⟨-, e⟩
      · exact hx.fw.bits w d (e.1 hb)
      · exact hc.fw.bits w d (e.1 hb)
    · intro w d
      show (viewOf DocSet.ids fwd heap).Bit w d ↔ ∃ ks, rev.get? d = some ks ∧ w ∈ ks.keys
      have hb := hbits w d
      rw [ho.agree, hc.agree, hx.agree] at hb
      rcases hrev d with ⟨e1, e2⟩ | ⟨e1, e2⟩ <;> rw [e2] <;> rw [e1] at hb
      · exact pick_new hb
      · exact pick_committed hb
    · intro d ks hd
      have hd : rev.get? d = some ks := hd
      rcases hrev d with ⟨-, e⟩ | ⟨-, e⟩
      · exact hx.ne d ks (e ▸ hd)
      · exact hc.ne d ks (e ▸ hd)
    · show c.numDocs + x.numDocs - o.numDocs = (rev.len : Int)
      have := mergeTree_len hr
      rw [ho.count, hc.count, hx.count]
      omega
    · intro d
      unfold kws
      dsimp only
      rcases hrev d with ⟨e1, e2⟩ | ⟨e1, e2⟩
      · left; rw [e1, e2]; exact ⟨rfl, rfl⟩
      · right; rw [e1, e2]; exact ⟨rfl, rfl⟩

/-- under the hypothesis, the strict engine does the same -/
theorem strict_run (normalize : List W → List W) (ts : List (Txn (Op D W))) (h : ReplacedApart normalize ts) :
    Db.run (strict normalize) new ts = Db.run (engine normalize) (new : HKeyword D W) ts := by
  induction ts using List.reverseRecOn with
  | nil => rfl
  | append_singleton ts t ih =>
    have ih := ih (fun before t' after he => h before t' (after ++ [t]) (by rw [he]; simp))
    have h := h ts t [] rfl
    have e1 : Db.run (strict normalize) new (ts ++ [t]) = Db.commit (strict normalize) (Db.run (strict normalize) (new : HKeyword D W) ts) t := by
      simp [Db.run]
    have e2 : Db.run (engine normalize) new (ts ++ [t]) = Db.commit (engine normalize) (Db.run (engine normalize) (new : HKeyword D W) ts) t := by
      simp [Db.run]
    rw [e1, e2, ih]
    rw [e2] at h
    generalize Db.run (engine normalize) (new : HKeyword D W) ts = db at h
    unfold Db.commit at h ⊢
    cases hb : db.states[t.back]? with
    | none => rfl
    | some base =>
      rw [hb] at h
      dsimp only at h ⊢
      by_cases hap : ApartS base db.latest (exec normalize db.next base t.ops)
      · have : (strict normalize).merge base db.latest ((strict normalize).run db.next base t.ops).1 =
            (engine normalize).merge base db.latest ((engine normalize).run db.next base t.ops).1 := if_pos hap
        rw [this]
        rfl
      · have hs : (strict normalize).merge base db.latest ((strict normalize).run db.next base t.ops).1 = none := if_neg hap
        rw [hs]
        cases hm : (if (t.refused || (engine normalize).fails db.next base t.ops) = true then none
            else (engine normalize).merge base db.latest ((engine normalize).run db.next base t.ops).1) with
        | none => simp only [ite_self]; rfl
        | some r =>
          rw [hm] at h
          exact absurd (fun w => h rfl base rfl w) hap

theorem replacedApart_prefix {normalize : List W → List W} {ts us : List (Txn (Op D W))} (h : ReplacedApart normalize (ts ++ us)) :
    ReplacedApart normalize ts :=
  fun before t' after he => h before t' (after ++ us) (by rw [he]; simp)

theorem strict_committed (normalize : List W → List W) (ts : List (Txn (Op D W))) (h : ReplacedApart normalize ts) :
    committed (strict normalize) new ts = committed (engine normalize) (new : HKeyword D W) ts := by
  induction ts using List.reverseRecOn with
  | nil => rfl
  | append_singleton ts t ih =>
    rw [committed_snoc, committed_snoc, ih (replacedApart_prefix h), strict_run normalize _ h, strict_run normalize _ (replacedApart_prefix h)]

theorem strict_untouched (normalize : List W → List W) (ts : List (Txn (Op D W))) (h : ReplacedApart normalize ts)
    {names : Op D W → D → Prop} {same : HKeyword D W → HKeyword D W → D → Prop}
    (hn : NamedUntouched (engine normalize) new names same ts) : NamedUntouched (strict normalize) new names same ts := by
  intro before t after he
  have h1 : ReplacedApart normalize (before ++ [t]) := by
    rw [he, show before ++ t :: after = (before ++ [t]) ++ after by simp] at h
    exact replacedApart_prefix h
  rw [strict_run normalize _ h1, strict_run normalize _ (replacedApart_prefix h1)]
  exact hn before t after he

/-- transactions that do not overlap -/
theorem replacedApart_of_serial (normalize : List W → List W) (ts : List (Txn (Op D W))) (h : ∀ t ∈ ts, t.back = 0) :
    ReplacedApart normalize ts := by
  intro before t after he hc base hb mine w
  rw [h t (by rw [he]; simp)] at hb
  obtain rfl : (Db.run (engine normalize) (new : HKeyword D W) before).latest = base := Option.some.inj hb
  refine ⟨?_, fun _ => ⟨rfl, fun _ _ => rfl⟩⟩
  rintro ⟨a, h1, h2, -⟩
  exact absurd h1 h2

theorem replacedApart_snoc {normalize : List W → List W} {ts : List (Txn (Op D W))} {t : Txn (Op D W)} (h : ReplacedApart normalize ts)
    (hb : t.back = 0) : ReplacedApart normalize (ts ++ [t]) := by
  intro before t' after he
  rcases List.eq_nil_or_concat after with rfl | ⟨after, x, rfl⟩
  · obtain ⟨rfl, he'⟩ := List.append_inj' he rfl
    obtain rfl : t = t' := by simpa using he'
    intro hc base hb' mine w
    rw [hb] at hb'
    obtain rfl : (Db.run (engine normalize) (new : HKeyword D W) ts).latest = base := Option.some.inj hb'
    refine ⟨?_, fun _ => ⟨rfl, fun _ _ => rfl⟩⟩
    rintro ⟨a, h1, h2, -⟩
    exact absurd h1 h2
  · rw [List.concat_eq_append, ← List.cons_append, ← List.append_assoc] at he
    obtain ⟨he, -⟩ := List.append_inj' he rfl
    exact h before t' after he

theorem strict_alone (normalize : List W → List W) (a b : HKeyword D W) (h : Later a.vw b.vw) :
    ∃ r, (strict normalize).merge a a b = some r ∧ r.kws = b.kws := by
  obtain ⟨hp, hh⟩ := mergeHeap_alone (mergeV := mergeDocSet (D := D)) (o := a.heap) (n := b.heap)
    (by intro o n; simp [mergeDocSet, mergeTree_same]) (fun x s hs => h.has x ⟨s, hs⟩)
  refine ⟨{ heap := hp, fwd := b.fwd, rev := b.rev, numDocs := mergeLength a.numDocs a.numDocs b.numDocs, treeThreshold := a.treeThreshold }, ?_, rfl⟩
  have hap : ApartS a a b := by
    intro w
    refine ⟨?_, fun _ => ⟨rfl, fun _ _ => rfl⟩⟩
    rintro ⟨a, h1, h2, -⟩
    exact absurd h1 h2
  unfold strict
  dsimp only
  rw [if_pos hap]
  unfold merge
  rw [hh, mergeTree_same, mergeTree_same]
  rfl

end Verif.HKeyword
