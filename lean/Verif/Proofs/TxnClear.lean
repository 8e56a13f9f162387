import Verif.Model.TxnClear
import Verif.Spec.TxnClear
import Verif.Proofs.TxnField
import Verif.Proofs.TxnKeyword
import Verif.Proofs.TxnTextRun

/-! The schedule theorem for transactions that may call `clear()`. -/

set_option autoImplicit false

namespace Verif.Txn

open Spec.Txn (ClearHistory)

variable {S O C D X : Type} {E : Engine S O} {upd : (D → X) → O → D → X} {okOp : O → Prop}

/-- what `clear()` of a kind of index must satisfy -/
structure ClearSound (h : Sound E upd okOp) (Z : Clearing S O C) (updC : (D → X) → C → D → X) (m₀ : D → X) where
  /-- a later state, perhaps with other containers -/
  Keep : S → S → Prop
  /-- the part of `NewFrom` that does not depend on the containers -/
  From : S → S → Prop
  keep_refl : ∀ a, Keep a a
  keep_trans : ∀ a b c, Keep a b → Keep b c → Keep a c
  keep_evo : ∀ a b, h.Evo a b → Keep a b
  from_refl : ∀ a, From a a
  from_trans : ∀ a b c, From a b → From b c → From a c
  from_new : ∀ n a b, h.NewFrom n a b → From a b
  new_refl : ∀ n a, h.NewFrom n a a
  new_trans : ∀ n m a b c, n ≤ m → h.NewFrom n a b → h.NewFrom m b c → h.NewFrom n a c
  upd_keeps : ∀ c op, Z.keeps c = some op → ∀ m d, updC m c d = upd m op d
  upd_clear : ∀ c, Z.keeps c = none → ∀ m d, updC m c d = m₀ d
  reset_wf : ∀ n s, h.Wf n s → h.Wf n (Z.reset s)
  reset_abs : ∀ n s, h.Wf n s → ∀ d, h.abs (Z.reset s) d = m₀ d
  reset_keep : ∀ s, Keep s (Z.reset s)
  reset_from : ∀ s, From s (Z.reset s)
  stale : ∀ n m o c x r, h.Wf n o → h.Wf n c → Keep o c → n ≤ m → h.Wf m x → Keep o x → From o x → Z.stale o c x = some r →
    h.Wf m r ∧ h.Evo c r ∧ ∀ d, h.abs r d = h.abs c d
  over : ∀ n m o c x r, h.Wf n o → h.Wf n c → Keep o c → n ≤ m → h.Wf m x → Keep o x → From o x → Z.over o c x = some r →
    h.Wf m r ∧ Keep c r ∧ ∀ d, h.abs r d = h.abs x d

variable {h : Sound E upd okOp} {Z : Clearing S O C} {updC : (D → X) → C → D → X} {m₀ : D → X}

/-- what the calls of a transaction have done so far: `n` and `s` at the beginning, `cs` the calls -/
structure Sofar (hz : ClearSound h Z updC m₀) (n : Nat) (s : Housed S) (cs : List C) (t : Housed S) (m : Nat) : Prop where
  le : n ≤ m
  wf : h.Wf m t.inner
  keep : hz.Keep s.inner t.inner
  from_ : hz.From s.inner t.inner
  abs : ∀ d, h.abs t.inner d = cs.foldl updC (h.abs s.inner) d
  home : (t.home = s.home ∧ (∀ c ∈ cs, Z.keeps c ≠ none) ∧ h.Evo s.inner t.inner ∧ h.NewFrom n s.inner t.inner) ∨
    (n < t.home ∧ t.home ≤ m ∧ ∃ c ∈ cs, Z.keeps c = none)

theorem exec_le (hz : ClearSound h Z updC m₀) (cs : List C) (hok : ∀ c ∈ cs, ∀ op, Z.keeps c = some op → okOp op)
    (n : Nat) (s : Housed S) (hw : h.Wf n s.inner) :
    n ≤ (Housed.exec E Z n s cs).1.2 ∧ ((Housed.exec E Z n s cs).2 = false →
      Sofar hz n s cs (Housed.exec E Z n s cs).1.1 (Housed.exec E Z n s cs).1.2) := by
  induction cs using List.reverseRecOn with
  | nil => exact ⟨le_refl _, fun _ => ⟨le_refl _, hw, hz.keep_refl _, hz.from_refl _, fun _ => rfl,
      Or.inl ⟨rfl, by simp, h.refl _, hz.new_refl _ _⟩⟩⟩
  | append_singleton cs c ih =>
    obtain ⟨i1, i2⟩ := ih (fun c hc => hok c (by simp [hc]))
    have hex : Housed.exec E Z n s (cs ++ [c]) = Housed.step E Z (Housed.exec E Z n s cs) c := by simp [Housed.exec]
    rw [hex]
    generalize Housed.exec E Z n s cs = r at i1 i2
    obtain ⟨⟨t, m⟩, b⟩ := r
    unfold Housed.step
    cases b with
    | true => exact ⟨i1, fun h => by cases h⟩
    | false =>
      have j := i2 rfl
      dsimp only at j i1
      dsimp only
      simp only [Bool.false_eq_true, if_false]
      cases hk : Z.keeps c with
      | none =>
        dsimp only
        refine ⟨by omega, fun _ => ⟨by omega, hz.reset_wf _ _ (h.mono _ _ _ (Nat.le_succ m) j.wf), hz.keep_trans _ _ _ j.keep (hz.reset_keep _),
          hz.from_trans _ _ _ j.from_ (hz.reset_from _), ?_, Or.inr ⟨by show n < m + 1; omega, le_refl _, c, by simp, hk⟩⟩⟩
        intro d
        rw [List.foldl_append, List.foldl_cons, List.foldl_nil, hz.upd_clear c hk]
        exact hz.reset_abs _ _ j.wf d
      | some op =>
        dsimp only
        obtain ⟨e1, e2⟩ := h.exec m t.inner [op] j.wf (by
          intro o ho
          rw [List.mem_singleton] at ho
          subst ho
          exact hok c (by simp) o hk)
        refine ⟨le_trans i1 e1, fun hf => ?_⟩
        obtain ⟨f1, f2, f3, f4⟩ := e2 hf
        refine ⟨le_trans i1 e1, f1, hz.keep_trans _ _ _ j.keep (hz.keep_evo _ _ f2), hz.from_trans _ _ _ j.from_ (hz.from_new _ _ _ f3), ?_, ?_⟩
        · intro d
          rw [List.foldl_append, List.foldl_cons, List.foldl_nil, hz.upd_keeps c op hk]
          show h.abs (E.run m t.inner [op]).1 d = _
          rw [f4 d, List.foldl_cons, List.foldl_nil, show h.abs t.inner = _ from funext j.abs]
        · rcases j.home with ⟨g1, g2, g3, g4⟩ | ⟨g1, g2, c', g3, g4⟩
          · refine Or.inl ⟨g1, ?_, h.trans _ _ _ _ (h.mono _ _ _ i1 hw) j.wf g3 f2, hz.new_trans _ _ _ _ _ i1 g4 f3⟩
            intro c' hc'
            rcases List.mem_append.1 hc' with h' | h'
            · exact g2 c' h'
            · rw [List.mem_singleton] at h'
              subst h'
              rw [hk]; simp
          · exact Or.inr ⟨g1, le_trans g2 e1, c', by simp [g3], g4⟩

theorem ClearSound.history (hz : ClearSound h Z updC m₀) {s₀ : S} (h₀ : h.Wf 0 s₀) (hm₀ : ∀ d, h.abs s₀ d = m₀ d) (ts : List (Txn C))
    (hok : ∀ t ∈ ts, ∀ c ∈ t.ops, ∀ op, Z.keeps c = some op → okOp op) :
    ∃ ms, ClearHistory updC (fun c => Z.keeps c = none) m₀ ts ms ∧
      List.Forall₂ (fun (s : Housed S) m => h.abs s.inner = m.1) (Db.run (Housed.engine E Z) ⟨0, s₀⟩ ts).states ms ∧
      (∀ s ∈ (Db.run (Housed.engine E Z) ⟨0, s₀⟩ ts).states, h.Wf (Db.run (Housed.engine E Z) ⟨0, s₀⟩ ts).next s.inner ∧
        s.home ≤ (Db.run (Housed.engine E Z) ⟨0, s₀⟩ ts).next) ∧
      (Db.run (Housed.engine E Z) ⟨0, s₀⟩ ts).states.Pairwise
        (fun newer older => hz.Keep older.inner newer.inner ∧ (newer.home = older.home → h.Evo older.inner newer.inner)) ∧
      ∀ (b : Nat) base, (Db.run (Housed.engine E Z) ⟨0, s₀⟩ ts).states[b]? = some base →
        ((Db.run (Housed.engine E Z) ⟨0, s₀⟩ ts).latest.home = base.home ↔ ∀ x ∈ ms.take b, x.2 = false) := by
  induction ts using List.reverseRecOn with
  | nil =>
    refine ⟨_, ClearHistory.start, ?_, ?_, ?_, ?_⟩
    · exact List.Forall₂.cons (funext hm₀) List.Forall₂.nil
    · intro s hs
      simp [Db.run, Db.new, Db.states] at hs
      subst hs; exact ⟨h₀, le_refl _⟩
    · simp [Db.run, Db.new, Db.states]
    · intro b base hb
      cases b with
      | zero => simp [Db.run, Db.new, Db.states] at hb ⊢; rw [← hb]
      | succ b => simp [Db.run, Db.new, Db.states] at hb
  | append_singleton ts t ih =>
    obtain ⟨ms, i1, i2, i3, i4, i5⟩ := ih (fun t' ht => hok t' (by simp [ht]))
    have hrun : Db.run (Housed.engine E Z) ⟨0, s₀⟩ (ts ++ [t]) = Db.commit (Housed.engine E Z) (Db.run (Housed.engine E Z) ⟨0, s₀⟩ ts) t := by
      simp [Db.run]
    rw [hrun]
    generalize Db.run (Housed.engine E Z) ⟨0, s₀⟩ ts = db at i1 i2 i3 i4 i5
    unfold Db.commit
    cases hb : db.states[t.back]? with
    | none => exact ⟨ms, ClearHistory.aborted i1, i2, i3, i4, i5⟩
    | some base =>
      dsimp only
      have hbm : base ∈ db.states := List.mem_of_getElem? hb
      obtain ⟨e1, he⟩ := exec_le hz t.ops (hok t (by simp)) db.next base (i3 base hbm).1
      have hR : (Housed.engine E Z).run db.next base t.ops = (Housed.exec E Z db.next base t.ops).1 := rfl
      have hF : (Housed.engine E Z).fails db.next base t.ops = (Housed.exec E Z db.next base t.ops).2 := rfl
      rw [hR, hF]
      generalize Housed.exec E Z db.next base t.ops = r at e1 he
      obtain ⟨⟨x, m⟩, b⟩ := r
      dsimp only at e1 he ⊢
      cases hm : (if (t.refused || b) = true then none else (Housed.engine E Z).merge base db.latest x) with
      | none =>
        exact ⟨ms, ClearHistory.aborted i1, i2, fun s hs => ⟨h.mono _ _ _ e1 (i3 s hs).1, le_trans (i3 s hs).2 e1⟩, i4, i5⟩
      | some r =>
        dsimp only
        have hbf : b = false := by
          cases b with
          | false => rfl
          | true => simp at hm
        have j := he hbf
        have hm' : Housed.merge E Z base db.latest x = some r := by
          split at hm
          · cases hm
          · exact hm
        have hlat : db.latest ∈ db.states := by simp [Db.states]
        have hbl : hz.Keep base.inner db.latest.inner ∧ (db.latest.home = base.home → h.Evo base.inner db.latest.inner) := by
          unfold Db.states at hbm i4
          rcases List.mem_cons.1 hbm with rfl | hb'
          · exact ⟨hz.keep_refl _, fun _ => h.refl _⟩
          · exact List.rel_of_pairwise_cons i4 hb'
        have hsl : ∀ s ∈ db.states, hz.Keep s.inner db.latest.inner ∧ (db.latest.home = s.home → h.Evo s.inner db.latest.inner) := by
          intro s hs
          unfold Db.states at hs i4
          rcases List.mem_cons.1 hs with rfl | hb'
          · exact ⟨hz.keep_refl _, fun _ => h.refl _⟩
          · exact List.rel_of_pairwise_cons i4 hb'
        obtain ⟨wl, hl⟩ := i3 _ hlat
        obtain ⟨wb, hlb⟩ := i3 _ hbm
        have hhome := i5 t.back base hb
        -- the newest assignment
        obtain ⟨lm, ms', rfl⟩ : ∃ lm ms', ms = lm :: ms' := by
          cases ms with
          | nil => cases i2
          | cons a b => exact ⟨a, b, rfl⟩
        have hlm : h.abs db.latest.inner = lm.1 := by
          have i2 := i2
          unfold Db.states at i2
          exact (List.forall₂_cons.1 i2).1
        obtain ⟨bm, hbm', hbabs⟩ : ∃ bm, (lm :: ms')[t.back]? = some bm ∧ h.abs base.inner = bm.1 := by
          have hlen := i2.length_eq
          have hlt : t.back < db.states.length := by
            rw [List.getElem?_eq_some_iff] at hb; exact hb.1
          refine ⟨(lm :: ms')[t.back]'(by omega), List.getElem?_eq_getElem _, ?_⟩
          have := List.forall₂_iff_get.1 i2
          have h2 := this.2 t.back hlt (by omega)
          have hbg : db.states[t.back] = base := by
            rw [List.getElem?_eq_some_iff] at hb; exact hb.2
          rw [← hbg]
          exact h2
        have hstates : ∀ r' : Housed S, h.Wf m r'.inner → r'.home ≤ m → ∀ s ∈ r' :: db.states, h.Wf m s.inner ∧ s.home ≤ m := by
          intro r' hr1 hr2 s hs
          rcases List.mem_cons.1 hs with rfl | hs
          · exact ⟨hr1, hr2⟩
          · exact ⟨h.mono _ _ _ e1 (i3 s hs).1, le_trans (i3 s hs).2 e1⟩
        -- no new containers
        have hsame : ∀ r' : Housed S, r'.home = db.latest.home → ∀ (m' : D → X), ∀ (b : Nat) base', (r' :: db.states)[b]? = some base' →
            (r'.home = base'.home ↔ ∀ x ∈ ((m', false) :: lm :: ms').take b, x.2 = false) := by
          intro r' hr m' b base' hb'
          cases b with
          | zero =>
            have : r' = base' := by simpa using hb'
            simp [this]
          | succ b =>
            rw [List.getElem?_cons_succ] at hb'
            rw [hr, i5 b base' hb', List.take_succ_cons, List.forall_mem_cons]
            exact ⟨fun h => ⟨rfl, h⟩, fun h => h.2⟩
        unfold Housed.merge at hm'
        rcases j.home with ⟨g1, g2, g3, g4⟩ | ⟨g1, g2, c', g3, g4⟩
        · rw [if_pos g1] at hm'
          by_cases hc : db.latest.home = base.home
          · rw [if_pos hc] at hm'
            rw [Option.map_eq_some_iff] at hm'
            obtain ⟨r', hm', rfl⟩ := hm'
            obtain ⟨m1, m2, m3⟩ := h.merge db.next m _ _ _ r' wb wl (hbl.2 hc) e1 j.wf g3 g4 hm'
            refine ⟨(h.abs r', false) :: lm :: ms', ClearHistory.committed i1 hbm' g2 (hhome.1 hc) ?_, List.Forall₂.cons rfl i2,
              hstates ⟨_, r'⟩ m1 (le_trans hl e1), ?_, hsame ⟨_, r'⟩ rfl _⟩
            · intro d
              rw [← hbabs, ← hlm, ← j.abs d]
              rcases m3 d with ⟨x1, x2⟩ | ⟨x1, x2⟩
              · exact ⟨fun _ => ⟨x1.symm, x2⟩, fun hq => by rw [x2, hq, x1]⟩
              · exact ⟨fun hq => absurd x1.symm hq, fun _ => x2⟩
            · show (_ :: db.states).Pairwise _
              refine List.pairwise_cons.2 ⟨?_, i4⟩
              intro s hs
              exact ⟨hz.keep_trans _ _ _ (hsl s hs).1 (hz.keep_evo _ _ m2),
                fun he => h.trans _ _ _ _ (i3 s hs).1 wl ((hsl s hs).2 he) m2⟩
          · rw [if_neg hc] at hm'
            rw [Option.map_eq_some_iff] at hm'
            obtain ⟨r', hm', rfl⟩ := hm'
            obtain ⟨m1, m2, m3⟩ := hz.stale db.next m _ _ _ r' wb wl hbl.1 e1 j.wf j.keep j.from_ hm'
            refine ⟨(lm.1, false) :: lm :: ms', ClearHistory.swept i1 hbm' g2 ?_, List.Forall₂.cons ((funext m3).trans hlm) i2,
              hstates ⟨_, r'⟩ m1 (le_trans hl e1), ?_, hsame ⟨_, r'⟩ rfl _⟩
            · rw [hhome] at hc
              push Not at hc
              obtain ⟨x, hx1, hx2⟩ := hc
              exact ⟨x, hx1, by simpa using hx2⟩
            · show (_ :: db.states).Pairwise _
              refine List.pairwise_cons.2 ⟨?_, i4⟩
              intro s hs
              exact ⟨hz.keep_trans _ _ _ (hsl s hs).1 (hz.keep_evo _ _ m2),
                fun he => h.trans _ _ _ _ (i3 s hs).1 wl ((hsl s hs).2 he) m2⟩
        · rw [if_neg (by omega)] at hm'
          by_cases hc : db.latest.home = base.home
          · rw [if_pos hc] at hm'
            rw [Option.map_eq_some_iff] at hm'
            obtain ⟨r', hm', rfl⟩ := hm'
            obtain ⟨m1, m2, m3⟩ := hz.over db.next m _ _ _ r' wb wl hbl.1 e1 j.wf j.keep j.from_ hm'
            refine ⟨(t.ops.foldl updC bm.1, true) :: lm :: ms', ClearHistory.cleared i1 hbm' ⟨c', g3, g4⟩ (hhome.1 hc),
              List.Forall₂.cons ?_ i2, hstates ⟨_, r'⟩ m1 g2, ?_, ?_⟩
            · funext d
              show h.abs r' d = t.ops.foldl updC bm.1 d
              rw [m3 d, j.abs d, hbabs]
            · show (_ :: db.states).Pairwise _
              refine List.pairwise_cons.2 ⟨?_, i4⟩
              intro s hs
              refine ⟨hz.keep_trans _ _ _ (hsl s hs).1 m2, fun he => ?_⟩
              have he : x.home = s.home := he
              have := (i3 s hs).2
              omega
            · intro b base' hb'
              have hb' : ((⟨x.home, r'⟩ : Housed S) :: db.states)[b]? = some base' := hb'
              show x.home = base'.home ↔ _
              cases b with
              | zero =>
                have : (⟨x.home, r'⟩ : Housed S) = base' := by simpa using hb'
                rw [← this]; simp
              | succ b =>
                rw [List.getElem?_cons_succ] at hb'
                have := (i3 base' (List.mem_of_getElem? hb')).2
                constructor
                · intro he; omega
                · intro hx
                  have := hx (t.ops.foldl updC bm.1, true) (by simp)
                  cases this
          · rw [if_neg hc] at hm'; cases hm'

end Verif.Txn

/-! ### The field index -/

namespace Verif.HField

open Txn

variable {D V : Type} [LinearOrder D] [LinearOrder V]

/-- the schedule theorem with `clear()` applies to field indexes -/
def clearSound : ClearSound (sound (D := D) (V := V)) clearing Spec.Field.update (fun _ => none) where
  Keep _ _ := True
  From _ _ := True
  keep_refl _ := trivial
  keep_trans _ _ _ _ _ := trivial
  keep_evo _ _ _ := trivial
  from_refl _ := trivial
  from_trans _ _ _ _ _ := trivial
  from_new _ _ _ _ := trivial
  new_refl n a := fun _ h => Or.inl h
  new_trans n m a b c hnm h1 h2 := fun x hx => by
    rcases h2 x hx with h | h
    · exact h1 x h
    · exact Or.inr (le_trans hnm h)
  upd_keeps c op h m d := by cases c <;> cases h <;> rfl
  upd_clear c h m d := by cases c <;> cases h; rfl
  reset_wf n s h := sound.mono 0 n _ (Nat.zero_le _) wf_new
  reset_abs n s h d := rfl
  reset_keep _ := trivial
  reset_from _ := trivial
  stale n m o c x r ho hc _ hnm hx _ _ hr := by
    cases hr
    exact ⟨sound.mono _ _ _ hnm hc, sound.refl _, fun _ => rfl⟩
  over n m o c x r ho hc _ hnm hx _ _ hr := by
    cases hr
    exact ⟨hx, trivial, fun _ => rfl⟩

end Verif.HField

/-! ### The keyword index -/

namespace Verif.HKeyword

open Txn
open Spec.Txn (kwUpdateC)

variable {D W : Type} [LinearOrder D] [LinearOrder W]

/-- the schedule theorem with `clear()` applies to keyword indexes in which no set gets large -/
def clearSound (normalize : List W → List W) (P : W → D → Prop) (hP : Few P) :
    ClearSound (sound normalize P hP) clearing (kwUpdateC normalize) (fun _ _ => False) where
  Keep _ _ := True
  From _ _ := True
  keep_refl _ := trivial
  keep_trans _ _ _ _ _ := trivial
  keep_evo _ _ _ := trivial
  from_refl _ := trivial
  from_trans _ _ _ _ _ := trivial
  from_new _ _ _ _ := trivial
  new_refl n a := fun _ h => Or.inl h
  new_trans n m a b c hnm h1 h2 := fun x hx => by
    rcases h2 x hx with h | h
    · exact h1 x h
    · exact Or.inr (le_trans hnm h)
  upd_keeps c op h m d := by cases c <;> cases h <;> rfl
  upd_clear c h m d := by cases c <;> cases h; rfl
  reset_wf n s h := by
    have h1 : Wf P n (new : HKeyword D W) := (sound normalize P hP).mono 0 n _ (Nat.zero_le _) wfTxn_new
    have h2 : ({ new with treeThreshold := s.treeThreshold } : HKeyword D W) = new := by rw [h.fw.threshold]; rfl
    show Wf P n { new with treeThreshold := s.treeThreshold }
    rw [h2]; exact h1
  reset_abs n s h d := by
    funext w
    show (∃ ks, (SMap.empty : SMap D (SSet W)).get? d = some ks ∧ _) = _
    simp
  reset_keep _ := trivial
  reset_from _ := trivial
  stale n m o c x r ho hc _ hnm hx _ _ hr := by
    cases hr
    exact ⟨(sound normalize P hP).mono _ _ _ hnm hc, (sound normalize P hP).refl _, fun _ => rfl⟩
  over n m o c x r ho hc _ hnm hx _ _ hr := by
    cases hr
    exact ⟨hx, trivial, fun _ => rfl⟩

end Verif.HKeyword

/-! ### The text index -/

namespace Verif.Text.HTI

open Txn Spec Spec.Txn HIx

variable {D R : Type} [LinearOrder D] [DecidableEq R] {K : Kind D R} {pipeline : List Element}

omit [DecidableEq R] in
theorem Wf.total_zero {n : Nat} {s : HTI D R} (h : Wf K pipeline n s) (ht : K.hasTotal = false) : s.ix.total = 0 := by
  rw [h.ok.total, ht]; rfl

omit [DecidableEq R] in
/-- the merged lexicon, together with an index of one of the two states -/
theorem lex_merged {n m : Nat} {o c x : HTI D R} {lex : Lexicon} (ho : Wf K pipeline n o) (hc : Wf K pipeline n c) (hx : Wf K pipeline m x)
    (hoc : Lexicon.Le o.lex c.lex) (hox : Lexicon.Le o.lex x.lex) (hfrom : LexFrom pipeline o x)
    (hl : Lexicon.merge o.lex c.lex x.lex = some lex) :
    (∃ calls : List (Int × TextArg), (∀ p ∈ calls, 0 ≤ p.1) ∧ Lexicon.Same lex (Lexicon.replay pipeline Lexicon.new calls)) ∧
    (∀ w n, lex.wids.get? w = some n → 0 < n ∧ n < 0x10000000) ∧ Lexicon.Le c.lex lex ∧ Lexicon.Le x.lex lex := by
  obtain ⟨linv, lec, lex'⟩ := Lexicon.merge_spec ho.inv hc.inv hx.inv hoc hox hl
  refine ⟨?_, ?_, lec, lex'⟩
  · obtain ⟨calls, h1, h2⟩ := hc.lex
    obtain ⟨more, h3, h4⟩ := hfrom
    have := Lexicon.merge_serial ho.inv hc.inv hx.inv hoc hox hl pipeline more h4
    refine ⟨calls ++ more, ?_, ?_⟩
    · intro p hp
      rcases List.mem_append.1 hp with h | h
      · exact h1 p h
      · exact h3 p h
    · rw [Lexicon.replay_append]
      exact this.trans (h2.replay pipeline more)
  · intro w n hn
    unfold Lexicon.merge at hl
    cases hws : mergeTree o.lex.wids c.lex.wids x.lex.wids with
    | none => rw [hws] at hl; cases hl
    | some wids =>
    cases hns : mergeTree o.lex.words c.lex.words x.lex.words with
    | none => rw [hws, hns] at hl; cases hl
    | some words =>
    rw [hws, hns] at hl
    cases hl
    rcases mergeTree_keywise hws w with ⟨-, e2⟩ | ⟨-, e2⟩
    · exact hx.ids w n (e2 ▸ hn)
    · exact hc.ids w n (e2 ▸ hn)

omit [DecidableEq R] in
theorem Wf.withLex {n : Nat} {s : HTI D R} (h : Wf K pipeline n s) {lex : Lexicon}
    (h1 : ∃ calls : List (Int × TextArg), (∀ p ∈ calls, 0 ≤ p.1) ∧ Lexicon.Same lex (Lexicon.replay pipeline Lexicon.new calls))
    (h2 : ∀ w n, lex.wids.get? w = some n → 0 < n ∧ n < 0x10000000) (h3 : Lexicon.Le s.lex lex) :
    Wf K pipeline n ({ lex := lex, ix := s.ix } : HTI D R) :=
  ⟨h.good, h.below, h.ok, h1, h2, fun d ws hd => by
    obtain ⟨t, ht⟩ := h.docs d ws hd
    exact ⟨t, ht.mono h3⟩⟩

/-- the schedule theorem with `clear()` applies to text indexes without a total length -/
def clearSound (hK : Lawful K) (hC : Counted K) (ht : K.hasTotal = false) :
    ClearSound (sound (pipeline := pipeline) hK hC) clearing (textUpdateC pipeline) (fun _ => none) where
  Keep s t := Lexicon.Le s.lex t.lex
  From s t := LexFrom pipeline s t
  keep_refl _ := Lexicon.Le.refl _
  keep_trans _ _ _ h1 h2 := h1.trans h2
  keep_evo _ _ h := h.2
  from_refl _ := LexFrom.refl _
  from_trans _ _ _ h1 h2 := h1.trans h2
  from_new _ _ _ h := h.2
  new_refl n a := ⟨fun _ h => Or.inl h, LexFrom.refl _⟩
  new_trans n m a b c hnm h1 h2 := ⟨fun x hx => by
    rcases h2.1 x hx with h | h
    · exact h1.1 x h
    · exact Or.inr (le_trans hnm h), h1.2.trans h2.2⟩
  upd_keeps c op h m d := by cases h; rfl
  upd_clear c h m d := by cases h; rfl
  reset_wf n s h := by
    have h0 := (wf_new : Wf K pipeline 0 (new : HTI D R))
    show Wf K pipeline n { lex := s.lex, ix := { (HIx.new : HIx D R) with total := s.ix.total } }
    rw [h.total_zero ht]
    exact ⟨h0.good, fun a ha => absurd (h0.below a ha) (Nat.not_lt_zero _), h0.ok, h.lex, h.ids, fun d ws hd => by cases hd⟩
  reset_abs n s h d := rfl
  reset_keep _ := Lexicon.Le.refl _
  reset_from s := ⟨[], by simp, Lexicon.Same.refl _⟩
  stale n m o c x r ho hc hoc hnm hx hox hfrom hr := by
    obtain ⟨lex, hl, rfl⟩ := Option.map_eq_some_iff.1 hr
    have hcw := (sound (pipeline := pipeline) hK hC).mono _ _ _ hnm hc
    obtain ⟨l1, l2, l3, l4⟩ := lex_merged ho hc hx hoc hox hfrom hl
    have htot : mergeLength o.ix.total c.ix.total x.ix.total = c.ix.total := by
      rw [ho.total_zero ht, hc.total_zero ht, hx.total_zero ht]; rfl
    rw [htot]
    have hwf := Wf.withLex hcw l1 l2 l3
    exact ⟨hwf, ⟨View.Evo.refl _, l3⟩, fun d => (abs_le hcw hwf l3 rfl).symm⟩
  over n m o c x r ho hc hoc hnm hx hox hfrom hr := by
    obtain ⟨lex, hl, rfl⟩ := Option.map_eq_some_iff.1 hr
    obtain ⟨l1, l2, l3, l4⟩ := lex_merged ho hc hx hoc hox hfrom hl
    have htot : mergeLength o.ix.total c.ix.total x.ix.total = x.ix.total := by
      rw [ho.total_zero ht, hc.total_zero ht, hx.total_zero ht]; rfl
    rw [htot]
    have hwf := Wf.withLex hx l1 l2 l4
    exact ⟨hwf, l3, fun d => (abs_le hx hwf l4 rfl).symm⟩

end Verif.Text.HTI
