import Verif.Proofs.TxnClear
import Verif.Proofs.TxnReplace
import Verif.Proofs.TxnAlone

/-! # Keyword indexes of any size, cleared in concurrent transactions -/

set_option autoImplicit false

namespace Verif.HKeyword

open Txn Keyword
open Spec.Txn (kwUpdateC ReplacedApartC)

variable {D W : Type} [LinearOrder D] [LinearOrder W]

/-- the schedule theorem with `clear()` applies to the strict engine -/
noncomputable def strictClearSound (normalize : List W → List W) (P : W → D → Prop) :
    ClearSound (strictSound normalize P) clearing (kwUpdateC normalize) (fun _ _ => False) where
  Keep _ _ := True
  From _ _ := True
  keep_refl _ := trivial
  keep_trans _ _ _ _ _ := trivial
  keep_evo _ _ _ := trivial
  from_refl _ := trivial
  from_trans _ _ _ _ _ := trivial
  from_new _ _ _ _ := trivial
  new_refl n a := fun _ h => Or.inl h
  new_trans n m a b c hnm h1 h2 := fun x hx => by
    rcases h2 x hx with h | h
    · exact h1 x h
    · exact Or.inr (le_trans hnm h)
  upd_keeps c op h m d := by cases c <;> cases h <;> rfl
  upd_clear c h m d := by cases c <;> cases h; rfl
  reset_wf n s h := by
    have h1 : Wf P n (new : HKeyword D W) := (strictSound normalize P).mono 0 n _ (Nat.zero_le _) wfTxn_new
    have h2 : ({ new with treeThreshold := s.treeThreshold } : HKeyword D W) = new := by rw [h.fw.threshold]; rfl
    show Wf P n { new with treeThreshold := s.treeThreshold }
    rw [h2]; exact h1
  reset_abs n s h d := by
    funext w
    show (∃ ks, (SMap.empty : SMap D (SSet W)).get? d = some ks ∧ _) = _
    simp
  reset_keep _ := trivial
  reset_from _ := trivial
  stale n m o c x r ho hc _ hnm hx _ _ hr := by
    cases hr
    exact ⟨(strictSound normalize P).mono _ _ _ hnm hc, (strictSound normalize P).refl _, fun _ => rfl⟩
  over n m o c x r ho hc _ hnm hx _ _ hr := by
    cases hr
    exact ⟨hx, trivial, fun _ => rfl⟩

theorem strictC_run (normalize : List W → List W) (ts : List (Txn (Op D W))) (h : ReplacedApartC normalize ts) :
    Db.run (Housed.engine (strict normalize) clearing) ⟨0, new⟩ ts =
      Db.run (Housed.engine (engine normalize) clearing) ⟨0, (new : HKeyword D W)⟩ ts := by
  induction ts using List.reverseRecOn with
  | nil => rfl
  | append_singleton ts t ih =>
    have ih := ih (fun before t' after he => h before t' (after ++ [t]) (by rw [he]; simp))
    have h := h ts t [] rfl
    have e1 : Db.run (Housed.engine (strict normalize) clearing) ⟨0, new⟩ (ts ++ [t]) = Db.commit (Housed.engine (strict normalize) clearing)
        (Db.run (Housed.engine (strict normalize) clearing) ⟨0, (new : HKeyword D W)⟩ ts) t := by
      simp [Db.run]
    have e2 : Db.run (Housed.engine (engine normalize) clearing) ⟨0, new⟩ (ts ++ [t]) = Db.commit (Housed.engine (engine normalize) clearing)
        (Db.run (Housed.engine (engine normalize) clearing) ⟨0, (new : HKeyword D W)⟩ ts) t := by
      simp [Db.run]
    rw [e1, e2, ih]
    rw [e2] at h
    generalize Db.run (Housed.engine (engine normalize) clearing) ⟨0, (new : HKeyword D W)⟩ ts = db at h
    unfold Db.commit at h ⊢
    cases hb : db.states[t.back]? with
    | none => rfl
    | some base =>
      rw [hb] at h
      dsimp only at h ⊢
      have hrun : (Housed.engine (strict normalize) clearing).run db.next base t.ops =
          (Housed.engine (engine normalize) clearing).run db.next base t.ops := rfl
      have hfail : (Housed.engine (strict normalize) clearing).fails db.next base t.ops =
          (Housed.engine (engine normalize) clearing).fails db.next base t.ops := rfl
      rw [hrun, hfail]
      set mine := ((Housed.engine (engine normalize) clearing).run db.next base t.ops).1 with hmine
      by_cases hh : db.latest.home = base.home ∧ mine.home = base.home
      swap
      · have : (Housed.engine (strict normalize) clearing).merge base db.latest mine =
            (Housed.engine (engine normalize) clearing).merge base db.latest mine := by
          show Housed.merge _ _ _ _ _ = Housed.merge _ _ _ _ _
          unfold Housed.merge
          by_cases h1 : mine.home = base.home
          · have h2 : db.latest.home ≠ base.home := fun h2 => hh ⟨h2, h1⟩
            rw [if_pos h1, if_neg h2, if_pos h1, if_neg h2]
          · rw [if_neg h1, if_neg h1]
        rw [this]
      · by_cases hap : ApartS base.inner db.latest.inner mine.inner
        · have : (Housed.engine (strict normalize) clearing).merge base db.latest mine =
              (Housed.engine (engine normalize) clearing).merge base db.latest mine := by
            show Housed.merge _ _ _ _ _ = Housed.merge _ _ _ _ _
            unfold Housed.merge
            rw [if_pos hh.2, if_pos hh.1, if_pos hh.2, if_pos hh.1]
            congr 1
            exact if_pos hap
          rw [this]
        · have hs : (Housed.engine (strict normalize) clearing).merge base db.latest mine = none := by
            show Housed.merge _ _ _ _ _ = none
            unfold Housed.merge
            rw [if_pos hh.2, if_pos hh.1]
            have : (strict normalize).merge base.inner db.latest.inner mine.inner = none := if_neg hap
            rw [this]
            rfl
          rw [hs]
          cases hm : (if (t.refused || (Housed.engine (engine normalize) clearing).fails db.next base t.ops) = true then none
              else (Housed.engine (engine normalize) clearing).merge base db.latest mine) with
          | none => simp only [ite_self]
          | some r =>
            rw [hm] at h
            exact absurd (fun w => h rfl base rfl hh.1 hh.2 w) hap

theorem replacedApartC_snoc {normalize : List W → List W} {ts : List (Txn (Op D W))} {t : Txn (Op D W)} (h : ReplacedApartC normalize ts)
    (hb : t.back = 0) : ReplacedApartC normalize (ts ++ [t]) := by
  intro before t' after he
  rcases List.eq_nil_or_concat after with rfl | ⟨after, x, rfl⟩
  · obtain ⟨rfl, he'⟩ := List.append_inj' he rfl
    obtain rfl : t = t' := by simpa using he'
    intro hc base hb' mine _ _ w
    rw [hb] at hb'
    obtain rfl : (Db.run (Housed.engine (engine normalize) clearing) ⟨0, (new : HKeyword D W)⟩ ts).latest = base := Option.some.inj hb'
    refine ⟨?_, fun _ => ⟨rfl, fun _ _ => rfl⟩⟩
    rintro ⟨a, h1, h2, -⟩
    exact absurd h1 h2
  · rw [List.concat_eq_append, ← List.cons_append, ← List.append_assoc] at he
    obtain ⟨he, -⟩ := List.append_inj' he rfl
    exact h before t' after he

end Verif.HKeyword
