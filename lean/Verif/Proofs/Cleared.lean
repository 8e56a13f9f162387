import Verif.Spec.Cleared
import Verif.Proofs.TextRun

/-! # A call other than `clear` changes the total length as it changes the lengths kept -/

set_option autoImplicit false

namespace Verif.Text

open Verif.Spec

variable {D R : Type} [LinearOrder D] {K : Kind D R}

theorem total_step (hK : Lawful K) (ht : K.hasTotal = true) (hw : WeightIsLength K) (pipeline : List Element) (ops : List (Op D))
    (op : Op D) (hs : SmallLexicon pipeline (ops ++ [op])) (he : LengthsExact K.arith pipeline (ops ++ [op])) (s0 s : TI D R)
    (hl : s0.lex = lexAfter pipeline ops) (hi : Inv K s0.ix (docWids pipeline ops)) (hr : step K pipeline s0 op = .ok s)
    (hc : op ≠ .clear) : s.ix.total - lens K s.ix = s0.ix.total - lens K s0.ix := by
  obtain ⟨s', e', hl', hi', htot⟩ := step_ok hK pipeline ops op s0 hs hl hi
  obtain rfl : s' = s := Except.ok.inj (e'.symm.trans hr)
  rw [ht] at htot
  cases op with
  | index d t =>
    have hset : ∃ wids, docWids pipeline (ops ++ [.index d t]) = setDoc (docWids pipeline ops) d (some wids) ∧
        wids.length = (wordsOf pipeline t).length := by
      refine ⟨(wordsOf pipeline t).map (lexAfter pipeline (ops ++ [.index d t])).getWid, ?_, by simp⟩
      funext d'
      unfold setDoc
      by_cases hd : d' = d
      · rw [if_pos hd]
        unfold docWids docWords
        rw [currentText_snoc]
        simp [textStep, hd]
      · rw [if_neg hd]
        have hdw : docWords pipeline (ops ++ [.index d t]) d' = docWords pipeline ops d' := by
          unfold docWords; rw [currentText_snoc]; simp [textStep, hd]
        unfold docWids
        rw [hdw]
        cases hws : docWords pipeline ops d' with
        | none => rfl
        | some ws => rw [Option.map_some, Option.map_some, lexAfter_snoc, docWids_stable _ hws]
    obtain ⟨wids, hset, hlen⟩ := hset
    rw [hset] at hi'
    have h1 := lens_set hi.toP hi'.toP
    have h2 : lenOf K (setDoc (docWids pipeline ops) d (some wids)) d = (wordsOf pipeline t).length := by
      unfold lenOf setDoc
      simp only [if_true]
      rw [hw, hlen]
      exact he d t (by simp)
    simp only [if_true] at htot
    omega
  | unindex d =>
    have hset : docWids pipeline (ops ++ [.unindex d]) = setDoc (docWids pipeline ops) d none := by
      funext d'
      unfold setDoc docWids docWords
      rw [lexAfter_snoc, currentText_snoc]
      by_cases hd : d' = d
      · simp [textStep, hd]
      · simp [textStep, hd]; rfl
    rw [hset] at hi'
    have h1 := lens_set hi.toP hi'.toP
    have h2 : lenOf K (setDoc (docWids pipeline ops) d none) d = 0 := by simp [lenOf, setDoc]
    simp only [if_true] at htot
    omega
  | clear => exact absurd rfl hc
  | lexicon o =>
    cases e'
    rfl

end Verif.Text
