import Mathlib.Analysis.Complex.Exponential

/-! # `e` is not `1 + a / n` for natural numbers `a`, `n` -/

set_option autoImplicit false

namespace Verif

open Finset Nat

theorem factorial_sum (b : ℕ) : ∃ k : ℤ, (b ! : ℝ) * ∑ m ∈ range (b + 1), (1 : ℝ) ^ m / m ! = k := by
  refine ⟨∑ m ∈ range (b + 1), ((b ! / m ! : ℕ) : ℤ), ?_⟩
  rw [Finset.mul_sum, Int.cast_sum]
  refine Finset.sum_congr rfl ?_
  intro m hm
  have hle : m ≤ b := by have := Finset.mem_range.1 hm; omega
  obtain ⟨c, hc⟩ := Nat.factorial_dvd_factorial hle
  rw [hc, Nat.mul_div_cancel_left _ (Nat.factorial_pos m), one_pow]
  have : (m ! : ℝ) ≠ 0 := by positivity
  push_cast
  field_simp

theorem exp_one_ne (a n : ℕ) (hn : 0 < n) : Real.exp 1 ≠ 1 + (a : ℝ) / n := by
  intro he
  obtain ⟨k, hk⟩ := factorial_sum n
  have hpos : (0 : ℝ) < (n ! : ℝ) := by positivity
  have hn' : (0 : ℝ) < n := by exact_mod_cast hn
  have hlow := Real.sum_le_exp_of_nonneg (zero_le_one) (n + 2)
  rw [Finset.sum_range_succ] at hlow
  have hup := Real.exp_bound' (zero_le_one) (le_refl (1 : ℝ)) (n := n + 1) (by omega)
  set S := ∑ m ∈ range (n + 1), (1 : ℝ) ^ m / m ! with hS
  have hint : ∃ j : ℤ, (n ! : ℝ) * Real.exp 1 = j := by
    refine ⟨(n ! : ℤ) + a * (n - 1)!, ?_⟩
    rw [he]
    have : (n ! : ℝ) = n * ((n - 1)! : ℕ) := by
      exact_mod_cast (Nat.mul_factorial_pred (by omega : n ≠ 0)).symm
    push_cast
    rw [mul_add, mul_one]
    congr 1
    rw [this]
    field_simp
  obtain ⟨j, hj⟩ := hint
  have h1 : (n ! : ℝ) * S < (n ! : ℝ) * Real.exp 1 := by
    apply mul_lt_mul_of_pos_left _ hpos
    have : (0 : ℝ) < (1 : ℝ) ^ (n + 1) / ((n + 1)! : ℕ) := by positivity
    linarith
  have h2 : (n ! : ℝ) * Real.exp 1 < (n ! : ℝ) * S + 1 := by
    have h3 : (n ! : ℝ) * ((1 : ℝ) ^ (n + 1) * (((n + 1 : ℕ) : ℝ) + 1) / (((n + 1)! : ℕ) * ((n + 1 : ℕ) : ℝ))) < 1 := by
      rw [Nat.factorial_succ]
      push_cast
      rw [one_pow, one_mul, mul_div_assoc', div_lt_one (by positivity)]
      have : (n ! : ℝ) * ((n : ℝ) + 1 + 1) < (n ! : ℝ) * (((n : ℝ) + 1) * ((n : ℝ) + 1)) := by
        apply mul_lt_mul_of_pos_left _ hpos
        have : (1 : ℝ) ≤ n := by exact_mod_cast hn
        nlinarith
      linarith
    have h4 := mul_le_mul_of_nonneg_left hup (le_of_lt hpos)
    rw [mul_add] at h4
    linarith
  rw [hk, hj] at h1 h2
  have a1 : k < j := by exact_mod_cast h1
  have a2 : j < k + 1 := by exact_mod_cast h2
  omega

end Verif
