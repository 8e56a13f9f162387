import Verif.Proofs.Rounding
import Mathlib.Algebra.Order.Round
import Mathlib.Data.Int.Log

/-! # Floating point numbers without limits on the exponent are a rounded arithmetic -/

set_option autoImplicit false

namespace Verif

open Spec

/-- the nearest number with `p + 1` significant bits -/
noncomputable def roundBits (p : ℕ) (x : ℝ) : ℝ := round (x * 2 ^ ((p : ℤ) - Int.log 2 |x|)) / 2 ^ ((p : ℤ) - Int.log 2 |x|)

theorem roundBits_zero (p : ℕ) : roundBits p 0 = 0 := by simp [roundBits]

theorem roundBits_near (p : ℕ) (x : ℝ) : |roundBits p x - x| ≤ (1 / 2) ^ (p + 1) * |x| := by
  by_cases hx : x = 0
  · subst hx; rw [roundBits_zero]; simp
  have hx' : 0 < |x| := abs_pos.2 hx
  unfold roundBits
  set e : ℤ := (p : ℤ) - Int.log 2 |x| with he
  have hE : (0 : ℝ) < 2 ^ e := by positivity
  have h1 := abs_sub_round (x * 2 ^ e)
  rw [abs_sub_comm] at h1
  have h2 : |(round (x * 2 ^ e) : ℝ) / 2 ^ e - x| = |(round (x * 2 ^ e) : ℝ) - x * 2 ^ e| / 2 ^ e := by
    rw [← abs_of_pos hE, ← abs_div, abs_of_pos hE, sub_div, mul_div_assoc, div_self (ne_of_gt hE), mul_one]
  rw [h2, div_le_iff₀ hE]
  refine h1.trans ?_
  have h3 : (2 : ℝ) ^ Int.log 2 |x| ≤ |x| := by
    have := Int.zpow_log_le_self (b := 2) (by norm_num) hx'
    exact_mod_cast this
  have h4 : (2 : ℝ) ^ Int.log 2 |x| * 2 ^ e = 2 ^ p := by
    rw [← zpow_add₀ (by norm_num), he, add_sub_cancel, zpow_natCast]
  have h5 : (2 : ℝ) ^ p ≤ |x| * 2 ^ e := by rw [← h4]; exact mul_le_mul_of_nonneg_right h3 (le_of_lt hE)
  have h6 : (1 / 2 : ℝ) ^ (p + 1) * 2 ^ p = 1 / 2 := by
    rw [pow_succ, mul_right_comm, ← mul_pow]; norm_num
  calc (1 / 2 : ℝ) = (1 / 2) ^ (p + 1) * 2 ^ p := h6.symm
    _ ≤ (1 / 2) ^ (p + 1) * (|x| * 2 ^ e) := mul_le_mul_of_nonneg_left h5 (by positivity)
    _ = _ := by ring

/-- numbers that fit are kept -/
theorem roundBits_nat {p n : ℕ} (hn : n < 2 ^ (p + 1)) : roundBits p n = n := by
  by_cases h0 : n = 0
  · subst h0; simpa using roundBits_zero p
  unfold roundBits
  have hlog : Int.log 2 |(n : ℝ)| = (Nat.log 2 n : ℕ) := by
    rw [Nat.abs_cast, Int.log_natCast]
  rw [hlog]
  have hle : Nat.log 2 n ≤ p := by
    have := Nat.log_lt_of_lt_pow h0 hn
    omega
  have he : (p : ℤ) - (Nat.log 2 n : ℕ) = ((p - Nat.log 2 n : ℕ) : ℤ) := by omega
  rw [he, zpow_natCast]
  have : (n : ℝ) * 2 ^ (p - Nat.log 2 n) = ((n * 2 ^ (p - Nat.log 2 n) : ℕ) : ℝ) := by push_cast; ring
  rw [this, round_natCast]
  push_cast
  rw [mul_div_assoc, div_self (by positivity), mul_one]

open scoped Classical in
/-- arithmetic in which every result is rounded to `p + 1` bits (53 for double precision), and weights are stored with `s + 1` bits
(24 for single precision); exponents are not limited -/
noncomputable def floatArith (p s : ℕ) : Arith ℝ where
  zero := 0
  one := 1
  add x y := roundBits p (x + y)
  mul x y := roundBits p (x * y)
  isOne x := decide (x = 1)
  ofNat n := roundBits p n
  ofInt n := roundBits p n
  sub x y := roundBits p (x - y)
  div x y := if y = 0 then none else some (roundBits p (x / y))
  log x := if 0 < x then some (roundBits p (Real.log x)) else none
  sqrt x := if 0 ≤ x then some (roundBits p (Real.sqrt x)) else none
  neq x y := decide (x ≠ y)
  isZero x := decide (x = 0)
  store x := roundBits s x
  toInt x := if 0 ≤ x then ⌊x⌋ else ⌈x⌉

theorem float_rounded {p s : ℕ} (h : s ≤ p) : Rounded ((1 / 2) ^ (s + 1)) (floatArith p s) := by
  have hp : ∀ x : ℝ, |roundBits p x - x| ≤ (1 / 2) ^ (s + 1) * |x| := by
    intro x
    refine (roundBits_near p x).trans (mul_le_mul_of_nonneg_right ?_ (abs_nonneg x))
    exact pow_le_pow_of_le_one (by norm_num) (by norm_num) (by omega)
  refine ⟨rfl, rfl, ?_, fun n => hp n, ?_, fun n => hp n, fun x y => hp _, fun x y => hp _, fun x y => hp _, ?_, ?_, ?_,
    fun x => roundBits_near s x, ?_, ?_⟩
  · intro x hx
    exact of_decide_eq_true hx
  · have := roundBits_nat (p := p) (n := 1) (by
      have : 1 < 2 ^ (p + 1) := Nat.one_lt_two_pow (by omega)
      exact this)
    show roundBits p ((1 : ℕ) : ℝ) = 1
    rw [this]; norm_num
  · intro x y hy
    exact ⟨_, if_neg hy, hp _⟩
  · intro x hx
    exact ⟨_, if_pos hx, hp _⟩
  · intro x hx
    exact ⟨_, if_pos hx, hp _⟩
  · intro x y
    exact decide_eq_true_iff
  · intro x
    exact decide_eq_true_iff

/-- lengths that fit are exact -/
theorem float_length {p s n : ℕ} (h : s ≤ p) (hn : n < 2 ^ (s + 1)) : (floatArith p s).toInt ((floatArith p s).store ((floatArith p s).ofNat n)) = n := by
  have h1 : (floatArith p s).store ((floatArith p s).ofNat n) = n := by
    show roundBits s (roundBits p (n : ℝ)) = n
    rw [roundBits_nat (lt_of_lt_of_le hn (Nat.pow_le_pow_right (by norm_num) (by omega))), roundBits_nat hn]
  rw [h1]
  show (if (0 : ℝ) ≤ n then ⌊(n : ℝ)⌋ else ⌈(n : ℝ)⌉) = n
  rw [if_pos (Nat.cast_nonneg n), Int.floor_natCast]

end Verif
