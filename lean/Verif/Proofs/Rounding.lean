import Verif.Spec.Rounding
import Verif.Proofs.QueryScores
import Mathlib.Analysis.SpecialFunctions.Log.Deriv
import Mathlib.Analysis.Complex.ExponentialBounds

/-! # Rounding errors -/

set_option autoImplicit false

namespace Verif

open Spec SetOps Text

/-- `y` approximates `x`, with at most `k` roundings by `q` -/
def App (q : ℝ) (k : ℕ) (x y : ℝ) : Prop := 0 ≤ x ∧ 0 ≤ y ∧ y ≤ q ^ k * x ∧ x ≤ q ^ k * y

namespace App

variable {q : ℝ} {k k' : ℕ} {x x' y y' : ℝ}

theorem refl (hx : 0 ≤ x) : App q 0 x x := ⟨hx, hx, by simp, by simp⟩

theorem zero (k : ℕ) : App q k 0 0 := ⟨le_refl 0, le_refl 0, by simp, by simp⟩

theorem mono (hq : 1 ≤ q) (h : App q k x y) (hk : k ≤ k') : App q k' x y := by
  obtain ⟨h1, h2, h3, h4⟩ := h
  have hp : q ^ k ≤ q ^ k' := pow_le_pow_right₀ hq hk
  exact ⟨h1, h2, le_trans h3 (mul_le_mul_of_nonneg_right hp h1), le_trans h4 (mul_le_mul_of_nonneg_right hp h2)⟩

theorem trans (hq : 1 ≤ q) {z : ℝ} (h : App q k x y) (h' : App q k' y z) : App q (k + k') x z := by
  obtain ⟨h1, h2, h3, h4⟩ := h
  obtain ⟨-, g2, g3, g4⟩ := h'
  have hp : 0 ≤ q ^ k := by positivity
  have hp' : 0 ≤ q ^ k' := by positivity
  refine ⟨h1, g2, ?_, ?_⟩
  · calc z ≤ q ^ k' * y := g3
      _ ≤ q ^ k' * (q ^ k * x) := mul_le_mul_of_nonneg_left h3 hp'
      _ = q ^ (k + k') * x := by ring
  · calc x ≤ q ^ k * y := h4
      _ ≤ q ^ k * (q ^ k' * z) := mul_le_mul_of_nonneg_left g4 hp
      _ = q ^ (k + k') * z := by ring

theorem pos (h : App q k x y) (hx : 0 < x) : 0 < y := by
  obtain ⟨-, h2, -, h4⟩ := h
  rcases lt_or_eq_of_le h2 with h | h
  · exact h
  · rw [← h, mul_zero] at h4; linarith

theorem eq_zero (h : App q k x y) (hy : y = 0) : x = 0 := by
  obtain ⟨h1, -, -, h4⟩ := h
  rw [hy, mul_zero] at h4
  exact le_antisymm h4 h1

theorem mulExact (hq : 1 ≤ q) (h : App q k x y) (h' : App q k' x' y') : App q (k + k') (x * x') (y * y') := by
  obtain ⟨h1, h2, h3, h4⟩ := h
  obtain ⟨g1, g2, g3, g4⟩ := h'
  have hp : 0 ≤ q ^ k := by positivity
  have hp' : 0 ≤ q ^ k' := by positivity
  refine ⟨mul_nonneg h1 g1, mul_nonneg h2 g2, ?_, ?_⟩
  · calc y * y' ≤ (q ^ k * x) * (q ^ k' * x') := mul_le_mul h3 g3 g2 (mul_nonneg hp h1)
      _ = q ^ (k + k') * (x * x') := by ring
  · calc x * x' ≤ (q ^ k * y) * (q ^ k' * y') := mul_le_mul h4 g4 g1 (mul_nonneg hp h2)
      _ = q ^ (k + k') * (y * y') := by ring

theorem addExact (h : App q k x y) (h' : App q k x' y') : App q k (x + x') (y + y') := by
  obtain ⟨h1, h2, h3, h4⟩ := h
  obtain ⟨g1, g2, g3, g4⟩ := h'
  exact ⟨add_nonneg h1 g1, add_nonneg h2 g2, by rw [mul_add]; linarith, by rw [mul_add]; linarith⟩

theorem divExact (hq : 1 ≤ q) (h : App q k x y) (h' : App q k' x' y') (hx' : 0 < x') : App q (k + k') (x / x') (y / y') := by
  have hy' := h'.pos hx'
  obtain ⟨h1, h2, h3, h4⟩ := h
  obtain ⟨g1, g2, g3, g4⟩ := h'
  have hp : 0 ≤ q ^ k := by positivity
  refine ⟨div_nonneg h1 g1, div_nonneg h2 g2, ?_, ?_⟩
  · rw [div_le_iff₀ hy', mul_assoc]
    have : x' / x' = 1 := div_self (ne_of_gt hx')
    calc y ≤ q ^ k * x := h3
      _ = q ^ k * (x / x' * x') := by rw [div_mul_cancel₀ _ (ne_of_gt hx')]
      _ ≤ q ^ k * (x / x' * (q ^ k' * y')) := by
        apply mul_le_mul_of_nonneg_left _ hp
        exact mul_le_mul_of_nonneg_left g4 (div_nonneg h1 g1)
      _ = q ^ (k + k') * (x / x' * y') := by ring
  · rw [div_le_iff₀ hx', mul_assoc]
    calc x ≤ q ^ k * y := h4
      _ = q ^ k * (y / y' * y') := by rw [div_mul_cancel₀ _ (ne_of_gt hy')]
      _ ≤ q ^ k * (y / y' * (q ^ k' * x')) := by
        apply mul_le_mul_of_nonneg_left _ hp
        exact mul_le_mul_of_nonneg_left g3 (div_nonneg h2 g2)
      _ = q ^ (k + k') * (y / y' * x') := by ring

theorem sqrtExact (hq : 1 ≤ q) (h : App q k x y) : App q k (Real.sqrt x) (Real.sqrt y) := by
  obtain ⟨h1, h2, h3, h4⟩ := h
  have hp : 1 ≤ q ^ k := one_le_pow₀ hq
  have hs : Real.sqrt (q ^ k) ≤ q ^ k := by
    rw [Real.sqrt_le_left (by linarith)]
    nlinarith
  refine ⟨Real.sqrt_nonneg _, Real.sqrt_nonneg _, ?_, ?_⟩
  · calc Real.sqrt y ≤ Real.sqrt (q ^ k * x) := Real.sqrt_le_sqrt h3
      _ = Real.sqrt (q ^ k) * Real.sqrt x := Real.sqrt_mul (by linarith) _
      _ ≤ q ^ k * Real.sqrt x := mul_le_mul_of_nonneg_right hs (Real.sqrt_nonneg _)
  · calc Real.sqrt x ≤ Real.sqrt (q ^ k * y) := Real.sqrt_le_sqrt h4
      _ = Real.sqrt (q ^ k) * Real.sqrt y := Real.sqrt_mul (by linarith) _
      _ ≤ q ^ k * Real.sqrt y := mul_le_mul_of_nonneg_right hs (Real.sqrt_nonneg _)

theorem logExact (hq : 1 ≤ q) (hk : q ^ k ≤ 9 / 8) (h : App q k x y) (hx : 2 ≤ x) : App q (2 * k) (Real.log x) (Real.log y) := by
  have hy := h.pos (by linarith)
  obtain ⟨h1, h2, h3, h4⟩ := h
  have hc : 1 ≤ q ^ k := one_le_pow₀ hq
  rw [show 2 * k = k + k by ring] 
  unfold App
  rw [pow_add]
  generalize q ^ k = c at *
  have hl2 : 0.69 ≤ Real.log x := by
    have := Real.log_two_gt_d9
    have := Real.log_le_log (by norm_num) hx
    linarith
  have hlc0 : 0 ≤ Real.log c := Real.log_nonneg hc
  have hlc : Real.log c ≤ c - 1 := Real.log_le_sub_one_of_pos (by linarith)
  have e1 : Real.log y ≤ Real.log c + Real.log x := by
    rw [← Real.log_mul (by linarith) (by linarith)]
    exact Real.log_le_log hy h3
  have e2 : Real.log x ≤ Real.log c + Real.log y := by
    rw [← Real.log_mul (by linarith) (by linarith)]
    exact Real.log_le_log (by linarith) h4
  have hly : 0 ≤ Real.log y := by linarith
  generalize Real.log x = X at *
  generalize Real.log y = Y at *
  generalize Real.log c = z at *
  obtain ⟨t, rfl⟩ : ∃ t, c = 1 + t := ⟨c - 1, by ring⟩
  have ht : 0 ≤ t := by linarith
  have ht' : t ≤ 1 / 8 := by linarith
  have htX : t * 0.69 ≤ t * X := mul_le_mul_of_nonneg_left hl2 ht
  refine ⟨by linarith, hly, ?_, ?_⟩
  · have : 0 ≤ t * t * X := by positivity
    have : (1 + t) * (1 + t) * X = X + 2 * (t * X) + t * t * X := by ring
    rw [this]
    nlinarith
  · -- X ≤ (1+t)² (X - t)
    have hY : X - t ≤ Y := by linarith
    have h5 : (1 + t) * (1 + t) * (X - t) ≤ (1 + t) * (1 + t) * Y := mul_le_mul_of_nonneg_left hY (by positivity)
    refine le_trans ?_ h5
    have h6 : (1 + t) * (1 + t) * (X - t) - X = t * (2 * X + t * X - (1 + t) * (1 + t)) := by ring
    have h7 : 0 ≤ t * (2 * X + t * X - (1 + t) * (1 + t)) := by
      apply mul_nonneg ht
      nlinarith
    linarith

end App

/-- the factor of one rounding -/
noncomputable def unit (u : ℝ) : ℝ := 1 / (1 - u)

section rounded

variable {u : ℝ} {B : Arith ℝ} {k k' : ℕ} {x x' y y' : ℝ}

theorem unit_ge (hu0 : 0 ≤ u) (hu : u ≤ 1 / 64) : 1 ≤ unit u := by
  unfold unit
  rw [le_div_iff₀ (by linarith)]; linarith

theorem unit_le (hu : u ≤ 1 / 64) : unit u ≤ 64 / 63 := by
  unfold unit
  rw [div_le_iff₀ (by linarith)]; linarith

/-- one rounding -/
theorem round_app (hu0 : 0 ≤ u) (hu : u ≤ 1 / 64) (hx : 0 ≤ x) (h : |y - x| ≤ u * |x|) : App (unit u) 1 x y := by
  rw [abs_of_nonneg hx] at h
  obtain ⟨h1, h2⟩ := abs_le.1 h
  have hd : 0 < 1 - u := by linarith
  have hux : 0 ≤ u * x := mul_nonneg hu0 hx
  have hux' : u * x ≤ 1 / 64 * x := mul_le_mul_of_nonneg_right hu hx
  have hy : 0 ≤ y := by linarith
  refine ⟨hx, hy, ?_, ?_⟩
  · rw [pow_one]
    unfold unit
    rw [div_mul_eq_mul_div, one_mul, le_div_iff₀ hd]
    have : u * u * x ≥ 0 := by positivity
    nlinarith
  · rw [pow_one]
    unfold unit
    rw [div_mul_eq_mul_div, one_mul, le_div_iff₀ hd]
    linarith

variable (hu0 : 0 ≤ u) (hu : u ≤ 1 / 64) (hB : Rounded u B)

include hu0 hu hB

theorem App.ofNat (n : ℕ) : App (unit u) 1 n (B.ofNat n) := round_app hu0 hu (Nat.cast_nonneg n) (hB.ofNat n)

theorem App.ofInt {n : ℤ} (hn : 0 ≤ n) : App (unit u) 1 n (B.ofInt n) := round_app hu0 hu (by exact_mod_cast hn) (hB.ofInt n)

theorem App.mul (h : App (unit u) k x y) (h' : App (unit u) k' x' y') : App (unit u) (k + k' + 1) (x * x') (B.mul y y') := by
  have hm := h.mulExact (unit_ge hu0 hu) h'
  exact hm.trans (unit_ge hu0 hu) (round_app hu0 hu hm.2.1 (hB.mul y y'))

theorem App.add (h : App (unit u) k x y) (h' : App (unit u) k' x' y') : App (unit u) (max k k' + 1) (x + x') (B.add y y') := by
  have hq := unit_ge hu0 hu
  have hm := (h.mono hq (le_max_left k k')).addExact (h'.mono hq (le_max_right k k'))
  exact hm.trans hq (round_app hu0 hu hm.2.1 (hB.add y y'))

theorem App.store (h : App (unit u) k x y) : App (unit u) (k + 1) x (B.store y) :=
  h.trans (unit_ge hu0 hu) (round_app hu0 hu h.2.1 (hB.store y))

theorem App.div (h : App (unit u) k x y) (h' : App (unit u) k' x' y') (hx' : 0 < x') :
    ∃ z, B.div y y' = some z ∧ App (unit u) (k + k' + 1) (x / x') z := by
  have hq := unit_ge hu0 hu
  have hy' := h'.pos hx'
  obtain ⟨z, e, hz⟩ := hB.div y y' (ne_of_gt hy')
  have hm := h.divExact hq h' hx'
  exact ⟨z, e, hm.trans hq (round_app hu0 hu hm.2.1 hz)⟩

theorem App.log (hk : k ≤ 4) (h : App (unit u) k x y) (hx : 2 ≤ x) :
    ∃ z, B.log y = some z ∧ App (unit u) (2 * k + 1) (Real.log x) z := by
  have hq := unit_ge hu0 hu
  obtain ⟨z, e, hz⟩ := hB.log y (h.pos (by linarith))
  have hc : unit u ^ k ≤ 9 / 8 := by
    calc unit u ^ k ≤ unit u ^ 4 := pow_le_pow_right₀ hq hk
      _ ≤ (64 / 63) ^ 4 := pow_le_pow_left₀ (by linarith) (unit_le hu) 4
      _ ≤ 9 / 8 := by norm_num
  have hm := h.logExact hq hc hx
  exact ⟨z, e, hm.trans hq (round_app hu0 hu hm.2.1 hz)⟩

theorem App.sqrt (h : App (unit u) k x y) : ∃ z, B.sqrt y = some z ∧ App (unit u) (k + 1) (Real.sqrt x) z := by
  have hq := unit_ge hu0 hu
  obtain ⟨z, e, hz⟩ := hB.sqrt y h.2.1
  have hm := h.sqrtExact hq
  exact ⟨z, e, hm.trans hq (round_app hu0 hu hm.2.1 hz)⟩

/-- inverse document frequency -/
theorem App.idf {n N : ℕ} (hn : 0 < n) (hN : n ≤ N) {b : ℝ} (hb : App (unit u) 1 N b) :
    ∃ z, Text.idf B n b = .ok z ∧ App (unit u) 9 (invFreq N n) z := by
  have hn' : (0 : ℝ) < n := by exact_mod_cast hn
  have hN' : (n : ℝ) ≤ N := by exact_mod_cast hN
  obtain ⟨q, e, hq⟩ := App.div hu0 hu hB hb (App.ofNat hu0 hu hB n) hn'
  have h1 : App (unit u) 0 1 B.one := by rw [hB.one]; exact App.refl zero_le_one
  have ha := App.add hu0 hu hB h1 hq
  have h2 : (1 : ℝ) ≤ N / n := by rw [le_div_iff₀ hn']; linarith
  obtain ⟨z, e', hz⟩ := App.log hu0 hu hB (by norm_num) ha (by linarith)
  refine ⟨z, ?_, hz⟩
  unfold Text.idf pyDiv pyLog
  rw [e]
  simp only [bind_ok]
  rw [e']

theorem rounded_positive : Positive B (fun x => 0 < x) := by
  have hq := unit_ge hu0 hu
  have h1 : App (unit u) 0 1 B.one := by rw [hB.one]; exact App.refl zero_le_one
  have hr : ∀ x : ℝ, 0 < x → App (unit u) 0 x x := fun x hx => App.refl (le_of_lt hx)
  refine ⟨?_, ?_, ?_, ?_, ?_, ?_, ?_, ?_, ?_, ?_, ?_, ?_, ?_, ?_, ?_⟩
  · rw [hB.one]; exact one_pos
  · intro n hn
    exact (App.ofNat hu0 hu hB n).pos (by exact_mod_cast hn)
  · intro n hn
    exact (App.ofInt hu0 hu hB (le_of_lt hn)).pos (by exact_mod_cast hn)
  · intro x y hx hy
    exact (App.add hu0 hu hB (hr x hx) (hr y hy)).pos (add_pos hx hy)
  · intro x hx
    have := App.add hu0 hu hB (App.zero 0) (hr x hx)
    rw [← hB.zero] at this
    exact this.pos (by rw [hB.zero, zero_add]; exact hx)
  · intro x y hx hy
    exact (App.mul hu0 hu hB (hr x hx) (hr y hy)).pos (mul_pos hx hy)
  · intro x y hx hy
    obtain ⟨z, e, hz⟩ := App.div hu0 hu hB (hr x hx) (hr y hy) hy
    exact ⟨z, e, hz.pos (div_pos hx hy)⟩
  · intro N n hn hN x q hx hq'
    have hx : App (unit u) 1 N x := by
      rcases hx with rfl | rfl
      · exact App.ofNat hu0 hu hB N
      · have := App.ofInt hu0 hu hB (Int.natCast_nonneg N)
        simpa using this
    have hn' : (0 : ℝ) < n := by exact_mod_cast hn
    have hN' : (n : ℝ) ≤ N := by exact_mod_cast hN
    obtain ⟨z, e, hz⟩ := App.idf hu0 hu hB hn hN hx
    unfold Text.idf pyDiv pyLog at e
    rw [hq'] at e
    simp only [bind_ok] at e
    refine ⟨z, ?_, hz.pos (invFreq_pos (by linarith) hn')⟩
    cases el : B.log (B.add B.one q) with
    | none => rw [el] at e; cases e
    | some z' => rw [el] at e; cases e; rfl
  · intro n hn
    by_cases hn1 : n = 1
    · subst hn1
      rw [hB.ofNatOne]
      obtain ⟨z, e, hz⟩ := hB.log 1 one_pos
      rw [Real.log_one] at hz
      have hz : z = 0 := by simpa using hz
      refine ⟨z, e, ?_⟩
      rw [hz]
      exact (App.add hu0 hu hB h1 (App.zero 0)).pos (by norm_num)
    · have h2 : (2 : ℝ) ≤ n := by exact_mod_cast (show 2 ≤ n by omega)
      obtain ⟨z, e, hz⟩ := App.log hu0 hu hB (by norm_num) (App.ofNat hu0 hu hB n) h2
      refine ⟨z, e, (App.add hu0 hu hB h1 hz).pos ?_⟩
      have : 0 ≤ Real.log (n : ℝ) := Real.log_natCast_nonneg n
      linarith
  · intro x hx
    obtain ⟨z, e, hz⟩ := App.sqrt hu0 hu hB (hr x hx)
    exact ⟨z, e, hz.pos (Real.sqrt_pos.2 hx)⟩
  · obtain ⟨z, e, hz⟩ := App.sqrt hu0 hu hB (App.zero (q := unit u) 0)
    refine ⟨z, by rw [hB.zero]; exact e, ?_⟩
    rw [hB.isZero]
    have := hz.2.2.1
    rw [Real.sqrt_zero, mul_zero] at this
    exact le_antisymm this hz.2.1
  · rw [hB.isZero, hB.zero]
  · intro x hx
    exact (App.store hu0 hu hB (hr x hx)).pos hx
  · intro x y _ _ h
    by_contra hne
    have := (hB.neq x y).2 hne
    rw [h] at this; cases this
  · intro x hx
    cases h : B.isZero x with
    | false => rfl
    | true =>
      have h0 := (hB.isZero x).1 h
      have : 0 < x := hx
      linarith

theorem rounded_params {P : Bm25 ℝ} (h : Bm25Params P) : PosParams B (fun x => 0 < x) P := by
  refine ⟨h.k1, h.b0, ?_⟩
  rw [hB.one]
  have h1 : 0 < 1 - P.b := by have := h.b1; linarith
  exact (round_app hu0 hu (le_of_lt h1) (hB.sub 1 P.b)).pos h1

/-- term frequency weight of the Okapi ranking -/
theorem App.okapiTf {P : Bm25 ℝ} (hP : Bm25Params P) {f len mean f' len' mean' : ℝ} (hf : App (unit u) 2 f f') (hf0 : 0 < f)
    (hl : App (unit u) 2 len len') (hm : App (unit u) 3 mean mean') (hm0 : 0 < mean) :
    ∃ z, Text.okapiTf B P f' len' mean' = .ok z ∧ App (unit u) 15 (bm25 P f len mean) z := by
  have h1 : App (unit u) 0 1 B.one := by rw [hB.one]; exact App.refl zero_le_one
  have hb : App (unit u) 0 P.b P.b := App.refl (le_of_lt hP.b0)
  have hk : App (unit u) 0 P.k1 P.k1 := App.refl (le_of_lt hP.k1)
  obtain ⟨q, e, hq⟩ := App.div hu0 hu hB (App.mul hu0 hu hB hb hl) hm hm0
  have hs : App (unit u) 1 (1 - P.b) (B.sub B.one P.b) := by
    rw [hB.one]
    exact round_app hu0 hu (by have := hP.b1; linarith) (hB.sub 1 P.b)
  have hw := App.add hu0 hu hB hs hq
  have hden := App.add hu0 hu hB hf (App.mul hu0 hu hB hk hw)
  have hnum := App.mul hu0 hu hB hf (App.add hu0 hu hB hk h1)
  have hpos : 0 < f + P.k1 * (1 - P.b + P.b * len / mean) := by
    have := hw.1
    have := mul_nonneg (le_of_lt hP.k1) this
    linarith
  obtain ⟨z, e', hz⟩ := App.div hu0 hu hB hnum hden hpos
  refine ⟨z, ?_, hz⟩
  unfold Text.okapiTf pyDiv
  rw [e]
  simp only [bind_ok]
  rw [e']

/-- weight of a word of a document, cosine measure -/
theorem App.tw {n : ℕ} (hn : 0 < n) : App (unit u) 4 (termWeight n) (Text.tw B n) := by
  have hq := unit_ge hu0 hu
  have h1 : App (unit u) 0 1 B.one := by rw [hB.one]; exact App.refl zero_le_one
  have key : ∀ z, B.log (B.ofNat n) = some z → Text.tw B n = B.add B.one z := by
    intro z e
    unfold Text.tw docTermWeight pyLog
    rw [e]; rfl
  unfold termWeight
  by_cases hn1 : n = 1
  · subst hn1
    obtain ⟨z, e, hz⟩ := hB.log 1 one_pos
    rw [Real.log_one] at hz
    have hz : z = 0 := by simpa using hz
    rw [key z (by rw [hB.ofNatOne]; exact e), hz, Nat.cast_one, Real.log_one]
    exact (App.add hu0 hu hB h1 (App.zero 0)).mono hq (by norm_num)
  · have h2 : (2 : ℝ) ≤ n := by exact_mod_cast (show 2 ≤ n by omega)
    obtain ⟨z, e, hz⟩ := App.log hu0 hu hB (by norm_num) (App.ofNat hu0 hu hB n) h2
    rw [key z e]
    exact (App.add hu0 hu hB h1 hz).mono hq (by norm_num)

/-! ## unions and intersections -/

variable {D : Type} [LinearOrder D]

omit hu0 hu in
theorem contribution_nonneg_one (m : SMap D ℝ) (d : D) : contribution d (m, B.one) = (m.get? d).getD 0 := by
  rw [hB.one]; exact contribution_one m d

/-- the contribution of a union -/
theorem App.wUnion {a a' : SMap D ℝ} {w w' : ℝ} (d : D) (h : App (unit u) k x (contribution d (a, w)))
    (h' : App (unit u) k x' (contribution d (a', w'))) :
    App (unit u) (k + 2) (x + x') (contribution d (SetOps.wUnion B.toWArith a a' w w', B.one)) := by
  have hq := unit_ge hu0 hu
  rw [contribution_nonneg_one hB, get?_wUnion]
  unfold contribution at h h'
  unfold wUnionVal
  simp only at h h'
  have hz : ∀ {v : ℝ}, App (unit u) k v 0 → v = 0 := fun h => h.eq_zero rfl
  have hmul : ∀ {v a b : ℝ}, App (unit u) k v (a * b) → App (unit u) (k + 1) v (B.mul a b) := by
    intro v a b h
    exact h.trans hq (round_app hu0 hu h.2.1 (hB.mul a b))
  cases h1 : a.get? d with
  | none =>
    rw [h1] at h
    rw [hz h, zero_add]
    cases h2 : a'.get? d with
    | none =>
      rw [h2] at h'
      rw [hz h']; exact App.zero _
    | some b =>
      rw [h2] at h'
      exact (hmul h').mono hq (by omega)
  | some b =>
    rw [h1] at h
    cases h2 : a'.get? d with
    | none =>
      rw [h2] at h'
      rw [hz h', add_zero]
      exact (hmul h).mono hq (by omega)
    | some b' =>
      rw [h2] at h'
      have := App.add hu0 hu hB (hmul h) (hmul h')
      rwa [max_self] at this

/-- `trivialOp` -/
theorem App.trivialOp {a : SMap D ℝ} {w : ℝ} (d : D) (h : App (unit u) k x (contribution d (a, w))) {m : SMap D ℝ}
    (e : SetOps.trivialOp B.toWArith [(a, w)] = .ok m) : App (unit u) (k + 1) x ((m.get? d).getD 0) := by
  have hq := unit_ge hu0 hu
  unfold SetOps.trivialOp at e
  simp only at e
  unfold contribution at h
  simp only at h
  split at e
  · cases e
    rw [get?_wUnion]
    unfold wUnionVal
    rw [SMap.get?_empty]
    cases h1 : a.get? d with
    | none =>
      rw [h1] at h
      rw [h.eq_zero rfl]; exact App.zero _
    | some b =>
      rw [h1] at h
      exact h.trans hq (round_app hu0 hu h.2.1 (hB.mul b w))
  · rename_i hone
    cases e
    have hone : B.isOne w = true := by simpa using hone
    rw [hB.isOne w hone] at h
    cases h1 : a.get? d with
    | none => rw [h1] at h; exact h.mono hq (by omega)
    | some b =>
      rw [h1] at h
      simp only [mul_one] at h
      exact h.mono hq (by omega)

/-- `mass_weightedUnion` -/
theorem App.massUnion {L : List (SMap D ℝ × ℝ)} (d : D) {T : List ℝ}
    (h : List.Forall₂ (fun p t => App (unit u) k t (contribution d p)) L T) {m : SMap D ℝ}
    (e : SetOps.massUnion B.toWArith L = .ok m) : App (unit u) (k + 2 * L.length) T.sum ((m.get? d).getD 0) := by
  have hq := unit_ge hu0 hu
  by_cases h2 : L.length < 2
  · unfold SetOps.massUnion at e
    rw [if_pos h2] at e
    match L, T, h, e with
    | [], [], _, e => cases e; simpa using App.zero _
    | [p], [t], .cons h .nil, e =>
      rw [List.sum_singleton]
      exact (App.trivialOp hu0 hu hB d h e).mono hq (by simp)
    | _ :: _ :: _, _, _, _ => simp at h2
  · obtain ⟨r, e', hr⟩ := massUnion_spec B.toWArith L (by omega)
      (fun Q => ∃ j T', j + Q.length = L.length ∧ T'.sum = T.sum ∧
        List.Forall₂ (fun p t => App (unit u) (k + 2 * j) t (contribution d p)) Q T')
      (by
        rintro a b hp ⟨j, T', hj, hs, hf⟩
        obtain ⟨T'', h1, h2⟩ := List.perm_comp_forall₂ hp.symm hf
        exact ⟨j, T'', by rw [← hp.length_eq]; exact hj, by rw [h2.sum_eq]; exact hs, h1⟩)
      (by
        rintro a wa b wb rest ⟨j, T', hj, hs, hf⟩
        obtain ⟨t1, T1, h1, hf1, rfl⟩ := List.forall₂_cons_left_iff.1 hf
        obtain ⟨t2, T2, h2, hf2, rfl⟩ := List.forall₂_cons_left_iff.1 hf1
        refine ⟨j + 1, (t1 + t2) :: T2, ?_, ?_, .cons ?_ ?_⟩
        · simp only [List.length_cons] at hj ⊢; omega
        · rw [← hs]; simp [add_assoc]
        · exact (App.wUnion hu0 hu hB d h1 h2).mono hq (by omega)
        · exact hf2.imp (fun _ _ h => h.mono hq (by omega)))
      ⟨0, T, by simp, rfl, h⟩
    obtain rfl := Except.ok.inj (e'.symm.trans e)
    obtain ⟨j, T', hj, hs, hf⟩ := hr
    obtain ⟨t1, T1, h1, hf1, rfl⟩ := List.forall₂_cons_left_iff.1 hf
    cases hf1
    rw [contribution_nonneg_one hB] at h1
    rw [← hs, List.sum_singleton]
    simp only [List.length_cons, List.length_nil] at hj
    exact h1.mono hq (by omega)

theorem App.wInter {a a' : SMap D ℝ} {w w' v : ℝ} (d : D) (h : App (unit u) k x (contribution d (a, w)))
    (h' : App (unit u) k x' (contribution d (a', w'))) (hv : (SetOps.wInter B.toWArith a a' w w').get? d = some v) :
    App (unit u) (k + 2) (x + x') v := by
  have hq := unit_ge hu0 hu
  rw [get?_wInter] at hv
  unfold contribution at h h'
  unfold wInterVal at hv
  simp only at h h'
  have hmul : ∀ {v a b : ℝ}, App (unit u) k v (a * b) → App (unit u) (k + 1) v (B.mul a b) := by
    intro v a b h
    exact h.trans hq (round_app hu0 hu h.2.1 (hB.mul a b))
  cases h1 : a.get? d with
  | none => rw [h1] at hv; cases hv
  | some b =>
    cases h2 : a'.get? d with
    | none => rw [h1, h2] at hv; cases hv
    | some b' =>
      rw [h1] at h hv
      rw [h2] at h' hv
      cases hv
      have := App.add hu0 hu hB (hmul h) (hmul h')
      rwa [max_self] at this

/-- `mass_weightedIntersection` -/
theorem App.massIntersection {L : List (SMap D ℝ × ℝ)} (d : D) {T : List ℝ}
    (h : List.Forall₂ (fun p t => App (unit u) k t (contribution d p)) L T) {m : SMap D ℝ}
    (e : SetOps.massIntersection B.toWArith (L.map (fun p => (some p.1, p.2))) = .ok m) {v : ℝ} (hv : m.get? d = some v) :
    App (unit u) (k + (2 * L.length - 1)) T.sum v := by
  have hq := unit_ge hu0 hu
  have hdn : dropNone (L.map (fun p => (some p.1, p.2))) = L := by
    unfold dropNone
    rw [List.filterMap_map]
    exact List.filterMap_some
  unfold SetOps.massIntersection at e
  simp only [hdn] at e
  by_cases h2 : L.length < 2
  · rw [if_pos h2] at e
    match L, T, h, e with
    | [], [], _, e => cases e; simp at hv
    | [p], [t], .cons h .nil, e =>
      rw [List.sum_singleton]
      have := App.trivialOp hu0 hu hB d h e
      rw [hv] at this
      exact this.mono hq (by simp)
    | _ :: _ :: _, _, _, _ => simp at h2
  · rw [if_neg h2] at e
    obtain ⟨T', h1, hp⟩ := List.perm_comp_forall₂ (sortByLen_perm L) h
    have hlen := (sortByLen_perm L).length_eq
    obtain ⟨a, wa, b, wb, rest, es⟩ := sortByLen_cases L h2
    rw [es] at e h1 hlen
    simp only at e
    obtain ⟨t1, T1, g1, hf1, rfl⟩ := List.forall₂_cons_left_iff.1 h1
    obtain ⟨t2, T2, g2, hf2, rfl⟩ := List.forall₂_cons_left_iff.1 hf1
    cases e
    have key : ∀ (l : List (SMap D ℝ × ℝ)) (U : List ℝ) (r : SMap D ℝ) (j : ℕ) (t : ℝ),
        List.Forall₂ (fun p t => App (unit u) k t (contribution d p)) l U →
        (∀ v, r.get? d = some v → App (unit u) (k + j) t v) → ∀ v, (l.foldl (interStep B.toWArith) r).get? d = some v →
        App (unit u) (k + j + 2 * l.length) (t + U.sum) v := by
      intro l
      induction l with
      | nil =>
        intro U r j t hU hr v hv
        cases hU
        simpa using hr v hv
      | cons p l ih =>
        intro U r j t hU hr v hv
        obtain ⟨t', U', g, hU', rfl⟩ := List.forall₂_cons_left_iff.1 hU
        rw [List.foldl_cons] at hv
        have := ih U' (interStep B.toWArith r p) (j + 2) (t + t') hU' (by
          intro v hv
          unfold interStep at hv
          have hk : d ∈ (SetOps.wInter B.toWArith r p.1 B.one p.2).keys := (SMap.mem_keys_iff _ _).2 ⟨v, hv⟩
          rw [mem_wInter] at hk
          obtain ⟨v0, hv0⟩ := (SMap.mem_keys_iff _ _).1 hk.1
          have h0 : App (unit u) (k + j) t (contribution d (r, B.one)) := by
            rw [contribution_nonneg_one hB, hv0]; exact hr v0 hv0
          exact App.wInter hu0 hu hB d h0 (g.mono hq (Nat.le_add_right k j)) hv) v hv
        rw [List.sum_cons, ← add_assoc]
        refine this.mono hq ?_
        simp only [List.length_cons]; omega
    have := key rest T2 _ 2 (t1 + t2) hf2 (fun v hv => App.wInter hu0 hu hB d g1 g2 hv) v hv
    rw [← hp.sum_eq, List.sum_cons, List.sum_cons, ← add_assoc]
    refine this.mono hq ?_
    simp only [List.length_cons] at hlen; omega

end rounded

end Verif
