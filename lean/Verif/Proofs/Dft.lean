import Verif.Spec.Dft
import Verif.Proofs.Interp
import Verif.Proofs.Tone

/-!
# The harmonics of a linear interpolation
-/

set_option linter.unusedSectionVars false

open MeasureTheory

namespace Adwt
open Seg

/-- The integral of a line times an exponential. -/
theorem line_integral {N : ℝ} {Y : ℤ → ℝ} (i : ℤ) {b : ℂ} (hb : b ≠ 0) (u v : ℝ) :
    ∫ x in u..v, Complex.exp (b * x) * (line N Y i x : ℂ) =
      Complex.exp (b * v) * ((line N Y i v : ℂ) / b - (M N Y i : ℂ) / b ^ 2) -
      Complex.exp (b * u) * ((line N Y i u : ℂ) / b - (M N Y i : ℂ) / b ^ 2) := by
  have hd : ∀ x : ℝ, HasDerivAt (fun x : ℝ => Complex.exp (b * x) *
      ((line N Y i x : ℂ) / b - (M N Y i : ℂ) / b ^ 2))
      (Complex.exp (b * x) * (line N Y i x : ℂ)) x := by
    intro x
    have h1 : HasDerivAt (fun x : ℝ => Complex.exp (b * x)) (Complex.exp (b * x) * b) x := by
      have : HasDerivAt (fun x : ℝ => b * (x : ℂ)) b x := by
        simpa using (Complex.ofRealCLM.hasDerivAt (x := x)).const_mul b
      exact this.cexp
    have h2 : HasDerivAt (fun x : ℝ => (line N Y i x : ℂ)) (M N Y i : ℂ) x := by
      apply HasDerivAt.ofReal_comp
      unfold line
      simpa using ((hasDerivAt_id x).const_mul (M N Y i)).add_const (Y i - i * (Y (i + 1) - Y i))
    have h3 := h1.mul ((h2.div_const b).sub_const ((M N Y i : ℂ) / b ^ 2))
    refine h3.congr_deriv ?_
    field_simp
    ring
  rw [intervalIntegral.integral_eq_sub_of_hasDerivAt (fun x _ => hd x)]
  apply Continuous.intervalIntegrable
  have := line_continuous (N := N) (Y := Y) i
  fun_prop

theorem line_integral_zero {N : ℝ} {Y : ℤ → ℝ} (i : ℤ) (u v : ℝ) :
    ∫ x in u..v, (line N Y i x : ℂ) = (((line N Y i v + line N Y i u) / 2 * (v - u) : ℝ) : ℂ) := by
  rw [intervalIntegral.integral_ofReal]
  congr 1
  have hd : ∀ x : ℝ, HasDerivAt (fun x : ℝ => M N Y i * x ^ 2 / 2 + (Y i - i * (Y (i + 1) - Y i)) * x)
      (line N Y i x) x := by
    intro x
    have h1 := (((hasDerivAt_id x).pow 2).const_mul (M N Y i)).div_const 2
    have h2 := (hasDerivAt_id x).const_mul (Y i - i * (Y (i + 1) - Y i))
    refine (h1.add h2).congr_deriv ?_
    unfold line; simp; ring
  rw [intervalIntegral.integral_eq_sub_of_hasDerivAt (fun x _ => hd x)
    ((line_continuous i).intervalIntegrable _ _)]
  unfold line; ring

theorem seg_sum {y : List ℝ} (hy : 0 < y.length) {g : ℝ → ℂ} (hg : Continuous g) :
    ∫ x in (0 : ℝ)..1, g x * (interp y x : ℂ) = ∑ j ∈ Finset.range y.length,
      ∫ x in ((j : ℝ) / y.length)..((j + 1 : ℕ) / y.length : ℝ),
        g x * (line y.length (cyc y) j x : ℂ) := by
  have hN : (0 : ℝ) < y.length := by exact_mod_cast hy
  have hc : Continuous fun x => g x * (interp y x : ℂ) := by
    have := interp_continuous y; fun_prop
  have := intervalIntegral.sum_integral_adjacent_intervals (μ := volume)
    (f := fun x => g x * (interp y x : ℂ)) (a := fun j : ℕ => (j : ℝ) / y.length) (n := y.length)
    (fun k _ => hc.intervalIntegrable _ _)
  rw [Nat.cast_zero, zero_div, div_self hN.ne'] at this
  rw [← this]
  apply Finset.sum_congr rfl
  intro j _
  apply intervalIntegral.integral_congr
  intro x hx
  have hle : (j : ℝ) / y.length ≤ ((j + 1 : ℕ) : ℝ) / y.length :=
    div_le_div_of_nonneg_right (by push_cast; linarith) hN.le
  rw [Set.uIcc_of_le hle] at hx
  dsimp only
  rw [interp_eq, W_eq hN (i := (j : ℤ)) (by rw [Int.cast_natCast]; exact hx.1)
    (by have := hx.2; push_cast at this ⊢; exact this)]

theorem cyc_wrap (y : List ℝ) : cyc y y.length = cyc y 0 := by
  have := cyc_period y 0; rwa [zero_add] at this

/-- summation by parts on a cycle -/
theorem cyc_shift {y : List ℝ} {w : ℂ} (hw0 : w ≠ 0) (hw : w ^ y.length = 1) :
    ∑ j ∈ Finset.range y.length, w ^ j * (cyc y (j + 1) : ℂ) =
      w⁻¹ * ∑ j ∈ Finset.range y.length, w ^ j * (cyc y j : ℂ) := by
  have h1 := Finset.sum_range_succ' (fun j : ℕ => w ^ j * (cyc y j : ℂ)) y.length
  have h2 := Finset.sum_range_succ (fun j : ℕ => w ^ j * (cyc y j : ℂ)) y.length
  rw [h2] at h1
  rw [hw, cyc_wrap] at h1
  simp only [pow_zero, Nat.cast_zero, one_mul] at h1
  have h3 := add_right_cancel h1
  rw [h3, Finset.mul_sum]
  apply Finset.sum_congr rfl
  intro j _
  rw [pow_succ]
  push_cast
  field_simp

theorem dft_cyc (y : List ℝ) (k : ℤ) : dft y k =
    (∑ j ∈ Finset.range y.length,
      Complex.exp (-(2 * Real.pi * Complex.I * k) / y.length) ^ j * (cyc y j : ℂ)) / y.length := by
  unfold dft
  congr 1
  apply Finset.sum_congr rfl
  intro j hj
  rw [cyc_nat y (Finset.mem_range.1 hj), ← Complex.exp_nat_mul]
  congr 2
  ring

/-- The harmonics of the interpolation are those of the samples, times `sinc²`. -/
theorem harmonic_interp {y : List ℝ} (hy : 0 < y.length) (k : ℤ) :
    harmonic (interp y) k = dft y k * ((Real.sinc (Real.pi * k / y.length) ^ 2 : ℝ) : ℂ) := by
  have hN : (0 : ℝ) < y.length := by exact_mod_cast hy
  have hNc : (y.length : ℂ) ≠ 0 := by exact_mod_cast hN.ne'
  have hline0 : ∀ j : ℕ, line (y.length : ℝ) (cyc y) j ((j : ℝ) / y.length) = cyc y j := by
    intro j; unfold line M; push_cast; field_simp; ring
  have hline1 : ∀ j : ℕ, line (y.length : ℝ) (cyc y) j (((j + 1 : ℕ) : ℝ) / y.length) = cyc y (j + 1) := by
    intro j; unfold line M; push_cast; field_simp; ring
  unfold harmonic
  rw [seg_sum hy (g := fun x : ℝ => Complex.exp (-(2 * Real.pi * Complex.I * k * x))) (by fun_prop),
    dft_cyc]
  set b : ℂ := -(2 * Real.pi * Complex.I * k) with hb
  set w : ℂ := Complex.exp (b / y.length) with hw
  have hw0 : w ≠ 0 := Complex.exp_ne_zero _
  have hwN : w ^ y.length = 1 := by
    rw [hw, ← Complex.exp_nat_mul, mul_div_cancel₀ _ hNc, hb]
    rw [Complex.exp_eq_one_iff]
    exact ⟨-k, by push_cast; ring⟩
  have hshift := cyc_shift hw0 hwN
  have hexp : ∀ x : ℝ, Complex.exp (-(2 * Real.pi * Complex.I * k * x)) = Complex.exp (b * x) := by
    intro x; congr 1; rw [hb]; ring
  simp only [hexp]
  by_cases hk : k = 0
  · subst hk
    have hb0 : b = 0 := by rw [hb]; simp
    have hw1 : w = 1 := by rw [hw, hb0]; simp
    rw [hw1] at hshift ⊢
    simp only [hb0, zero_mul, Complex.exp_zero, one_mul, line_integral_zero, hline0, hline1, one_pow,
      inv_one] at hshift ⊢
    have e : ∀ j : ℕ, ((((cyc y (j + 1) + cyc y j) / 2 * (((j + 1 : ℕ) : ℝ) / y.length - j / y.length) : ℝ)) : ℂ)
        = ((cyc y (j + 1) : ℂ) + (cyc y j : ℂ)) / (2 * y.length) := by
      intro j; push_cast; field_simp; ring
    simp only [e]
    rw [← Finset.sum_div, Finset.sum_add_distrib, hshift]
    simp
    field_simp
    ring
  · have hbne : b ≠ 0 := by
      rw [hb]
      have : (k : ℂ) ≠ 0 := by exact_mod_cast hk
      simp [this, Real.pi_ne_zero, Complex.I_ne_zero]
    have ej : ∀ j : ℕ, Complex.exp (b * ((j : ℝ) / y.length : ℝ)) = w ^ j := by
      intro j
      rw [hw, ← Complex.exp_nat_mul]
      congr 1; push_cast; ring
    have e : ∀ j : ℕ, ∫ x in ((j : ℝ) / y.length)..((j + 1 : ℕ) / y.length : ℝ),
        Complex.exp (b * x) * (line y.length (cyc y) j x : ℂ) =
        (w ^ (j + 1) * ((cyc y (j + 1) : ℂ) / b) - w ^ j * ((cyc y j : ℂ) / b)) -
        (w - 1) * y.length / b ^ 2 * (w ^ j * (cyc y (j + 1) : ℂ) - w ^ j * (cyc y j : ℂ)) := by
      intro j
      rw [line_integral _ hbne, ej, ej, hline0, hline1]
      unfold M
      push_cast
      ring
    simp only [e]
    have htel := Finset.sum_range_sub (fun j : ℕ => w ^ j * ((cyc y j : ℂ) / b)) y.length
    simp only [Nat.cast_succ] at htel
    rw [Finset.sum_sub_distrib, htel, ← Finset.mul_sum, Finset.sum_sub_distrib, hshift, hwN]
    have hsinc : ((Real.sinc (Real.pi * k / y.length) ^ 2 : ℝ) : ℂ) =
        -(w - 1) * (w⁻¹ - 1) * (y.length : ℂ) ^ 2 / b ^ 2 := by
      have hθ : Real.pi * k / y.length ≠ 0 := by
        have : (k : ℝ) ≠ 0 := by exact_mod_cast hk
        positivity
      rw [Real.sinc_of_ne_zero hθ]
      have hw' : w = Complex.exp (-(2 * (Real.pi * k / y.length : ℝ) : ℂ) * Complex.I) := by
        rw [hw, hb]; congr 1; push_cast; ring
      have hwi : w⁻¹ = Complex.exp ((2 * (Real.pi * k / y.length : ℝ) : ℂ) * Complex.I) := by
        rw [hw', ← Complex.exp_neg]; congr 1; ring
      have h4 : -(w - 1) * (w⁻¹ - 1) = -4 * ((Real.sin (Real.pi * k / y.length) : ℝ) : ℂ) ^ 2 := by
        have h5 : w * w⁻¹ = 1 := mul_inv_cancel₀ hw0
        have h6 : -(w - 1) * (w⁻¹ - 1) = w + w⁻¹ - 2 := by linear_combination -h5
        rw [h6, hwi, hw', Complex.ofReal_sin, Complex.sin]
        set θ : ℂ := ((Real.pi * k / y.length : ℝ) : ℂ)
        have i1 : Complex.exp (2 * θ * Complex.I) = Complex.exp (θ * Complex.I) ^ 2 := by
          rw [← Complex.exp_nat_mul]; congr 1; push_cast; ring
        have i2 : Complex.exp (-(2 * θ) * Complex.I) = Complex.exp (-θ * Complex.I) ^ 2 := by
          rw [← Complex.exp_nat_mul]; congr 1; push_cast; ring
        have i3 : Complex.exp (θ * Complex.I) * Complex.exp (-θ * Complex.I) = 1 := by
          rw [← Complex.exp_add]; simp
        rw [i1, i2]
        have i4 := Complex.I_sq
        linear_combination (2 : ℂ) * i3 + (Complex.exp (-θ * Complex.I) - Complex.exp (θ * Complex.I)) ^ 2 * i4
      rw [h4]
      have hb2 : b ^ 2 = -4 * (Real.pi : ℂ) ^ 2 * (k : ℂ) ^ 2 := by
        rw [hb]; ring_nf; rw [Complex.I_sq]; ring
      rw [hb2]
      have hkc : (k : ℂ) ≠ 0 := by exact_mod_cast hk
      have hpc : (Real.pi : ℂ) ≠ 0 := by exact_mod_cast Real.pi_ne_zero
      push_cast
      field_simp
    rw [hsinc]
    have hwrap : ((cyc y (y.length : ℕ) : ℝ) : ℂ) = ((cyc y ((0 : ℕ) : ℤ) : ℝ) : ℂ) := by
      rw [cyc_wrap]; rfl
    rw [hwrap]
    simp only [pow_zero, one_mul, sub_self, zero_sub]
    field_simp

end Adwt
