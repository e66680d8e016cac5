import Verif.Spec.Tone
import Verif.Proofs.Convolution
import Mathlib.Analysis.SpecialFunctions.ImproperIntegrals
import Mathlib.MeasureTheory.Integral.Prod
import Mathlib.MeasureTheory.Integral.IntervalIntegral.Periodic

/-!
# The steady state of a one-pole filter fed with a periodic waveform
-/

set_option linter.unusedSectionVars false

namespace Adwt
open MeasureTheory

/-- The response of `e^{z τ}` to the whole past. -/
noncomputable def past (W : ℝ → ℝ) (z : ℂ) (d x : ℝ) : ℂ :=
  ∫ τ in Set.Ioi (0 : ℝ), Complex.exp (z * τ) * (W (x - τ * d) : ℂ)

variable {W : ℝ → ℝ} {z : ℂ} {d x : ℝ}

theorem periodic_bound (hc : Continuous W) (hp : Function.Periodic W 1) : ∃ B, 0 ≤ B ∧ ∀ u, |W u| ≤ B := by
  obtain ⟨B, hB⟩ := isCompact_Icc.exists_bound_of_continuousOn (s := Set.Icc (0 : ℝ) 1) hc.continuousOn
  have key : ∀ u, |W u| ≤ B := by
    intro u
    have h : W u = W (Int.fract u) := by
      have := hp.sub_int_mul_eq (x := u) ⌊u⌋
      rw [mul_one] at this
      exact this.symm
    rw [h]
    exact hB _ ⟨Int.fract_nonneg u, (Int.fract_lt_one u).le⟩
  exact ⟨B, (abs_nonneg _).trans (key 0), key⟩

theorem norm_exp_mul (z : ℂ) (τ : ℝ) : ‖Complex.exp (z * τ)‖ = Real.exp (z.re * τ) := by
  rw [Complex.norm_exp]; simp

theorem past_integrable (hc : Continuous W) (hp : Function.Periodic W 1) (hz : z.re < 0) (d x : ℝ) (a : ℝ) :
    IntegrableOn (fun τ : ℝ => Complex.exp (z * τ) * (W (x - τ * d) : ℂ)) (Set.Ioi a) := by
  obtain ⟨B, -, hB⟩ := periodic_bound hc hp
  have h := (integrableOn_exp_mul_complex_Ioi hz a)
  refine Integrable.mul_bdd (c := B) h ?_ ?_
  · exact (Continuous.aestronglyMeasurable (by fun_prop))
  · exact Filter.Eventually.of_forall fun τ => by rw [Complex.norm_real]; exact hB _

theorem integral_Ioi_shift (F : ℝ → ℂ) : ∫ τ in Set.Ioi (1 : ℝ), F τ = ∫ τ in Set.Ioi (0 : ℝ), F (τ + 1) := by
  rw [← integral_indicator measurableSet_Ioi, ← integral_indicator measurableSet_Ioi,
    ← integral_add_right_eq_self (μ := volume) (fun τ => (Set.Ioi (1 : ℝ)).indicator F τ) (1 : ℝ)]
  congr 1
  funext τ
  unfold Set.indicator
  simp

/-- One sample later. -/
theorem past_step (hc : Continuous W) (hp : Function.Periodic W 1) (hz : z.re < 0) (d x : ℝ) :
    past W z d (x + d) = Complex.exp z * past W z d x + response W z x d := by
  have h := intervalIntegral.integral_interval_add_Ioi (a := 0) (b := 1)
    (past_integrable hc hp hz d (x + d) 0) (past_integrable hc hp hz d (x + d) 1)
  unfold past
  rw [← h, integral_Ioi_shift, ← integral_const_mul, add_comm]
  congr 1
  · congr 1
    funext τ
    rw [← mul_assoc, ← Complex.exp_add]
    congr 2
    · push_cast; ring
    · push_cast; ring_nf
  · unfold response
    have := intervalIntegral.integral_comp_sub_left (a := (0 : ℝ)) (b := 1)
      (fun τ : ℝ => Complex.exp (z * τ) * (W (x + d - τ * d) : ℂ)) 1
    rw [show (1 : ℝ) - 1 = 0 by ring, sub_zero] at this
    rw [← this]
    congr 1
    funext t
    congr 2
    · push_cast; ring
    · push_cast; congr 1; ring

theorem past_period (hp : Function.Periodic W 1) (z : ℂ) (d x : ℝ) (k : ℤ) :
    past W z d (x + k) = past W z d x := by
  unfold past
  congr 1; funext τ
  have := hp.int_mul k (x - τ * d)
  rw [mul_one] at this
  rw [show x + k - τ * d = x - τ * d + k by ring, this]

/-- Shifting a periodic waveform multiplies its harmonics by a phase factor. -/
theorem harmonic_shift (hc : Continuous W) (hp : Function.Periodic W 1) (s : ℝ) (k : ℤ) :
    harmonic (fun x => W (x - s)) k =
      Complex.exp (-(2 * Real.pi * Complex.I * k * s)) * harmonic W k := by
  unfold harmonic
  rw [← intervalIntegral.integral_const_mul]
  set F : ℝ → ℂ := fun x => Complex.exp (-(2 * Real.pi * Complex.I * k * s)) *
    (Complex.exp (-(2 * Real.pi * Complex.I * k * x)) * (W x : ℂ)) with hF
  have hper : Function.Periodic F 1 := by
    intro x
    simp only [hF]
    rw [hp x]
    congr 2
    have : -(2 * Real.pi * Complex.I * k * ((x + 1 : ℝ) : ℂ)) =
        -(2 * Real.pi * Complex.I * k * x) + ((-k : ℤ) : ℂ) * (2 * Real.pi * Complex.I) := by
      push_cast; ring
    rw [this, Complex.exp_add, Complex.exp_int_mul_two_pi_mul_I, mul_one]
  have e : (fun x : ℝ => Complex.exp (-(2 * Real.pi * Complex.I * k * x)) * (W (x - s) : ℂ)) =
      fun x => F (x - s) := by
    funext x
    simp only [hF]
    rw [← mul_assoc, ← Complex.exp_add]
    congr 2
    push_cast; ring
  rw [e, intervalIntegral.integral_comp_sub_right F s]
  have := hper.intervalIntegral_add_eq (0 - s) 0
  rw [zero_add, show (0 : ℝ) - s + 1 = 1 - s by ring] at this
  exact this

/-- The harmonics of the response to the whole past. -/
theorem past_harmonic (hc : Continuous W) (hp : Function.Periodic W 1) (hz : z.re < 0) (d : ℝ) (k : ℤ) :
    ∫ x in (0 : ℝ)..1, Complex.exp (-(2 * Real.pi * Complex.I * k * x)) * past W z d x =
      1 / (Complex.I * ((2 * Real.pi * k * d : ℝ) : ℂ) - z) * harmonic W k := by
  obtain ⟨B, hB0, hB⟩ := periodic_bound hc hp
  set F : ℝ → ℝ → ℂ := fun x τ => Complex.exp (-(2 * Real.pi * Complex.I * k * x)) *
    (Complex.exp (z * τ) * (W (x - τ * d) : ℂ)) with hF
  have e1 : (fun x : ℝ => Complex.exp (-(2 * Real.pi * Complex.I * k * x)) * past W z d x) =
      fun x => ∫ τ in Set.Ioi (0 : ℝ), F x τ := by
    funext x
    unfold past
    rw [← integral_const_mul]
  have hunit : ∀ x : ℝ, ‖Complex.exp (-(2 * Real.pi * Complex.I * k * x))‖ = 1 := by
    intro x
    rw [show -(2 * Real.pi * Complex.I * k * x) = ((-(2 * Real.pi * k * x) : ℝ) : ℂ) * Complex.I by
      push_cast; ring]
    exact Complex.norm_exp_ofReal_mul_I _
  have hint : Integrable (Function.uncurry F)
      ((volume.restrict (Set.uIoc (0 : ℝ) 1)).prod (volume.restrict (Set.Ioi (0 : ℝ)))) := by
    have h1 : Integrable (fun _ : ℝ => (B : ℂ)) (volume.restrict (Set.uIoc (0 : ℝ) 1)) := by
      rw [Set.uIoc_of_le zero_le_one]
      exact (integrableOn_const (by simp)).integrable
    have h2 : Integrable (fun τ : ℝ => Complex.exp (z * τ)) (volume.restrict (Set.Ioi (0 : ℝ))) :=
      integrableOn_exp_mul_complex_Ioi hz 0
    refine (h1.mul_prod h2).mono ?_ (Filter.Eventually.of_forall ?_)
    · apply Continuous.aestronglyMeasurable
      simp only [hF]
      unfold Function.uncurry
      fun_prop
    · rintro ⟨x, τ⟩
      simp only [Function.uncurry, hF, norm_mul, hunit, one_mul, Complex.norm_real, Real.norm_eq_abs]
      rw [abs_of_nonneg hB0, mul_comm]
      exact mul_le_mul_of_nonneg_right (hB _) (norm_nonneg _)
  rw [e1, intervalIntegral_integral_swap hint]
  have e2 : ∀ τ : ℝ, (∫ x in (0 : ℝ)..1, F x τ) =
      Complex.exp ((z - Complex.I * ((2 * Real.pi * k * d : ℝ) : ℂ)) * τ) * harmonic W k := by
    intro τ
    have hs := harmonic_shift hc hp (τ * d) k
    unfold harmonic at hs
    have : (fun x : ℝ => F x τ) = fun x : ℝ => Complex.exp (z * τ) *
        (Complex.exp (-(2 * Real.pi * Complex.I * k * x)) * (W (x - τ * d) : ℂ)) := by
      funext x; simp only [hF]; ring
    rw [this, intervalIntegral.integral_const_mul, hs, ← mul_assoc, ← Complex.exp_add]
    unfold harmonic
    congr 2
    push_cast; ring
  simp only [e2]
  rw [integral_mul_const]
  have hre : (z - Complex.I * ((2 * Real.pi * k * d : ℝ) : ℂ)).re < 0 := by
    rw [Complex.sub_re, Complex.I_mul_re, Complex.ofReal_im]; linarith
  rw [integral_exp_mul_complex_Ioi hre 0]
  congr 1
  rw [Complex.ofReal_zero, mul_zero, Complex.exp_zero, ← neg_sub z, neg_div, div_neg]

theorem past_continuous (hc : Continuous W) (hp : Function.Periodic W 1) (hz : z.re < 0) (d : ℝ) :
    Continuous (past W z d) := by
  obtain ⟨B, hB0, hB⟩ := periodic_bound hc hp
  unfold past
  refine continuous_of_dominated (bound := fun τ => Real.exp (z.re * τ) * B) ?_ ?_ ?_ ?_
  · intro x
    exact Continuous.aestronglyMeasurable (by fun_prop)
  · intro x
    refine Filter.Eventually.of_forall fun τ => ?_
    rw [norm_mul, norm_exp_mul, Complex.norm_real]
    exact mul_le_mul_of_nonneg_left (hB _) (Real.exp_pos _).le
  · have := (integrableOn_exp_mul_Ioi hz 0)
    exact this.mul_const B
  · refine Filter.Eventually.of_forall fun τ => ?_
    fun_prop

theorem past_conj (W : ℝ → ℝ) (z : ℂ) (d x : ℝ) :
    (starRingEnd ℂ) (past W z d x) = past W ((starRingEnd ℂ) z) d x := by
  unfold past
  rw [← integral_conj]
  congr 1; funext τ
  rw [map_mul, ← Complex.exp_conj, map_mul, Complex.conj_ofReal, Complex.conj_ofReal]

/-- The tone as a complex sum. -/
theorem tone_eq (flt : Filter ℂ) (W : ℝ → ℝ) (d x : ℝ) : (tone flt W d x : ℂ) =
    ∑ k ∈ Finset.range flt.r.length, (flt.r.getD k 0 * past W (flt.z.getD k 0) d x +
      (starRingEnd ℂ) (flt.r.getD k 0) * past W ((starRingEnd ℂ) (flt.z.getD k 0)) d x) := by
  have e : tone flt W d x = (∑ k ∈ Finset.range flt.r.length, 2 * flt.r.getD k 0 *
      past W (flt.z.getD k 0) d x).re := rfl
  rw [e, Complex.re_eq_add_conj, map_sum, ← Finset.sum_add_distrib, Finset.sum_div]
  apply Finset.sum_congr rfl
  intro k _
  rw [map_mul, past_conj, map_mul]
  have : (starRingEnd ℂ) 2 = 2 := Complex.conj_ofReal 2
  rw [this]
  ring

theorem harmonic_tone {flt : Filter ℂ} (hz : ∀ k < flt.r.length, (flt.z.getD k 0).re < 0)
    (hc : Continuous W) (hp : Function.Periodic W 1) (d : ℝ) (k : ℤ) :
    harmonic (tone flt W d) k = freqResponse flt (2 * Real.pi * k * d) * harmonic W k := by
  have hu : Continuous fun x : ℝ => Complex.exp (-(2 * Real.pi * Complex.I * k * x)) := by fun_prop
  conv_lhs => unfold harmonic
  simp only [tone_eq, Finset.mul_sum]
  rw [intervalIntegral.integral_finset_sum]
  · unfold freqResponse
    rw [Finset.sum_mul]
    apply Finset.sum_congr rfl
    intro l hl
    have hz1 := hz l (Finset.mem_range.1 hl)
    have hz2 : ((starRingEnd ℂ) (flt.z.getD l 0)).re < 0 := by rw [Complex.conj_re]; exact hz1
    have e : (fun x : ℝ => Complex.exp (-(2 * Real.pi * Complex.I * k * x)) *
        (flt.r.getD l 0 * past W (flt.z.getD l 0) d x +
          (starRingEnd ℂ) (flt.r.getD l 0) * past W ((starRingEnd ℂ) (flt.z.getD l 0)) d x)) =
        fun x : ℝ => flt.r.getD l 0 * (Complex.exp (-(2 * Real.pi * Complex.I * k * x)) *
          past W (flt.z.getD l 0) d x) + (starRingEnd ℂ) (flt.r.getD l 0) *
          (Complex.exp (-(2 * Real.pi * Complex.I * k * x)) *
            past W ((starRingEnd ℂ) (flt.z.getD l 0)) d x) := by
      funext x; ring
    rw [e, intervalIntegral.integral_add, intervalIntegral.integral_const_mul,
      intervalIntegral.integral_const_mul, past_harmonic hc hp hz1, past_harmonic hc hp hz2]
    · ring
    · exact (continuous_const.mul (hu.mul (past_continuous hc hp hz1 d))).intervalIntegrable _ _
    · exact (continuous_const.mul (hu.mul (past_continuous hc hp hz2 d))).intervalIntegrable _ _
  · intro l hl
    have hz1 := hz l (Finset.mem_range.1 hl)
    have hz2 : ((starRingEnd ℂ) (flt.z.getD l 0)).re < 0 := by rw [Complex.conj_re]; exact hz1
    exact (hu.mul ((continuous_const.mul (past_continuous hc hp hz1 d)).add
      (continuous_const.mul (past_continuous hc hp hz2 d)))).intervalIntegrable _ _

end Adwt
