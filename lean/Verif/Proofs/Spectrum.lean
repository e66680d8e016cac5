import Verif.Proofs.Tone
import Mathlib.Analysis.Fourier.AddCircle
import Mathlib.Analysis.PSeries

/-!
# The Fourier series of a tone
-/

set_option linter.unusedSectionVars false

namespace Adwt
open MeasureTheory

instance : Fact ((0 : ℝ) < 1) := ⟨one_pos⟩

/-- A periodic continuous function on the circle. -/
noncomputable def onCircle (g : ℝ → ℂ) (hc : Continuous g) (hp : Function.Periodic g 1) :
    C(AddCircle (1 : ℝ), ℂ) where
  toFun := hp.lift
  continuous_toFun := by
    have h : Topology.IsQuotientMap (fun x : ℝ => (x : AddCircle (1 : ℝ))) :=
      QuotientAddGroup.isQuotientMap_mk _
    exact h.continuous_iff.2 hc

theorem onCircle_coe (g : ℝ → ℂ) (hc : Continuous g) (hp : Function.Periodic g 1) (x : ℝ) :
    onCircle g hc hp (x : AddCircle (1 : ℝ)) = g x := rfl

theorem onCircle_coeff (g : ℝ → ℂ) (hc : Continuous g) (hp : Function.Periodic g 1) (k : ℤ) :
    fourierCoeff (onCircle g hc hp) k =
      ∫ x in (0 : ℝ)..1, Complex.exp (-(2 * Real.pi * Complex.I * k * x)) * g x := by
  rw [fourierCoeff_eq_intervalIntegral _ _ 0]
  rw [zero_add, div_one, one_smul]
  apply intervalIntegral.integral_congr
  intro x _
  dsimp only
  rw [onCircle_coe, fourier_coe_apply, smul_eq_mul]
  congr 2
  push_cast; ring

theorem coeff_sq_summable (g : ℝ → ℂ) (hc : Continuous g) (hp : Function.Periodic g 1) :
    Summable fun k => ‖fourierCoeff (onCircle g hc hp) k‖ ^ 2 := by
  have h := hasSum_sq_fourierCoeff (T := (1 : ℝ))
    (ContinuousMap.toLp 2 AddCircle.haarAddCircle ℂ (onCircle g hc hp))
  have := h.summable
  simpa only [fourierCoeff_toLp] using this

theorem harmonic_sq_summable {W : ℝ → ℝ} (hc : Continuous W) (hp : Function.Periodic W 1) :
    Summable fun k => ‖harmonic W k‖ ^ 2 := by
  have hgc : Continuous fun x => (W x : ℂ) := by fun_prop
  have hgp : Function.Periodic (fun x => (W x : ℂ)) 1 := fun x => by dsimp only; rw [hp x]
  refine (coeff_sq_summable _ hgc hgp).congr fun k => ?_
  rw [onCircle_coeff]
  rfl

theorem tone_continuous {flt : Filter ℂ} (hz : ∀ k < flt.r.length, (flt.z.getD k 0).re < 0)
    {W : ℝ → ℝ} (hc : Continuous W) (hp : Function.Periodic W 1) (d : ℝ) : Continuous (tone flt W d) := by
  have e : tone flt W d = fun x => (∑ k ∈ Finset.range flt.r.length, 2 * flt.r.getD k 0 *
      past W (flt.z.getD k 0) d x).re := rfl
  rw [e]
  apply Complex.continuous_re.comp
  apply continuous_finsetSum
  intro k hk
  exact continuous_const.mul (past_continuous hc hp (hz k (Finset.mem_range.1 hk)) d)

theorem tone_periodic (flt : Filter ℂ) {W : ℝ → ℝ} (hp : Function.Periodic W 1) (d : ℝ) :
    Function.Periodic (tone flt W d) 1 := by
  intro x
  unfold tone
  congr 1
  apply Finset.sum_congr rfl
  intro k _
  have := past_period hp (flt.z.getD k 0) d x 1
  unfold past at this
  push_cast at this
  rw [← this]

/-- A frequency response falls off like `1 / ω`. -/
theorem inv_pole_bound {z : ℂ} (hz : z.re < 0) {ω : ℝ} (hω : ω ≠ 0) :
    ‖1 / (Complex.I * ω - z)‖ ≤ ‖z‖ / |z.re| / |ω| := by
  have hz0 : z ≠ 0 := by rintro rfl; simp at hz
  have h1 : |ω| * |z.re| ≤ ‖Complex.I * ω - z‖ * ‖z‖ := by
    have e : ((Complex.I * ω - z) * (starRingEnd ℂ) z).im = ω * z.re := by
      simp [Complex.mul_im]; ring
    have := Complex.abs_im_le_norm ((Complex.I * ω - z) * (starRingEnd ℂ) z)
    rw [e, abs_mul, norm_mul, Complex.norm_conj] at this
    exact this
  have hr : 0 < |z.re| := abs_pos.2 hz.ne
  have ho : 0 < |ω| := abs_pos.2 hω
  have hn : 0 < ‖z‖ := norm_pos_iff.2 hz0
  have hpos : 0 < ‖Complex.I * ω - z‖ := by
    by_contra h
    have : ‖Complex.I * ω - z‖ = 0 := le_antisymm (not_lt.1 h) (norm_nonneg _)
    rw [this, zero_mul] at h1
    have := mul_pos ho hr
    linarith
  rw [norm_div, norm_one, div_div, div_le_div_iff₀ hpos (mul_pos hr ho)]
  linarith

theorem freqResponse_bound {flt : Filter ℂ} (hz : ∀ k < flt.r.length, (flt.z.getD k 0).re < 0) :
    ∃ M, 0 ≤ M ∧ ∀ ω : ℝ, ω ≠ 0 → ‖freqResponse flt ω‖ ≤ M / |ω| := by
  refine ⟨∑ k ∈ Finset.range flt.r.length, 2 * ‖flt.r.getD k 0‖ *
    (‖flt.z.getD k 0‖ / |(flt.z.getD k 0).re|), ?_, ?_⟩
  · exact Finset.sum_nonneg fun k _ => by positivity
  · intro ω hω
    unfold freqResponse
    rw [Finset.sum_div]
    refine (norm_sum_le _ _).trans (Finset.sum_le_sum fun k hk => ?_)
    have h1 := hz k (Finset.mem_range.1 hk)
    have b1 := inv_pole_bound h1 hω
    have b2 := inv_pole_bound (z := (starRingEnd ℂ) (flt.z.getD k 0)) (by rw [Complex.conj_re]; exact h1) hω
    rw [Complex.norm_conj, Complex.conj_re] at b2
    refine (norm_add_le _ _).trans ?_
    rw [div_eq_mul_one_div, norm_mul, div_eq_mul_one_div ((starRingEnd ℂ) _), norm_mul, Complex.norm_conj]
    have h0 := norm_nonneg (flt.r.getD k 0)
    calc _ ≤ ‖flt.r.getD k 0‖ * (‖flt.z.getD k 0‖ / |(flt.z.getD k 0).re| / |ω|) +
          ‖flt.r.getD k 0‖ * (‖flt.z.getD k 0‖ / |(flt.z.getD k 0).re| / |ω|) :=
        add_le_add (mul_le_mul_of_nonneg_left b1 h0) (mul_le_mul_of_nonneg_left b2 h0)
      _ = _ := by ring

theorem spectrum_summable {flt : Filter ℂ} (hz : ∀ k < flt.r.length, (flt.z.getD k 0).re < 0)
    {W : ℝ → ℝ} (hc : Continuous W) (hp : Function.Periodic W 1) {d : ℝ} (hd : d ≠ 0) :
    Summable fun k : ℤ => freqResponse flt (2 * Real.pi * k * d) * harmonic W k := by
  obtain ⟨M, hM0, hM⟩ := freqResponse_bound hz
  have hs := harmonic_sq_summable hc hp
  have hi : Summable fun k : ℤ => 1 / (k : ℝ) ^ 2 := by
    have := (Real.summable_one_div_int_pow (p := 2)).2 (by norm_num)
    exact this
  set c := M / (2 * Real.pi * |d|) with hcdef
  have hc0 : 0 ≤ c := by positivity
  have hbig : Summable fun k : ℤ => (c ^ 2 * (1 / (k : ℝ) ^ 2) + ‖harmonic W k‖ ^ 2) / 2 :=
    ((hi.mul_left (c ^ 2)).add hs).div_const 2
  have hev : ∀ k : ℤ, k ≠ 0 → ‖freqResponse flt (2 * Real.pi * k * d) * harmonic W k‖ ≤
      (c ^ 2 * (1 / (k : ℝ) ^ 2) + ‖harmonic W k‖ ^ 2) / 2 := by
    intro k hk
    have hkr : (k : ℝ) ≠ 0 := by exact_mod_cast hk
    have hω : 2 * Real.pi * k * d ≠ 0 := by
      have := Real.pi_pos.ne'
      positivity
    have h1 := hM _ hω
    have e : M / |2 * Real.pi * k * d| = c * (1 / |(k : ℝ)|) := by
      rw [abs_mul, abs_mul, abs_of_pos (by positivity : (0 : ℝ) < 2 * Real.pi), hcdef]
      have : |(k : ℝ)| ≠ 0 := abs_ne_zero.2 hkr
      have : |d| ≠ 0 := abs_ne_zero.2 hd
      field_simp
    rw [e] at h1
    rw [norm_mul]
    have h2 : ‖freqResponse flt (2 * Real.pi * k * d)‖ * ‖harmonic W k‖ ≤
        c * (1 / |(k : ℝ)|) * ‖harmonic W k‖ := mul_le_mul_of_nonneg_right h1 (norm_nonneg _)
    have h3 := two_mul_le_add_sq (c * (1 / |(k : ℝ)|)) ‖harmonic W k‖
    have e2 : (c * (1 / |(k : ℝ)|)) ^ 2 = c ^ 2 * (1 / (k : ℝ) ^ 2) := by
      rw [mul_pow, div_pow (1 : ℝ), sq_abs, one_pow]
    rw [e2] at h3
    linarith
  refine Summable.of_norm_bounded_eventually hbig ?_
  filter_upwards [(Set.finite_singleton (0 : ℤ)).compl_mem_cofinite] with k hk
  exact hev k hk

/-- The tone is the sum of its harmonics. -/
theorem tone_hasSum {flt : Filter ℂ} (hz : ∀ k < flt.r.length, (flt.z.getD k 0).re < 0)
    {W : ℝ → ℝ} (hc : Continuous W) (hp : Function.Periodic W 1) {d : ℝ} (hd : d ≠ 0) (x : ℝ) :
    HasSum (fun k : ℤ => freqResponse flt (2 * Real.pi * k * d) * harmonic W k *
      Complex.exp (2 * Real.pi * Complex.I * k * x)) (tone flt W d x : ℂ) := by
  have hgc : Continuous fun x => (tone flt W d x : ℂ) := by
    have := tone_continuous hz hc hp d
    fun_prop
  have hgp : Function.Periodic (fun x => (tone flt W d x : ℂ)) 1 := fun x => by
    dsimp only; rw [tone_periodic flt hp d x]
  have hcoef : ∀ k, fourierCoeff (onCircle _ hgc hgp) k =
      freqResponse flt (2 * Real.pi * k * d) * harmonic W k := by
    intro k
    rw [onCircle_coeff, ← harmonic_tone hz hc hp d k]
    rfl
  have := has_pointwise_sum_fourier_series_of_summable (f := onCircle _ hgc hgp) (by
    rw [show (fourierCoeff (onCircle _ hgc hgp) : ℤ → ℂ) = _ from funext hcoef]
    exact spectrum_summable hz hc hp hd) (x : AddCircle (1 : ℝ))
  rw [onCircle_coe] at this
  refine this.congr_fun fun k => ?_
  rw [hcoef, fourier_coe_apply, smul_eq_mul]
  congr 2
  push_cast; ring

end Adwt
