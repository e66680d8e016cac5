import Verif.Spec.Headroom
import Verif.Proofs.Sensitive
import Mathlib.Analysis.SpecialFunctions.ImproperIntegrals
import Mathlib.Analysis.Convex.Deriv

/-!
# The area under the impulse response
-/

set_option linter.unusedSectionVars false

namespace Adwt
open MeasureTheory

theorem impulse_continuous (flt : Filter ℂ) : Continuous (impulse flt) := by
  unfold impulse; fun_prop

theorem impulse_term_integrable {z : ℂ} (hz : z.re < 0) (r : ℂ) (c : ℝ) :
    IntegrableOn (fun t : ℝ => 2 * r * Complex.exp (z * t)) (Set.Ioi c) :=
  (integrableOn_exp_mul_complex_Ioi hz c).const_mul (2 * r)

theorem impulse_integrable {flt : Filter ℂ} (hz : ∀ k < flt.r.length, (flt.z.getD k 0).re < 0) (c : ℝ) :
    IntegrableOn (impulse flt) (Set.Ioi c) := by
  unfold impulse
  have : IntegrableOn (fun t : ℝ => ∑ k ∈ Finset.range flt.r.length,
      2 * flt.r.getD k 0 * Complex.exp (flt.z.getD k 0 * t)) (Set.Ioi c) :=
    integrable_finset_sum _ fun k hk => impulse_term_integrable (hz k (Finset.mem_range.1 hk)) _ c
  exact this.re

/-- the filter as one integral -/
theorem filtered_impulse {flt : Filter ℂ} {V : ℝ → ℝ} {g : ℕ → ℝ → ℝ} {m : ℕ}
    (hg : ∀ n < m, Continuous (g n))
    (hV : ∀ n < m, ∀ u : ℝ, (n : ℝ) ≤ u → u < n + 1 → V u = g n (u - n)) :
    filtered flt V m = ∫ u in (0 : ℝ)..m, impulse flt (m - u) * V u := by
  have hi : ∀ z T : ℂ, IntervalIntegrable (fun u : ℝ => Complex.exp (z * (T - u)) * (V u : ℂ)) volume (0 : ℝ) m := by
    intro z T
    have := IntervalIntegrable.trans_iterate (f := fun u : ℝ => Complex.exp (z * (T - u)) * (V u : ℂ))
      (μ := volume) (a := fun k : ℕ => (k : ℝ)) (n := m)
      (fun k hk => (piece_integral hg hV z hk T).1)
    simpa using this
  unfold filtered
  simp only [← intervalIntegral.integral_const_mul]
  rw [← intervalIntegral.integral_finset_sum fun k _ => (hi _ _).const_mul _]
  have hs : IntervalIntegrable (fun u : ℝ => ∑ k ∈ Finset.range flt.r.length, 2 * flt.r.getD k 0 *
      (Complex.exp (flt.z.getD k 0 * (((m : ℝ) : ℂ) - u)) * (V u : ℂ))) volume (0 : ℝ) m := by
    have := IntervalIntegrable.sum (Finset.range flt.r.length) (μ := volume) (a := (0 : ℝ)) (b := m)
      (f := fun k (u : ℝ) => 2 * flt.r.getD k 0 *
      (Complex.exp (flt.z.getD k 0 * (((m : ℝ) : ℂ) - u)) * (V u : ℂ))) fun k _ => (hi _ _).const_mul _
    simpa [Finset.sum_fn] using this
  rw [← Complex.reCLM_apply, ← ContinuousLinearMap.intervalIntegral_comp_comm _ hs]
  apply intervalIntegral.integral_congr
  intro u _
  dsimp only
  rw [Complex.reCLM_apply]
  unfold impulse
  rw [Complex.re_sum, Complex.re_sum, Finset.sum_mul]
  refine Finset.sum_congr rfl fun k _ => ?_
  rw [← mul_assoc, Complex.re_mul_ofReal]
  push_cast
  rfl

theorem impulse_area {flt : Filter ℂ} (hz : ∀ k < flt.r.length, (flt.z.getD k 0).re < 0) {T : ℝ} (hT : 0 ≤ T) :
    ∫ u in (0 : ℝ)..T, |impulse flt u| ≤ peakGain flt := by
  rw [intervalIntegral.integral_of_le hT]
  unfold peakGain
  exact setIntegral_mono_set (impulse_integrable hz 0).abs (Filter.Eventually.of_forall fun _ => abs_nonneg _)
    (Set.Ioc_subset_Ioi_self).eventuallyLE

theorem filtered_peak {flt : Filter ℂ} (hz : ∀ k < flt.r.length, (flt.z.getD k 0).re < 0)
    {V : ℝ → ℝ} {g : ℕ → ℝ → ℝ} {m : ℕ} (hg : ∀ n < m, Continuous (g n))
    (hV : ∀ n < m, ∀ u : ℝ, (n : ℝ) ≤ u → u < n + 1 → V u = g n (u - n)) {η : ℝ}
    (h : ∀ n < m, ∀ u : ℝ, (n : ℝ) ≤ u → u < n + 1 → |V u| ≤ η) (hη : 0 ≤ η) :
    |filtered flt V m| ≤ peakGain flt * η := by
  rw [filtered_impulse hg hV]
  have key : ‖∫ u in (0 : ℝ)..m, impulse flt (m - u) * V u‖ ≤ ∫ u in (0 : ℝ)..m, |impulse flt (m - u)| * η := by
    apply intervalIntegral.norm_integral_le_of_norm_le (Nat.cast_nonneg m)
    · have hne : ∀ᵐ u : ℝ, u ≠ m := by
        rw [ae_iff]; simp
      filter_upwards [hne] with u hu' hu
      have hlt : u < m := lt_of_le_of_ne hu.2 hu'
      rw [Real.norm_eq_abs, abs_mul]
      refine mul_le_mul_of_nonneg_left ?_ (abs_nonneg _)
      have hfl : ⌊u⌋₊ < m := (Nat.floor_lt hu.1.le).2 hlt
      exact h _ hfl u (Nat.floor_le hu.1.le) (Nat.lt_floor_add_one u)
    · have := impulse_continuous flt
      exact Continuous.intervalIntegrable (by fun_prop) _ _
  rw [intervalIntegral.integral_mul_const,
    intervalIntegral.integral_comp_sub_left (fun u => |impulse flt u|) (m : ℝ), sub_self, sub_zero] at key
  exact key.trans (mul_le_mul_of_nonneg_right (impulse_area hz (Nat.cast_nonneg m)) hη)

/-! ### an upper bound for the area -/

/-- A function with bounded second derivative is near its chord. -/
theorem chord_le {f f' f'' : ℝ → ℝ} (h1 : ∀ t, HasDerivAt f (f' t) t) (h2 : ∀ t, HasDerivAt f' (f'' t) t)
    {a b B : ℝ} (hab : a < b) (hB : ∀ t ∈ Set.Icc a b, -B ≤ f'' t) {t : ℝ} (ht : t ∈ Set.Icc a b) :
    f t ≤ (b - t) / (b - a) * f a + (t - a) / (b - a) * f b + B / 2 * ((t - a) * (b - t)) := by
  have hc : ConvexOn ℝ (Set.Icc a b) fun t => f t + B / 2 * t ^ 2 := by
    refine convexOn_of_hasDerivWithinAt2_nonneg (f' := fun t => f' t + B * t) (f'' := fun t => f'' t + B)
      (convex_Icc a b) ?_ ?_ ?_ ?_
    · have : Continuous f := continuous_iff_continuousAt.2 fun t => (h1 t).continuousAt
      fun_prop
    · intro x _
      refine HasDerivAt.hasDerivWithinAt ?_
      have := (h1 x).add ((hasDerivAt_pow 2 x).const_mul (B / 2))
      refine this.congr_deriv ?_
      push_cast; ring
    · intro x _
      refine HasDerivAt.hasDerivWithinAt ?_
      have := (h2 x).add ((hasDerivAt_id x).const_mul B)
      refine this.congr_deriv ?_
      ring
    · intro x hx
      have := hB x (interior_subset hx)
      linarith
  have hp : 0 < b - a := sub_pos.2 hab
  have h := hc.2 (Set.left_mem_Icc.2 hab.le) (Set.right_mem_Icc.2 hab.le)
    (div_nonneg (sub_nonneg.2 ht.2) hp.le) (div_nonneg (sub_nonneg.2 ht.1) hp.le)
    (by field_simp; ring)
  have e : (b - t) / (b - a) * a + (t - a) / (b - a) * b = t := by field_simp; ring
  simp only [smul_eq_mul] at h
  rw [e] at h
  have e2 : (b - t) / (b - a) * (B / 2 * a ^ 2) + (t - a) / (b - a) * (B / 2 * b ^ 2) - B / 2 * t ^ 2 =
      B / 2 * ((t - a) * (b - t)) := by field_simp; ring
  linarith

theorem chord_abs {f f' f'' : ℝ → ℝ} (h1 : ∀ t, HasDerivAt f (f' t) t) (h2 : ∀ t, HasDerivAt f' (f'' t) t)
    {a b B : ℝ} (hab : a < b) (hB : ∀ t ∈ Set.Icc a b, |f'' t| ≤ B) {t : ℝ} (ht : t ∈ Set.Icc a b) :
    |f t| ≤ (b - t) / (b - a) * |f a| + (t - a) / (b - a) * |f b| + B / 2 * ((t - a) * (b - t)) := by
  have hp : 0 < b - a := sub_pos.2 hab
  have c1 := div_nonneg (sub_nonneg.2 ht.2) hp.le
  have c2 := div_nonneg (sub_nonneg.2 ht.1) hp.le
  rw [abs_le']
  constructor
  · refine (chord_le h1 h2 hab (fun t ht => (abs_le.1 (hB t ht)).1) ht).trans ?_
    have := mul_le_mul_of_nonneg_left (le_abs_self (f a)) c1
    have := mul_le_mul_of_nonneg_left (le_abs_self (f b)) c2
    linarith
  · have h := chord_le (f := fun t => -f t) (f' := fun t => -f' t) (f'' := fun t => -f'' t)
      (fun t => (h1 t).neg) (fun t => (h2 t).neg) (B := B) hab
      (fun t ht => by have := (abs_le.1 (hB t ht)).2; linarith) ht
    refine h.trans ?_
    have := mul_le_mul_of_nonneg_left (neg_le_abs (f a)) c1
    have := mul_le_mul_of_nonneg_left (neg_le_abs (f b)) c2
    linarith

theorem panel_area {f f' f'' : ℝ → ℝ} (h1 : ∀ t, HasDerivAt f (f' t) t) (h2 : ∀ t, HasDerivAt f' (f'' t) t)
    {a δ B : ℝ} (hδ : 0 < δ) (hB : ∀ t ∈ Set.Icc a (a + δ), |f'' t| ≤ B) :
    ∫ t in a..(a + δ), |f t| ≤ δ * ((|f a| + |f (a + δ)|) / 2) + B * δ ^ 3 / 12 := by
  have hc : Continuous f := continuous_iff_continuousAt.2 fun t => (h1 t).continuousAt
  have hab : a < a + δ := by linarith
  have key : ∫ t in a..(a + δ), |f t| ≤ ∫ t in a..(a + δ), ((a + δ - t) / (a + δ - a) * |f a| +
      (t - a) / (a + δ - a) * |f (a + δ)| + B / 2 * ((t - a) * (a + δ - t))) := by
    apply intervalIntegral.integral_mono_on hab.le (hc.abs.intervalIntegrable _ _)
      (Continuous.intervalIntegrable (by fun_prop) _ _)
    intro t ht
    exact chord_abs h1 h2 hab hB ht
  refine key.trans (le_of_eq ?_)
  set X := |f a|
  set Y := |f (a + δ)|
  have hd : ∀ t ∈ Set.uIcc a (a + δ), HasDerivAt (fun t => -(a + δ - t) ^ 2 / (2 * δ) * X + (t - a) ^ 2 / (2 * δ) * Y +
      B / 2 * (δ * (t - a) ^ 2 / 2 - (t - a) ^ 3 / 3)) ((a + δ - t) / (a + δ - a) * X +
      (t - a) / (a + δ - a) * Y + B / 2 * ((t - a) * (a + δ - t))) t := by
    intro t _
    have q1 : HasDerivAt (fun t => a + δ - t) (-1) t := (hasDerivAt_id t).const_sub (a + δ)
    have q2 : HasDerivAt (fun t => t - a) 1 t := (hasDerivAt_id t).sub_const a
    have := (((((q1.pow 2).neg).div_const (2 * δ)).mul_const X).add (((q2.pow 2).div_const (2 * δ)).mul_const Y)).add
      (((((q2.pow 2).const_mul δ).div_const 2).sub ((q2.pow 3).div_const 3)).const_mul (B / 2))
    refine this.congr_deriv ?_
    rw [add_sub_cancel_left]
    norm_num
    field_simp
    ring
  rw [intervalIntegral.integral_eq_sub_of_hasDerivAt hd (Continuous.intervalIntegrable (by fun_prop) _ _)]
  field_simp
  ring

/-- bound of a derivative of the impulse response -/
noncomputable def impulseSize (flt : Filter ℂ) (e : ℕ) (t : ℝ) : ℝ :=
  ∑ k ∈ Finset.range flt.r.length, 2 * ‖flt.r.getD k 0‖ * ‖flt.z.getD k 0‖ ^ e * Real.exp ((flt.z.getD k 0).re * t)

/-- the derivatives of the impulse response -/
noncomputable def impulseD (flt : Filter ℂ) (e : ℕ) (t : ℝ) : ℝ :=
  (∑ k ∈ Finset.range flt.r.length, 2 * flt.r.getD k 0 * flt.z.getD k 0 ^ e * Complex.exp (flt.z.getD k 0 * t)).re

theorem impulseD_zero (flt : Filter ℂ) : impulseD flt 0 = impulse flt := by
  funext t; unfold impulseD impulse; simp

theorem impulseD_deriv (flt : Filter ℂ) (e : ℕ) (t : ℝ) :
    HasDerivAt (impulseD flt e) (impulseD flt (e + 1) t) t := by
  have h : ∀ k ∈ Finset.range flt.r.length, HasDerivAt (fun t : ℝ => 2 * flt.r.getD k 0 * flt.z.getD k 0 ^ e *
      Complex.exp (flt.z.getD k 0 * t)) (2 * flt.r.getD k 0 * flt.z.getD k 0 ^ (e + 1) *
      Complex.exp (flt.z.getD k 0 * t)) t := by
    intro k _
    have h1 : HasDerivAt (fun t : ℝ => flt.z.getD k 0 * (t : ℂ)) (flt.z.getD k 0) t := by
      simpa using (Complex.ofRealCLM.hasDerivAt (x := t)).const_mul (flt.z.getD k 0)
    refine (h1.cexp.const_mul (2 * flt.r.getD k 0 * flt.z.getD k 0 ^ e)).congr_deriv ?_
    ring
  have h2 := HasDerivAt.fun_sum h
  exact Complex.reCLM.hasFDerivAt.comp_hasDerivAt t h2

theorem impulseD_le (flt : Filter ℂ) (e : ℕ) (t : ℝ) : |impulseD flt e t| ≤ impulseSize flt e t := by
  unfold impulseD impulseSize
  refine (Complex.abs_re_le_norm _).trans ((norm_sum_le _ _).trans (le_of_eq (Finset.sum_congr rfl ?_)))
  intro k _
  rw [norm_mul, norm_mul, norm_mul, norm_pow, Complex.norm_two, Complex.norm_exp]
  simp

theorem impulseSize_anti {flt : Filter ℂ} (hz : ∀ k < flt.r.length, (flt.z.getD k 0).re < 0) (e : ℕ) {a t : ℝ}
    (h : a ≤ t) : impulseSize flt e t ≤ impulseSize flt e a := by
  unfold impulseSize
  refine Finset.sum_le_sum fun k hk => mul_le_mul_of_nonneg_left (Real.exp_le_exp.2 ?_) (by positivity)
  have := hz k (Finset.mem_range.1 hk)
  nlinarith

theorem geo_le {a δ : ℝ} (ha : a < 0) (hδ : 0 < δ) (n : ℕ) :
    δ * ∑ j ∈ Finset.range n, Real.exp (a * (j * δ)) ≤ (1 - a * δ) / -a := by
  have hx : 0 < -a * δ := mul_pos (by linarith) hδ
  set ρ := Real.exp (a * δ) with hρ
  have h0 : 0 < ρ := Real.exp_pos _
  have h1 : ρ * (1 - a * δ) ≤ 1 := by
    have h := Real.add_one_le_exp (-(a * δ))
    have e : ρ * Real.exp (-(a * δ)) = 1 := by rw [hρ, ← Real.exp_add]; simp
    have := mul_le_mul_of_nonneg_left h h0.le
    linarith
  have e1 : ∀ j : ℕ, Real.exp (a * (j * δ)) = ρ ^ j := by
    intro j
    rw [hρ, ← Real.exp_nat_mul]; congr 1; ring
  simp only [e1]
  have hs : (∑ j ∈ Finset.range n, ρ ^ j) * (1 - ρ) ≤ 1 := by
    rw [geom_sum_mul_neg]
    have := pow_pos h0 n
    linarith
  have hs0 : 0 ≤ ∑ j ∈ Finset.range n, ρ ^ j := Finset.sum_nonneg fun _ _ => by positivity
  rw [le_div_iff₀ (by linarith : 0 < -a)]
  set s := ∑ j ∈ Finset.range n, ρ ^ j
  -- s (1 - ρ) ≤ 1 and 1 - ρ ≥ x / (1 + x)
  have h2 : -a * δ ≤ (1 - ρ) * (1 - a * δ) := by nlinarith
  have h3 : s * (-a * δ) ≤ s * ((1 - ρ) * (1 - a * δ)) := mul_le_mul_of_nonneg_left h2 hs0
  have h4 : s * (1 - ρ) * (1 - a * δ) ≤ 1 * (1 - a * δ) := mul_le_mul_of_nonneg_right hs (by linarith)
  linarith

theorem area_panels {flt : Filter ℂ} (hz : ∀ k < flt.r.length, (flt.z.getD k 0).re < 0) {δ : ℝ} (hδ : 0 < δ)
    (n : ℕ) : ∫ t in (0 : ℝ)..(n * δ), |impulse flt t| ≤
      δ * (∑ j ∈ Finset.range (n + 1), |impulse flt (j * δ)| - |impulse flt (n * δ)| / 2) +
      δ ^ 3 / 12 * ∑ j ∈ Finset.range n, impulseSize flt 2 (j * δ) := by
  have hc := (impulse_continuous flt).abs
  induction n with
  | zero =>
    simp
    have := mul_nonneg hδ.le (abs_nonneg (impulse flt 0))
    linarith
  | succ n ih =>
    have hp := panel_area (f := impulse flt) (f' := impulseD flt 1) (f'' := impulseD flt 2) (a := n * δ)
      (B := impulseSize flt 2 (n * δ)) (by rw [← impulseD_zero]; exact impulseD_deriv flt 0)
      (impulseD_deriv flt 1) hδ (fun t ht => (impulseD_le flt 2 t).trans (impulseSize_anti hz 2 ht.1))
    have e : ((n + 1 : ℕ) : ℝ) * δ = n * δ + δ := by push_cast; ring
    rw [e, ← intervalIntegral.integral_add_adjacent_intervals (hc.intervalIntegrable 0 (n * δ))
      (hc.intervalIntegrable _ _), Finset.sum_range_succ (n := n + 1), e, Finset.sum_range_succ (n := n)
      (fun j : ℕ => impulseSize flt 2 (j * δ))]
    linarith

theorem impulse_tail {flt : Filter ℂ} (hz : ∀ k < flt.r.length, (flt.z.getD k 0).re < 0) (T : ℝ) :
    ∫ t in Set.Ioi T, |impulse flt t| ≤
      ∑ k ∈ Finset.range flt.r.length, 2 * ‖flt.r.getD k 0‖ * (Real.exp ((flt.z.getD k 0).re * T) / -(flt.z.getD k 0).re) := by
  have hi : ∀ k ∈ Finset.range flt.r.length, IntegrableOn (fun t : ℝ => 2 * ‖flt.r.getD k 0‖ * ‖flt.z.getD k 0‖ ^ 0 *
      Real.exp ((flt.z.getD k 0).re * t)) (Set.Ioi T) := fun k hk =>
    (integrableOn_exp_mul_Ioi (hz k (Finset.mem_range.1 hk)) T).const_mul _
  have h1 : ∫ t in Set.Ioi T, |impulse flt t| ≤ ∫ t in Set.Ioi T, impulseSize flt 0 t := by
    refine setIntegral_mono (impulse_integrable hz T).abs ?_ fun t => ?_
    · exact integrable_finset_sum _ hi
    · rw [← impulseD_zero]; exact impulseD_le flt 0 t
  refine h1.trans (le_of_eq ?_)
  unfold impulseSize
  rw [integral_finset_sum _ hi]
  refine Finset.sum_congr rfl fun k hk => ?_
  rw [integral_const_mul, integral_exp_mul_Ioi (hz k (Finset.mem_range.1 hk))]
  rw [pow_zero, mul_one, div_neg, neg_div]

/-- Trapezoids, their error and the tail. -/
theorem peak_panels {flt : Filter ℂ} (hz : ∀ k < flt.r.length, (flt.z.getD k 0).re < 0) {δ : ℝ} (hδ : 0 < δ)
    (n : ℕ) : peakGain flt ≤ δ * ∑ j ∈ Finset.range (n + 1), |impulse flt (j * δ)| +
      ∑ k ∈ Finset.range flt.r.length, 2 * ‖flt.r.getD k 0‖ / -(flt.z.getD k 0).re *
        (‖flt.z.getD k 0‖ ^ 2 * (1 - (flt.z.getD k 0).re * δ) * (δ ^ 2 / 12) +
          Real.exp ((flt.z.getD k 0).re * (n * δ))) := by
  unfold peakGain
  have hT : 0 ≤ n * δ := by positivity
  rw [← intervalIntegral.integral_interval_add_Ioi (b := n * δ) (impulse_integrable hz 0).abs
    (impulse_integrable hz _).abs]
  have h1 := area_panels hz hδ n
  have h2 := impulse_tail hz (n * δ)
  have h3 : δ ^ 3 / 12 * ∑ j ∈ Finset.range n, impulseSize flt 2 (j * δ) ≤
      ∑ k ∈ Finset.range flt.r.length, 2 * ‖flt.r.getD k 0‖ / -(flt.z.getD k 0).re *
        (‖flt.z.getD k 0‖ ^ 2 * (1 - (flt.z.getD k 0).re * δ) * (δ ^ 2 / 12)) := by
    unfold impulseSize
    rw [Finset.sum_comm, Finset.mul_sum]
    refine Finset.sum_le_sum fun k hk => ?_
    rw [← Finset.mul_sum]
    have hg := geo_le (hz k (Finset.mem_range.1 hk)) hδ n
    have := mul_le_mul_of_nonneg_left hg (by positivity : 0 ≤ δ ^ 2 / 12 * (2 * ‖flt.r.getD k 0‖ * ‖flt.z.getD k 0‖ ^ 2))
    refine le_trans (le_of_eq ?_) (this.trans (le_of_eq ?_))
    · ring
    · ring
  have h4 := mul_nonneg hδ.le (abs_nonneg (impulse flt (n * δ)))
  have e : ∑ k ∈ Finset.range flt.r.length, 2 * ‖flt.r.getD k 0‖ / -(flt.z.getD k 0).re *
        (‖flt.z.getD k 0‖ ^ 2 * (1 - (flt.z.getD k 0).re * δ) * (δ ^ 2 / 12) +
          Real.exp ((flt.z.getD k 0).re * (n * δ))) =
      ∑ k ∈ Finset.range flt.r.length, 2 * ‖flt.r.getD k 0‖ / -(flt.z.getD k 0).re *
        (‖flt.z.getD k 0‖ ^ 2 * (1 - (flt.z.getD k 0).re * δ) * (δ ^ 2 / 12)) +
      ∑ k ∈ Finset.range flt.r.length, 2 * ‖flt.r.getD k 0‖ * (Real.exp ((flt.z.getD k 0).re * (n * δ)) / -(flt.z.getD k 0).re) := by
    rw [← Finset.sum_add_distrib]
    refine Finset.sum_congr rfl fun k _ => by ring
  rw [e]
  linarith

end Adwt
