import Verif.Spec.Latency
import Verif.Spec.Decay
import Verif.Proofs.Headroom

/-!
# Straight stretches of the signal
-/

set_option linter.unusedSectionVars false

namespace Adwt
open MeasureTheory

/-- the first moment of the impulse response -/
noncomputable def moment (flt : Filter ℂ) : ℝ :=
  (∑ k ∈ Finset.range flt.r.length, 2 * flt.r.getD k 0 / flt.z.getD k 0 ^ 2).re

/-- what is left of a line after `K` samples -/
noncomputable def lineRest (flt : Filter ℂ) (a b K : ℝ) : ℝ :=
  (∑ k ∈ Finset.range flt.r.length, 2 * flt.r.getD k 0 * Complex.exp (flt.z.getD k 0 * K) *
    ((a - b * K) / flt.z.getD k 0 + b / flt.z.getD k 0 ^ 2)).re

theorem straight_integral {flt : Filter ℂ} (hz : ∀ k < flt.r.length, flt.z.getD k 0 ≠ 0) (a b K : ℝ) :
    ∫ s in (0 : ℝ)..K, impulse flt s * (a - b * s) = dcGain flt * a - moment flt * b + lineRest flt a b K := by
  have h : ∀ t ∈ Set.uIcc (0 : ℝ) K, HasDerivAt (fun t : ℝ => lineRest flt a b t) (impulse flt t * (a - b * t)) t := by
    intro t _
    have h1 : ∀ k ∈ Finset.range flt.r.length, HasDerivAt (fun t : ℝ => 2 * flt.r.getD k 0 *
        Complex.exp (flt.z.getD k 0 * t) * ((a - b * t) / flt.z.getD k 0 + b / flt.z.getD k 0 ^ 2))
        (2 * flt.r.getD k 0 * Complex.exp (flt.z.getD k 0 * t) * ((a - b * t : ℝ) : ℂ)) t := by
      intro k hk
      have e0 : HasDerivAt (fun t : ℝ => (t : ℂ)) 1 t := Complex.ofRealCLM.hasDerivAt (x := t)
      have e1 : HasDerivAt (fun t : ℝ => flt.z.getD k 0 * (t : ℂ)) (flt.z.getD k 0) t := by
        simpa using e0.const_mul (flt.z.getD k 0)
      have e2 : HasDerivAt (fun t : ℝ => ((a : ℂ) - b * t) / flt.z.getD k 0 + b / flt.z.getD k 0 ^ 2)
          (-(b : ℂ) / flt.z.getD k 0) t := by
        have := (((e0.const_mul (b : ℂ)).const_sub (a : ℂ)).div_const (flt.z.getD k 0)).add_const
          ((b : ℂ) / flt.z.getD k 0 ^ 2)
        simpa using this
      refine ((e1.cexp.const_mul (2 * flt.r.getD k 0)).mul e2).congr_deriv ?_
      have := hz k (Finset.mem_range.1 hk)
      push_cast
      field_simp
      ring
    have h2 := HasDerivAt.fun_sum h1
    have h3 := Complex.reCLM.hasFDerivAt.comp_hasDerivAt t h2
    refine h3.congr_deriv ?_
    rw [Complex.reCLM_apply, ← Finset.sum_mul, Complex.re_mul_ofReal]
    rfl
  have hc := impulse_continuous flt
  rw [intervalIntegral.integral_eq_sub_of_hasDerivAt h (Continuous.intervalIntegrable (by fun_prop) _ _)]
  have e0 : lineRest flt a b 0 = -(dcGain flt * a - moment flt * b) := by
    unfold lineRest dcGain moment
    rw [← Complex.re_mul_ofReal, ← Complex.re_mul_ofReal, ← Complex.sub_re, ← Complex.neg_re]
    congr 1
    rw [Finset.sum_mul, Finset.sum_mul, ← Finset.sum_sub_distrib, ← Finset.sum_neg_distrib]
    refine Finset.sum_congr rfl fun k _ => ?_
    simp only [Complex.ofReal_zero, mul_zero, Complex.exp_zero]
    ring
  rw [e0]; ring

theorem lineRest_le {flt : Filter ℂ} {a b K B B' : ℝ} (ha : |a - b * K| ≤ B) (hb : |b| ≤ B') :
    |lineRest flt a b K| ≤ ∑ k ∈ Finset.range flt.r.length, 2 * ‖flt.r.getD k 0‖ *
      Real.exp ((flt.z.getD k 0).re * K) * (B / ‖flt.z.getD k 0‖ + B' / ‖flt.z.getD k 0‖ ^ 2) := by
  unfold lineRest
  refine (Complex.abs_re_le_norm _).trans ((norm_sum_le _ _).trans (Finset.sum_le_sum fun k _ => ?_))
  rw [norm_mul, norm_mul, norm_mul, Complex.norm_exp]
  have e : (flt.z.getD k 0 * (K : ℂ)).re = (flt.z.getD k 0).re * K := Complex.re_mul_ofReal _ _
  rw [e, Complex.norm_ofNat]
  refine mul_le_mul_of_nonneg_left ?_ (by positivity)
  refine (norm_add_le _ _).trans (add_le_add ?_ ?_)
  · rw [norm_div]
    have : ((a : ℂ) - b * K) = ((a - b * K : ℝ) : ℂ) := by push_cast; rfl
    rw [this, Complex.norm_real, Real.norm_eq_abs]
    gcongr
  · rw [norm_div, norm_pow, Complex.norm_real, Real.norm_eq_abs]
    gcongr

/-! ### the moments as integrals -/

theorem weighted_integrable {flt : Filter ℂ} (hz : ∀ k < flt.r.length, (flt.z.getD k 0).re < 0) (a b : ℝ) :
    IntegrableOn (fun s => impulse flt s * (a - b * s)) (Set.Ioi 0) := by
  have h1 := (impulse_integrable hz 0).mul_const a
  have h2 : IntegrableOn (fun s => impulse flt s * s) (Set.Ioi 0) := by
    have h3 : IntegrableOn (fun s : ℝ => ∑ k ∈ Finset.range flt.r.length,
        2 * ‖flt.r.getD k 0‖ * (2 / -(flt.z.getD k 0).re) * Real.exp ((flt.z.getD k 0).re / 2 * s)) (Set.Ioi 0) :=
      integrable_finset_sum _ fun k hk => (integrableOn_exp_mul_Ioi
        (by have := hz k (Finset.mem_range.1 hk); linarith) 0).const_mul _
    refine Integrable.mono' h3 ?_ ?_
    · have := impulse_continuous flt
      exact (Continuous.aestronglyMeasurable (by fun_prop)).restrict
    · refine (ae_restrict_iff' measurableSet_Ioi).2 (Filter.Eventually.of_forall fun s hs => ?_)
      have hs : 0 < s := hs
      rw [norm_mul, Real.norm_eq_abs, Real.norm_eq_abs, abs_of_pos hs]
      have hb : |impulse flt s| ≤ ∑ k ∈ Finset.range flt.r.length,
          2 * ‖flt.r.getD k 0‖ * Real.exp ((flt.z.getD k 0).re * s) := by
        unfold impulse
        refine (Complex.abs_re_le_norm _).trans ((norm_sum_le _ _).trans (le_of_eq (Finset.sum_congr rfl fun k _ => ?_)))
        rw [norm_mul, norm_mul, Complex.norm_exp, Complex.re_mul_ofReal, Complex.norm_ofNat]
      refine (mul_le_mul_of_nonneg_right hb hs.le).trans ?_
      rw [Finset.sum_mul]
      refine Finset.sum_le_sum fun k hk => ?_
      have hk := hz k (Finset.mem_range.1 hk)
      set σ := -(flt.z.getD k 0).re with hσ
      have hσ0 : 0 < σ := by linarith
      have e1 : (flt.z.getD k 0).re * s = -(σ / 2 * s) + -(σ / 2 * s) := by rw [hσ]; ring
      have e2 : (flt.z.getD k 0).re / 2 * s = -(σ / 2 * s) := by rw [hσ]; ring
      rw [e1, e2, Real.exp_add]
      have h5 : Real.exp (-(σ / 2 * s)) * s ≤ 2 / σ := by
        have : σ / 2 * s ≤ Real.exp (σ / 2 * s) := by have := Real.add_one_le_exp (σ / 2 * s); linarith
        rw [Real.exp_neg, inv_mul_le_iff₀ (Real.exp_pos _)]
        calc s = (σ / 2 * s) * (2 / σ) := by field_simp
          _ ≤ _ := by gcongr
      have := mul_le_mul_of_nonneg_left h5 (by positivity : 0 ≤ 2 * ‖flt.r.getD k 0‖ * Real.exp (-(σ / 2 * s)))
      calc _ = 2 * ‖flt.r.getD k 0‖ * Real.exp (-(σ / 2 * s)) * (Real.exp (-(σ / 2 * s)) * s) := by ring
        _ ≤ _ := this
        _ = _ := by ring
  have := h1.sub (h2.mul_const b)
  refine this.congr (Filter.Eventually.of_forall fun s => ?_)
  simp only [Pi.sub_apply]
  ring

theorem line_moment {flt : Filter ℂ} (hz : ∀ k < flt.r.length, (flt.z.getD k 0).re < 0) (a b : ℝ) :
    ∫ s in Set.Ioi (0 : ℝ), impulse flt s * (a - b * s) = dcGain flt * a - moment flt * b := by
  have hne : ∀ k < flt.r.length, flt.z.getD k 0 ≠ 0 := fun k hk h => by
    have := hz k hk; rw [h] at this; simp at this
  have h1 := intervalIntegral_tendsto_integral_Ioi 0 (weighted_integrable hz a b) Filter.tendsto_id
  have h2 : Filter.Tendsto (fun K : ℝ => ∫ s in (0 : ℝ)..K, impulse flt s * (a - b * s)) Filter.atTop
      (nhds (dcGain flt * a - moment flt * b)) := by
    have : (fun K : ℝ => ∫ s in (0 : ℝ)..K, impulse flt s * (a - b * s)) =
        fun K => dcGain flt * a - moment flt * b + lineRest flt a b K := by
      funext K; exact straight_integral hne a b K
    rw [this]
    have h3 : Filter.Tendsto (fun K => lineRest flt a b K) Filter.atTop (nhds 0) := by
      refine squeeze_zero_norm (fun K => ?_) (a := fun K => ∑ k ∈ Finset.range flt.r.length, 2 * ‖flt.r.getD k 0‖ *
        Real.exp ((flt.z.getD k 0).re * K) * (|a - b * K| / ‖flt.z.getD k 0‖ + |b| / ‖flt.z.getD k 0‖ ^ 2)) ?_
      · exact lineRest_le le_rfl le_rfl
      · have hsum : (0 : ℝ) = ∑ k ∈ Finset.range flt.r.length, (0 : ℝ) := Finset.sum_const_zero.symm
        refine Eq.subst (motive := fun x => Filter.Tendsto _ Filter.atTop (nhds x)) hsum.symm ?_
        refine tendsto_finset_sum _ fun k hk => ?_
        have hk := hz k (Finset.mem_range.1 hk)
        have e1 : Filter.Tendsto (fun K : ℝ => Real.exp ((flt.z.getD k 0).re * K)) Filter.atTop (nhds 0) :=
          Real.tendsto_exp_atBot.comp (Filter.tendsto_id.const_mul_atTop_of_neg hk)
        have e2 : Filter.Tendsto (fun K : ℝ => Real.exp ((flt.z.getD k 0).re * K) * K) Filter.atTop (nhds 0) := by
          have := (tendsto_rpow_mul_exp_neg_mul_atTop_nhds_zero 1 (-(flt.z.getD k 0).re) (by linarith))
          refine this.congr fun K => ?_
          rw [Real.rpow_one, neg_neg, mul_comm]
        have e3 : Filter.Tendsto (fun K : ℝ => Real.exp ((flt.z.getD k 0).re * K) * |a - b * K|) Filter.atTop (nhds 0) := by
          have e4 := ((e1.mul_const a).sub (e2.mul_const b)).abs
          simp only [zero_mul, sub_zero, abs_zero] at e4
          refine e4.congr fun K => ?_
          rw [← abs_of_pos (Real.exp_pos ((flt.z.getD k 0).re * K)), ← abs_mul]
          congr 1
          rw [abs_of_pos (Real.exp_pos _)]
          ring
        have := ((e3.div_const ‖flt.z.getD k 0‖).add (e1.mul_const (|b| / ‖flt.z.getD k 0‖ ^ 2))).const_mul (2 * ‖flt.r.getD k 0‖)
        simp only [zero_div, zero_mul, add_zero, mul_zero] at this
        refine this.congr fun K => ?_
        ring
    simpa using h3.const_add (dcGain flt * a - moment flt * b)
  exact tendsto_nhds_unique h1 h2

theorem gain_integral {flt : Filter ℂ} (hz : ∀ k < flt.r.length, (flt.z.getD k 0).re < 0) :
    ∫ s in Set.Ioi (0 : ℝ), impulse flt s = dcGain flt := by
  have := line_moment hz 1 0
  simpa using this

theorem moment_integral {flt : Filter ℂ} (hz : ∀ k < flt.r.length, (flt.z.getD k 0).re < 0) :
    ∫ s in Set.Ioi (0 : ℝ), s * impulse flt s = moment flt := by
  have := line_moment hz 0 (-1)
  simp only [mul_zero, zero_sub, mul_neg, mul_one, neg_mul, one_mul, neg_neg] at this
  rw [← this]
  congr 1; funext s; ring

theorem latency_eq {flt : Filter ℂ} (hz : ∀ k < flt.r.length, (flt.z.getD k 0).re < 0) :
    latency flt = moment flt / dcGain flt := by
  unfold latency
  rw [gain_integral hz, moment_integral hz]

/-! ### the response to a signal that has been straight for a while -/

theorem signal_integrable {V : ℝ → ℝ} {g : ℕ → ℝ → ℝ} {m : ℕ} (hg : ∀ n < m, Continuous (g n))
    (hV : ∀ n < m, ∀ u : ℝ, (n : ℝ) ≤ u → u < n + 1 → V u = g n (u - n)) :
    IntervalIntegrable V volume (0 : ℝ) m := by
  have := IntervalIntegrable.trans_iterate (f := fun u : ℝ => Complex.exp (0 * (0 - u)) * (V u : ℂ))
      (μ := volume) (a := fun k : ℕ => (k : ℝ)) (n := m)
      (fun k hk => (piece_integral hg hV 0 hk 0).1)
  simp only [zero_mul, Complex.exp_zero, one_mul, Nat.cast_zero] at this
  have h := this.1.re
  have h' := this.2.re
  exact ⟨h, h'⟩

theorem filtered_line {flt : Filter ℂ} (hz : ∀ k < flt.r.length, (flt.z.getD k 0).re < 0)
    {V : ℝ → ℝ} {g : ℕ → ℝ → ℝ} {m K : ℕ} (hg : ∀ n < m, Continuous (g n))
    (hV : ∀ n < m, ∀ u : ℝ, (n : ℝ) ≤ u → u < n + 1 → V u = g n (u - n)) {A δ a b : ℝ} (hA : 0 ≤ A) (hδ : 0 ≤ δ)
    (h : ∀ u : ℝ, 0 ≤ u → u < m → |V u| ≤ A) (hK0 : 0 < K) (hK : K ≤ m)
    (hl : ∀ u : ℝ, (m : ℝ) - K ≤ u → u < m → |V u - line a b m u| ≤ δ) :
    |filtered flt V m - (dcGain flt * a - moment flt * b)| ≤ peakGain flt * δ +
      ∑ k ∈ Finset.range flt.r.length, 2 * ‖flt.r.getD k 0‖ * Real.exp ((flt.z.getD k 0).re * K) *
        (A / -(flt.z.getD k 0).re + ((A + δ) / ‖flt.z.getD k 0‖ + 4 * (A + δ) / K / ‖flt.z.getD k 0‖ ^ 2)) := by
  have hne : ∀ k < flt.r.length, flt.z.getD k 0 ≠ 0 := fun k hk h => by
    have := hz k hk; rw [h] at this; simp at this
  have hc := impulse_continuous flt
  have hKm : (K : ℝ) ≤ m := by exact_mod_cast hK
  have hKp : (0 : ℝ) < K := by exact_mod_cast hK0
  have hVi := signal_integrable hg hV
  have hi : IntervalIntegrable (fun u => impulse flt (m - u) * V u) volume (0 : ℝ) m :=
    hVi.continuousOn_mul (Continuous.continuousOn (by fun_prop))
  have hsub1 : Set.uIcc (0 : ℝ) (m - K) ⊆ Set.uIcc (0 : ℝ) m := by
    rw [Set.uIcc_of_le (by linarith), Set.uIcc_of_le (by linarith)]
    exact Set.Icc_subset_Icc le_rfl (by linarith)
  have hsub2 : Set.uIcc ((m : ℝ) - K) m ⊆ Set.uIcc (0 : ℝ) m := by
    rw [Set.uIcc_of_le (by linarith), Set.uIcc_of_le (by linarith)]
    exact Set.Icc_subset_Icc (by linarith) le_rfl
  have hi1 := hi.mono_set hsub1
  have hi2 := hi.mono_set hsub2
  have hil : IntervalIntegrable (fun u => impulse flt (m - u) * line a b m u) volume ((m : ℝ) - K) m := by
    unfold line
    exact Continuous.intervalIntegrable (by fun_prop) _ _
  rw [filtered_impulse hg hV, ← intervalIntegral.integral_add_adjacent_intervals hi1 hi2]
  have e1 : ∫ u in ((m : ℝ) - K)..m, impulse flt (m - u) * line a b m u =
      dcGain flt * a - moment flt * b + lineRest flt a b K := by
    rw [← straight_integral hne a b K]
    have := intervalIntegral.integral_comp_sub_left (a := (m : ℝ) - K) (b := m)
      (fun s => impulse flt s * (a - b * s)) (m : ℝ)
    rw [sub_self, sub_sub_cancel] at this
    rw [← this]
    congr 1; funext u
    unfold line; ring
  have e2 : ∫ u in ((m : ℝ) - K)..m, impulse flt (m - u) * V u =
      (∫ u in ((m : ℝ) - K)..m, impulse flt (m - u) * (V u - line a b m u)) +
        (dcGain flt * a - moment flt * b + lineRest flt a b K) := by
    rw [← e1, ← intervalIntegral.integral_add ((hi2.sub hil).congr (fun u _ => by ring)) hil]
    congr 1; funext u; ring
  have b1 : |∫ u in (0 : ℝ)..((m : ℝ) - K), impulse flt (m - u) * V u| ≤
      (∑ k ∈ Finset.range flt.r.length, 2 * ‖flt.r.getD k 0‖ * (Real.exp ((flt.z.getD k 0).re * K) / -(flt.z.getD k 0).re)) * A := by
    have : ‖∫ u in (0 : ℝ)..((m : ℝ) - K), impulse flt (m - u) * V u‖ ≤
        ∫ u in (0 : ℝ)..((m : ℝ) - K), |impulse flt (m - u)| * A := by
      apply intervalIntegral.norm_integral_le_of_norm_le (by linarith)
      · refine Filter.Eventually.of_forall fun u hu => ?_
        rw [Real.norm_eq_abs, abs_mul]
        refine mul_le_mul_of_nonneg_left (h u hu.1.le (by linarith [hu.2])) (abs_nonneg _)
      · exact Continuous.intervalIntegrable (by fun_prop) _ _
    rw [intervalIntegral.integral_mul_const, Real.norm_eq_abs,
      intervalIntegral.integral_comp_sub_left (fun u => |impulse flt u|) (m : ℝ), sub_zero, sub_sub_cancel] at this
    refine this.trans (mul_le_mul_of_nonneg_right ?_ hA)
    refine le_trans ?_ (impulse_tail hz K)
    rw [intervalIntegral.integral_of_le hKm]
    exact setIntegral_mono_set (impulse_integrable hz _).abs (Filter.Eventually.of_forall fun _ => abs_nonneg _)
      (Set.Ioc_subset_Ioi_self).eventuallyLE
  have b2 : |∫ u in ((m : ℝ) - K)..m, impulse flt (m - u) * (V u - line a b m u)| ≤ peakGain flt * δ := by
    have : ‖∫ u in ((m : ℝ) - K)..m, impulse flt (m - u) * (V u - line a b m u)‖ ≤
        ∫ u in ((m : ℝ) - K)..m, |impulse flt (m - u)| * δ := by
      apply intervalIntegral.norm_integral_le_of_norm_le (by linarith)
      · have hne : ∀ᵐ u : ℝ, u ≠ m := by
          rw [ae_iff]; simp
        filter_upwards [hne] with u hu' hu
        rw [Real.norm_eq_abs, abs_mul]
        exact mul_le_mul_of_nonneg_left (hl u hu.1.le (lt_of_le_of_ne hu.2 hu')) (abs_nonneg _)
      · exact Continuous.intervalIntegrable (by fun_prop) _ _
    rw [intervalIntegral.integral_mul_const, Real.norm_eq_abs,
      intervalIntegral.integral_comp_sub_left (fun u => |impulse flt u|) (m : ℝ), sub_self, sub_sub_cancel] at this
    exact this.trans (mul_le_mul_of_nonneg_right (impulse_area hz hKp.le) hδ)
  have p1 : |a - b * K| ≤ A + δ := by
    have q1 := hl (m - K) le_rfl (by linarith)
    have q2 := h (m - K) (by linarith) (by linarith)
    have e : a - b * K = V (m - K) - (V (m - K) - line a b m (m - K)) := by unfold line; ring
    rw [e]
    exact (abs_sub _ _).trans (add_le_add q2 q1)
  have p2 : |b| ≤ 4 * (A + δ) / K := by
    have q1 := hl (m - K / 2) (by linarith) (by linarith)
    have q2 := h (m - K / 2) (by linarith) (by linarith)
    have q3 : |a - b * K / 2| ≤ A + δ := by
      have e : a - b * K / 2 = V (m - K / 2) - (V (m - K / 2) - line a b m (m - K / 2)) := by unfold line; ring
      rw [e]
      exact (abs_sub _ _).trans (add_le_add q2 q1)
    rw [le_div_iff₀ hKp]
    have e : b * K = 2 * ((a - b * K / 2) - (a - b * K)) := by ring
    rw [← abs_of_pos hKp, ← abs_mul, e, abs_mul, abs_two]
    have := (abs_sub (a - b * K / 2) (a - b * K)).trans (add_le_add q3 p1)
    linarith
  have b3 := lineRest_le (flt := flt) p1 p2
  rw [e2]
  have e3 : ∑ k ∈ Finset.range flt.r.length, 2 * ‖flt.r.getD k 0‖ * Real.exp ((flt.z.getD k 0).re * K) *
        (A / -(flt.z.getD k 0).re + ((A + δ) / ‖flt.z.getD k 0‖ + 4 * (A + δ) / K / ‖flt.z.getD k 0‖ ^ 2)) =
      (∑ k ∈ Finset.range flt.r.length, 2 * ‖flt.r.getD k 0‖ * (Real.exp ((flt.z.getD k 0).re * K) / -(flt.z.getD k 0).re)) * A +
      ∑ k ∈ Finset.range flt.r.length, 2 * ‖flt.r.getD k 0‖ * Real.exp ((flt.z.getD k 0).re * K) *
        ((A + δ) / ‖flt.z.getD k 0‖ + 4 * (A + δ) / K / ‖flt.z.getD k 0‖ ^ 2) := by
    rw [Finset.sum_mul, ← Finset.sum_add_distrib]
    exact Finset.sum_congr rfl fun k _ => by ring
  rw [e3]
  generalize (∫ u in (0 : ℝ)..((m : ℝ) - K), impulse flt (m - u) * V u) = I1 at *
  generalize (∫ u in ((m : ℝ) - K)..m, impulse flt (m - u) * (V u - line a b m u)) = I2 at *
  have e4 : I1 + (I2 + (dcGain flt * a - moment flt * b + lineRest flt a b K)) - (dcGain flt * a - moment flt * b) =
      I1 + I2 + lineRest flt a b K := by ring
  rw [e4]
  refine (abs_add_le _ _).trans ((add_le_add (abs_add_le _ _) le_rfl).trans ?_)
  linarith

end Adwt
