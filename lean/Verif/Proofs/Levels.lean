import Verif.Proofs.Click
import Verif.Props.TurnOn
import Verif.Props.Latency

set_option linter.unusedSectionVars false

namespace Adwt
open MeasureTheory Adwt.Props

theorem filtered_near_peak {flt : Filter ℂ} (hz : ∀ k < flt.r.length, (flt.z.getD k 0).re < 0)
    {V V' : ℝ → ℝ} {g g' : ℕ → ℝ → ℝ} {m : ℕ} (hg : ∀ n < m, Continuous (g n))
    (hg' : ∀ n < m, Continuous (g' n))
    (hV : ∀ n < m, ∀ u : ℝ, (n : ℝ) ≤ u → u < n + 1 → V u = g n (u - n))
    (hV' : ∀ n < m, ∀ u : ℝ, (n : ℝ) ≤ u → u < n + 1 → V' u = g' n (u - n)) {η : ℝ}
    (h : ∀ n < m, ∀ u : ℝ, (n : ℝ) ≤ u → u < n + 1 → |V u - V' u| ≤ η) (hη : 0 ≤ η) :
    |filtered flt V m - filtered flt V' m| ≤ peakGain flt * η := by
  have hi : ∀ {V : ℝ → ℝ} {g : ℕ → ℝ → ℝ} (_ : ∀ n < m, Continuous (g n))
      (_ : ∀ n < m, ∀ u : ℝ, (n : ℝ) ≤ u → u < n + 1 → V u = g n (u - n)),
      IntervalIntegrable (fun u => impulse flt (m - u) * V u) volume (0 : ℝ) m := fun hg hV =>
    (signal_integrable hg hV).continuousOn_mul
      (((impulse_continuous flt).comp (by fun_prop)).continuousOn)
  have key := filtered_peak hz (V := fun u => V u - V' u) (g := fun n τ => g n τ - g' n τ) (m := m)
    (fun n hn => (hg n hn).sub (hg' n hn)) (fun n hn u h0 h1 => by rw [hV n hn u h0 h1, hV' n hn u h0 h1]) h hη
  rw [filtered_impulse (g := fun n τ => g n τ - g' n τ) (fun n hn => (hg n hn).sub (hg' n hn))
    (fun n hn u h0 h1 => by rw [hV n hn u h0 h1, hV' n hn u h0 h1])] at key
  rw [filtered_impulse hg hV, filtered_impulse hg' hV', ← intervalIntegral.integral_sub (hi hg hV) (hi hg' hV')]
  refine le_trans (le_of_eq ?_) key
  congr 1
  exact intervalIntegral.integral_congr fun u _ => by ring

/-- the response to a signal that is constant during every sample -/
theorem filtered_levels (flt : Filter ℂ) (c : ℕ → ℝ) (m : ℕ) :
    filtered flt (fun u => c ⌊u⌋₊) m =
      ∑ i ∈ Finset.range m, c i * (stepResponse flt (m - i) - stepResponse flt (m - (i + 1))) := by
  have hV : ∀ n < m, ∀ u : ℝ, (n : ℝ) ≤ u → u < n + 1 → c ⌊u⌋₊ = c n := fun n _ u h0 h1 => by
    rw [floor_mid h0 h1]
  have hc : Continuous fun u : ℝ => impulse flt (m - u) := (impulse_continuous flt).comp (by fun_prop)
  rw [filtered_impulse (g := fun n _ => c n) (fun _ _ => continuous_const) hV]
  have hi : ∀ k < m, IntervalIntegrable (fun u : ℝ => impulse flt (m - u) * c ⌊u⌋₊) volume ((k : ℕ) : ℝ) ((k + 1 : ℕ) : ℝ) := by
    intro k hk
    refine (hc.mul continuous_const).intervalIntegrable (u := fun u : ℝ => impulse flt (m - u) * c k) _ _ |>.congr_ae ?_
    rw [Set.uIoc_of_le (by push_cast; linarith)]
    have hne : ∀ᵐ u : ℝ, u ≠ ((k + 1 : ℕ) : ℝ) := by
      rw [ae_iff]; simp
    refine (ae_restrict_iff' measurableSet_Ioc).2 ?_
    filter_upwards [hne] with u hu' hu
    have : u < k + 1 := lt_of_le_of_ne (by have := hu.2; push_cast at this; exact this) (by push_cast at hu'; exact hu')
    rw [hV k hk u hu.1.le this]
  have hs := intervalIntegral.sum_integral_adjacent_intervals (μ := volume)
    (f := fun u : ℝ => impulse flt (m - u) * c ⌊u⌋₊) (a := fun k : ℕ => (k : ℝ)) (n := m) hi
  rw [Nat.cast_zero] at hs
  rw [← hs]
  refine Finset.sum_congr rfl fun k hk => ?_
  have hk := Finset.mem_range.1 hk
  have e : ∫ u in (k : ℝ)..((k + 1 : ℕ) : ℝ), impulse flt (m - u) * c ⌊u⌋₊ =
      ∫ u in (k : ℝ)..((k + 1 : ℕ) : ℝ), impulse flt (m - u) * c k := by
    refine intervalIntegral.integral_congr_ae ?_
    rw [Set.uIoc_of_le (by push_cast; linarith)]
    have hne : ∀ᵐ u : ℝ, u ≠ ((k + 1 : ℕ) : ℝ) := by
      rw [ae_iff]; simp
    filter_upwards [hne] with u hu' hu
    have : u < k + 1 := lt_of_le_of_ne (by have := hu.2; push_cast at this; exact this) (by push_cast at hu'; exact hu')
    rw [hV k hk u hu.1.le this]
  rw [e, intervalIntegral.integral_mul_const, intervalIntegral.integral_comp_sub_left (fun t => impulse flt t), mul_comm]
  congr 1
  unfold stepResponse
  rw [intervalIntegral.integral_interval_sub_left ((impulse_continuous flt).intervalIntegrable _ _)
    ((impulse_continuous flt).intervalIntegrable _ _)]
  push_cast
  rfl

end Adwt
