import Verif.Spec.Lines
import Verif.Proofs.Pulse
import Mathlib.Analysis.Normed.Group.Tannery
import Mathlib.Analysis.Asymptotics.Lemmas

/-!
# Averages of almost periodic sequences
-/

set_option linter.unusedSectionVars false

namespace Adwt
open Classical _root_.Filter

/-- the mean of a rotation -/
theorem mean_rotation {q : ℂ} (hq : ‖q‖ = 1) :
    Tendsto (fun N : ℕ => (∑ n ∈ Finset.range N, q ^ n) / N) atTop (nhds (if q = 1 then 1 else 0)) := by
  split
  · next h =>
    refine tendsto_const_nhds.congr' ?_
    filter_upwards [eventually_gt_atTop 0] with N hN
    have : (N : ℂ) ≠ 0 := by exact_mod_cast hN.ne'
    simp [h, this]
  · next h =>
    have hz : Tendsto (fun N : ℕ => (2 / ‖q - 1‖) / (N : ℝ)) atTop (nhds 0) :=
      tendsto_const_div_atTop_nhds_zero_nat _
    refine squeeze_zero_norm (fun N => ?_) hz
    rw [geom_sum_eq h, norm_div, norm_div, Complex.norm_natCast]
    gcongr
    calc ‖q ^ N - 1‖ ≤ ‖q ^ N‖ + ‖(1 : ℂ)‖ := norm_sub_le _ _
      _ = 2 := by rw [norm_pow, hq, one_pow, norm_one]; norm_num

theorem norm_turn (y : ℝ) : ‖Complex.exp (2 * Real.pi * Complex.I * y)‖ = 1 := by
  rw [show (2 * Real.pi * Complex.I * y : ℂ) = ((2 * Real.pi * y : ℝ) : ℂ) * Complex.I by push_cast; ring]
  exact Complex.norm_exp_ofReal_mul_I _

/-- the mean of a sum of oscillations is the sum of those that stand still -/
theorem mean_tsum {a : ℤ → ℂ} (ha : Summable fun k => ‖a k‖) (θ : ℤ → ℝ) :
    Tendsto (fun N : ℕ => (∑ n ∈ Finset.range N,
      ∑' k : ℤ, a k * Complex.exp (2 * Real.pi * Complex.I * θ k) ^ n) / N) atTop
      (nhds (∑' k : ℤ, a k * if ∃ m : ℤ, θ k = m then 1 else 0)) := by
  set q : ℤ → ℂ := fun k => Complex.exp (2 * Real.pi * Complex.I * θ k) with hqd
  have hq : ∀ k, ‖q k‖ = 1 := fun k => norm_turn _
  have hs : ∀ n : ℕ, Summable fun k => a k * q k ^ n := fun n =>
    Summable.of_norm (ha.congr fun k => by rw [norm_mul, norm_pow, hq, one_pow, mul_one])
  have e : ∀ N : ℕ, (∑ n ∈ Finset.range N, ∑' k : ℤ, a k * q k ^ n) / N =
      ∑' k : ℤ, a k * ((∑ n ∈ Finset.range N, q k ^ n) / N) := by
    intro N
    rw [← Summable.tsum_finsetSum fun n _ => hs n, ← tsum_div_const]
    refine tsum_congr fun k => ?_
    rw [← Finset.mul_sum, mul_div_assoc]
  refine Tendsto.congr (fun N => (e N).symm) ?_
  refine tendsto_tsum_of_dominated_convergence (bound := fun k => ‖a k‖) ha (fun k => ?_) ?_
  · have h := (mean_rotation (hq k)).const_mul (a k)
    simp only [hqd, turn_eq_one] at h ⊢
    exact h
  · refine Eventually.of_forall fun N k => ?_
    rw [norm_mul]
    refine mul_le_of_le_one_right (norm_nonneg _) ?_
    rw [norm_div, Complex.norm_natCast]
    refine div_le_one_of_le₀ ?_ (Nat.cast_nonneg _)
    refine (norm_sum_le _ _).trans ?_
    simp [norm_pow, hq]

/-- what tends to zero has no component -/
theorem Component.of_tendsto {y z : ℕ → ℝ} {f : ℝ} {a : ℂ} (h : Component y f a)
    (hz : Tendsto (fun n => z n - y n) atTop (nhds 0)) : Component z f a := by
  have h0 : Tendsto (fun n : ℕ => ((z n - y n : ℝ) : ℂ) * Complex.exp (-(2 * Real.pi * Complex.I * f * n)))
      atTop (nhds 0) := by
    refine squeeze_zero_norm (a := fun n => |z n - y n|) (fun n => ?_) (by simpa using hz.abs)
    rw [norm_mul, Complex.norm_real, Real.norm_eq_abs,
      show (-(2 * Real.pi * Complex.I * f * n) : ℂ) = 2 * Real.pi * Complex.I * ((-(f * n) : ℝ) : ℂ) by
        push_cast; ring, norm_turn, mul_one]
  have h1 := h0.cesaro_smul.add h
  rw [zero_add] at h1
  refine Tendsto.congr (fun N => ?_) h1
  rw [Complex.real_smul, Complex.ofReal_inv, Complex.ofReal_natCast, ← div_eq_inv_mul, ← add_div,
    ← Finset.sum_add_distrib]
  congr 1
  refine Finset.sum_congr rfl fun n _ => ?_
  push_cast; ring

/-- a periodic function sampled at constant speed -/
theorem component_sampled {c : ℤ → ℂ} {T : ℝ → ℝ}
    (h : ∀ x : ℝ, HasSum (fun k : ℤ => c k * Complex.exp (2 * Real.pi * Complex.I * k * x)) (T x : ℂ))
    (d f x : ℝ) :
    Summable (fun k => ‖c k‖) ∧ Component (fun n => T (x + n * d)) f
      (∑' k : heardAt d f, c k * Complex.exp (2 * Real.pi * Complex.I * (k : ℤ) * x)) := by
  have hc : Summable fun k => ‖c k‖ := by
    have := (h 0).summable.norm
    refine this.congr fun k => ?_
    simp
  refine ⟨hc, ?_⟩
  have ha : Summable fun k : ℤ => ‖c k * Complex.exp (2 * Real.pi * Complex.I * k * x)‖ := by
    refine hc.congr fun k => ?_
    rw [norm_mul, show (2 * Real.pi * Complex.I * k * x : ℂ) = 2 * Real.pi * Complex.I * ((k * x : ℝ) : ℂ) by
      push_cast; ring, norm_turn, mul_one]
  have key := mean_tsum ha fun k => k * d - f
  have e1 : (∑' k : ℤ, c k * Complex.exp (2 * Real.pi * Complex.I * k * x) *
      if ∃ m : ℤ, (k : ℝ) * d - f = m then 1 else 0) =
      ∑' k : heardAt d f, c k * Complex.exp (2 * Real.pi * Complex.I * (k : ℤ) * x) := by
    rw [tsum_subtype (heardAt d f) fun k : ℤ => c k * Complex.exp (2 * Real.pi * Complex.I * k * x)]
    refine tsum_congr fun k => ?_
    unfold Set.indicator heardAt
    simp only [Set.mem_setOf_eq]
    split <;> simp
  rw [e1] at key
  refine Tendsto.congr (fun N => ?_) key
  congr 1
  refine Finset.sum_congr rfl fun n _ => ?_
  rw [← (h (x + n * d)).tsum_eq, ← tsum_mul_right]
  refine tsum_congr fun k => ?_
  rw [← Complex.exp_nat_mul, mul_assoc (c k), ← Complex.exp_add, mul_assoc (c k), ← Complex.exp_add]
  congr 2
  push_cast; ring

end Adwt
