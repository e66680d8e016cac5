import Verif.Proofs.Latency
import Verif.Proofs.TurnOnNum
import Verif.Props.Decay

/-!
# The latencies of the built-in filters
-/

set_option linter.unusedSectionVars false

namespace Adwt.Props
open Fixed MeasureTheory

theorem filterX_re (t : FilterType) : ∀ k < (filterX t).r.length, ((filterX t).z.getD k 0).re < 0 := by
  intro k hk
  have hc : clit 0 = 0 := by unfold clit; apply Complex.ext <;> simp
  have hlen : (filterX t).r.length = (rLit t).length := by simp [filterX]
  have e2 : (filterX t).z.getD k 0 = clit ((zLit t).getD k 0) := by
    rw [← hc]; unfold filterX; rw [List.getD_map]
  have hneg : ∀ k < (rLit t).length, ((zLit t).getD k 0).1 < 0 := by cases t <;> decide +kernel
  rw [hlen] at hk
  rw [e2]
  show ((((zLit t).getD k 0).1 : ℚ) : ℝ) < 0
  exact_mod_cast hneg k hk

/-- the first moment, as a rational number -/
def momentQ (t : FilterType) : ℚ :=
  ∑ k ∈ Finset.range (rLit t).length, 2 * (qdiv (qdiv ((rLit t).getD k 0) ((zLit t).getD k 0)) ((zLit t).getD k 0)).1

theorem moment_eq (t : FilterType) : moment (filterX t) = momentQ t := by
  unfold moment momentQ
  rw [Complex.re_sum, Rat.cast_sum]
  have hc : clit 0 = 0 := by unfold clit; apply Complex.ext <;> simp
  have hlen : (filterX t).r.length = (rLit t).length := by simp [filterX]
  rw [hlen]
  apply Finset.sum_congr rfl
  intro k _
  have e1 : (filterX t).r.getD k 0 = qc ((rLit t).getD k 0) := by
    show _ = clit _
    rw [← hc]; unfold filterX; rw [List.getD_map]
  have e2 : (filterX t).z.getD k 0 = qc ((zLit t).getD k 0) := by
    show _ = clit _
    rw [← hc]; unfold filterX; rw [List.getD_map]
  have e : 2 * (filterX t).r.getD k 0 / (filterX t).z.getD k 0 ^ 2 =
      2 * qc (qdiv (qdiv ((rLit t).getD k 0) ((zLit t).getD k 0)) ((zLit t).getD k 0)) := by
    rw [e1, e2, qc_div, qc_div, pow_two, ← div_div, mul_div_assoc, mul_div_assoc]
  rw [e]
  simp [qc]

/-- the gain at frequency 0, as a rational number -/
def gainQ (t : FilterType) : ℚ := ∑ k ∈ Finset.range (rLit t).length, -(2 * ((((rLit t).getD k 0).1 * ((zLit t).getD k 0).1 +
      ((rLit t).getD k 0).2 * ((zLit t).getD k 0).2) /
      (((zLit t).getD k 0).1 * ((zLit t).getD k 0).1 +
        ((zLit t).getD k 0).2 * ((zLit t).getD k 0).2)))

theorem latency_builtin (t : FilterType) : |latency (filterX t) - latencyTable t| ≤ 1e-4 := by
  rw [latency_eq (filterX_re t), moment_eq, gain_eq t (gainQ t) rfl]
  have h : |momentQ t / gainQ t - latencyTable t| ≤ 1e-4 := by cases t <;> decide +kernel
  have := (Rat.cast_le (K := ℝ)).2 h
  push_cast at this
  refine this.trans (le_of_eq (by norm_num))

/-- bounds of the terms of `remembered` for 64 samples -/
def rememberQ (t : FilterType) : ℚ := ∑ k ∈ Finset.range (rLit t).length,
  2 * (rBound t).getD k 0 * (1 / (1 + 4 * -((zLit t).getD k 0).1 + (4 * -((zLit t).getD k 0).1) ^ 2 / 2)) ^ 16 *
    (1 / -((zLit t).getD k 0).1 + 1 / -((zLit t).getD k 0).1 + 4 / 64 / (-((zLit t).getD k 0).1) ^ 2)

theorem remembered_builtin (t : FilterType) : remembered (filterX t) 64 ≤ 1e-6 := by
  have hc : clit 0 = 0 := by unfold clit; apply Complex.ext <;> simp
  have hlen : (filterX t).r.length = (rLit t).length := by simp [filterX]
  have e1 : ∀ k, (filterX t).r.getD k 0 = clit ((rLit t).getD k 0) := by
    intro k; rw [← hc]; unfold filterX; rw [List.getD_map]
  have e2 : ∀ k, (filterX t).z.getD k 0 = clit ((zLit t).getD k 0) := by
    intro k; rw [← hc]; unfold filterX; rw [List.getD_map]
  have hre : ∀ k, ((filterX t).z.getD k 0).re = ((((zLit t).getD k 0).1 : ℚ) : ℝ) := by
    intro k; rw [e2]; rfl
  have hq : ∀ k < (rLit t).length, 0 ≤ (rBound t).getD k 0 ∧
      ((rLit t).getD k 0).1 * ((rLit t).getD k 0).1 + ((rLit t).getD k 0).2 * ((rLit t).getD k 0).2 ≤
        (rBound t).getD k 0 * (rBound t).getD k 0 := by cases t <;> decide +kernel
  have h : rememberQ t ≤ 1e-6 := by cases t <;> decide +kernel
  have h' := (Rat.cast_le (K := ℝ)).2 h
  refine le_trans ?_ (h'.trans (le_of_eq (by norm_num)))
  unfold remembered rememberQ
  rw [hlen, Rat.cast_sum]
  refine Finset.sum_le_sum fun k hk => ?_
  have hk := Finset.mem_range.1 hk
  have a1 := clit_norm (hq k hk).1 (hq k hk).2
  have hn := filterX_re t k (by rw [hlen]; exact hk)
  have a2 : -((filterX t).z.getD k 0).re ≤ ‖(filterX t).z.getD k 0‖ := by
    have := Complex.abs_re_le_norm ((filterX t).z.getD k 0)
    rw [abs_of_neg hn] at this
    exact this
  rw [hre] at hn a2 ⊢
  rw [e1]
  push_cast
  set σ : ℝ := -((((zLit t).getD k 0).1 : ℚ) : ℝ) with hσ
  have hσ0 : 0 < σ := by linarith
  have a4 : ((((zLit t).getD k 0).1 : ℚ) : ℝ) = -σ := by rw [hσ, neg_neg]
  have a6 : (0 : ℝ) ≤ ((rBound t).getD k 0 : ℚ) := by exact_mod_cast (hq k hk).1
  have a5 := exp16 (x := 4 * σ) (by positivity)
  rw [a4, show -σ * 64 = -(16 * (4 * σ)) by ring]
  gcongr

end Adwt.Props
