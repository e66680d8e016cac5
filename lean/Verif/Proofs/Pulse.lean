import Verif.Spec.Pulse
import Verif.Props.Passband
import Verif.Props.Dft
import Mathlib.NumberTheory.ZetaValues

/-!
# The discrete spectrum of the samples of a periodic function
-/

set_option linter.unusedSectionVars false

namespace Adwt
open Classical

/-- The mean of the powers of a root of unity. -/
theorem mean_powers {q : ℂ} {P : ℕ} (hP : 0 < P) (hq : q ^ P = 1) :
    (∑ n ∈ Finset.range P, q ^ n) / P = if q = 1 then 1 else 0 := by
  have : (P : ℂ) ≠ 0 := by exact_mod_cast hP.ne'
  split
  · next h => subst h; simp [this]
  · next h => rw [geom_sum_eq h, hq]; simp

theorem turn_eq_one (y : ℝ) : Complex.exp (2 * Real.pi * Complex.I * y) = 1 ↔ ∃ m : ℤ, y = m := by
  rw [Complex.exp_eq_one_iff]
  have h : (2 * Real.pi * Complex.I : ℂ) ≠ 0 := Complex.two_pi_I_ne_zero
  constructor
  · rintro ⟨n, hn⟩
    refine ⟨n, ?_⟩
    have : (y : ℂ) = n := mul_left_cancel₀ h (by rw [hn]; ring)
    exact_mod_cast this
  · rintro ⟨n, rfl⟩
    exact ⟨n, by push_cast; ring⟩

/-- Sampling folds the components of a periodic function: the frequency `f` gets those components `k`
for which `k d - f` is an integer. -/
theorem fold_hasSum {c : ℤ → ℂ} {T : ℝ → ℝ}
    (h : ∀ x : ℝ, HasSum (fun k : ℤ => c k * Complex.exp (2 * Real.pi * Complex.I * k * x)) (T x : ℂ))
    {P : ℕ} (hP : 0 < P) {d f : ℝ} {a b : ℤ} (hd : P * d = a) (hf : P * f = b) (x : ℝ) :
    HasSum (fun k : ℤ => c k * Complex.exp (2 * Real.pi * Complex.I * k * x) *
        (if ∃ m : ℤ, k * d - f = m then 1 else 0))
      ((∑ n ∈ Finset.range P, (T (x + n * d) : ℂ) *
        Complex.exp (-(2 * Real.pi * Complex.I * f * n))) / P) := by
  have h1 : ∀ n ∈ Finset.range P, HasSum (fun k : ℤ =>
      c k * Complex.exp (2 * Real.pi * Complex.I * k * (x + n * d : ℝ)) *
        Complex.exp (-(2 * Real.pi * Complex.I * f * n)))
      ((T (x + n * d) : ℂ) * Complex.exp (-(2 * Real.pi * Complex.I * f * n))) :=
    fun n _ => (h (x + n * d)).mul_right _
  have h2 := (hasSum_sum h1).div_const (P : ℂ)
  suffices key : ∀ k : ℤ, c k * Complex.exp (2 * Real.pi * Complex.I * k * x) *
        (if ∃ m : ℤ, k * d - f = m then 1 else 0) = (∑ n ∈ Finset.range P,
          c k * Complex.exp (2 * Real.pi * Complex.I * k * (x + n * d : ℝ)) *
            Complex.exp (-(2 * Real.pi * Complex.I * f * n))) / P by
    rw [funext key]
    exact h2
  intro k
  have e : ∀ n : ℕ, c k * Complex.exp (2 * Real.pi * Complex.I * k * (x + n * d : ℝ)) *
      Complex.exp (-(2 * Real.pi * Complex.I * f * n)) =
      c k * Complex.exp (2 * Real.pi * Complex.I * k * x) *
        Complex.exp (2 * Real.pi * Complex.I * (k * d - f : ℝ)) ^ n := by
    intro n
    rw [mul_assoc (c k), mul_assoc (c k), ← Complex.exp_add, ← Complex.exp_nat_mul, ← Complex.exp_add]
    congr 2
    push_cast; ring
  simp only [e]
  rw [← Finset.mul_sum, mul_div_assoc, mean_powers hP]
  · simp only [turn_eq_one]
  · rw [← Complex.exp_nat_mul]
    have : (P : ℂ) * (2 * Real.pi * Complex.I * (k * d - f : ℝ)) =
        2 * Real.pi * Complex.I * ((P * (k * d - f) : ℝ) : ℂ) := by push_cast; ring
    rw [this, turn_eq_one]
    exact ⟨k * a - b, by push_cast; rw [← hd, ← hf]; ring⟩

/-- The sum of the inverse squares of the integers other than 0. -/
theorem inverse_squares : HasSum (fun j : ℤ => 1 / (j : ℝ) ^ 2) (Real.pi ^ 2 / 3) := by
  have h := hasSum_zeta_two
  have := HasSum.of_nat_of_neg (f := fun j : ℤ => 1 / (j : ℝ) ^ 2) (g := Real.pi ^ 2 / 6)
    (g' := Real.pi ^ 2 / 6) (by simpa using h) (by simpa using h)
  have e : Real.pi ^ 2 / 3 = Real.pi ^ 2 / 6 + Real.pi ^ 2 / 6 - 1 / ((0 : ℤ) : ℝ) ^ 2 := by
    norm_num
    ring
  rw [e]
  exact this

/-- The level of a frequency is that of one component `k`, up to a bound on the components that are a
multiple of `M` away. -/
theorem fold_near {c : ℤ → ℂ} {T : ℝ → ℝ}
    (h : ∀ x : ℝ, HasSum (fun k : ℤ => c k * Complex.exp (2 * Real.pi * Complex.I * k * x)) (T x : ℂ))
    {P : ℕ} (hP : 0 < P) {d f : ℝ} {a b : ℤ} (hd : P * d = a) (hf : P * f = b) (x : ℝ) {k M : ℤ}
    (hM : M ≠ 0) (hk : ∀ l : ℤ, (∃ m : ℤ, l * d - f = m) ↔ M ∣ l - k) {C : ℝ}
    (hC : ∀ j : ℤ, j ≠ 0 → ‖c (k + M * j)‖ ≤ C * (1 / (j : ℝ) ^ 2)) :
    |levelIn P (fun n => T (x + n * d)) f - ‖c k‖| ≤ C * (Real.pi ^ 2 / 3) := by
  have h1 := fold_hasSum h hP hd hf x
  set s := (∑ n ∈ Finset.range P, (T (x + n * d) : ℂ) *
        Complex.exp (-(2 * Real.pi * Complex.I * f * n))) / P with hs
  have hi : Function.Injective fun j : ℤ => k + M * j := fun i j hij => by
    have : M * i = M * j := by simpa using hij
    exact mul_left_cancel₀ hM this
  rw [← hi.hasSum_iff] at h1
  swap
  · intro l hl
    rw [if_neg, mul_zero]
    intro hm
    obtain ⟨j, hj⟩ := (hk l).1 hm
    exact hl ⟨j, by simp only; omega⟩
  have h2 : HasSum (fun j : ℤ => if j = 0 then c k * Complex.exp (2 * Real.pi * Complex.I * k * x) else 0)
      (c k * Complex.exp (2 * Real.pi * Complex.I * k * x)) :=
    hasSum_ite_eq 0 _
  have h3 := (h1.sub h2).norm_le_of_bounded (inverse_squares.mul_left C) (fun j => by
    by_cases hj : j = 0
    · subst hj
      have e : ∃ m : ℤ, (k : ℝ) * d - f = m := (hk k).2 (by simp)
      simp [e]
    · have e : ∃ m : ℤ, ((k + M * j : ℤ) : ℝ) * d - f = m := (hk (k + M * j)).2 (by simp)
      simp only [Function.comp, if_neg hj, sub_zero, if_pos e, mul_one, norm_mul]
      have : ‖Complex.exp (2 * Real.pi * Complex.I * ((k + M * j : ℤ) : ℂ) * x)‖ = 1 := by
        rw [show (2 * Real.pi * Complex.I * ((k + M * j : ℤ) : ℂ) * x : ℂ) =
          ((2 * Real.pi * ((k + M * j : ℤ) : ℝ) * x : ℝ) : ℂ) * Complex.I by push_cast; ring,
          Complex.norm_exp_ofReal_mul_I]
      rw [this, mul_one]
      exact hC j hj)
  have e1 : ‖c k * Complex.exp (2 * Real.pi * Complex.I * k * x)‖ = ‖c k‖ := by
    rw [norm_mul, show (2 * Real.pi * Complex.I * k * x : ℂ) =
      ((2 * Real.pi * (k : ℝ) * x : ℝ) : ℂ) * Complex.I by push_cast; ring,
      Complex.norm_exp_ofReal_mul_I, mul_one]
  have e2 : levelIn P (fun n => T (x + n * d)) f = ‖s‖ := rfl
  rw [e2, ← e1]
  exact (abs_norm_sub_norm_le _ _).trans h3

theorem levelIn_near {P : ℕ} (hP : 0 < P) {y z : ℕ → ℝ} {ε : ℝ} (h : ∀ n < P, |y n - z n| ≤ ε) (f : ℝ) :
    |levelIn P y f - levelIn P z f| ≤ ε := by
  unfold levelIn
  refine (abs_norm_sub_norm_le _ _).trans ?_
  have hP' : (0 : ℝ) < P := by exact_mod_cast hP
  rw [← sub_div, ← Finset.sum_sub_distrib, norm_div, Complex.norm_natCast, div_le_iff₀ hP']
  refine (norm_sum_le _ _).trans ?_
  have : ∀ n ∈ Finset.range P, ‖(y n : ℂ) * Complex.exp (-(2 * Real.pi * Complex.I * f * n)) -
      (z n : ℂ) * Complex.exp (-(2 * Real.pi * Complex.I * f * n))‖ ≤ ε := by
    intro n hn
    rw [← sub_mul, norm_mul, show (-(2 * Real.pi * Complex.I * f * n) : ℂ) =
      ((-(2 * Real.pi * f * n) : ℝ) : ℂ) * Complex.I by push_cast; ring,
      Complex.norm_exp_ofReal_mul_I, mul_one, ← Complex.ofReal_sub, Complex.norm_real]
    exact h n (Finset.mem_range.1 hn)
  refine (Finset.sum_le_sum this).trans ?_
  simp [mul_comm]

end Adwt
