import Verif.Proofs.SilenceFloat
import Mathlib.Analysis.Real.Pi.Bounds

/-!
# The sizes of the poles
-/

set_option linter.unusedSectionVars false

namespace Adwt
variable {rnd : ℝ → ℝ} [GoodRnd rnd]

theorem exp_neg_le {x b : ℝ} (hx : 0 ≤ x) (n : ℕ) (h : 1 ≤ b * ∑ i ∈ Finset.range n, x ^ i / i.factorial)
    (hb : 0 ≤ b) {a : ℝ} (ha : a ≤ -x) : Real.exp a ≤ b := by
  have h1 := Real.sum_le_exp_of_nonneg hx n
  have h2 : 1 ≤ b * Real.exp x := h.trans (mul_le_mul_of_nonneg_left h1 hb)
  refine (Real.exp_le_exp.2 ha).trans ?_
  have h3 : Real.exp (-x) * Real.exp x = 1 := by rw [← Real.exp_add]; simp
  have h4 := Real.exp_pos x
  nlinarith

/-- the parts of a rounded exponential -/
theorem exp_parts (a : CFl rnd) (h : a.re ≤ 0) :
    |(CFloat.exp a).re - Real.exp a.re * Real.cos a.im| ≤ 1 / 2 ^ 20 ∧
    |(CFloat.exp a).im - Real.exp a.re * Real.sin a.im| ≤ 1 / 2 ^ 20 := by
  have h0 := Real.exp_pos a.re
  have h1 : Real.exp a.re ≤ 1 := Real.exp_le_one_iff.2 h
  have hm : |Real.exp a.re| ≤ 4 := by rw [abs_of_pos h0]; linarith
  have key : ∀ c : ℝ, |c| ≤ 1 → |rnd (rnd (Real.exp a.re) * rnd c) - Real.exp a.re * c| ≤ 1 / 2 ^ 20 := by
    intro c hc
    refine (CFloat.err_exp_part hm hc).trans ?_
    have : |Real.exp a.re * c| ≤ 1 := by
      rw [abs_mul, abs_of_pos h0]
      exact mul_le_one₀ h1 (abs_nonneg _) hc
    norm_num at this ⊢
    linarith
  exact ⟨key _ (Real.abs_cos_le_one _), key _ (Real.abs_sin_le_one _)⟩

theorem exp_le (a : CFl rnd) {b c s : ℝ} (h : a.re ≤ 0) (hb : Real.exp a.re ≤ b)
    (hc : |Real.cos a.im| ≤ c) (hs : |Real.sin a.im| ≤ s) :
    |(CFloat.exp a).re| ≤ b * c + 1 / 2 ^ 20 ∧ |(CFloat.exp a).im| ≤ b * s + 1 / 2 ^ 20 := by
  have h0 := Real.exp_pos a.re
  have b0 := h0.le.trans hb
  have key : ∀ x y z : ℝ, |x - Real.exp a.re * y| ≤ 1 / 2 ^ 20 → |y| ≤ z → |x| ≤ b * z + 1 / 2 ^ 20 := by
    intro x y z h1 h2
    have h3 : |Real.exp a.re * y| ≤ b * z := by
      rw [abs_mul, abs_of_pos h0]
      exact mul_le_mul hb h2 (abs_nonneg _) b0
    have h4 := abs_add_le (x - Real.exp a.re * y) (Real.exp a.re * y)
    rw [sub_add_cancel] at h4
    linarith
  obtain ⟨e1, e2⟩ := exp_parts a h
  exact ⟨key _ _ _ e1 hc, key _ _ _ e2 hs⟩

/-- The two parts together, for decay rates of at least 0.3777. -/
theorem sum_le (a : CFl rnd) (h : a.re ≤ -0.3777) :
    |(CFloat.exp a).re| + |(CFloat.exp a).im| ≤ 0.97 := by
  have hb : Real.exp a.re ≤ 0.68553 :=
    exp_neg_le (x := 0.3777) (by norm_num) 6 (by norm_num [Finset.sum_range_succ, Nat.factorial]) (by norm_num) h
  obtain ⟨h1, h2⟩ := exp_le a (by linarith) hb le_rfl le_rfl
  have h3 : |Real.cos a.im| + |Real.sin a.im| ≤ 1.4143 := by
    have k := Real.sin_sq_add_cos_sq a.im
    rw [← sq_abs (Real.sin a.im), ← sq_abs (Real.cos a.im)] at k
    nlinarith [sq_nonneg (|Real.cos a.im| - |Real.sin a.im|), abs_nonneg (Real.cos a.im),
      abs_nonneg (Real.sin a.im)]
  norm_num at h1 h2 h3 ⊢
  linarith

theorem sin_near {x δ : ℝ} (h1 : 3.1415 - δ ≤ x) (h2 : x ≤ 3.1415) : |Real.sin x| ≤ δ + 0.0001 := by
  rw [← Real.sin_pi_sub]
  have p1 := Real.pi_gt_d6
  have p2 := Real.pi_lt_d6
  have h : 0 ≤ Real.pi - x := by linarith
  refine (Real.abs_sin_le_abs).trans ?_
  rw [abs_of_nonneg h]
  linarith

theorem cos_near {x δ : ℝ} (h1 : 3.1415 - δ ≤ x) (h2 : x ≤ 3.1415) :
    Real.cos x ≤ -(1 - (δ + 0.0001) ^ 2 / 2) := by
  have e : Real.cos x = -Real.cos (Real.pi - x) := by rw [Real.cos_pi_sub]; ring
  have p1 := Real.pi_gt_d6
  have p2 := Real.pi_lt_d6
  have h : 0 ≤ Real.pi - x := by linarith
  have k := Real.one_sub_sq_div_two_le_cos (x := Real.pi - x)
  have : (Real.pi - x) ^ 2 ≤ (δ + 0.0001) ^ 2 := pow_le_pow_left₀ h (by linarith) 2
  rw [e]
  linarith

/-- fast decay -/
theorem small_of_fast (a : CFl rnd) (h : a.re ≤ -1.6) :
    |(CFloat.exp a).re| ≤ 0.49 ∧ |(CFloat.exp a).im| ≤ 0.22 := by
  have hb : Real.exp a.re ≤ 0.21 :=
    exp_neg_le (x := 1.6) (by norm_num) 6 (by norm_num [Finset.sum_range_succ, Nat.factorial]) (by norm_num) h
  obtain ⟨h1, h2⟩ := exp_le a (by linarith) hb (Real.abs_cos_le_one _) (Real.abs_sin_le_one _)
  norm_num at h1 h2 ⊢
  constructor <;> linarith

/-- decay of more than a half, with an angle near a half turn -/
theorem small_of_near (a : CFl rnd) (h : a.re ≤ -0.73) {δ : ℝ} (hd : δ ≤ 0.412 ∨ a.re ≤ -1.08 ∧ δ ≤ 0.54)
    (h1 : 3.1415 - δ ≤ a.im) (h2 : a.im ≤ 3.1415) :
    |(CFloat.exp a).re| ≤ 0.49 ∧ |(CFloat.exp a).im| ≤ 0.22 := by
  have hs := sin_near h1 h2
  have d0 : 0 ≤ δ := by linarith
  rcases hd with hd | ⟨h', hd⟩
  · have hb : Real.exp a.re ≤ 0.4822 :=
      exp_neg_le (x := 0.73) (by norm_num) 7 (by norm_num [Finset.sum_range_succ, Nat.factorial]) (by norm_num) h
    obtain ⟨h1, h2⟩ := exp_le a (by linarith) hb (Real.abs_cos_le_one _) hs
    norm_num at h1 h2 ⊢
    constructor <;> linarith
  · have hb : Real.exp a.re ≤ 0.3402 :=
      exp_neg_le (x := 1.08) (by norm_num) 8 (by norm_num [Finset.sum_range_succ, Nat.factorial]) (by norm_num) h'
    obtain ⟨h1, h2⟩ := exp_le a (by linarith) hb (Real.abs_cos_le_one _) hs
    norm_num at h1 h2 ⊢
    constructor <;> linarith

end Adwt
