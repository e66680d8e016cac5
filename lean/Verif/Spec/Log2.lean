import Verif.Num.Rne
import Mathlib.Analysis.SpecialFunctions.Log.Base
import Mathlib.Analysis.Complex.ExponentialBounds
import Mathlib.Analysis.Convex.SpecificFunctions.Basic

/-!
# What is required of `std::log2f`

`Log2Spec` is a hypothesis on the `log2f` parameter of the model. It is proved here for the exact
logarithm and for the correctly rounded one.
-/

set_option linter.unusedSectionVars false

namespace Adwt

/-- Requirements on `log2f`: monotone, exact at powers of two, and strictly between two integers
for every integer argument below `2^20` that is not a power of two. -/
structure Log2Spec {K : Type} [Field K] [LinearOrder K] (log2f : K → K) : Prop where
  mono : ∀ x y : K, 0 < x → x ≤ y → log2f x ≤ log2f y
  pow : ∀ k : ℤ, |k| ≤ 1024 → log2f ((2 : K) ^ k) = k
  between : ∀ n k : ℕ, n < 2 ^ 20 → 2 ^ k < n → n < 2 ^ (k + 1) →
    (k : K) < log2f (n : K) ∧ log2f (n : K) < k + 1

theorem logb_pow (k : ℤ) : Real.logb 2 ((2 : ℝ) ^ k) = k := by
  rw [← Real.rpow_intCast, Real.logb_rpow (by norm_num) (by norm_num)]

theorem logb_ge_of_le {x : ℝ} {k : ℕ} (h : (2 : ℝ) ^ k ≤ x) : (k : ℝ) ≤ Real.logb 2 x := by
  have := Real.logb_le_logb_of_le (b := 2) (by norm_num) (by positivity) h
  have e := logb_pow (k : ℤ)
  rw [zpow_natCast] at e
  rw [e] at this; exact_mod_cast this

/-- `1/2 < log 2 < 1`, so logarithms to base 2 are steeper than natural ones. -/
theorem logb_one_add_ge {t : ℝ} (h0 : 0 < t) (h1 : t ≤ 1) : t ≤ Real.logb 2 (1 + t) := by
  -- concavity, via `2 ^ t ≤ 1 + t`
  have h2 : (2 : ℝ) ^ t ≤ 1 + t := by
    have := rpow_one_add_le_one_add_mul_self (s := 1) (by norm_num) h0.le h1
    norm_num at this
    linarith
  rw [Real.le_logb_iff_rpow_le (by norm_num) (by linarith)]
  exact h2

theorem logb_one_sub_le {t : ℝ} (h0 : 0 < t) (h1 : t < 1) : Real.logb 2 (1 - t) < -t := by
  have hl := Real.log_le_sub_one_of_pos (x := 1 - t) (by linarith)
  have h2 : Real.log 2 < 1 := by
    have := Real.log_two_lt_d9; linarith
  have h2p : 0 < Real.log 2 := Real.log_pos (by norm_num)
  unfold Real.logb
  rw [div_lt_iff₀ h2p]
  nlinarith

theorem logb_one_add_le {t : ℝ} (h0 : 0 ≤ t) : Real.logb 2 (1 + t) ≤ 2 * t := by
  have hl := Real.log_le_sub_one_of_pos (x := 1 + t) (by linarith)
  have h2 : 1 / 2 < Real.log 2 := by
    have := Real.log_two_gt_d9; linarith
  have h2p : 0 < Real.log 2 := Real.log_pos (by norm_num)
  unfold Real.logb
  rw [div_le_iff₀ h2p]
  nlinarith

theorem logb_between (n k : ℕ) (h1 : 2 ^ k < n) (h2 : n < 2 ^ (k + 1)) :
    (k : ℝ) + 1 / 2 ^ k ≤ Real.logb 2 n ∧
      Real.logb 2 n < (k : ℝ) + 1 - 1 / 2 ^ (k + 1) := by
  have hk : (0 : ℝ) < 2 ^ k := by positivity
  have e := logb_pow (k : ℤ)
  rw [zpow_natCast] at e
  have e' := logb_pow ((k + 1 : ℕ) : ℤ)
  rw [zpow_natCast] at e'
  push_cast at e e'
  constructor
  · have hn : (2 : ℝ) ^ k * (1 + 1 / 2 ^ k) ≤ n := by
      have : ((2 ^ k + 1 : ℕ) : ℝ) ≤ n := by exact_mod_cast h1
      push_cast at this
      rw [mul_add, mul_one, mul_one_div_cancel hk.ne']; exact this
    have hle := Real.logb_le_logb_of_le (b := 2) (by norm_num) (by positivity) hn
    rw [Real.logb_mul hk.ne' (by positivity), e] at hle
    have := logb_one_add_ge (t := 1 / 2 ^ k) (by positivity)
      (by rw [div_le_one hk]; exact one_le_pow₀ (by norm_num))
    linarith
  · have hk1 : (0 : ℝ) < 2 ^ (k + 1) := by positivity
    have hn : (n : ℝ) ≤ 2 ^ (k + 1) * (1 - 1 / 2 ^ (k + 1)) := by
      have : ((n + 1 : ℕ) : ℝ) ≤ ((2 ^ (k + 1) : ℕ) : ℝ) := by exact_mod_cast h2
      push_cast at this
      rw [mul_sub, mul_one, mul_one_div_cancel hk1.ne']; linarith
    have hnp : (0 : ℝ) < n := by
      have : 0 < n := lt_of_le_of_lt (Nat.zero_le _) h1
      exact_mod_cast this
    have ht : (1 : ℝ) / 2 ^ (k + 1) < 1 := by
      rw [div_lt_one hk1]; exact one_lt_pow₀ (by norm_num) (by omega)
    have hle := Real.logb_le_logb_of_le (b := 2) (by norm_num) hnp hn
    rw [Real.logb_mul hk1.ne' (by linarith), e'] at hle
    have := logb_one_sub_le (t := 1 / 2 ^ (k + 1)) (by positivity) ht
    linarith

/-- The exact logarithm meets the requirements. -/
theorem log2Spec_real : Log2Spec (Real.logb 2) where
  mono x y hx hxy := Real.logb_le_logb_of_le (by norm_num) hx hxy
  pow k _ := logb_pow k
  between n k _ h1 h2 := by
    obtain ⟨a, b⟩ := logb_between n k h1 h2
    have p1 : (0 : ℝ) < 1 / 2 ^ k := by positivity
    have p2 : (0 : ℝ) < 1 / 2 ^ (k + 1) := by positivity
    constructor <;> linarith

/-- The correctly rounded logarithm meets the requirements. -/
theorem log2Spec_rne24 : Log2Spec (fun x : ℝ => rne24 (Real.logb 2 x)) where
  mono x y hx hxy := rne24_mono (Real.logb_le_logb_of_le (by norm_num) hx hxy)
  pow k hk := by
    show rne24 (Real.logb 2 _) = _
    rw [logb_pow, rne24_int k (by omega)]
  between n k hn h1 h2 := by
    obtain ⟨a, b⟩ := logb_between n k h1 h2
    have hk : k ≤ 19 := by
      by_contra hc
      have : 2 ^ 20 ≤ 2 ^ k := Nat.pow_le_pow_right (by norm_num) (by omega)
      omega
    have hpk : (2 : ℝ) ^ k ≤ 2 ^ 19 := pow_le_pow_right₀ (by norm_num) hk
    have hpk0 : (0 : ℝ) < 2 ^ k := by positivity
    have hq : (1 : ℝ) / 2 ^ 19 ≤ 1 / 2 ^ k := by
      apply one_div_le_one_div_of_le hpk0 hpk
    have hq' : (1 : ℝ) / 2 ^ 20 ≤ 1 / 2 ^ (k + 1) := by
      rw [pow_succ, pow_succ 2 k]
      apply one_div_le_one_div_of_le (by positivity)
      linarith
    constructor
    · -- `k + 2^-19` is representable and below
      have hrep : rne24 ((k : ℝ) + 1 / 2 ^ 19) = (k : ℝ) + 1 / 2 ^ 19 := by
        have := (rounding_rne24 (K := ℝ)).dyadic ((k : ℤ) * 2 ^ 19 + 1) 19 (by
          rw [abs_of_nonneg (by positivity)]; omega)
        have e : (((k : ℤ) * 2 ^ 19 + 1 : ℤ) : ℝ) / 2 ^ 19 = (k : ℝ) + 1 / 2 ^ 19 := by
          push_cast; norm_num; ring
        rwa [e] at this
      have := rne24_mono (show (k : ℝ) + 1 / 2 ^ 19 ≤ Real.logb 2 n by linarith)
      rw [hrep] at this
      have : (0 : ℝ) < 1 / 2 ^ 19 := by positivity
      show (k : ℝ) < rne24 _
      linarith
    · have hp : 0 < Real.logb 2 n := by
        have : (0 : ℝ) < 1 / 2 ^ k := by positivity
        have : (0 : ℝ) ≤ k := by positivity
        linarith
      have herr := rne24_err (Real.logb 2 n)
      have hu : ulpExp (Real.logb 2 (n : ℝ)) ≤ -19 := by
        unfold ulpExp
        rw [abs_of_pos hp]
        have : Int.log 2 (Real.logb 2 (n : ℝ)) ≤ 4 := by
          have hl := (log_bounds hp).1
          by_contra hc
          have h5 : (2 : ℝ) ^ (5 : ℤ) ≤ 2 ^ Int.log 2 (Real.logb 2 (n : ℝ)) :=
            zpow_le_zpow_right₀ (by norm_num) (by omega)
          have hk' : (k : ℝ) ≤ 19 := by exact_mod_cast hk
          have : (0 : ℝ) < 1 / 2 ^ (k + 1) := by positivity
          have e5 : (2 : ℝ) ^ (5 : ℤ) = 32 := by norm_num
          rw [e5] at h5
          linarith
        omega
      have hu2 : (2 : ℝ) ^ ulpExp (Real.logb 2 (n : ℝ)) ≤ 2 ^ (-19 : ℤ) :=
        zpow_le_zpow_right₀ (by norm_num) hu
      have e19 : (2 : ℝ) ^ (-19 : ℤ) = 2 * (1 / 2 ^ 20) := by norm_num
      rw [e19] at hu2
      have := (abs_le.1 herr).2
      show rne24 _ < (k : ℝ) + 1
      linarith

/-- The correctly rounded logarithm meets the requirements, with the exponent range of `float`. -/
theorem log2Spec_ieee32 : Log2Spec (fun x : ℝ => ieee32 (Real.logb 2 x)) where
  mono x y hx hxy := ieee32_mono (Real.logb_le_logb_of_le (by norm_num) hx hxy)
  pow k hk := by
    show ieee32 (Real.logb 2 _) = _
    rw [logb_pow, rounding_ieee32.int k (by omega)]
  between n k hn h1 h2 := by
    have key := log2Spec_rne24.between n k hn h1 h2
    obtain ⟨a, b⟩ := logb_between n k h1 h2
    have hk : k ≤ 19 := by
      by_contra hc
      have : 2 ^ 20 ≤ 2 ^ k := Nat.pow_le_pow_right (by norm_num) (by omega)
      omega
    have hk' : (k : ℝ) ≤ 19 := by exact_mod_cast hk
    have hk0 : (0 : ℝ) ≤ k := by positivity
    have hp : (0 : ℝ) < 1 / 2 ^ (k + 1) := by positivity
    have hpk : (1 : ℝ) / 2 ^ 126 ≤ 1 / 2 ^ k :=
      one_div_le_one_div_of_le (by positivity) (pow_le_pow_right₀ (by norm_num) (by omega))
    have h0 : (0 : ℝ) < 1 / 2 ^ 126 := by positivity
    have e : ieee32 (Real.logb 2 (n : ℝ)) = rne24 (Real.logb 2 (n : ℝ)) := by
      refine ieee32_normal (Or.inr ?_) ?_
      · rw [abs_of_nonneg (by linarith)]; linarith
      · rw [abs_of_nonneg (by linarith)]
        have : (20 : ℝ) ≤ 2 ^ 127 := by norm_num
        linarith
    show (k : ℝ) < ieee32 _ ∧ ieee32 _ < _
    rw [e]; exact key

end Adwt
