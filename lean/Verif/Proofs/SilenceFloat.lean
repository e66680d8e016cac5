import Verif.Proofs.Silence
import Verif.Num.CFloat

/-!
# A decaying memory in float arithmetic
-/

set_option linter.unusedSectionVars false

namespace Adwt

namespace CFl
variable {rnd : ℝ → ℝ}

/-- both parts are at most `A` -/
def Le (y : CFl rnd) (A : ℝ) : Prop := |y.re| ≤ A ∧ |y.im| ≤ A

theorem mul_re (e y : CFl rnd) : (e * y).re = rnd (rnd (e.re * y.re) - rnd (e.im * y.im)) := rfl
theorem mul_im (e y : CFl rnd) : (e * y).im = rnd (rnd (e.re * y.im) + rnd (e.im * y.re)) := rfl

/-- the parts of a product, when `F` bounds what rounding gives -/
theorem mul_le {e y : CFl rnd} {A B : ℝ} (hy : Le y A) (h : ∀ a b s : ℝ, |a| ≤ A → |b| ≤ A → |s| = 1 →
    |rnd (rnd (e.re * a) + s * rnd (e.im * b))| ≤ B) : Le (e * y) B := by
  constructor
  · rw [mul_re]
    have := h y.re y.im (-1) hy.1 hy.2 (by norm_num)
    rwa [neg_one_mul, ← sub_eq_add_neg] at this
  · rw [mul_im]
    have := h y.im y.re 1 hy.2 hy.1 (by norm_num)
    rwa [one_mul] at this

end CFl

open CFl

theorem mul_abs_le {e a A : ℝ} (h : |a| ≤ A) : |e * a| ≤ |e| * A := by
  rw [abs_mul]; exact mul_le_mul_of_nonneg_left h (abs_nonneg _)

/-! ### flushing -/

theorem ftz32_abs {x : ℝ} (h : |x| ≤ 2 ^ 127) : |ftz32 x| ≤ (1 + 1 / 2 ^ 22) * |x| := by
  unfold ftz32
  have h0 := abs_nonneg x
  rcases flush_cases (ieee32 x) with ⟨-, e⟩ | ⟨h1, e⟩
  · rw [e, abs_zero]; positivity
  · rw [e]
    have h2 := CFloat.rel32 h
    have h3 : |ieee32 x| ≤ |ieee32 x - x| + |x| := by
      have := abs_add_le (ieee32 x - x) x
      rwa [sub_add_cancel] at this
    norm_num at h1 h2 h3 ⊢
    linarith

theorem mul_ftz {e y : CFl ftz32} {σ A : ℝ} (hσ : |e.re| + |e.im| ≤ σ) (h1 : σ ≤ 1) (hy : Le y A)
    (hA : A ≤ 2 ^ 126) : Le (e * y) (σ * (1 + 1 / 2 ^ 20) * A) := by
  have a0 : 0 ≤ A := (abs_nonneg _).trans hy.1
  have er := abs_nonneg e.re
  have ei := abs_nonneg e.im
  have l1 : |e.re| * A ≤ A := by nlinarith
  have l2 : |e.im| * A ≤ A := by nlinarith
  have hσA : σ * A ≤ A := by nlinarith
  have hσ0 : 0 ≤ σ * A := mul_nonneg (by linarith) a0
  have hs' : |e.re| * A + |e.im| * A ≤ σ * A := by rw [← add_mul]; gcongr
  have hA2 : A ≤ 2 ^ 127 := hA.trans (by norm_num)
  refine mul_le hy fun a b s ha hb hs => ?_
  have k1 := mul_abs_le (e := e.re) ha
  have k2 := mul_abs_le (e := e.im) hb
  have m1 := (ftz32_abs (k1.trans (l1.trans hA2))).trans (mul_le_mul_of_nonneg_left k1 (by norm_num))
  have m2 := (ftz32_abs (k2.trans (l2.trans hA2))).trans (mul_le_mul_of_nonneg_left k2 (by norm_num))
  have k3 : |ftz32 (e.re * a) + s * ftz32 (e.im * b)| ≤ (1 + 1 / 2 ^ 22) * (σ * A) := by
    refine (abs_add_le _ _).trans ?_
    rw [abs_mul, hs, one_mul]
    norm_num at m1 m2 ⊢
    linarith
  have m3 := ftz32_abs (x := ftz32 (e.re * a) + s * ftz32 (e.im * b))
    (k3.trans (by norm_num at hA ⊢; linarith))
  rw [show σ * (1 + 1 / 2 ^ 20) * A = (1 + 1 / 2 ^ 20) * (σ * A) by ring]
  norm_num at m3 k3 ⊢
  linarith

theorem iter_ftz {e y : CFl ftz32} {σ A : ℝ} (hσ : |e.re| + |e.im| ≤ σ) (h1 : σ * (1 + 1 / 2 ^ 20) ≤ 1)
    (hy : Le y A) (hA : A ≤ 2 ^ 126) (n : ℕ) :
    Le ((e * ·)^[n] y) ((σ * (1 + 1 / 2 ^ 20)) ^ n * A) := by
  have a0 : 0 ≤ A := (abs_nonneg _).trans hy.1
  have s0 : 0 ≤ σ := (add_nonneg (abs_nonneg _) (abs_nonneg _)).trans hσ
  have p0 : 0 ≤ σ * (1 + 1 / 2 ^ 20) := by positivity
  induction n with
  | zero => simpa using hy
  | succ n ih =>
    rw [Function.iterate_succ_apply']
    have := mul_ftz hσ (by nlinarith) ih (by
      have : (σ * (1 + 1 / 2 ^ 20)) ^ n ≤ 1 := pow_le_one₀ p0 h1
      nlinarith)
    rwa [← mul_assoc, ← pow_succ'] at this

theorem ftz32_zero_of_lt {x : ℝ} (h : |ftz32 x| < 1 / 2 ^ 126) : ftz32 x = 0 := by
  unfold ftz32 at h ⊢
  rcases flush_cases (ieee32 x) with ⟨-, e⟩ | ⟨h1, e⟩
  · exact e
  · rw [e] at h; linarith

/-- powers of a ratio below one -/
theorem pow_small {ρ : ℝ} (h0 : 0 ≤ ρ) (h1 : ρ ≤ 1) {a b n : ℕ} (h : ρ ^ a ≤ 1 / 2) (hn : a * b ≤ n) :
    ρ ^ n ≤ 1 / 2 ^ b := by
  calc ρ ^ n ≤ ρ ^ (a * b) := pow_le_pow_of_le_one h0 h1 hn
    _ = (ρ ^ a) ^ b := pow_mul _ _ _
    _ ≤ (1 / 2) ^ b := pow_le_pow_left₀ (pow_nonneg h0 _) h b
    _ = 1 / 2 ^ b := by rw [div_pow, one_pow]

/-- with flushing, the memory reaches zero -/
theorem iter_ftz_zero {e y : CFl ftz32} (hσ : |e.re| + |e.im| ≤ 0.97) (hy : Le y (2 ^ 126)) {n : ℕ}
    (hn : 6000 ≤ n) : (e * ·)^[n] y = 0 := by
  have h := iter_ftz hσ (by norm_num) hy le_rfl n
  have p1 : ((0.97 : ℝ) * (1 + 1 / 2 ^ 20)) ^ n ≤ 1 / 2 ^ 253 :=
    pow_small (a := 23) (by norm_num) (by norm_num) (by norm_num) (by omega)
  have p2 : ((0.97 : ℝ) * (1 + 1 / 2 ^ 20)) ^ n * 2 ^ 126 < 1 / 2 ^ 126 := by
    refine (mul_le_mul_of_nonneg_right p1 (by positivity)).trans_lt ?_
    norm_num
  obtain ⟨m, rfl⟩ : ∃ m, n = m + 1 := ⟨n - 1, by omega⟩
  rw [Function.iterate_succ_apply'] at h ⊢
  apply CFl.ext
  · exact ftz32_zero_of_lt (h.1.trans_lt p2)
  · exact ftz32_zero_of_lt (h.2.trans_lt p2)

/-! ### gradual underflow -/

theorem ieee32_abs {x : ℝ} (h : |x| ≤ 2 ^ 127) : |ieee32 x| ≤ (1 + 1 / 2 ^ 24) * |x| + 1 / 2 ^ 150 := by
  have h2 := CFloat.rel32 h
  have h3 : |ieee32 x| ≤ |ieee32 x - x| + |x| := by
    have := abs_add_le (ieee32 x - x) x
    rwa [sub_add_cancel] at this
  linarith

theorem mul_grad {e y : CFloat} {σ A : ℝ} (hσ : |e.re| + |e.im| ≤ σ) (h1 : σ ≤ 1) (hy : Le y A)
    (hA : A ≤ 2 ^ 126) : Le (e * y) (σ * (1 + 1 / 2 ^ 20) * A + 1.6 / 2 ^ 149) := by
  have a0 : 0 ≤ A := (abs_nonneg _).trans hy.1
  have er := abs_nonneg e.re
  have ei := abs_nonneg e.im
  have l1 : |e.re| * A ≤ A := by nlinarith
  have l2 : |e.im| * A ≤ A := by nlinarith
  have hσA : σ * A ≤ A := by nlinarith
  have hσ0 : 0 ≤ σ * A := mul_nonneg (by linarith) a0
  have hs' : |e.re| * A + |e.im| * A ≤ σ * A := by rw [← add_mul]; gcongr
  have hA2 : A ≤ 2 ^ 127 := hA.trans (by norm_num)
  refine mul_le hy fun a b s ha hb hs => ?_
  have k1 := mul_abs_le (e := e.re) ha
  have k2 := mul_abs_le (e := e.im) hb
  have m1 := (ieee32_abs (k1.trans (l1.trans hA2))).trans
    (add_le_add (mul_le_mul_of_nonneg_left k1 (by norm_num)) le_rfl)
  have m2 := (ieee32_abs (k2.trans (l2.trans hA2))).trans
    (add_le_add (mul_le_mul_of_nonneg_left k2 (by norm_num)) le_rfl)
  have k3 : |ieee32 (e.re * a) + s * ieee32 (e.im * b)| ≤ (1 + 1 / 2 ^ 24) * (σ * A) + 1 / 2 ^ 149 := by
    refine (abs_add_le _ _).trans ?_
    rw [abs_mul, hs, one_mul]
    norm_num at m1 m2 ⊢
    linarith
  have m3 := ieee32_abs (x := ieee32 (e.re * a) + s * ieee32 (e.im * b))
    (k3.trans (by norm_num at hA ⊢; linarith))
  rw [show σ * (1 + 1 / 2 ^ 20) * A = (1 + 1 / 2 ^ 20) * (σ * A) by ring]
  norm_num at m3 k3 ⊢
  linarith

theorem iter_grad {e y : CFloat} {σ ρ A b : ℝ} (hσ : |e.re| + |e.im| ≤ σ)
    (hρ : σ * (1 + 1 / 2 ^ 20) ≤ ρ) (h1 : ρ ≤ 1) (hb0 : 0 ≤ b) (hb1 : b ≤ 1)
    (hb : ρ * b + 1.6 / 2 ^ 149 ≤ b) (hy : Le y A) (hA : A ≤ 2 ^ 125) (n : ℕ) :
    Le ((e * ·)^[n] y) (ρ ^ n * A + b) := by
  have a0 : 0 ≤ A := (abs_nonneg _).trans hy.1
  have s0 : 0 ≤ σ := (add_nonneg (abs_nonneg _) (abs_nonneg _)).trans hσ
  have p0 : 0 ≤ σ * (1 + 1 / 2 ^ 20) := by positivity
  have r0 : 0 ≤ ρ := p0.trans hρ
  induction n with
  | zero => exact ⟨by simpa using hy.1.trans (by linarith), by simpa using hy.2.trans (by linarith)⟩
  | succ n ih =>
    rw [Function.iterate_succ_apply']
    have q0 : 0 ≤ ρ ^ n * A := by positivity
    have q1 : ρ ^ n * A ≤ A := mul_le_of_le_one_left a0 (pow_le_one₀ r0 h1)
    have := mul_grad hσ (by nlinarith) ih (by norm_num at hA ⊢; linarith)
    have k : σ * (1 + 1 / 2 ^ 20) * (ρ ^ n * A + b) + 1.6 / 2 ^ 149 ≤ ρ ^ (n + 1) * A + b := by
      have := mul_le_mul_of_nonneg_right hρ (show 0 ≤ ρ ^ n * A + b by positivity)
      have e : ρ * (ρ ^ n * A + b) = ρ ^ (n + 1) * A + ρ * b := by ring
      rw [e] at this
      linarith
    exact ⟨this.1.trans k, this.2.trans k⟩

set_option exponentiation.threshold 400 in
/-- after 6400 samples nothing but a few of the smallest numbers is left -/
theorem iter_tail {e y : CFloat} (hσ : |e.re| + |e.im| ≤ 0.97) (hy : Le y (2 ^ 125)) {n : ℕ}
    (hn : 6400 ≤ n) : Le ((e * ·)^[n] y) (64 / 2 ^ 149) := by
  have h := iter_grad (ρ := 0.9701) (b := 60 / 2 ^ 149) hσ (by norm_num) (by norm_num) (by norm_num) (by norm_num)
    (by norm_num) hy le_rfl n
  have p1 : (0.9701 : ℝ) ^ n ≤ 1 / 2 ^ 274 :=
    pow_small (a := 23) (by norm_num) (by norm_num) (by norm_num) (by omega)
  have p2 : (0.9701 : ℝ) ^ n * 2 ^ 125 + 60 / 2 ^ 149 ≤ 64 / 2 ^ 149 := by
    refine (add_le_add (mul_le_mul_of_nonneg_right p1 (by positivity)) le_rfl).trans ?_
    norm_num
  exact ⟨h.1.trans p2, h.2.trans p2⟩

/-- rounding small multiples of the smallest number -/
theorem round_small {x : ℝ} {j : ℕ} (hj : j ≤ 1000) (h : |x| < (j + 1 / 2) / 2 ^ 149) :
    |ieee32 x| ≤ j / 2 ^ 149 := by
  rcases eq_or_ne x 0 with rfl | hx
  · rw [rounding_ieee32.zero, abs_zero]; positivity
  have hj' : (j : ℝ) ≤ 1000 := by exact_mod_cast hj
  have hx1 : |x| < 1 / 2 ^ 126 := h.trans_le (by norm_num; linarith)
  have hu : ulpExp x < -149 := by
    by_contra hc
    rcases ulp_ge (not_lt.1 hc) with h' | h'
    · exact hx h'
    · linarith
  have e := rneSub_tiny hu
  have h2 := abs_lt.1 h
  have b1 : (roundEven (x * 2 ^ 149) : ℝ) < j + 1 := by
    have := (abs_le.1 (roundEven_err (x * 2 ^ 149))).2
    have h3 := mul_lt_mul_of_pos_right h2.2 (show (0 : ℝ) < 2 ^ 149 by positivity)
    rw [div_mul_cancel₀ _ (by positivity)] at h3
    generalize x * 2 ^ 149 = X at *
    linarith
  have b2 : -((j : ℝ) + 1) < (roundEven (x * 2 ^ 149) : ℝ) := by
    have := (abs_le.1 (roundEven_err (x * 2 ^ 149))).1
    have h3 := mul_lt_mul_of_pos_right h2.1 (show (0 : ℝ) < 2 ^ 149 by positivity)
    rw [neg_mul, div_mul_cancel₀ _ (by positivity)] at h3
    generalize x * 2 ^ 149 = X at *
    linarith
  have c1 : roundEven (x * 2 ^ 149) < (j : ℤ) + 1 := by exact_mod_cast b1
  have c2 : -((j : ℤ) + 1) < roundEven (x * 2 ^ 149) := by exact_mod_cast b2
  have c3 : |roundEven (x * 2 ^ 149)| ≤ (j : ℤ) := by rw [abs_le]; constructor <;> omega
  have c4 : |(roundEven (x * 2 ^ 149) : ℝ)| ≤ j := by exact_mod_cast c3
  have c5 : |rneSub x| ≤ j / 2 ^ 149 := by
    rw [e, abs_div, abs_of_pos (show (0 : ℝ) < 2 ^ 149 by positivity)]
    exact div_le_div_of_nonneg_right c4 (by positivity)
  rw [ieee32_eq (c5.trans (by norm_num; linarith))]
  exact c5

/-- one step down -/
theorem small_step {e y : CFloat} (h1 : |e.re| ≤ 0.49) (h2 : |e.im| ≤ 0.22) {m : ℝ} {i j : ℕ}
    (hi : 0.49 * m < i + 1 / 2) (hj : 0.22 * m < j + 1 / 2) (hij : i + j ≤ 100)
    (hy : Le y (m / 2 ^ 149)) : Le (e * y) ((i + j : ℕ) / 2 ^ 149) := by
  have m0 : 0 ≤ m / 2 ^ 149 := (abs_nonneg _).trans hy.1
  refine mul_le hy fun a b s ha hb hs => ?_
  have k1 := (mul_abs_le (e := e.re) ha).trans (mul_le_mul_of_nonneg_right h1 m0)
  have k2 := (mul_abs_le (e := e.im) hb).trans (mul_le_mul_of_nonneg_right h2 m0)
  rw [← mul_div_assoc] at k1 k2
  have l1 := round_small (by omega) (k1.trans_lt (div_lt_div_of_pos_right hi (by positivity)))
  have l2 := round_small (by omega) (k2.trans_lt (div_lt_div_of_pos_right hj (by positivity)))
  apply round_small (hij.trans (by norm_num))
  refine ((abs_add_le _ _).trans ?_).trans_lt (show ((i + j : ℕ) : ℝ) / 2 ^ 149 < _ from ?_)
  · rw [abs_mul, hs, one_mul]
    push_cast
    rw [add_div]
    exact add_le_add l1 l2
  · exact div_lt_div_of_pos_right (by linarith) (by positivity)

set_option exponentiation.threshold 400 in
/-- contracting by more than two, the memory reaches zero even with gradual underflow -/
theorem iter_zero {e y : CFloat} (h1 : |e.re| ≤ 0.49) (h2 : |e.im| ≤ 0.22) (hy : Le y (2 ^ 125)) {n : ℕ}
    (hn : 1000 ≤ n) : (e * ·)^[n] y = 0 := by
  obtain ⟨m, rfl⟩ : ∃ m, n = m + 5 := ⟨n - 5, by omega⟩
  have h := iter_grad (e := e) (σ := 0.71) (ρ := 0.7101) (b := 5.6 / 2 ^ 149) (by linarith) (by norm_num)
    (by norm_num) (by norm_num) (by norm_num) (by norm_num) hy le_rfl m
  have p1 : (0.7101 : ℝ) ^ m ≤ 1 / 2 ^ 276 :=
    pow_small (a := 3) (by norm_num) (by norm_num) (by norm_num) (by omega)
  have p2 : (0.7101 : ℝ) ^ m * 2 ^ 125 + 5.6 / 2 ^ 149 ≤ 5.9 / 2 ^ 149 := by
    refine (add_le_add (mul_le_mul_of_nonneg_right p1 (by positivity)) le_rfl).trans ?_
    norm_num
  have a0 : Le ((e * ·)^[m] y) (5.9 / 2 ^ 149) := ⟨h.1.trans p2, h.2.trans p2⟩
  have a1 := small_step (i := 3) (j := 1) h1 h2 (by norm_num) (by norm_num) (by norm_num) a0
  have a2 := small_step (i := 2) (j := 1) h1 h2 (by norm_num) (by norm_num) (by norm_num) a1
  have a3 := small_step (i := 1) (j := 1) h1 h2 (by norm_num) (by norm_num) (by norm_num) a2
  have a4 := small_step (i := 1) (j := 0) h1 h2 (by norm_num) (by norm_num) (by norm_num) a3
  have a5 := small_step (i := 0) (j := 0) h1 h2 (by norm_num) (by norm_num) (by norm_num) a4
  have e5 : (e * ·)^[m + 5] y = e * (e * (e * (e * (e * (e * ·)^[m] y)))) := by
    rw [Function.iterate_succ_apply', Function.iterate_succ_apply', Function.iterate_succ_apply',
      Function.iterate_succ_apply', Function.iterate_succ_apply']
  rw [e5]
  have z1 := a5.1
  have z2 := a5.2
  simp only [Nat.cast_zero, add_zero, zero_div, abs_nonpos_iff] at z1 z2
  exact CFl.ext z1 z2

/-! ### a pole that keeps the memory alive -/

/-- numbers below the normal ones -/
theorem ieee32_tiny {x : ℝ} (h : |x| < 1 / 2 ^ 126) :
    ieee32 x = (roundEven (x * 2 ^ 149) : ℝ) / 2 ^ 149 := by
  rcases eq_or_ne x 0 with rfl | hx
  · rw [rounding_ieee32.zero, zero_mul]
    have : roundEven (0 : ℝ) = 0 := by have := roundEven_int (K := ℝ) 0; simpa using this
    rw [this]; simp
  have hu : ulpExp x < -149 := by
    by_contra hc
    rcases ulp_ge (not_lt.1 hc) with h' | h'
    · exact hx h'
    · linarith
  rw [ieee32_eq ((rneSub_tiny_le hu).trans (by norm_num)), rneSub_tiny hu]

/-- a nonzero float is at least the smallest one -/
theorem float_ge {x : ℝ} (h : ieee32 x = x) (hx : x ≠ 0) : 1 / 2 ^ 149 ≤ |x| := by
  by_contra hc
  have hc := not_le.1 hc
  rw [ieee32_tiny (hc.trans (by norm_num))] at h
  rw [← h, abs_div, abs_of_pos (show (0 : ℝ) < 2 ^ 149 by positivity)] at hc
  have h1 := (div_lt_div_iff_of_pos_right (show (0 : ℝ) < 2 ^ 149 by positivity)).1 hc
  have h2 : |roundEven (x * 2 ^ 149)| < 1 := by exact_mod_cast h1
  rw [Int.abs_lt_one_iff.1 h2] at h
  exact hx (by rw [← h]; simp)

theorem round_pos {x : ℝ} (h : 1 / 2 ^ 150 < x) : 0 < ieee32 x := by
  have hw : ieee32 (min x (0.75 / 2 ^ 149)) ≤ ieee32 x := rounding_ieee32.mono (min_le_left _ _)
  refine lt_of_lt_of_le ?_ hw
  have w1 : 1 / 2 ^ 150 < min x (0.75 / 2 ^ 149) := lt_min h (by norm_num)
  have w2 : min x (0.75 / 2 ^ 149) ≤ 0.75 / 2 ^ 149 := min_le_right _ _
  have w0 : 0 < min x (0.75 / 2 ^ 149) := lt_trans (by norm_num) w1
  rw [ieee32_tiny (by rw [abs_of_pos w0]; exact w2.trans_lt (by norm_num))]
  apply div_pos _ (by positivity)
  have h1 := (abs_le.1 (roundEven_err (min x (0.75 / 2 ^ 149) * 2 ^ 149))).1
  have h2 := mul_lt_mul_of_pos_right w1 (show (0 : ℝ) < 2 ^ 149 by positivity)
  rw [show (1 : ℝ) / 2 ^ 150 * 2 ^ 149 = 1 / 2 by norm_num] at h2
  generalize min x (0.75 / 2 ^ 149) * 2 ^ 149 = X at *
  linarith

theorem round_sign {e a : ℝ} (he : e < -(1 / 2)) (ha : ieee32 a = a) (ha0 : 0 < a) :
    ieee32 (e * a) < 0 := by
  have h1 := float_ge ha ha0.ne'
  rw [abs_of_pos ha0] at h1
  have h2 := round_pos (x := -(e * a)) (by
    have h3 : a / 2 < -(e * a) := by nlinarith
    refine lt_of_le_of_lt ?_ h3
    norm_num at h1 ⊢
    linarith)
  rw [ieee32_neg] at h2
  linarith

theorem mul_alive {e y : CFloat} (h1 : e.re < -(1 / 2)) (h2 : 0 ≤ e.im) (ha : ieee32 y.re = y.re)
    (hb : ieee32 y.im = y.im) (hy : y ≠ 0) : e * y ≠ 0 := by
  intro h0
  have hre : ieee32 (ieee32 (e.re * y.re) - ieee32 (e.im * y.im)) = 0 := congrArg CFl.re h0
  have him : ieee32 (ieee32 (e.re * y.im) + ieee32 (e.im * y.re)) = 0 := congrArg CFl.im h0
  have e1 : ieee32 (e.re * y.re) = ieee32 (e.im * y.im) :=
    gradual_ieee32 _ _ (rounding_ieee32.idem _) (rounding_ieee32.idem _) hre
  have e2 : ieee32 (e.re * y.im) = -ieee32 (e.im * y.re) := by
    apply gradual_ieee32 _ _ (rounding_ieee32.idem _)
    · rw [ieee32_neg, rounding_ieee32.idem]
    · rw [sub_neg_eq_add]; exact him
  have nn : ∀ x : ℝ, 0 ≤ x → 0 ≤ ieee32 x := fun x hx => by
    have := rounding_ieee32.mono hx; rwa [rounding_ieee32.zero] at this
  have np : ∀ x : ℝ, x ≤ 0 → ieee32 x ≤ 0 := fun x hx => by
    have := rounding_ieee32.mono hx; rwa [rounding_ieee32.zero] at this
  have pos : ∀ {a : ℝ}, ieee32 a = a → a < 0 → 0 < ieee32 (e.re * a) := fun {a} ha h => by
    have := round_sign h1 (a := -a) (by rw [ieee32_neg, ha]) (by linarith)
    rw [mul_neg, ieee32_neg] at this; linarith
  rcases lt_trichotomy y.re 0 with hr | hr | hr
  · have k1 := pos ha hr
    have k2 : 0 < y.im := by
      by_contra hc
      have := np (e.im * y.im) (mul_nonpos_of_nonneg_of_nonpos h2 (not_lt.1 hc))
      linarith
    have k3 := round_sign h1 hb k2
    have k4 := np (e.im * y.re) (mul_nonpos_of_nonneg_of_nonpos h2 hr.le)
    linarith
  · rw [hr, mul_zero, rounding_ieee32.zero, neg_zero] at e2
    rcases lt_trichotomy y.im 0 with hi | hi | hi
    · linarith [pos hb hi]
    · exact hy (CFl.ext hr hi)
    · linarith [round_sign h1 hb hi]
  · have k1 := round_sign h1 ha hr
    have k2 : y.im < 0 := by
      by_contra hc
      have := nn (e.im * y.im) (mul_nonneg h2 (not_lt.1 hc))
      linarith
    have k3 := pos hb k2
    have k4 := nn (e.im * y.re) (mul_nonneg h2 hr.le)
    linarith

theorem iter_alive {e y : CFloat} (h1 : e.re < -(1 / 2)) (h2 : 0 ≤ e.im) (ha : ieee32 y.re = y.re)
    (hb : ieee32 y.im = y.im) (hy : y ≠ 0) (n : ℕ) : (e * ·)^[n] y ≠ 0 := by
  have key : ∀ n, ieee32 ((e * ·)^[n] y).re = ((e * ·)^[n] y).re ∧
      ieee32 ((e * ·)^[n] y).im = ((e * ·)^[n] y).im ∧ (e * ·)^[n] y ≠ 0 := by
    intro n
    induction n with
    | zero => exact ⟨ha, hb, hy⟩
    | succ n ih =>
      rw [Function.iterate_succ_apply']
      exact ⟨rounding_ieee32.idem _, rounding_ieee32.idem _, mul_alive h1 h2 ih.1 ih.2.1 ih.2.2⟩
  exact (key n).2.2

end Adwt
