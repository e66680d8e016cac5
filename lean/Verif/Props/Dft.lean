import Verif.Proofs.Dft
import Verif.Props.Gain

/-!
# C58: the spectrum of a tone from the samples of the table
-/

set_option linter.unusedSectionVars false

namespace Adwt.Props
open WavetableData

/-- C58: harmonic `k` of the linear interpolation of a table is the discrete Fourier coefficient `k`
of its samples, attenuated by `sinc²`. -/
theorem C58_interpolation (y : List ℝ) (hy : 0 < y.length) (k : ℤ) :
    harmonic (interp y) k = dft y k * ((Real.sinc (Real.pi * k / y.length) ^ 2 : ℝ) : ℂ) :=
  harmonic_interp hy k

/-- C58: discrete Fourier coefficients repeat every `N` harmonics; the repetition `k + m N` of
harmonic `k` is attenuated by at least `(k / (k + m N))²`. -/
theorem C58_images (y : List ℝ) (hy : 0 < y.length) (k m : ℤ) (h : k + m * y.length ≠ 0) :
    dft y (k + m * y.length) = dft y k ∧
    ‖harmonic (interp y) (k + m * y.length)‖ ≤
      ‖dft y k‖ * ((k : ℝ) / (k + m * y.length)) ^ 2 := by
  have hN : (0 : ℝ) < y.length := by exact_mod_cast hy
  have hNc : (y.length : ℂ) ≠ 0 := by exact_mod_cast hN.ne'
  have hh : (k : ℝ) + m * y.length ≠ 0 := by exact_mod_cast h
  have e : dft y (k + m * y.length) = dft y k := by
    unfold dft
    congr 1
    apply Finset.sum_congr rfl
    intro j _
    congr 1
    have : -(2 * Real.pi * Complex.I * ((k + m * y.length : ℤ) : ℂ) * j / y.length) =
        -(2 * Real.pi * Complex.I * k * j / y.length) + ((-(m * j) : ℤ) : ℂ) * (2 * Real.pi * Complex.I) := by
      push_cast; field_simp; ring
    rw [this, Complex.exp_add, Complex.exp_int_mul_two_pi_mul_I, mul_one]
  refine ⟨e, ?_⟩
  rw [harmonic_interp hy, e, norm_mul]
  apply mul_le_mul_of_nonneg_left _ (norm_nonneg _)
  rw [Complex.norm_real, Real.norm_eq_abs, abs_of_nonneg (sq_nonneg _), ← sq_abs,
    ← sq_abs ((k : ℝ) / _)]
  apply pow_le_pow_left₀ (abs_nonneg _)
  have hθ : Real.pi * ((k + m * y.length : ℤ) : ℝ) / y.length ≠ 0 := by
    push_cast
    have := Real.pi_ne_zero
    positivity
  rw [Real.sinc_of_ne_zero hθ]
  have es : |Real.sin (Real.pi * ((k + m * y.length : ℤ) : ℝ) / y.length)| =
      |Real.sin (Real.pi * k / y.length)| := by
    have : Real.pi * ((k + m * y.length : ℤ) : ℝ) / y.length = Real.pi * k / y.length + m * Real.pi := by
      push_cast; field_simp
    rw [this, Real.sin_add_int_mul_pi, abs_mul, abs_zpow, abs_neg, abs_one, one_zpow, one_mul]
  rw [abs_div (Real.sin _), es, abs_div (k : ℝ)]
  have h1 : |Real.sin (Real.pi * k / y.length)| ≤ Real.pi * |(k : ℝ)| / y.length := by
    refine (Real.abs_sin_le_abs).trans (le_of_eq ?_)
    rw [abs_div, abs_mul, abs_of_pos Real.pi_pos, abs_of_pos hN]
  have h2 : |Real.pi * ((k + m * y.length : ℤ) : ℝ) / y.length| =
      Real.pi * |(k : ℝ) + m * y.length| / y.length := by
    rw [abs_div, abs_mul, abs_of_pos Real.pi_pos, abs_of_pos hN]
    push_cast; rfl
  rw [h2]
  have hp := abs_pos.2 hh
  rw [div_le_div_iff₀ (by have := Real.pi_pos; positivity) hp]
  calc _ ≤ Real.pi * |(k : ℝ)| / y.length * |(k : ℝ) + m * y.length| :=
        mul_le_mul_of_nonneg_right h1 hp.le
    _ = _ := by ring

/-- C58: the steady tone in terms of the samples of the table in use. -/
theorem C58_tone (flt : Filter ℂ) (σ : ℝ) (hσ0 : 0 < σ) (hσ : PolesLeft flt σ)
    (hlen : flt.r.length = flt.z.length) (E : Env ℝ) (ws : List ℝ) (nw L w i : ℕ)
    (hws : ws.length = nw * 2 ^ L) (hw : w < nw) (hi : i + 2 ≤ L) (d : ℝ) (hd : d ≠ 0) (x : ℝ) :
    HasSum (fun k : ℤ => freqResponse flt (2 * Real.pi * k * d) *
      (dft (mipSamples E (waveformOf ws (2 ^ L) w) i) k *
        ((Real.sinc (Real.pi * k / 2 ^ (L - i)) ^ 2 : ℝ) : ℂ)) *
      Complex.exp (2 * Real.pi * Complex.I * k * x)) (tone flt (waveAt E ws L w i) d x : ℂ) := by
  have h := C53_spectrum flt σ hσ0 hσ hlen E ws L w i d hd x
  have hl : (mipSamples E (waveformOf ws (2 ^ L) w) i).length = 2 ^ (L - i) := by
    exact mipSamples_length E (waveformOf_length hws hw) _ (by omega)
  convert h using 3 with k
  congr 1
  show _ = harmonic (interp (mipSamples E (waveformOf ws (2 ^ L) ((w : ℤ).toNat)) ((i : ℤ).toNat))) k
  rw [Int.toNat_natCast, Int.toNat_natCast, harmonic_interp (by rw [hl]; positivity), hl]
  push_cast; rfl

/-- C58: if the table in use contains harmonics up to `H` only, then each component of the tone that
aliases, harmonic `k`, is at most the gain of the filter above Nyquist, times the strongest harmonic
of the table, times `(H/k)²`. (If `H` is below Nyquist at the step `d`, then `H < |k|`: only images
alias.) -/
theorem C58_clean (t : FilterType) (E : Env ℝ) (ws : List ℝ) (nw L w i : ℕ)
    (hws : ws.length = nw * 2 ^ L) (hw : w < nw) (hi : i + 2 ≤ L) (d A : ℝ) (H : ℕ)
    (hband : ∀ k : ℤ, (H : ℤ) < |k| → 2 * |k| ≤ 2 ^ (L - i) →
      dft (mipSamples E (waveformOf ws (2 ^ L) w) i) k = 0)
    (hA : ∀ k : ℤ, ‖dft (mipSamples E (waveformOf ws (2 ^ L) w) i) k‖ ≤ A) (k : ℤ)
    (hk : 1 / 2 ≤ |(k : ℝ) * d|) :
    ‖harmonic (tone (filterX t) (waveAt E ws L w i) d) k‖ ≤ nyquistGain t * (A * (H / k) ^ 2) ∧
    (H * |d| < 1 / 2 → (H : ℤ) < |k|) := by
  refine ⟨?_, fun h => ?_⟩
  swap
  · rw [abs_mul] at hk
    by_contra hc
    rw [not_lt] at hc
    have : |(k : ℝ)| ≤ H := by exact_mod_cast hc
    have := mul_le_mul_of_nonneg_right this (abs_nonneg d)
    linarith
  have hl : (mipSamples E (waveformOf ws (2 ^ L) w) i).length = 2 ^ (L - i) :=
    mipSamples_length E (waveformOf_length hws hw) _ (by omega)
  set y := mipSamples E (waveformOf ws (2 ^ L) w) i with hy
  have hpos : 0 < y.length := by rw [hl]; positivity
  have hA0 : 0 ≤ A := (norm_nonneg _).trans (hA 0)
  have hg : 0 ≤ nyquistGain t := by cases t <;> norm_num [nyquistGain]
  have hk0 : k ≠ 0 := by rintro rfl; norm_num at hk
  rw [C53_harmonics (filterX t) 0.29 (by norm_num) (C39_poles t) (exactSys t).len E ws L w i d, norm_mul]
  have hW : waveAt E ws L w i = interp y := by
    unfold waveAt; rw [Int.toNat_natCast, Int.toNat_natCast]
  rw [hW]
  apply mul_le_mul (alias_gain t hk) _ (norm_nonneg _) hg
  -- the representative of `k` with at most `N/2`
  obtain ⟨m, k1, e, hk1⟩ : ∃ m k1 : ℤ, k = k1 + m * y.length ∧ 2 * |k1| ≤ y.length := by
    have hN : (0 : ℤ) < y.length := by exact_mod_cast hpos
    refine ⟨(2 * k + y.length) / (2 * y.length), k - (2 * k + y.length) / (2 * y.length) * y.length,
      by ring, ?_⟩
    have h1 := Int.emod_add_mul_ediv (2 * k + y.length) (2 * y.length)
    have h2 := Int.emod_nonneg (2 * k + y.length) (by omega : (2 * (y.length : ℤ)) ≠ 0)
    have h3 := Int.emod_lt_of_pos (2 * k + y.length) (by omega : 0 < 2 * (y.length : ℤ))
    set q := (2 * k + (y.length : ℤ)) / (2 * y.length) with hq
    have h4 : 2 * (y.length : ℤ) * q = 2 * (q * y.length) := by ring
    rw [h4] at h1
    have : |k - q * y.length| * 2 ≤ y.length := by
      rw [← abs_two (α := ℤ), ← abs_mul, abs_le]
      constructor <;> linarith
    linarith
  by_cases hb : (H : ℤ) < |k1|
  · have h0 := hband k1 hb (by rw [hl] at hk1; exact_mod_cast hk1)
    have := (C58_images y hpos k1 m (by rw [← e]; exact hk0)).1
    rw [← e, h0] at this
    rw [harmonic_interp hpos, this, zero_mul, norm_zero]
    positivity
  · rw [not_lt] at hb
    have h2 := (C58_images y hpos k1 m (by rw [← e]; exact hk0)).2
    have e' : (k1 : ℝ) + m * y.length = k := by rw [e]; push_cast; rfl
    rw [← e, e'] at h2
    refine h2.trans (mul_le_mul (hA k1) ?_ (sq_nonneg _) hA0)
    rw [div_pow, div_pow]
    apply div_le_div_of_nonneg_right _ (sq_nonneg _)
    have : |(k1 : ℝ)| ≤ H := by exact_mod_cast hb
    rw [← sq_abs]
    exact pow_le_pow_left₀ (abs_nonneg _) this 2

/-- A table with a spectrum: one period of a cosine in four samples, harmonic 1. -/
example : dft [1, 0, -1, 0] 1 = 1 / 2 := by
  unfold dft
  simp only [List.length_cons, List.length_nil, Finset.sum_range_succ, Finset.sum_range_zero]
  have : Complex.exp (-(2 * Real.pi * Complex.I * ((1 : ℤ) : ℂ) * ((2 : ℕ) : ℂ) / ((4 : ℕ) : ℂ))) = -1 := by
    rw [show -(2 * (Real.pi : ℂ) * Complex.I * ((1 : ℤ) : ℂ) * ((2 : ℕ) : ℂ) / ((4 : ℕ) : ℂ)) =
      -(Real.pi * Complex.I) by push_cast; ring, Complex.exp_neg, Complex.exp_pi_mul_I]
    norm_num
  norm_num at this ⊢
  rw [this]; norm_num

/-- The hypotheses of `C58_clean` are met: that cosine, with `H = 1` and `A = 1`. -/
example (E : Env ℝ) : ([1, 0, -1, 0] : List ℝ).length = 1 * 2 ^ 2 ∧
    (∀ k : ℤ, ((1 : ℕ) : ℤ) < |k| → 2 * |k| ≤ 2 ^ (2 - 0) →
      dft (mipSamples E (waveformOf [1, 0, -1, 0] (2 ^ 2) 0) 0) k = 0) ∧
    ∀ k : ℤ, ‖dft (mipSamples E (waveformOf [1, 0, -1, 0] (2 ^ 2) 0) 0) k‖ ≤ 1 := by
  have e : mipSamples E (waveformOf [1, 0, -1, 0] (2 ^ 2) 0) 0 = [1, 0, -1, 0] := by
    rw [mipSamples_zero]; rfl
  rw [e]
  have hd : ∀ k : ℤ, dft [1, 0, -1, 0] k =
      (1 - Complex.exp (-(2 * Real.pi * Complex.I * k * 2 / 4))) / 4 := by
    intro k
    unfold dft
    simp only [List.length_cons, List.length_nil, Finset.sum_range_succ, Finset.sum_range_zero]
    norm_num
    ring
  refine ⟨rfl, fun k h1 h2 => ?_, fun k => ?_⟩
  · have : k = 2 ∨ k = -2 := by
      rcases abs_cases k with ⟨h, -⟩ | ⟨h, -⟩ <;> rw [h] at h1 h2 <;> norm_num at h1 h2 <;> omega
    rw [hd]
    have h3 : Complex.exp (-(2 * Real.pi * Complex.I * k * 2 / 4)) = 1 := by
      rw [Complex.exp_eq_one_iff]
      rcases this with rfl | rfl
      · exact ⟨-1, by push_cast; ring⟩
      · exact ⟨1, by push_cast; ring⟩
    rw [h3]; simp
  · rw [hd, norm_div]
    have h3 : ‖Complex.exp (-(2 * Real.pi * Complex.I * k * 2 / 4))‖ = 1 := by
      rw [show -(2 * Real.pi * Complex.I * k * 2 / 4) = ((-(Real.pi * k) : ℝ) : ℂ) * Complex.I by
        push_cast; ring]
      exact Complex.norm_exp_ofReal_mul_I _
    have h4 := norm_sub_le (1 : ℂ) (Complex.exp (-(2 * Real.pi * Complex.I * k * 2 / 4)))
    rw [h3, norm_one] at h4
    have : ‖(4 : ℂ)‖ = 4 := by norm_num
    rw [this]
    linarith

end Adwt.Props
