import Verif.Proofs.Gain
import Verif.Props.Tone
import Verif.Proofs.Spectrum

/-!
# C53, C54: the spectrum of a tone and the gains of the built-in filters
-/

set_option linter.unusedSectionVars false

namespace Adwt.Props
open Gain

/-- C53: the tone is the sum of the harmonics of the table, each multiplied by the frequency response
of the filter at its own frequency `2π k d`. -/
theorem C53_spectrum (flt : Filter ℂ) (σ : ℝ) (hσ0 : 0 < σ) (hσ : PolesLeft flt σ)
    (hlen : flt.r.length = flt.z.length) (E : Env ℝ) (ws : List ℝ) (L : ℕ) (w i : ℤ) (d : ℝ)
    (hd : d ≠ 0) (x : ℝ) :
    HasSum (fun k : ℤ => freqResponse flt (2 * Real.pi * k * d) * harmonic (waveAt E ws L w i) k *
      Complex.exp (2 * Real.pi * Complex.I * k * x)) (tone flt (waveAt E ws L w i) d x : ℂ) :=
  tone_hasSum (PolesLeft.re_neg hσ hσ0 hlen) (interp_continuous _) waveAt_period hd x

/-- The gain above the Nyquist frequency. -/
def nyquistGain : FilterType → ℝ
  | .kType1 => 0.63
  | .kType2 => 0.33
  | .kType3 => 0.55
  | .kType4 => 0.47
  | .kType5 => 0.092

theorem sq_ge {ω : ℝ} (h : Real.pi ≤ |ω|) : ((9.8696 : ℚ) : ℝ) ≤ ω ^ 2 := by
  rw [← sq_abs]
  have := Real.pi_gt_d6
  push_cast
  nlinarith

/-- C54: every component that would alias, i.e. of a frequency at or above the Nyquist frequency
(`π` radians per sample), is attenuated at least to this gain. -/
theorem C54_nyquist (t : FilterType) (ω : ℝ) (h : Real.pi ≤ |ω|) :
    ‖freqResponse (filterX t) ω‖ ≤ nyquistGain t := by
  have h2 := sq_ge h
  cases t
  · exact (gain_le (g := 0.63) (l := []) (by norm_num) (by decide +kernel) h2).trans
      (by norm_num [nyquistGain])
  · exact (gain_le (g := 0.33) (l := []) (by norm_num) (by decide +kernel) h2).trans
      (by norm_num [nyquistGain])
  · exact (gain_le (g := 0.55) (l := []) (by norm_num) (by decide +kernel) h2).trans
      (by norm_num [nyquistGain])
  · exact (gain_le (g := 0.47) (l := []) (by norm_num) (by decide +kernel) h2).trans
      (by norm_num [nyquistGain])
  · exact (gain_le (g := 0.092) (l := []) (by norm_num) (by decide +kernel) h2).trans
      (by norm_num [nyquistGain])

/-- C54: the two Chebyshev filters reach about -54 dB from 0.61 times the samplerate on. -/
theorem C54_stopband (t : FilterType) (ht : t = .kType2 ∨ t = .kType5) (ω : ℝ)
    (h : 2 * Real.pi * 0.61 ≤ |ω|) : ‖freqResponse (filterX t) ω‖ ≤ 0.002 := by
  have h2 : ((14.689 : ℚ) : ℝ) ≤ ω ^ 2 := by
    rw [← sq_abs]
    have := Real.pi_gt_d6
    push_cast
    nlinarith
  rcases ht with rfl | rfl
  · exact (gain_le (g := 0.002) (l := [22.689, 38.689, 46.689]) (by norm_num) (by decide +kernel)
      h2).trans (by norm_num)
  · exact (gain_le (g := 0.002) (l := [22.689, 30.689, 94.689]) (by norm_num) (by decide +kernel)
      h2).trans (by norm_num)

/-- C54: no frequency is amplified by more than 0.11 %. -/
theorem C54_no_boost (t : FilterType) (ω : ℝ) : ‖freqResponse (filterX t) ω‖ ≤ 1.0011 := by
  have h2 : ((0 : ℚ) : ℝ) ≤ ω ^ 2 := by push_cast; positivity
  cases t
  · exact (gain_le (g := 1) (l := []) (by norm_num) (by decide +kernel) h2).trans (by norm_num)
  · exact (gain_le (g := 1.0011) (l := [4, 68]) (by norm_num) (by decide +kernel) h2).trans
      (by norm_num)
  · exact (gain_le (g := 1) (l := [4]) (by norm_num) (by decide +kernel) h2).trans (by norm_num)
  · exact (gain_le (g := 1) (l := [1]) (by norm_num) (by decide +kernel) h2).trans (by norm_num)
  · exact (gain_le (g := 1.0011) (l := [4]) (by norm_num) (by decide +kernel) h2).trans
      (by norm_num)

/-- The order of a Butterworth filter among the built-in ones. -/
def butterworthOrder : FilterType → Option ℕ
  | .kType1 => some 2
  | .kType3 => some 4
  | .kType4 => some 6
  | _ => none

theorem cutoff_bounds : (7.9943795 : ℝ) ≤ (2 * Real.pi * 0.45) ^ 2 ∧
    (2 * Real.pi * 0.45) ^ 2 ≤ (7.9943796 : ℝ) := by
  have h1 := Real.pi_gt_d20
  have h2 := Real.pi_lt_d20
  constructor <;> nlinarith

theorem butter_mono {v p q : ℝ} (hv : 0 ≤ v) (hp : 0 < p) (hpq : p ≤ q) (n : ℕ) :
    1 / (1 + (v / p) ^ n) ≤ 1 / (1 + (v / q) ^ n) := by
  have hq : 0 < q := hp.trans_le hpq
  have h1 : v / q ≤ v / p := div_le_div_of_nonneg_left hv hp hpq
  have h2 : (v / q) ^ n ≤ (v / p) ^ n := pow_le_pow_left₀ (by positivity) h1 n
  apply one_div_le_one_div_of_le
  · positivity
  · linarith

/-- C54: the Butterworth filters have the gain of a Butterworth filter of the documented order and
cutoff, 0.45 times the samplerate, at every frequency, up to 1e-7 (the coefficients have 8 digits). -/
theorem C54_butterworth (t : FilterType) (n : ℕ) (ht : butterworthOrder t = some n) (ω : ℝ) :
    |‖freqResponse (filterX t) ω‖ ^ 2 - 1 / (1 + (ω / (2 * Real.pi * 0.45)) ^ (2 * n))| ≤ 1e-7 := by
  obtain ⟨c1, c2⟩ := cutoff_bounds
  have e : (ω / (2 * Real.pi * 0.45)) ^ (2 * n) = (ω ^ 2 / (2 * Real.pi * 0.45) ^ 2) ^ n := by
    rw [pow_mul, div_pow]
  rw [e]
  set q := (2 * Real.pi * 0.45) ^ 2
  have hq0 : 0 < q := lt_of_lt_of_le (by norm_num) c1
  have m1 := butter_mono (sq_nonneg ω) (by norm_num) c1 n
  have m2 := butter_mono (sq_nonneg ω) hq0 c2 n
  have key : ‖freqResponse (filterX t) ω‖ ^ 2 ≤ 1 / (1 + (ω ^ 2 / ((7.9943795 : ℚ) : ℝ)) ^ n) +
      ((1e-7 : ℚ) : ℝ) ∧ 1 / (1 + (ω ^ 2 / ((7.9943796 : ℚ) : ℝ)) ^ n) - ((1e-7 : ℚ) : ℝ) ≤
      ‖freqResponse (filterX t) ω‖ ^ 2 := by
    cases t <;> simp only [butterworthOrder, Option.some.injEq, reduceCtorEq] at ht
    · subst ht
      exact ⟨butter_le (B := [7.9943795 ^ 2, 0, 1]) (l := []) (by norm_num)
          (by intro v; simp only [ev_cons, ev_nil]; push_cast; ring) (by decide +kernel) ω,
        butter_ge (B := [7.9943796 ^ 2, 0, 1]) (l := []) (by norm_num)
          (by intro v; simp only [ev_cons, ev_nil]; push_cast; ring) (by decide +kernel) ω⟩
    · subst ht
      exact ⟨butter_le (B := [7.9943795 ^ 4, 0, 0, 0, 1]) (l := [32]) (by norm_num)
          (by intro v; simp only [ev_cons, ev_nil]; push_cast; ring) (by decide +kernel) ω,
        butter_ge (B := [7.9943796 ^ 4, 0, 0, 0, 1]) (l := [64]) (by norm_num)
          (by intro v; simp only [ev_cons, ev_nil]; push_cast; ring) (by decide +kernel) ω⟩
    · subst ht
      exact ⟨butter_le (B := [7.9943795 ^ 6, 0, 0, 0, 0, 0, 1]) (l := [64]) (by norm_num)
          (by intro v; simp only [ev_cons, ev_nil]; push_cast; ring) (by decide +kernel) ω,
        butter_ge (B := [7.9943796 ^ 6, 0, 0, 0, 0, 0, 1]) (l := [16]) (by norm_num)
          (by intro v; simp only [ev_cons, ev_nil]; push_cast; ring) (by decide +kernel) ω⟩
  obtain ⟨k1, k2⟩ := key
  have n1 : ((7.9943795 : ℚ) : ℝ) = 7.9943795 := by norm_num
  have n2 : ((7.9943796 : ℚ) : ℝ) = 7.9943796 := by norm_num
  have n3 : ((1e-7 : ℚ) : ℝ) = 1e-7 := by norm_num
  rw [n1, n3] at k1
  rw [n2, n3] at k2
  rw [abs_le]
  constructor <;> linarith

/-! ### C55 -/

theorem alias_gain (t : FilterType) {d : ℝ} {k : ℤ} (hk : 1 / 2 ≤ |(k : ℝ) * d|) :
    ‖freqResponse (filterX t) (2 * Real.pi * k * d)‖ ≤ nyquistGain t := by
  apply C54_nyquist
  have e : |2 * Real.pi * k * d| = 2 * Real.pi * |(k : ℝ) * d| := by
    rw [mul_assoc, abs_mul, abs_of_pos (by positivity)]
  rw [e]
  have := Real.pi_pos
  nlinarith

/-- C55: the energy of a tone in the components that alias (those whose frequency `k d` is at least
half a cycle per sample) is at most the square of the Nyquist gain times the energy which the table
has there; and the total energy is at most 1.0011² times that of the table. The sums converge. -/
theorem C55_alias_energy (t : FilterType) (E : Env ℝ) (ws : List ℝ) (L : ℕ) (w i : ℤ) (d : ℝ) :
    Summable (fun k : ℤ => ‖harmonic (waveAt E ws L w i) k‖ ^ 2) ∧
    Summable (fun k : ℤ => ‖harmonic (tone (filterX t) (waveAt E ws L w i) d) k‖ ^ 2) ∧
    ∑' k : {k : ℤ // 1 / 2 ≤ |(k : ℝ) * d|},
      ‖harmonic (tone (filterX t) (waveAt E ws L w i) d) k‖ ^ 2 ≤
      nyquistGain t ^ 2 * ∑' k : {k : ℤ // 1 / 2 ≤ |(k : ℝ) * d|},
        ‖harmonic (waveAt E ws L w i) k‖ ^ 2 ∧
    ∑' k : ℤ, ‖harmonic (tone (filterX t) (waveAt E ws L w i) d) k‖ ^ 2 ≤
      1.0011 ^ 2 * ∑' k : ℤ, ‖harmonic (waveAt E ws L w i) k‖ ^ 2 := by
  have hs : Summable fun k : ℤ => ‖harmonic (waveAt E ws L w i) k‖ ^ 2 :=
    harmonic_sq_summable (interp_continuous _) waveAt_period
  have hsub := hs.subtype {k : ℤ | 1 / 2 ≤ |(k : ℝ) * d|}
  have hz := PolesLeft.re_neg (C39_poles t) (by norm_num) (exactSys t).len
  have ht : Summable fun k : ℤ => ‖harmonic (tone (filterX t) (waveAt E ws L w i) d) k‖ ^ 2 :=
    harmonic_sq_summable (tone_continuous hz (interp_continuous _) waveAt_period d)
      (tone_periodic _ waveAt_period d)
  have htsub := ht.subtype {k : ℤ | 1 / 2 ≤ |(k : ℝ) * d|}
  have hh := C53_harmonics (filterX t) 0.29 (by norm_num) (C39_poles t) (exactSys t).len E ws L w i d
  refine ⟨hs, ht, ?_, ?_⟩
  · rw [← tsum_mul_left]
    refine htsub.tsum_le_tsum (fun k => ?_) (hsub.mul_left _)
    rw [hh, norm_mul, mul_pow]
    exact mul_le_mul_of_nonneg_right
      (pow_le_pow_left₀ (norm_nonneg _) (alias_gain t k.2) 2) (sq_nonneg _)
  · rw [← tsum_mul_left]
    refine ht.tsum_le_tsum (fun k => ?_) (hs.mul_left _)
    rw [hh, norm_mul, mul_pow]
    exact mul_le_mul_of_nonneg_right
      (pow_le_pow_left₀ (norm_nonneg _) (C54_no_boost t _) 2) (sq_nonneg _)

/-- Components that alias exist: harmonic 2 at a step of 5/16. -/
example : ∃ k : {k : ℤ // 1 / 2 ≤ |(k : ℝ) * (5 / 16)|}, (k : ℤ) = 2 :=
  ⟨⟨2, by norm_num [abs_of_pos]⟩, rfl⟩

/-- The hypotheses of C54 are met. -/
example : butterworthOrder .kType4 = some 6 ∧ Real.pi ≤ |(4 : ℝ)| ∧ 2 * Real.pi * 0.61 ≤ |(4 : ℝ)| := by
  have := Real.pi_lt_d2
  refine ⟨rfl, ?_, ?_⟩ <;> norm_num [abs_of_pos] <;> linarith

end Adwt.Props
