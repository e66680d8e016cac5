import Verif.Proofs.Pulse
import Verif.Props.Tone
import Verif.Props.Sensitive

/-!
# C94: the levels promised by the README are not kept by steady tones
-/

set_option linter.unusedSectionVars false

namespace Adwt.Gain

/-- A lower bound on the gain between two frequencies. -/
theorem gain_ge_from {t : FilterType} {g a : ℚ} {l : List ℚ} (hg : 0 ≤ g)
    (h : chkIn (padd (nn t) (smul (-(g * g)) (dd t))) (a :: l) = true) {ω : ℝ}
    (ha : (a : ℝ) ≤ ω ^ 2) (hω : ω ^ 2 < top a l) : (g : ℝ) ≤ ‖freqResponse (Props.filterX t) ω‖ := by
  obtain ⟨h1, h2⟩ := response_sq t ω
  have h3 := chkIn_sound h ha hω
  rw [ev_padd, ev_smul, ← h2] at h3
  push_cast at h3
  have h4 : (g : ℝ) ^ 2 ≤ ‖freqResponse (Props.filterX t) ω‖ ^ 2 := by
    by_contra hc
    push Not at hc
    have := mul_lt_mul_of_pos_right hc h1
    linarith
  exact (pow_le_pow_iff_left₀ (by exact_mod_cast hg) (norm_nonneg _) two_ne_zero).1 h4

end Adwt.Gain

namespace Adwt.Props
open Gain WavetableData

theorem pulse_length (L : ℕ) : (pulse L).length = 2 ^ L := by
  have : 0 < 2 ^ L := by positivity
  simp only [pulse, List.length_cons, List.length_replicate]
  omega

theorem pulse_dft (L : ℕ) (k : ℤ) : dft (pulse L) k = 1 / 2 ^ L := by
  have h : 0 < 2 ^ L := by positivity
  unfold dft
  rw [pulse_length, Finset.sum_eq_single_of_mem 0 (Finset.mem_range.2 h)]
  · simp [pulse]
  · intro j _ hj
    obtain ⟨j, rfl⟩ := Nat.exists_eq_succ_of_ne_zero hj
    have : (pulse L).getD (j + 1) 0 = 0 := by
      rw [pulse, List.getD_cons_succ]
      by_cases hj : j < 2 ^ L - 1
      · rw [List.getD_eq_getElem _ _ (by simpa using hj)]; simp
      · rw [List.getD_eq_default _ _ (by simpa using hj)]
    rw [Nat.succ_eq_add_one, this]
    simp

theorem pulse_wave (E : Env ℝ) (L : ℕ) : waveAt E (pulse L) L 0 0 = interp (pulse L) := by
  unfold waveAt
  simp only [Int.toNat_zero, mipSamples_zero]
  congr 1
  unfold waveformOf
  simp [List.take_of_length_le (pulse_length L).le]

/-- The amplitude of a harmonic of the pulse. -/
theorem pulse_harmonic (E : Env ℝ) (L : ℕ) (k : ℤ) :
    ‖harmonic (waveAt E (pulse L) L 0 0) k‖ = Real.sinc (Real.pi * k / 2 ^ L) ^ 2 / 2 ^ L := by
  have h : 0 < (pulse L).length := by rw [pulse_length]; positivity
  rw [pulse_wave, C58_interpolation _ h, pulse_dft, pulse_length, norm_mul, norm_div, norm_pow]
  rw [Complex.norm_real, Real.norm_eq_abs, abs_of_nonneg (by positivity)]
  push_cast
  simp only [norm_one, Complex.norm_ofNat]
  ring

theorem sinc_alias : 0.6149 ≤ Real.sinc (3 * Real.pi / 8) ^ 2 := by
  have hp := Real.pi_pos
  rw [Real.sinc_of_ne_zero (by positivity), div_pow]
  have e : Real.sin (3 * Real.pi / 8) = √(2 + √2) / 2 := by
    rw [← Real.cos_pi_div_eight, ← Real.cos_pi_div_two_sub]
    congr 1; ring
  rw [e, div_pow, Real.sq_sqrt (by positivity), le_div_iff₀ (by positivity)]
  have h2 : 1.4142 ≤ √2 := Real.le_sqrt_of_sq_le (by norm_num)
  have := Real.pi_lt_d6
  have : Real.pi ^ 2 ≤ 3.141593 ^ 2 := pow_le_pow_left₀ hp.le this.le 2
  rw [div_pow, mul_pow]
  linarith

/-- The gains at 9/16 of the samplerate. -/
theorem alias_gain_ge (t : FilterType) :
    (aliasLevel t : ℝ) * 1.0011 ≤ ‖freqResponse (filterX t) (2 * Real.pi * (9 / 16))‖ * 0.6149 := by
  have h1 : ((12.4912 : ℚ) : ℝ) ≤ (2 * Real.pi * (9 / 16)) ^ 2 := by
    have := Real.pi_gt_d6
    have h : (2 * 3.141592 * (9 / 16) : ℝ) ≤ 2 * Real.pi * (9 / 16) := by linarith
    exact le_trans (by norm_num) (pow_le_pow_left₀ (by norm_num) h 2)
  have h2 : (2 * Real.pi * (9 / 16)) ^ 2 < ((top 12.4912 [12.4913] : ℚ) : ℝ) := by
    have := Real.pi_lt_d6
    have h : 2 * Real.pi * (9 / 16) ≤ 2 * 3.141593 * (9 / 16) := by linarith
    exact (pow_le_pow_left₀ (by positivity) h 2).trans_lt (by norm_num [top])
  cases t
  · have := gain_ge_from (t := .kType1) (g := 0.53904) (by norm_num) (by decide +kernel) h1 h2
    norm_num [aliasLevel] at this ⊢; linarith
  · have := gain_ge_from (t := .kType2) (g := 0.03045) (by norm_num) (by decide +kernel) h1 h2
    norm_num [aliasLevel] at this ⊢; linarith
  · have := gain_ge_from (t := .kType3) (g := 0.37903) (by norm_num) (by decide +kernel) h1 h2
    norm_num [aliasLevel] at this ⊢; linarith
  · have := gain_ge_from (t := .kType4) (g := 0.25357) (by norm_num) (by decide +kernel) h1 h2
    norm_num [aliasLevel] at this ⊢; linarith
  · have := gain_ge_from (t := .kType5) (g := 0.0134) (by norm_num) (by decide +kernel) h1 h2
    norm_num [aliasLevel] at this ⊢; linarith

/-- C94: a wavetable with one pulse (of any length `2^L` from 8 samples on), played steadily at
`3/2^(L+1)` cycles per sample, where the table itself is used: its harmonic `3·2^(L-3)` is at 9/16 of
the samplerate, so that it is heard at 7/16, where the tone has no harmonic below half of the
samplerate; the output has it at `aliasLevel` times the amplitude of the fundamental, or more. -/
theorem C94_alias (t : FilterType) (E : Env ℝ) (L : ℕ) (hL : 3 ≤ L) (d : ℝ)
    (hd : d = 3 / 2 ^ (L + 1)) :
    SteadyStep .kForward d ∧ IsOctave L 0 |d| ∧
    (((3 * 2 ^ (L - 3) : ℕ) : ℤ) : ℝ) * d = 9 / 16 ∧ (∀ k : ℤ, (k : ℝ) * d ≠ 7 / 16) ∧
    0 < ‖harmonic (tone (filterX t) (waveAt E (pulse L) L 0 0) d) 1‖ ∧
    aliasLevel t * ‖harmonic (tone (filterX t) (waveAt E (pulse L) L 0 0) d) 1‖ ≤
      ‖harmonic (tone (filterX t) (waveAt E (pulse L) L 0 0) d) ((3 * 2 ^ (L - 3) : ℕ) : ℤ)‖ := by
  obtain ⟨m, rfl⟩ : ∃ m, L = m + 3 := ⟨L - 3, by omega⟩
  have h2 : (0 : ℝ) < 2 ^ m := by positivity
  have h2' : (1 : ℝ) ≤ 2 ^ m := one_le_pow₀ (by norm_num)
  have hp := Real.pi_pos
  have hd' : d = 3 / (16 * 2 ^ m) := by rw [hd]; congr 1; ring
  have hd0 : 0 < d := by rw [hd']; positivity
  have hd1 : d ≤ 3 / 16 := by
    rw [hd']
    exact div_le_div_of_nonneg_left (by norm_num) (by norm_num) (by linarith)
  have hkd : (((3 * 2 ^ m : ℕ) : ℤ) : ℝ) * d = 9 / 16 := by
    rw [hd']; push_cast; field_simp; norm_num
  have hh : ∀ k : ℤ, ‖harmonic (tone (filterX t) (waveAt E (pulse (m + 3)) (m + 3) 0 0) d) k‖ =
      ‖freqResponse (filterX t) (2 * Real.pi * k * d)‖ *
        (Real.sinc (Real.pi * k / 2 ^ (m + 3)) ^ 2 / 2 ^ (m + 3)) := by
    intro k
    rw [C53_harmonics (filterX t) 0.29 (by norm_num) (C39_poles t) (exactSys t).len E _ _ _ _ d k,
      norm_mul, pulse_harmonic]
  have hN : (0 : ℝ) < 2 ^ (m + 3) := by positivity
  refine ⟨⟨hd0, by linarith⟩, ⟨le_rfl, by push_cast; omega, .inl rfl, .inr ?_⟩, ?_, ?_, ?_, ?_⟩
  · rw [abs_of_pos hd0, hd']
    simp only [Int.toNat_zero, zero_add, pow_one]
    rw [div_lt_div_iff₀ (by positivity) hN]
    rw [pow_add]; linarith
  · simpa using hkd
  · intro k hk
    rw [hd'] at hk
    have h3 : (3 * k : ℝ) = 7 * 2 ^ m := by field_simp at hk; linarith
    have h4 : 3 * k = 7 * 2 ^ m := by exact_mod_cast h3
    have h5 : ∀ n : ℕ, (2 : ℤ) ^ n % 3 = 1 ∨ (2 : ℤ) ^ n % 3 = 2 := by
      intro n
      induction n with
      | zero => left; rfl
      | succ n ih => rw [pow_succ]; omega
    have := h5 m
    omega
  · rw [hh 1]
    have g := (C93_passband t (2 * Real.pi * (1 : ℤ) * d)).1
      (harmonic_turn 1 d 0.3 (by rw [abs_of_pos (by push_cast; linarith)]; push_cast; norm_num at hd1 ⊢; linarith))
    have g0 : (0 : ℝ) < (passGain t).1 := by cases t <;> norm_num [passGain]
    refine mul_pos (by linarith) (div_pos (pow_pos ?_ _) hN)
    have hx : 0 < Real.pi * (1 : ℤ) / 2 ^ (m + 3) := by push_cast; positivity
    have hx1 : Real.pi * (1 : ℤ) / 2 ^ (m + 3) < Real.pi := by
      rw [div_lt_iff₀ hN]
      have : (1 : ℝ) < 2 ^ (m + 3) := by rw [pow_add]; linarith
      push_cast; nlinarith
    rw [Real.sinc_of_ne_zero hx.ne']
    exact div_pos (Real.sin_pos_of_pos_of_lt_pi hx hx1) hx
  · have e : m + 3 - 3 = m := by omega
    rw [e, hh, hh, mul_assoc (2 * Real.pi) (((3 * 2 ^ m : ℕ) : ℤ) : ℝ), hkd]
    have e2 : Real.pi * (((3 * 2 ^ m : ℕ) : ℤ) : ℝ) / 2 ^ (m + 3) = 3 * Real.pi / 8 := by
      push_cast; rw [pow_add]; field_simp; norm_num
    rw [e2, ← mul_div_assoc, ← mul_div_assoc, ← mul_div_assoc]
    apply div_le_div_of_nonneg_right _ hN.le
    have a1 := C54_no_boost t (2 * Real.pi * (1 : ℤ) * d)
    have a2 : Real.sinc (Real.pi * (1 : ℤ) / 2 ^ (m + 3)) ^ 2 ≤ 1 := by
      rw [← sq_abs]; exact pow_le_one₀ (abs_nonneg _) (Real.abs_sinc_le_one _)
    have a3 := alias_gain_ge t
    have a4 := sinc_alias
    have a5 : (0 : ℝ) ≤ aliasLevel t := by cases t <;> norm_num [aliasLevel]
    calc _ ≤ (aliasLevel t : ℝ) * (1.0011 * 1) := by
          apply mul_le_mul_of_nonneg_left _ a5
          exact mul_le_mul a1 a2 (sq_nonneg _) (by norm_num)
      _ = aliasLevel t * 1.0011 := by ring
      _ ≤ _ := a3
      _ ≤ _ := mul_le_mul_of_nonneg_left a4 (norm_nonneg _)

/-- C94: so the README's figure is not kept by a steady tone: the alias is above -90 dB, by as much as
48 dB for every filter (the power is more than `1e-4.2` times that of the fundamental). -/
theorem C94_false : ¬ ∀ (t : FilterType) (E : Env ℝ) (ws : List ℝ) (L : ℕ) (d : ℝ) (k : ℤ),
    ws.length = 2 ^ L → SteadyStep .kForward d → IsOctave L 0 |d| → 1 / 2 ≤ |(k : ℝ) * d| →
    ‖harmonic (tone (filterX t) (waveAt E ws L 0 0) d) k‖ ^ 2 ≤
      (10 : ℝ) ^ (-9 : ℤ) * ‖harmonic (tone (filterX t) (waveAt E ws L 0 0) d) 1‖ ^ 2 := by
  intro h
  obtain ⟨h1, h2, h3, -, h5, h6⟩ := C94_alias .kType5 envX 11 (by norm_num) _ rfl
  have h7 := h .kType5 envX (pulse 11) 11 _ _ (pulse_length 11) h1 h2 (by rw [h3]; norm_num [abs_of_pos])
  have h8 := pow_le_pow_left₀ (by norm_num [aliasLevel]) h6 2
  rw [mul_pow] at h8
  have h9 := pow_pos h5 2
  norm_num [aliasLevel] at h7 h8 h9
  linarith

/-- The gain above 2.4 times the samplerate. -/
def farGain : FilterType → ℚ
  | .kType1 => 0.0352
  | .kType2 => 0.0014
  | .kType3 => 0.00124
  | .kType4 => 0.0001
  | .kType5 => 0.00133

theorem far_gain (t : FilterType) {ω : ℝ} (h : 2 * Real.pi * 2.4 ≤ |ω|) :
    ‖freqResponse (filterX t) ω‖ ≤ farGain t := by
  have h1 : ((227.39 : ℚ) : ℝ) ≤ ω ^ 2 := by
    push_cast
    exact sq_gt h (by norm_num) (by norm_num)
  cases t <;> exact gain_le (l := []) (by norm_num [farGain]) (by decide +kernel) h1

/-- The components of the pulse that are folded onto a component `k`. -/
theorem pulse_far (t : FilterType) (E : Env ℝ) (m : ℕ) {d : ℝ} (hd : d = 3 / (16 * 2 ^ m)) {k : ℤ}
    (hk : |(k : ℝ)| ≤ 3 * 2 ^ m) (j : ℤ) (hj : j ≠ 0) :
    ‖freqResponse (filterX t) (2 * Real.pi * (k + 16 * 2 ^ m * j : ℤ) * d) *
      harmonic (waveAt E (pulse (m + 3)) (m + 3) 0 0) (k + 16 * 2 ^ m * j)‖ ≤
      (farGain t : ℝ) / (2.64 * Real.pi ^ 2 * (8 * 2 ^ m)) * (1 / (j : ℝ) ^ 2) := by
  have h2 : (0 : ℝ) < 2 ^ m := by positivity
  have hp := Real.pi_pos
  have hj1 : (1 : ℝ) ≤ |(j : ℝ)| := by exact_mod_cast Int.one_le_abs hj
  rw [norm_mul, pulse_harmonic]
  have g : ‖freqResponse (filterX t) (2 * Real.pi * (k + 16 * 2 ^ m * j : ℤ) * d)‖ ≤ farGain t := by
    apply far_gain
    rw [mul_assoc (2 * Real.pi) ((k + 16 * 2 ^ m * j : ℤ) : ℝ), abs_mul, abs_of_pos (by positivity : (0 : ℝ) < 2 * Real.pi)]
    apply mul_le_mul_of_nonneg_left _ (by positivity)
    have e : ((k + 16 * 2 ^ m * j : ℤ) : ℝ) * d = 3 * j + k * d := by
      rw [hd]; push_cast; field_simp; ring
    have h3 : |(k : ℝ) * d| ≤ 9 / 16 := by
      rw [abs_mul, hd, abs_of_pos (by positivity : (0 : ℝ) < 3 / (16 * 2 ^ m)), mul_div_assoc',
        div_le_iff₀ (by positivity)]
      linarith
    rw [e]
    have h4 := abs_sub_abs_le_abs_sub (3 * (j : ℝ)) (-(k * d))
    rw [sub_neg_eq_add, abs_neg, abs_mul, abs_of_pos (by norm_num : (0 : ℝ) < 3)] at h4
    have : (2.4 : ℝ) ≤ 3 - 9 / 16 := by norm_num
    linarith
  have hx : Real.pi * (1.625 * |(j : ℝ)|) ≤
      |Real.pi * ((k + 16 * 2 ^ m * j : ℤ) : ℝ) / 2 ^ (m + 3)| := by
    have e : Real.pi * ((k + 16 * 2 ^ m * j : ℤ) : ℝ) / 2 ^ (m + 3) =
        Real.pi * (2 * j + k / (8 * 2 ^ m)) := by
      push_cast; rw [pow_add]; field_simp; ring
    rw [e, abs_mul, abs_of_pos hp]
    apply mul_le_mul_of_nonneg_left _ hp.le
    have h3 : |(k : ℝ) / (8 * 2 ^ m)| ≤ 3 / 8 := by
      rw [abs_div, abs_of_pos (by positivity : (0 : ℝ) < 8 * 2 ^ m), div_le_iff₀ (by positivity)]
      linarith
    have h4 := abs_sub_abs_le_abs_sub (2 * (j : ℝ)) (-(k / (8 * 2 ^ m)))
    rw [sub_neg_eq_add, abs_neg, abs_mul, abs_of_pos (by norm_num : (0 : ℝ) < 2)] at h4
    norm_num at h4 ⊢
    linarith
  set x := Real.pi * ((k + 16 * 2 ^ m * j : ℤ) : ℝ) / 2 ^ (m + 3)
  have hx0 : 0 < |x| := lt_of_lt_of_le (by positivity) hx
  have s : Real.sinc x ^ 2 ≤ 1 / (2.64 * Real.pi ^ 2) * (1 / (j : ℝ) ^ 2) := by
    rw [Real.sinc_of_ne_zero (abs_pos.1 hx0), div_pow, div_eq_mul_one_div (Real.sin x ^ 2)]
    have h3 : (Real.pi * (1.625 * |(j : ℝ)|)) ^ 2 ≤ x ^ 2 := by
      rw [← sq_abs x]; exact pow_le_pow_left₀ (by positivity) hx 2
    have h4 : Real.sin x ^ 2 ≤ 1 := Real.sin_sq_le_one x
    have h5 : (Real.pi * (1.625 * |(j : ℝ)|)) ^ 2 = 2.640625 * Real.pi ^ 2 * (j : ℝ) ^ 2 := by
      rw [mul_pow, mul_pow, sq_abs]; ring
    have h6 : 0 < Real.pi ^ 2 * (j : ℝ) ^ 2 := by
      rw [← sq_abs (j : ℝ)]; positivity
    have h7 : 0 < 2.64 * Real.pi ^ 2 * (j : ℝ) ^ 2 := by linarith
    calc Real.sin x ^ 2 * (1 / x ^ 2) ≤ 1 * (1 / (2.64 * Real.pi ^ 2 * (j : ℝ) ^ 2)) := by
          apply mul_le_mul h4 _ (by positivity) (by norm_num)
          apply one_div_le_one_div_of_le h7
          linarith
      _ = _ := by field_simp
  have g0 := (norm_nonneg _).trans g
  calc _ ≤ (farGain t : ℝ) * ((1 / (2.64 * Real.pi ^ 2) * (1 / (j : ℝ) ^ 2)) / 2 ^ (m + 3)) := by
        apply mul_le_mul g _ (by positivity) g0
        exact div_le_div_of_nonneg_right s (by positivity)
    _ = _ := by rw [pow_add]; field_simp; norm_num

theorem response_neg_norm (t : FilterType) (ω : ℝ) :
    ‖freqResponse (filterX t) (-ω)‖ = ‖freqResponse (filterX t) ω‖ := by
  obtain ⟨h1, h2⟩ := response_sq t ω
  obtain ⟨-, h4⟩ := response_sq t (-ω)
  rw [neg_sq] at h4
  rw [← h2] at h4
  have := mul_right_cancel₀ h1.ne' h4
  exact (pow_left_inj₀ (norm_nonneg _) (norm_nonneg _) two_ne_zero).1 this

/-- The levels of the tone, as they are measured in its samples. -/
theorem pulse_levels (t : FilterType) (E : Env ℝ) (m : ℕ) {d : ℝ} (hd : d = 3 / (16 * 2 ^ m)) (x : ℝ) :
    levelIn (16 * 2 ^ m) (fun n => tone (filterX t) (waveAt E (pulse (m + 3)) (m + 3) 0 0) d (x + n * d)) d ≤
      (1.0011 + 0.1263 * farGain t) / (8 * 2 ^ m) ∧
    (‖freqResponse (filterX t) (2 * Real.pi * (9 / 16))‖ * 0.6149 - 0.1263 * farGain t) / (8 * 2 ^ m) ≤
    levelIn (16 * 2 ^ m) (fun n => tone (filterX t) (waveAt E (pulse (m + 3)) (m + 3) 0 0) d (x + n * d))
      (7 / 16) := by
  have h2 : (0 : ℝ) < 2 ^ m := by positivity
  have hp := Real.pi_pos
  have hd0 : d ≠ 0 := by rw [hd]; positivity
  have hP : 0 < 16 * 2 ^ m := by positivity
  have hPd : ((16 * 2 ^ m : ℕ) : ℝ) * d = (3 : ℤ) := by rw [hd]; push_cast; field_simp
  have hPf : ((16 * 2 ^ m : ℕ) : ℝ) * (7 / 16) = (7 * 2 ^ m : ℤ) := by push_cast; ring
  have hs := C53_spectrum (filterX t) 0.29 (by norm_num) (C39_poles t) (exactSys t).len E
    (pulse (m + 3)) (m + 3) 0 0 d hd0
  have hM : (16 * 2 ^ m : ℤ) ≠ 0 := by positivity
  have hcop : IsCoprime (16 * 2 ^ m : ℤ) 3 := by
    have : (16 * 2 ^ m : ℤ) = 2 ^ (m + 4) := by rw [pow_add]; ring
    rw [this]
    exact IsCoprime.pow_left ⟨-1, 1, by norm_num⟩
  have hint : ∀ {f : ℝ} {k : ℤ} (_ : ∃ b : ℤ, (k : ℝ) * d - f = b) (l : ℤ),
      (∃ b : ℤ, (l : ℝ) * d - f = b) ↔ (16 * 2 ^ m : ℤ) ∣ l - k := by
    rintro f k ⟨b, hb⟩ l
    constructor
    · rintro ⟨b', hb'⟩
      apply hcop.dvd_of_dvd_mul_right
      refine ⟨b' - b, ?_⟩
      have h3 : ((l : ℝ) - k) * d = b' - b := by linarith
      rw [hd] at h3
      have h4 : ((l : ℝ) - k) * 3 = 16 * 2 ^ m * (b' - b) := by
        rw [← h3]; field_simp
      exact_mod_cast h4
    · rintro ⟨j, hj⟩
      refine ⟨b + 3 * j, ?_⟩
      have h3 : (l : ℝ) - k = 16 * 2 ^ m * j := by exact_mod_cast hj
      have h4 : (l : ℝ) * d - f = b + (l - k) * d := by rw [← hb]; ring
      rw [h4, h3, hd]
      push_cast; field_simp
  have hB : (farGain t : ℝ) / (2.64 * Real.pi ^ 2 * (8 * 2 ^ m)) * (Real.pi ^ 2 / 3) ≤
      0.1263 * farGain t / (8 * 2 ^ m) := by
    have g0 : (0 : ℝ) ≤ farGain t := by cases t <;> norm_num [farGain]
    have e : (farGain t : ℝ) / (2.64 * Real.pi ^ 2 * (8 * 2 ^ m)) * (Real.pi ^ 2 / 3) =
        farGain t / 7.92 / (8 * 2 ^ m) := by
      field_simp
      ring
    rw [e]
    apply div_le_div_of_nonneg_right _ (by positivity)
    rw [div_eq_mul_one_div, mul_comm]
    exact mul_le_mul_of_nonneg_right (by norm_num) g0
  constructor
  · have h3 := fold_near hs hP hPd hPd x hM (hint (f := d) (k := 1) ⟨0, by push_cast; ring⟩)
      (fun j hj => pulse_far t E m hd (k := 1) (by push_cast; rw [abs_one]; have := one_le_pow₀ (M₀ := ℝ) (by norm_num : (1:ℝ) ≤ 2) (n := m); linarith) j hj)
    have h4 : ‖freqResponse (filterX t) (2 * Real.pi * (1 : ℤ) * d) *
        harmonic (waveAt E (pulse (m + 3)) (m + 3) 0 0) 1‖ ≤ 1.0011 / (8 * 2 ^ m) := by
      rw [norm_mul, pulse_harmonic, mul_div_assoc', show (2 : ℝ) ^ (m + 3) = 8 * 2 ^ m by ring]
      apply div_le_div_of_nonneg_right _ (by positivity)
      have a2 : Real.sinc (Real.pi * (1 : ℤ) / (8 * 2 ^ m)) ^ 2 ≤ 1 := by
        rw [← sq_abs]; exact pow_le_one₀ (abs_nonneg _) (Real.abs_sinc_le_one _)
      exact (mul_le_mul (C54_no_boost t _) a2 (sq_nonneg _) (by norm_num)).trans (by norm_num)
    have h5 := (abs_le.1 h3).2
    rw [add_div]
    linarith
  · have hk : ((-(3 * 2 ^ m) : ℤ) : ℝ) * d = -(9 / 16) := by
      rw [hd]; push_cast; field_simp; norm_num
    have h3 := fold_near hs hP hPd hPf x hM
      (hint (f := 7 / 16) (k := -(3 * 2 ^ m)) ⟨-1, by rw [hk]; norm_num⟩)
      (fun j hj => pulse_far t E m hd (k := -(3 * 2 ^ m))
        (by push_cast; rw [abs_neg, abs_of_pos (by positivity)]) j hj)
    have h4 : ‖freqResponse (filterX t) (2 * Real.pi * (9 / 16))‖ * 0.6149 / (8 * 2 ^ m) ≤
        ‖freqResponse (filterX t) (2 * Real.pi * (-(3 * 2 ^ m) : ℤ) * d) *
        harmonic (waveAt E (pulse (m + 3)) (m + 3) 0 0) (-(3 * 2 ^ m))‖ := by
      rw [norm_mul, pulse_harmonic, ← mul_div_assoc ‖freqResponse (filterX t)
        (2 * Real.pi * (-(3 * 2 ^ m) : ℤ) * d)‖, show (2 : ℝ) ^ (m + 3) = 8 * 2 ^ m by ring]
      apply div_le_div_of_nonneg_right _ (by positivity)
      rw [mul_assoc (2 * Real.pi) ((-(3 * 2 ^ m) : ℤ) : ℝ), hk]
      have e2 : Real.pi * ((-(3 * 2 ^ m) : ℤ) : ℝ) / (8 * 2 ^ m) = -(3 * Real.pi / 8) := by
        push_cast; field_simp
      rw [e2, Real.sinc_neg, mul_neg, response_neg_norm]
      exact mul_le_mul_of_nonneg_left sinc_alias (norm_nonneg _)
    have h5 := (abs_le.1 h3).1
    rw [sub_div]
    linarith

theorem measured_margin (t : FilterType) :
    (measuredLevel t : ℝ) * (1.0011 + 0.1263 * farGain t) <
      ‖freqResponse (filterX t) (2 * Real.pi * (9 / 16))‖ * 0.6149 - 0.1263 * farGain t := by
  have h := alias_gain_ge t
  cases t <;> norm_num [aliasLevel, measuredLevel, farGain] at h ⊢ <;> linarith

/-- C94, in the output: whatever was played before, once the pulse has been played steadily for long
enough, a Fourier analysis of `2^(L+1)` successive output samples (three cycles of the tone) finds
at 7/16 of the samplerate a component of at least `measuredLevel` times the level of the
fundamental. -/
theorem C94_measured (t : FilterType) (S : Sys ℝ ℂ) (hS : ExactSys S) (hl : Log2Spec S.env.log2f)
    (hflt : S.flt = filterX t) (L : ℕ) (hL : 3 ≤ L) (d : ℝ) (hd : d = 3 / 2 ^ (L + 1))
    (st : ℕ → Osc ℝ ℂ) (y : ℕ → ℝ) (h : SteadyTone S (pulse L) 1 L .kForward d st y) :
    ∃ m₀ : ℕ, ∀ m ≥ m₀,
      0 < levelIn (2 ^ (L + 1)) (fun n => y (m + n)) (7 / 16) ∧
      measuredLevel t * levelIn (2 ^ (L + 1)) (fun n => y (m + n)) d ≤
        levelIn (2 ^ (L + 1)) (fun n => y (m + n)) (7 / 16) := by
  have hoct : IsOctave L 0 |d| := (C94_alias t S.env L hL d hd).2.1
  obtain ⟨A, hA⟩ := C52_tone S hS hl 0.29 (by norm_num) (hflt ▸ C39_poles t) _ _ _ _ _ st y h 0 hoct
  have hcrt : (st 0).crt = 0 := by
    have := Sys.reached_play (Sys.exact_rounding hS) hl hS.B h.plays.1
    have h1 := this.crt0
    have h2 := this.crt1
    push_cast at h2
    omega
  rw [hcrt, hflt] at hA
  obtain ⟨k, rfl⟩ : ∃ k, L = k + 3 := ⟨L - 3, by omega⟩
  have hd' : d = 3 / (16 * 2 ^ k) := by rw [hd]; congr 1; ring
  have e2 : 2 ^ (k + 3 + 1) = 16 * 2 ^ k := by ring
  rw [e2]
  set x0 := (st 0).prevPhase
  set lo := (‖freqResponse (filterX t) (2 * Real.pi * (9 / 16))‖ * 0.6149 - 0.1263 * farGain t) /
    (8 * 2 ^ k) with hlo
  set hi := (1.0011 + 0.1263 * (farGain t : ℝ)) / (8 * 2 ^ k) with hhi
  have l0 : (0 : ℝ) ≤ measuredLevel t := by cases t <;> norm_num [measuredLevel]
  have l1 : (measuredLevel t : ℝ) ≤ 1 := by cases t <;> norm_num [measuredLevel]
  have g0 : (0 : ℝ) ≤ farGain t := by cases t <;> norm_num [farGain]
  have hi0 : 0 ≤ hi := by rw [hhi]; positivity
  have marg : measuredLevel t * hi < lo := by
    rw [hhi, hlo, ← mul_div_assoc]
    exact div_lt_div_of_pos_right (measured_margin t) (by positivity)
  have lo0 : 0 < lo := lt_of_le_of_lt (mul_nonneg l0 hi0) marg
  set δ := min (lo / 2) ((lo - measuredLevel t * hi) / 2) with hδ
  have δ0 : 0 < δ := lt_min (by linarith) (by linarith)
  have hlim : Filter.Tendsto (fun m : ℕ => |A| * Real.exp (-0.29 * m)) Filter.atTop (nhds 0) := by
    have h1 : Filter.Tendsto (fun m : ℕ => Real.exp (-0.29 * m)) Filter.atTop (nhds 0) := by
      refine Real.tendsto_exp_atBot.comp ?_
      exact tendsto_natCast_atTop_atTop.const_mul_atTop_of_neg (by norm_num)
    simpa using h1.const_mul |A|
  obtain ⟨m₀, hm₀⟩ := Filter.eventually_atTop.1 (hlim.eventually_lt_const δ0)
  refine ⟨m₀, fun m hm => ?_⟩
  have hP : 0 < 16 * 2 ^ k := by positivity
  obtain ⟨p1, p2⟩ := pulse_levels t S.env k hd' (x0 + (m + 1) * d)
  have near : ∀ f, |levelIn (16 * 2 ^ k) (fun n => y (m + n)) f -
      levelIn (16 * 2 ^ k) (fun n => tone (filterX t) (waveAt S.env (pulse (k + 3)) (k + 3) 0 0) d
        (x0 + (m + 1) * d + n * d)) f| ≤ δ := by
    refine levelIn_near hP fun n _ => ?_
    have h1 := hA (m + n)
    have e : x0 + (m + 1) * d + n * d = x0 + (((m + n : ℕ) : ℝ) + 1) * d := by push_cast; ring
    rw [e]
    refine h1.trans (le_trans ?_ (hm₀ m hm).le)
    refine mul_le_mul (le_abs_self A) (Real.exp_le_exp.2 ?_) (Real.exp_pos _).le (abs_nonneg A)
    push_cast
    have : (0 : ℝ) ≤ n := n.cast_nonneg
    linarith
  have n1 := (abs_le.1 (near d)).2
  have n2 := (abs_le.1 (near (7 / 16))).1
  have d1 : δ ≤ lo / 2 := min_le_left _ _
  have d2 : δ ≤ (lo - measuredLevel t * hi) / 2 := min_le_right _ _
  refine ⟨by linarith, ?_⟩
  have n3 : levelIn (16 * 2 ^ k) (fun n => y (m + n)) d ≤ hi + δ := by linarith
  have n4 := mul_le_mul_of_nonneg_left n3 l0
  have n5 : measuredLevel t * δ ≤ δ := mul_le_of_le_one_left δ0.le l1
  rw [mul_add] at n4
  linarith

/-- Every built-in filter, wavetables of any supported length from 8 samples on, from `init` at
phase 0: the tone is played, in exact arithmetic, and has the alias. -/
example (t : FilterType) (L : ℕ) (hL : 3 ≤ L) (h18 : L ≤ 18) : ∃ st y,
    SteadyTone (sysOf envX t) (pulse L) 1 L .kForward (3 / 2 ^ (L + 1)) st y ∧
    ∃ m₀ : ℕ, ∀ m ≥ m₀, measuredLevel t * levelIn (2 ^ (L + 1)) (fun n => y (m + n)) (3 / 2 ^ (L + 1)) ≤
        levelIn (2 ^ (L + 1)) (fun n => y (m + n)) (7 / 16) := by
  obtain ⟨h1, h2, -⟩ := C94_alias t envX L hL _ rfl
  have hd0 : (3 / 2 ^ (L + 1) : ℝ) ≠ 0 := h1.1.ne'
  have hb := builtX (pulse L) L (by omega) h18 (pulse_length L) 1 le_rfl (by norm_num)
  have hp : PhaseOk (sysOf envX t).env.fl 0 := ⟨le_rfl, one_pos, isPhase_id _⟩
  obtain ⟨⟨o, r⟩, ho, hplay, hph, hdiff, -⟩ := Sys.init_play (S := sysOf envX t) envX_ok.1
    (sysOf envX t).fresh (hb.ok envX_ok.1 envX_ok.2.1) hp hd0
  have hpl := (init_ctl (S := sysOf envX t) envX_ok.1 envX_ok.2.1 hb hb hp hd0 ho ho).2.1
  dsimp only at hph hdiff
  obtain ⟨st, y, -, h⟩ := C52_plays _ (exactSys t) log2X (pulse L) 1 L o hpl (by
    rintro ⟨-, h⟩; rw [hdiff] at h; linarith [h1.1]) _ h1 (by
    intro n
    rw [hph, zero_add]
    have e : Int.fract ((n : ℝ) * (3 / 2 ^ (L + 1))) =
        ((3 * n - 2 ^ (L + 1) * ⌊(n : ℝ) * (3 / 2 ^ (L + 1))⌋ : ℤ) : ℝ) / 2 ^ (L + 1) := by
      unfold Int.fract
      push_cast
      field_simp
    rw [e]
    exact offDenormal_dyadic _ (L + 1) L (by omega) (by omega))
  obtain ⟨m₀, hm⟩ := C94_measured t _ (exactSys t) log2X rfl L hL _ rfl st y h
  exact ⟨st, y, h, m₀, fun m hm' => (hm m hm').2⟩

end Adwt.Props
