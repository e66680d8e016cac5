import Verif.Proofs.Passband
import Verif.Props.Gain
import Verif.Props.Stored

/-!
# C93: what the built-in filters leave of the audible frequencies
-/

set_option linter.unusedSectionVars false

namespace Adwt.Props
open Gain

theorem sq_lt {ω : ℝ} {f b : ℝ} (h : |ω| ≤ 2 * Real.pi * f) (hf : 0 ≤ f)
    (hb : (2 * 3.141593 * f) ^ 2 < b) : ω ^ 2 < b := by
  rw [← sq_abs]
  have := Real.pi_lt_d6
  have h1 : |ω| ≤ 2 * 3.141593 * f := h.trans (by nlinarith)
  exact (pow_le_pow_left₀ (abs_nonneg _) h1 2).trans_lt hb

theorem sq_gt {ω : ℝ} {f b : ℝ} (h : 2 * Real.pi * f ≤ |ω|) (hf : 0 ≤ f)
    (hb : b ≤ (2 * 3.141592 * f) ^ 2) : b ≤ ω ^ 2 := by
  rw [← sq_abs]
  have := Real.pi_gt_d6
  have h1 : 2 * 3.141592 * f ≤ |ω| := le_trans (by nlinarith) h
  exact hb.trans (pow_le_pow_left₀ (by positivity) h1 2)

/-- C93: every component up to 0.3 times the samplerate keeps at least the first of the gains, every
one up to 0.4 times the samplerate the second. -/
theorem C93_passband (t : FilterType) (ω : ℝ) :
    (|ω| ≤ 2 * Real.pi * 0.3 → ((passGain t).1 : ℝ) ≤ ‖freqResponse (filterX t) ω‖) ∧
    (|ω| ≤ 2 * Real.pi * 0.4 → ((passGain t).2 : ℝ) ≤ ‖freqResponse (filterX t) ω‖) := by
  constructor <;> intro h
  · have h2 : ω ^ 2 < ((top 0 [3.5531] : ℚ) : ℝ) :=
      sq_lt h (by norm_num) (by simp only [top]; norm_num)
    cases t <;> exact gain_ge (by decide +kernel) (by decide +kernel) h2
  · have h2 : ω ^ 2 < ((top 0 [6.3166] : ℚ) : ℝ) :=
      sq_lt h (by norm_num) (by simp only [top]; norm_num)
    cases t <;> exact gain_ge (by decide +kernel) (by decide +kernel) h2

/-- C93: half of the power is left at `halfPower` times the samplerate, to a thousandth: all lower
frequencies keep more (up to 0.0001), all higher ones less. -/
theorem C93_half_power (t : FilterType) (ω : ℝ) :
    (|ω| ≤ 2 * Real.pi * ((halfPower t : ℝ) - 0.001) → 0.70711 ≤ ‖freqResponse (filterX t) ω‖) ∧
    (2 * Real.pi * ((halfPower t : ℝ) + 0.001) ≤ |ω| → ‖freqResponse (filterX t) ω‖ ≤ 0.7071) := by
  have n1 : ((0.70711 : ℚ) : ℝ) = 0.70711 := by norm_num
  have n2 : ((0.7071 : ℚ) : ℝ) = 0.7071 := by norm_num
  rw [← n1, ← n2]
  cases t
  · exact ⟨fun h => gain_ge (l := [7.959]) (by norm_num) (by decide +kernel)
        (sq_lt h (by norm_num [halfPower]) (by norm_num [halfPower, top])),
      fun h => gain_le (a := 8.0298) (l := []) (by norm_num) (by decide +kernel)
        (sq_gt h (by norm_num [halfPower]) (by norm_num [halfPower]))⟩
  · exact ⟨fun h => gain_ge (l := [8.6100]) (by norm_num) (by decide +kernel)
        (sq_lt h (by norm_num [halfPower]) (by norm_num [halfPower, top])),
      fun h => gain_le (a := 8.6834) (l := []) (by norm_num) (by decide +kernel)
        (sq_gt h (by norm_num [halfPower]) (by norm_num [halfPower]))⟩
  · exact ⟨fun h => gain_ge (l := [7.959]) (by norm_num) (by decide +kernel)
        (sq_lt h (by norm_num [halfPower]) (by norm_num [halfPower, top])),
      fun h => gain_le (a := 8.0298) (l := []) (by norm_num) (by decide +kernel)
        (sq_gt h (by norm_num [halfPower]) (by norm_num [halfPower]))⟩
  · exact ⟨fun h => gain_ge (l := [7.959]) (by norm_num) (by decide +kernel)
        (sq_lt h (by norm_num [halfPower]) (by norm_num [halfPower, top])),
      fun h => gain_le (a := 8.0298) (l := []) (by norm_num) (by decide +kernel)
        (sq_gt h (by norm_num [halfPower]) (by norm_num [halfPower]))⟩
  · exact ⟨fun h => gain_ge (l := [6.6041]) (by norm_num) (by decide +kernel)
        (sq_lt h (by norm_num [halfPower]) (by norm_num [halfPower, top])),
      fun h => gain_le (a := 6.6685) (l := []) (by norm_num) (by decide +kernel)
        (sq_gt h (by norm_num [halfPower]) (by norm_num [halfPower]))⟩

/-- The filters as the program stores them, up to `3e-5`. -/
theorem C93_stored (t : FilterType) (flt : Filter ℂ) (h : StoredFilter (1 / 2 ^ 23) t flt) (ω : ℝ) :
    (|ω| ≤ 2 * Real.pi * 0.3 → ((passGain t).1 : ℝ) - 3e-5 ≤ ‖freqResponse flt ω‖) ∧
    (|ω| ≤ 2 * Real.pi * 0.4 → ((passGain t).2 : ℝ) - 3e-5 ≤ ‖freqResponse flt ω‖) ∧
    (|ω| ≤ 2 * Real.pi * ((halfPower t : ℝ) - 0.001) → 0.70708 ≤ ‖freqResponse flt ω‖) ∧
    (2 * Real.pi * ((halfPower t : ℝ) + 0.001) ≤ |ω| → ‖freqResponse flt ω‖ ≤ 0.70713) := by
  have h1 := norm_sub_norm_le (freqResponse flt ω) (freqResponse (filterX t) ω)
  have h2 := norm_sub_norm_le (freqResponse (filterX t) ω) (freqResponse flt ω)
  rw [norm_sub_rev] at h2
  have h3 := C68_response t flt h ω
  obtain ⟨p1, p2⟩ := C93_passband t ω
  obtain ⟨q1, q2⟩ := C93_half_power t ω
  exact ⟨fun h => by linarith [p1 h], fun h => by linarith [p2 h], fun h => by linarith [q1 h],
    fun h => by linarith [q2 h]⟩

theorem harmonic_turn (k : ℤ) (d f : ℝ) (h : |(k : ℝ) * d| ≤ f) :
    |2 * Real.pi * k * d| ≤ 2 * Real.pi * f := by
  rw [mul_assoc, abs_mul, abs_of_pos (by positivity : (0 : ℝ) < 2 * Real.pi)]
  have := Real.pi_pos
  nlinarith

/-- C93, heard: a harmonic of a tone up to 0.3 (0.4) times the samplerate is in the output with at
least this part of the amplitude it has in the table, and at most 0.11 % more. -/
theorem C93_tone (t : FilterType) (E : Env ℝ) (ws : List ℝ) (L : ℕ) (w i : ℤ) (d : ℝ) (k : ℤ) :
    (|(k : ℝ) * d| ≤ 0.3 → (passGain t).1 * ‖harmonic (waveAt E ws L w i) k‖ ≤
      ‖harmonic (tone (filterX t) (waveAt E ws L w i) d) k‖) ∧
    (|(k : ℝ) * d| ≤ 0.4 → (passGain t).2 * ‖harmonic (waveAt E ws L w i) k‖ ≤
      ‖harmonic (tone (filterX t) (waveAt E ws L w i) d) k‖) ∧
    ‖harmonic (tone (filterX t) (waveAt E ws L w i) d) k‖ ≤
      1.0011 * ‖harmonic (waveAt E ws L w i) k‖ := by
  rw [C53_harmonics (filterX t) 0.29 (by norm_num) (C39_poles t) (exactSys t).len E ws L w i d k,
    norm_mul]
  obtain ⟨p1, p2⟩ := C93_passband t (2 * Real.pi * k * d)
  exact ⟨fun h => mul_le_mul_of_nonneg_right (p1 (harmonic_turn k d _ h)) (norm_nonneg _),
    fun h => mul_le_mul_of_nonneg_right (p2 (harmonic_turn k d _ h)) (norm_nonneg _),
    mul_le_mul_of_nonneg_right (C54_no_boost t _) (norm_nonneg _)⟩

/-- At 44.1 kHz the 10th harmonic of 1 kHz is in the first range, the 16th in the second; and 18.2 kHz
is beyond the half-power point of kType5 but below that of the other filters. -/
example : |((10 : ℤ) : ℝ) * (1000 / 44100)| ≤ 0.3 ∧ |((16 : ℤ) : ℝ) * (1000 / 44100)| ≤ 0.4 ∧
    2 * Real.pi * ((halfPower .kType5 : ℝ) + 0.001) ≤ |2 * Real.pi * (18200 / 44100)| ∧
    |2 * Real.pi * (18200 / 44100)| ≤ 2 * Real.pi * ((halfPower .kType1 : ℝ) - 0.001) ∧
    ∀ t, t ≠ .kType5 → halfPower .kType1 ≤ halfPower t := by
  have := Real.pi_pos
  refine ⟨?_, ?_, ?_, ?_, by intro t h; cases t <;> first | exact absurd rfl h | norm_num [halfPower]⟩
  · norm_num [abs_of_pos]
  · norm_num [abs_of_pos]
  · rw [abs_of_pos (by positivity)]
    have : ((halfPower .kType5 : ℝ) + 0.001) ≤ 18200 / 44100 := by norm_num [halfPower]
    nlinarith
  · rw [abs_of_pos (by positivity)]
    have : (18200 / 44100 : ℝ) ≤ (halfPower .kType1 : ℝ) - 0.001 := by norm_num [halfPower]
    nlinarith

end Adwt.Props
