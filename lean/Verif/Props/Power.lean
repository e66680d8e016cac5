import Verif.Proofs.Power
import Verif.Props.Lines

/-!
# C105: the level of a steady tone
-/

set_option linter.unusedSectionVars false

namespace Adwt.Props
open Gain WavetableData

/-- C105: the level of a tone. Whatever was played before, once phases advance by `d` cycles per sample, the output
has a mean power, and its level (RMS) is that of the harmonics below the Nyquist frequency, each with the gain of the
filter at its frequency (and the two of a pair `k`, `-k` counted with half the power each), up to the sum of the
amplitudes of the harmonics above the Nyquist frequency times the gain of the filter there. -/
theorem C105_level (t : FilterType) (S : Sys ℝ ℂ) (hS : ExactSys S) (hl : Log2Spec S.env.log2f)
    (hflt : S.flt = filterX t) (ws : List ℝ) (nw L : ℕ) (dir : Sys.Direction) (d : ℝ)
    (st : ℕ → Osc ℝ ℂ) (y : ℕ → ℝ) (h : SteadyTone S ws nw L dir d st y) (i : ℤ)
    (hi : IsOctave L i |d|) :
    ∃ P, MeanPower y P ∧
      |√P - √(∑' k : {k : ℤ | |(k : ℝ) * d| < 1 / 2}, (‖freqResponse (filterX t) (2 * Real.pi * (k : ℤ) * d)‖ *
          ‖harmonic (waveAt S.env ws L (st 0).crt i) k‖) ^ 2)| ≤
        nyquistGain t * ∑' k : {k : ℤ | 1 / 2 ≤ |(k : ℝ) * d|},
          ‖harmonic (waveAt S.env ws L (st 0).crt i) k‖ := by
  have hd : d ≠ 0 := by
    have := h.step
    cases dir with
    | kForward => exact this.1.ne'
    | kBidirectionnal => exact this.1
  have hσ := C39_poles t
  rw [← hflt] at hσ
  obtain ⟨A, hA⟩ := C52_tone S hS hl 0.29 (by norm_num) hσ ws nw L dir d st y h i hi
  have hspec := C53_spectrum S.flt 0.29 (by norm_num) hσ hS.len S.env ws L (st 0).crt i d hd
  have hcs := (component_sampled hspec d 0 0).1
  obtain ⟨P, hP, hb⟩ := level_sampled hspec d ((st 0).prevPhase + d) hd
  refine ⟨P, hP.of_tendsto (C := ∑' k : ℤ, ‖freqResponse S.flt (2 * Real.pi * k * d) *
    harmonic (waveAt S.env ws L (st 0).crt i) k‖) (fun n => ?_) ?_, ?_⟩
  · have hs := hspec ((st 0).prevPhase + d + n * d)
    rw [← Real.norm_eq_abs, ← Complex.norm_real, ← hs.tsum_eq]
    refine (norm_tsum_le_tsum_norm (hcs.congr fun k => by rw [norm_mul _ (Complex.exp _), unit_turn, mul_one])).trans
      (le_of_eq ?_)
    exact tsum_congr fun k => by rw [norm_mul _ (Complex.exp _), unit_turn, mul_one]
  · have h0 : _root_.Filter.Tendsto (fun n : ℕ => A * Real.exp (-0.29 * n)) _root_.Filter.atTop (nhds 0) := by
      have := (tendsto_pow_atTop_nhds_zero_of_lt_one (Real.exp_pos (-0.29)).le
        (by rw [← Real.exp_zero]; exact Real.exp_lt_exp.2 (by norm_num))).const_mul A
      rw [mul_zero] at this
      refine this.congr fun n => ?_
      rw [← Real.exp_nat_mul, mul_comm (n : ℝ)]
    refine squeeze_zero_norm (fun n => ?_) h0
    rw [Real.norm_eq_abs, show (st 0).prevPhase + d + n * d = (st 0).prevPhase + (n + 1) * d by ring]
    exact hA n
  · rw [hflt] at hb hcs
    simp only [norm_mul] at hb
    refine hb.trans ?_
    rw [← tsum_mul_left]
    simp only [norm_mul] at hcs
    refine Summable.tsum_le_tsum (fun k => ?_) (hcs.subtype _)
      (((wave_summable S.env ws L (st 0).crt i).subtype _).mul_left _)
    exact mul_le_mul_of_nonneg_right (alias_gain t k.2) (norm_nonneg _)

/-- C105 applies: any built-in filter, any eight samples, a steady tone of 5/16 cycle per sample: only the
fundamental and the mean are below the Nyquist frequency. -/
example (ft : FilterType) (ws : List ℝ) (hws : ws.length = 2 ^ 3) :
    ∃ st y P, SteadyTone (sysOf envX ft) ws 1 3 .kForward (5 / 16) st y ∧ MeanPower y P ∧
      |√P - √(∑' k : {k : ℤ | |(k : ℝ) * (5 / 16)| < 1 / 2},
          (‖freqResponse (filterX ft) (2 * Real.pi * (k : ℤ) * (5 / 16))‖ *
            ‖harmonic (waveAt envX ws 3 (st 0).crt 1) k‖) ^ 2)| ≤
        nyquistGain ft * ∑' k : {k : ℤ | 1 / 2 ≤ |(k : ℝ) * (5 / 16)|}, ‖harmonic (waveAt envX ws 3 (st 0).crt 1) k‖ ∧
      {k : ℤ | |(k : ℝ) * (5 / 16)| < 1 / 2} = {-1, 0, 1} := by
  obtain ⟨o, h1, hy⟩ := at_init ft ws 3 (by norm_num) (by norm_num) hws 1
    le_rfl (by norm_num) (p := 0) (d := 1 / 16) (by norm_num) (by norm_num) (i := 0)
    (oct0 (by norm_num))
    (cf_idle (by norm_num) (by norm_num) (oct0 (by norm_num [abs_of_pos])))
  have hoff : ∀ n : ℕ, OffDenormal (2 ^ 3) (Int.fract (o.prevPhase + n * (5 / 16))) := by
    intro n
    rw [h1.phase, zero_add]
    have e : Int.fract ((n : ℝ) * (5 / 16)) =
        ((5 * n - 16 * ⌊(n : ℝ) * (5 / 16)⌋ : ℤ) : ℝ) / 2 ^ 4 := by
      unfold Int.fract
      push_cast
      ring
    rw [e]
    exact offDenormal_dyadic _ 4 3 (by norm_num) (by norm_num)
  obtain ⟨st, y, h0, h⟩ := C52_plays _ (exactSys ft) log2X ws 1 3 o h1.plays (by
    rintro ⟨-, h⟩; rw [h1.diff] at h; norm_num at h) (5 / 16)
    (show (0 : ℝ) < 5 / 16 ∧ (5 / 16 : ℝ) ≤ 1 / 2 by norm_num) hoff
  obtain ⟨P, hP, hb⟩ := C105_level ft _ (exactSys ft) log2X rfl ws 1 3 _ _ st y h 1
    (oct1 (by norm_num [abs_of_pos]))
  refine ⟨st, y, P, h, hP, hb, ?_⟩
  ext k
  simp only [Set.mem_setOf_eq, Set.mem_insert_iff, Set.mem_singleton_iff]
  rw [abs_lt]
  constructor
  · rintro ⟨h1, h2⟩
    have h3 : (-2 : ℝ) < k := by linarith
    have h4 : (k : ℝ) < 2 := by linarith
    have h5 : (-2 : ℤ) < k := by exact_mod_cast h3
    have h6 : k < (2 : ℤ) := by exact_mod_cast h4
    omega
  · rintro (rfl | rfl | rfl) <;> norm_num

end Adwt.Props
