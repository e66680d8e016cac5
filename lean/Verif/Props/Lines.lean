import Verif.Proofs.Lines
import Verif.Props.Tone
import Verif.Props.Dft

/-!
# C104: the spectrum of the output samples of a steady tone
-/

set_option linter.unusedSectionVars false

namespace Adwt.Props
open Gain WavetableData

/-- C104: the complete spectrum of what is heard. Whatever was played before, once phases advance by `d` cycles
per sample, the component of the output samples at any frequency `f` is the sum of those harmonics of the table in
use that are heard at `f`, each times the frequency response of the filter at the harmonic's own frequency. -/
theorem C104_component (S : Sys ℝ ℂ) (hS : ExactSys S) (hl : Log2Spec S.env.log2f) (σ : ℝ) (hσ0 : 0 < σ)
    (hσ : PolesLeft S.flt σ) (ws : List ℝ) (nw L : ℕ) (dir : Sys.Direction) (d : ℝ)
    (st : ℕ → Osc ℝ ℂ) (y : ℕ → ℝ) (h : SteadyTone S ws nw L dir d st y) (i : ℤ)
    (hi : IsOctave L i |d|) (f : ℝ) :
    Summable (fun k : ℤ => ‖freqResponse S.flt (2 * Real.pi * k * d) *
      harmonic (waveAt S.env ws L (st 0).crt i) k‖) ∧
    Component y f (∑' k : heardAt d f, freqResponse S.flt (2 * Real.pi * (k : ℤ) * d) *
      harmonic (waveAt S.env ws L (st 0).crt i) k *
      Complex.exp (2 * Real.pi * Complex.I * (k : ℤ) * ((st 0).prevPhase + d : ℝ))) := by
  have hd : d ≠ 0 := by
    have := h.step
    cases dir with
    | kForward => exact this.1.ne'
    | kBidirectionnal => exact this.1
  obtain ⟨A, hA⟩ := C52_tone S hS hl σ hσ0 hσ ws nw L dir d st y h i hi
  obtain ⟨hs, hc⟩ := component_sampled
    (C53_spectrum S.flt σ hσ0 hσ hS.len S.env ws L (st 0).crt i d hd) d f ((st 0).prevPhase + d)
  refine ⟨hs, hc.of_tendsto ?_⟩
  have h0 : _root_.Filter.Tendsto (fun n : ℕ => A * Real.exp (-σ * n)) _root_.Filter.atTop (nhds 0) := by
    have := (tendsto_pow_atTop_nhds_zero_of_lt_one (Real.exp_pos (-σ)).le
      (by rw [← Real.exp_zero]; exact Real.exp_lt_exp.2 (by linarith))).const_mul A
    rw [mul_zero] at this
    refine this.congr fun n => ?_
    rw [← Real.exp_nat_mul, mul_comm (n : ℝ)]
  refine squeeze_zero_norm (fun n => ?_) h0
  rw [Real.norm_eq_abs, show (st 0).prevPhase + d + n * d = (st 0).prevPhase + (n + 1) * d by ring]
  exact hA n

/-! ### summable harmonics -/

theorem harmonic_summable (y : List ℝ) : Summable fun k : ℤ => ‖harmonic (interp y) k‖ := by
  rcases y.length.eq_zero_or_pos with h0 | hy
  · have e : interp y = fun _ => 0 := by
      rw [List.length_eq_zero_iff] at h0
      subst h0
      funext u
      simp [interp, cyc]
    have : ∀ k : ℤ, ‖harmonic (interp y) k‖ = 0 := by
      intro k; rw [e]; unfold harmonic; simp
    simp only [this]
    exact summable_zero
  have hN : (0 : ℝ) < y.length := by exact_mod_cast hy
  set M : ℝ := (∑ j ∈ Finset.range y.length, |y.getD j 0|) / y.length with hM
  have hd : ∀ k, ‖dft y k‖ ≤ M := by
    intro k
    unfold dft
    rw [norm_div, Complex.norm_natCast, hM]
    refine div_le_div_of_nonneg_right ((norm_sum_le _ _).trans (Finset.sum_le_sum fun j _ => ?_)) hN.le
    rw [norm_mul, Complex.norm_real, Real.norm_eq_abs,
      show (-(2 * Real.pi * Complex.I * k * j / y.length) : ℂ) =
        2 * Real.pi * Complex.I * ((-(k * j / y.length) : ℝ) : ℂ) by push_cast; ring, norm_turn, one_mul]
  have hg : Summable fun k : ℤ => M * (y.length / Real.pi) ^ 2 * (1 / (k : ℝ) ^ 2) :=
    inverse_squares.summable.mul_left _
  refine Summable.of_norm_bounded_eventually hg ?_
  refine (Set.finite_singleton (0 : ℤ)).subset fun k hk => ?_
  by_contra hk0
  have hk0 : k ≠ 0 := hk0
  apply hk
  have hk1 : (k : ℝ) ≠ 0 := by exact_mod_cast hk0
  show ‖‖harmonic (interp y) k‖‖ ≤ _
  rw [norm_norm, C58_interpolation y hy, norm_mul, Complex.norm_real, Real.norm_eq_abs,
    abs_of_nonneg (sq_nonneg _), mul_assoc]
  refine mul_le_mul (hd k) ?_ (sq_nonneg _) ((norm_nonneg _).trans (hd k))
  have hp := Real.pi_pos
  rw [Real.sinc_of_ne_zero (by positivity), div_pow]
  calc Real.sin (Real.pi * k / y.length) ^ 2 / (Real.pi * k / y.length) ^ 2
      ≤ 1 / (Real.pi * k / y.length) ^ 2 := by
        gcongr
        exact Real.sin_sq_le_one _
    _ = (y.length / Real.pi) ^ 2 * (1 / (k : ℝ) ^ 2) := by field_simp

theorem wave_summable (E : Env ℝ) (ws : List ℝ) (L : ℕ) (w i : ℤ) :
    Summable fun k : ℤ => ‖harmonic (waveAt E ws L w i) k‖ := harmonic_summable _

theorem unit_turn (k : ℤ) (x : ℝ) : ‖Complex.exp (2 * Real.pi * Complex.I * k * x)‖ = 1 := by
  rw [show (2 * Real.pi * Complex.I * k * x : ℂ) = 2 * Real.pi * Complex.I * ((k * x : ℝ) : ℂ) by
    push_cast; ring, norm_turn]

/-- C104 for the built-in filters: a frequency at which no harmonic below the Nyquist frequency is heard. What is
heard there is at most the sum of the harmonics that alias to it, times the gain of the filter above Nyquist; and
nothing, if no harmonic aliases to it. -/
theorem C104_unwanted (t : FilterType) (S : Sys ℝ ℂ) (hS : ExactSys S) (hl : Log2Spec S.env.log2f)
    (hflt : S.flt = filterX t) (ws : List ℝ) (nw L : ℕ) (dir : Sys.Direction) (d : ℝ)
    (st : ℕ → Osc ℝ ℂ) (y : ℕ → ℝ) (h : SteadyTone S ws nw L dir d st y) (i : ℤ)
    (hi : IsOctave L i |d|) (f : ℝ) (hf : ∀ k ∈ heardAt d f, 1 / 2 ≤ |(k : ℝ) * d|) :
    ∃ a, Component y f a ∧ (heardAt d f = ∅ → a = 0) ∧
      ‖a‖ ≤ nyquistGain t * ∑' k : heardAt d f, ‖harmonic (waveAt S.env ws L (st 0).crt i) k‖ := by
  obtain ⟨hs, hc⟩ := C104_component S hS hl 0.29 (by norm_num) (hflt ▸ C39_poles t) ws nw L dir d st y h i hi f
  refine ⟨_, hc, fun he => ?_, ?_⟩
  · have : IsEmpty (heardAt d f) := by rw [he]; exact Set.isEmpty_coe_sort.2 rfl
    exact tsum_empty
  rw [← tsum_mul_left]
  refine tsum_of_norm_bounded (((wave_summable _ _ _ _ _).subtype (heardAt d f)).mul_left _).hasSum fun k => ?_
  rw [norm_mul, norm_mul, unit_turn, mul_one, hflt]
  exact mul_le_mul_of_nonneg_right (alias_gain t (hf k k.2)) (norm_nonneg _)

/-- C104 for the built-in filters: the frequency of a harmonic below the Nyquist frequency. What is heard there is
this harmonic with the filter's response at its frequency, up to the sum of the harmonics that alias to it, times
the gain of the filter above Nyquist. -/
theorem C104_wanted (t : FilterType) (S : Sys ℝ ℂ) (hS : ExactSys S) (hl : Log2Spec S.env.log2f)
    (hflt : S.flt = filterX t) (ws : List ℝ) (nw L : ℕ) (dir : Sys.Direction) (d : ℝ)
    (st : ℕ → Osc ℝ ℂ) (y : ℕ → ℝ) (h : SteadyTone S ws nw L dir d st y) (i : ℤ)
    (hi : IsOctave L i |d|) (k : ℤ) (hk : |(k : ℝ) * d| < 1 / 2) :
    ∃ a, Component y (k * d) a ∧
      ‖a - freqResponse (filterX t) (2 * Real.pi * k * d) * harmonic (waveAt S.env ws L (st 0).crt i) k *
          Complex.exp (2 * Real.pi * Complex.I * k * ((st 0).prevPhase + d : ℝ))‖ ≤
        nyquistGain t * ∑' l : {l : ℤ | l ∈ heardAt d (k * d) ∧ l ≠ k},
          ‖harmonic (waveAt S.env ws L (st 0).crt i) l‖ := by
  have hd : d ≠ 0 := by
    have := h.step
    cases dir with
    | kForward => exact this.1.ne'
    | kBidirectionnal => exact this.1
  obtain ⟨hs, hc⟩ := C104_component S hS hl 0.29 (by norm_num) (hflt ▸ C39_poles t) ws nw L dir d st y h i hi
    (k * d)
  rw [hflt] at hs hc
  refine ⟨_, hc, ?_⟩
  set g : ℤ → ℂ := fun l => freqResponse (filterX t) (2 * Real.pi * l * d) *
    harmonic (waveAt S.env ws L (st 0).crt i) l *
    Complex.exp (2 * Real.pi * Complex.I * l * ((st 0).prevPhase + d : ℝ)) with hg
  have hgs : Summable g := Summable.of_norm (hs.congr fun l => by
    rw [hg]; dsimp only; rw [norm_mul _ (Complex.exp _), unit_turn, mul_one])
  have hkin : k ∈ heardAt d (k * d) := ⟨0, by simp⟩
  have e : (∑' l : heardAt d (k * d), g l) - g k = ∑' l : {l : ℤ | l ∈ heardAt d (k * d) ∧ l ≠ k}, g l := by
    have h1 : heardAt d (k * d) = {l : ℤ | l ∈ heardAt d (k * d) ∧ l ≠ k} ∪ {k} := by
      ext l
      constructor
      · intro hl
        by_cases e : l = k
        · exact Or.inr e
        · exact Or.inl ⟨hl, e⟩
      · rintro (hl | hl)
        · exact hl.1
        · rw [Set.mem_singleton_iff.1 hl]; exact hkin
    have h2 : Disjoint {l : ℤ | l ∈ heardAt d (k * d) ∧ l ≠ k} {k} := by
      rw [Set.disjoint_singleton_right]
      exact fun h => h.2 rfl
    have h3 := Summable.tsum_union_disjoint h2 (hgs.subtype _) (hgs.subtype _)
    rw [← h1, tsum_singleton k g] at h3
    rw [h3, add_sub_cancel_right]
  show ‖(∑' l : heardAt d (k * d), g l) - g k‖ ≤ _
  rw [e, ← tsum_mul_left]
  refine tsum_of_norm_bounded (((wave_summable _ _ _ _ _).subtype
    {l : ℤ | l ∈ heardAt d (k * d) ∧ l ≠ k}).mul_left _).hasSum fun l => ?_
  rw [hg]
  dsimp only
  rw [norm_mul, norm_mul, unit_turn, mul_one]
  refine mul_le_mul_of_nonneg_right (alias_gain t ?_) (norm_nonneg _)
  obtain ⟨⟨m, hm⟩, hlk⟩ := l.2
  have hm0 : m ≠ 0 := by
    rintro rfl
    apply hlk
    have : ((l : ℤ) : ℝ) * d = k * d := by rw [Int.cast_zero] at hm; linarith
    exact_mod_cast mul_right_cancel₀ hd this
  have h1 : (1 : ℝ) ≤ |(m : ℝ)| := by exact_mod_cast Int.one_le_abs hm0
  rw [← hm] at h1
  have := abs_sub (((l : ℤ) : ℝ) * d) (k * d)
  linarith

/-- the frequency response at 0 -/
theorem freqResponse_zero (flt : Filter ℂ) : freqResponse flt 0 = (dcGain flt : ℂ) := by
  unfold freqResponse dcGain
  rw [Complex.re_sum, Complex.ofReal_sum]
  refine Finset.sum_congr rfl fun k _ => ?_
  rw [Complex.ofReal_zero, mul_zero, zero_sub, zero_sub, div_neg, div_neg, ← map_div₀, ← neg_add,
    Complex.add_conj, mul_div_assoc, Complex.neg_re, Complex.mul_re]
  norm_num

/-- C104: no offset. The mean of the output is the mean of the samples of the table in use times the filter's gain at
frequency 0 (within 0.11 % of 1, C41), up to the harmonics that alias to frequency 0. -/
theorem C104_mean (t : FilterType) (S : Sys ℝ ℂ) (hS : ExactSys S) (hl : Log2Spec S.env.log2f)
    (hflt : S.flt = filterX t) (ws : List ℝ) (nw L : ℕ) (dir : Sys.Direction) (d : ℝ)
    (st : ℕ → Osc ℝ ℂ) (y : ℕ → ℝ) (h : SteadyTone S ws nw L dir d st y) (i : ℤ)
    (hi : IsOctave L i |d|) (hy : 0 < (mipSamples S.env (waveformOf ws (2 ^ L) (st 0).crt.toNat) i.toNat).length) :
    ∃ a : ℝ, _root_.Filter.Tendsto (fun N : ℕ => (∑ n ∈ Finset.range N, y n) / N) _root_.Filter.atTop (nhds a) ∧
      |a - dcGain (filterX t) * ((mipSamples S.env (waveformOf ws (2 ^ L) (st 0).crt.toNat) i.toNat).sum /
          (mipSamples S.env (waveformOf ws (2 ^ L) (st 0).crt.toNat) i.toNat).length)| ≤
        nyquistGain t * ∑' l : {l : ℤ | l ∈ heardAt d 0 ∧ l ≠ 0},
          ‖harmonic (waveAt S.env ws L (st 0).crt i) l‖ := by
  obtain ⟨a, ha, hb⟩ := C104_wanted t S hS hl hflt ws nw L dir d st y h i hi 0 (by norm_num)
  rw [show ((0 : ℤ) : ℝ) * d = 0 by simp] at ha hb
  set v := mipSamples S.env (waveformOf ws (2 ^ L) (st 0).crt.toNat) i.toNat with hv
  have hh : harmonic (waveAt S.env ws L (st 0).crt i) 0 = ((v.sum / v.length : ℝ) : ℂ) := by
    have e : waveAt S.env ws L (st 0).crt i = interp v := rfl
    rw [e, C58_interpolation v hy]
    have es : v.sum = ∑ j ∈ Finset.range v.length, v.getD j 0 := by
      rw [Finset.sum_range, ← Fin.sum_univ_getElem]
      exact Finset.sum_congr rfl fun j _ => by rw [List.getD_eq_getElem _ _ j.2]
    unfold dft
    rw [es]
    push_cast
    simp
  refine ⟨a.re, ?_, ?_⟩
  · have := (Complex.continuous_re.tendsto a).comp ha
    refine this.congr fun N => ?_
    simp only [Function.comp, Int.cast_zero, zero_mul, Complex.ofReal_zero, mul_zero, neg_zero, Complex.exp_zero,
      mul_one]
    rw [← Complex.ofReal_natCast, ← Complex.ofReal_sum, ← Complex.ofReal_div, Complex.ofReal_re]
  · have e2 : freqResponse (filterX t) (2 * Real.pi * (0 : ℤ) * d) = (dcGain (filterX t) : ℂ) := by
      rw [← freqResponse_zero]; congr 1; simp
    rw [e2, hh] at hb
    simp only [Int.cast_zero, zero_mul, mul_zero, Complex.exp_zero, mul_one] at hb
    refine le_trans ?_ hb
    have := Complex.abs_re_le_norm (a - (dcGain (filterX t) : ℂ) * ((v.sum / v.length : ℝ) : ℂ))
    rwa [← Complex.ofReal_mul, Complex.sub_re, Complex.ofReal_re, Complex.ofReal_mul] at this

/-- C104 applies: any built-in filter, any eight samples, a steady tone of 5/16 cycle per sample. At 1/32 of the
samplerate nothing is heard: no harmonic aliases to it. -/
example (ft : FilterType) (ws : List ℝ) (hws : ws.length = 2 ^ 3) :
    ∃ st y, SteadyTone (sysOf envX ft) ws 1 3 .kForward (5 / 16) st y ∧ Component y (1 / 32) 0 := by
  obtain ⟨o, h1, hy⟩ := at_init ft ws 3 (by norm_num) (by norm_num) hws 1
    le_rfl (by norm_num) (p := 0) (d := 1 / 16) (by norm_num) (by norm_num) (i := 0)
    (oct0 (by norm_num))
    (cf_idle (by norm_num) (by norm_num) (oct0 (by norm_num [abs_of_pos])))
  have hoff : ∀ n : ℕ, OffDenormal (2 ^ 3) (Int.fract (o.prevPhase + n * (5 / 16))) := by
    intro n
    rw [h1.phase, zero_add]
    have e : Int.fract ((n : ℝ) * (5 / 16)) =
        ((5 * n - 16 * ⌊(n : ℝ) * (5 / 16)⌋ : ℤ) : ℝ) / 2 ^ 4 := by
      unfold Int.fract
      push_cast
      ring
    rw [e]
    exact offDenormal_dyadic _ 4 3 (by norm_num) (by norm_num)
  obtain ⟨st, y, h0, h⟩ := C52_plays _ (exactSys ft) log2X ws 1 3 o h1.plays (by
    rintro ⟨-, h⟩; rw [h1.diff] at h; norm_num at h) (5 / 16)
    (show (0 : ℝ) < 5 / 16 ∧ (5 / 16 : ℝ) ≤ 1 / 2 by norm_num) hoff
  have he : heardAt (5 / 16) (1 / 32) = ∅ := by
    rw [Set.eq_empty_iff_forall_notMem]
    rintro k ⟨m, hm⟩
    have h1 : ((10 * k - 1 : ℤ) : ℝ) = ((32 * m : ℤ) : ℝ) := by push_cast; linarith
    have h2 : 10 * k - 1 = 32 * m := by exact_mod_cast h1
    omega
  obtain ⟨a, ha, hz, -⟩ := C104_unwanted ft _ (exactSys ft) log2X rfl ws 1 3 _ _ st y h 1
    (oct1 (by norm_num [abs_of_pos])) (1 / 32) (by rw [he]; intro k hk; exact absurd hk (Set.notMem_empty k))
  rw [hz he] at ha
  exact ⟨st, y, h, ha⟩

end Adwt.Props
