import Verif.Proofs.ToneRun
import Verif.Props.Convolution
import Verif.Props.Decay
import Verif.Props.Safety
import Mathlib.Analysis.SpecificLimits.Basic

/-!
# C52, C53: what a steady tone sounds like
-/

set_option linter.unusedSectionVars false

namespace Adwt.Props

theorem PolesLeft.re_neg {flt : Filter ℂ} {σ : ℝ} (h : PolesLeft flt σ) (hσ : 0 < σ)
    (hlen : flt.r.length = flt.z.length) : ∀ k < flt.r.length, (flt.z.getD k 0).re < 0 := by
  intro k hk
  have hmem : flt.z.getD k 0 ∈ flt.z := by
    rw [List.getD_eq_getElem?_getD, List.getElem?_eq_getElem (by omega)]
    exact List.getElem_mem _
  have := h _ hmem
  linarith

/-- C52: from any state, whatever was played before, phases that advance by `d` cycles per sample
end up playing the table of the octave of `|d|`, filtered: the output approaches the response of
the filter to that table read at constant speed forever, exponentially with the rate of the slowest
pole. -/
theorem C52_tone (S : Sys ℝ ℂ) (hS : ExactSys S) (hl : Log2Spec S.env.log2f) (σ : ℝ) (hσ0 : 0 < σ)
    (hσ : PolesLeft S.flt σ) (ws : List ℝ) (nw L : ℕ) (dir : Sys.Direction) (d : ℝ)
    (st : ℕ → Osc ℝ ℂ) (y : ℕ → ℝ) (h : SteadyTone S ws nw L dir d st y) (i : ℤ)
    (hi : IsOctave L i |d|) :
    ∃ A, ∀ n : ℕ, |y n - tone S.flt (waveAt S.env ws L (st 0).crt i) d
      ((st 0).prevPhase + (n + 1) * d)| ≤ A * Real.exp (-σ * n) := by
  obtain ⟨N, hN⟩ := Sys.settled_at hS hl h hi
  have hm := Sys.steady_mip hS hl h (hN N le_rfl)
  have key := Sys.tone_decay hS hl hσ0 hσ h hi (N := N + 1) (fun n hn => hN n (by omega)) hm
  set W := waveAt S.env ws L (st 0).crt i
  set D := toneDist S.flt W d ((st 0).prevPhase + (N + 1 : ℕ) * d) (st (N + 1)).prevY
  have hD : 0 ≤ D := toneDist_nonneg _ _ _ _ _
  set g : ℕ → ℝ := fun n => |y n - tone S.flt W d ((st 0).prevPhase + (n + 1) * d)| with hg
  refine ⟨∑ n ∈ Finset.range (N + 1), g n * Real.exp (σ * n) + D * Real.exp (σ * (N + 1)), ?_⟩
  intro n
  have hsum : 0 ≤ ∑ n ∈ Finset.range (N + 1), g n * Real.exp (σ * n) :=
    Finset.sum_nonneg fun n _ => mul_nonneg (abs_nonneg _) (Real.exp_pos _).le
  have hD2 : 0 ≤ D * Real.exp (σ * (N + 1)) := mul_nonneg hD (Real.exp_pos _).le
  have hpos := (Real.exp_pos (-σ * (n : ℝ)))
  rcases lt_or_ge n (N + 1) with hn | hn
  · have h1 : g n * Real.exp (σ * n) ≤ ∑ n ∈ Finset.range (N + 1), g n * Real.exp (σ * n) :=
      Finset.single_le_sum (f := fun n : ℕ => g n * Real.exp (σ * n))
        (fun n _ => mul_nonneg (abs_nonneg _) (Real.exp_pos _).le) (Finset.mem_range.2 hn)
    have e : g n = g n * Real.exp (σ * n) * Real.exp (-σ * n) := by
      rw [mul_assoc, ← Real.exp_add, show σ * (n : ℝ) + -σ * n = 0 by ring, Real.exp_zero, mul_one]
    show g n ≤ _
    rw [e]
    exact mul_le_mul_of_nonneg_right (by linarith) hpos.le
  · obtain ⟨m, rfl⟩ := Nat.exists_eq_add_of_le hn
    have k := (key m).2.2
    have ec : (((N + 1 + m : ℕ) : ℝ) + 1) = ((N + 1 + m + 1 : ℕ) : ℝ) := by push_cast; ring
    rw [ec]
    refine k.trans ?_
    have e1 : Real.exp (-σ * (m + 1)) ≤ Real.exp (σ * (N + 1)) * Real.exp (-σ * ((N + 1 + m : ℕ) : ℝ)) := by
      rw [← Real.exp_add]
      apply Real.exp_le_exp.2
      push_cast
      nlinarith
    calc Real.exp (-σ * (m + 1)) * D
        ≤ Real.exp (σ * (N + 1)) * Real.exp (-σ * ((N + 1 + m : ℕ) : ℝ)) * D :=
          mul_le_mul_of_nonneg_right e1 hD
      _ = D * Real.exp (σ * (N + 1)) * Real.exp (-σ * ((N + 1 + m : ℕ) : ℝ)) := by ring
      _ ≤ _ := mul_le_mul_of_nonneg_right (by linarith) hpos.le

/-- C52: with an idle crossfader that already plays the octave of the step, explicitly: the
deviation starts with that of the filter memory. -/
theorem C52_idle (S : Sys ℝ ℂ) (hS : ExactSys S) (hl : Log2Spec S.env.log2f) (σ : ℝ) (hσ0 : 0 < σ)
    (hσ : PolesLeft S.flt σ) (ws : List ℝ) (nw L : ℕ) (dir : Sys.Direction) (d : ℝ)
    (st : ℕ → Osc ℝ ℂ) (y : ℕ → ℝ) (h : SteadyTone S ws nw L dir d st y) (i : ℤ)
    (hi : IsOctave L i |d|) (hm : (st 0).prevMip = i) (wt : WavetableData ℝ)
    (hwt : (st 0).wt = some wt) (hidle : wt.cf.samplesLeft = 0) (hn : wt.cf.nextIdx = i) (n : ℕ) :
    |y n - tone S.flt (waveAt S.env ws L (st 0).crt i) d ((st 0).prevPhase + (n + 1) * d)| ≤
      Real.exp (-σ * (n + 1)) * ∑ k ∈ Finset.range S.flt.r.length,
        ‖(st 0).prevY.getD k 0 - 2 * S.flt.r.getD k 0 * ∫ τ in Set.Ioi (0 : ℝ),
          Complex.exp (S.flt.z.getD k 0 * τ) *
            (waveAt S.env ws L (st 0).crt i ((st 0).prevPhase - τ * d) : ℂ)‖ := by
  have key := Sys.tone_decay hS hl hσ0 hσ h hi (N := 0) (Sys.idle_at hS hl h hi hwt hidle hn) hm n
  have k := key.2.2
  rw [Nat.cast_zero, zero_mul, add_zero, zero_add] at k
  rw [Nat.cast_add, Nat.cast_one] at k
  exact k

/-- C53: in the tone, the harmonic `k` of the table comes out multiplied by the frequency response of
the filter at `2π k d` radians per sample, whatever the frequency: harmonics above the Nyquist
frequency are attenuated before they can alias. -/
theorem C53_harmonics (flt : Filter ℂ) (σ : ℝ) (hσ0 : 0 < σ) (hσ : PolesLeft flt σ)
    (hlen : flt.r.length = flt.z.length) (E : Env ℝ) (ws : List ℝ) (L : ℕ) (w i : ℤ) (d : ℝ) (k : ℤ) :
    harmonic (tone flt (waveAt E ws L w i) d) k =
      freqResponse flt (2 * Real.pi * k * d) * harmonic (waveAt E ws L w i) k :=
  harmonic_tone (PolesLeft.re_neg hσ hσ0 hlen) (interp_continuous _) waveAt_period d k

/-! ### the hypotheses are met -/

/-- A forward tone can be played from every reached state, except one left at phase 0 by a backward
step (cf. C27). -/
theorem C52_plays (S : Sys ℝ ℂ) (hS : ExactSys S) (hl : Log2Spec S.env.log2f) (ws : List ℝ)
    (nw L : ℕ) (o : Osc ℝ ℂ) (ho : Plays S ws nw L o) (hz : ¬ AtZeroBackward o) (d : ℝ)
    (hd : SteadyStep .kForward d)
    (hoff : ∀ n : ℕ, OffDenormal (2 ^ L) (Int.fract (o.prevPhase + n * d))) :
    ∃ st y, st 0 = o ∧ SteadyTone S ws nw L .kForward d st y := by
  have hf := Sys.exact_rounding hS
  have ex : ∀ (n : ℕ) (q : Osc ℝ ℂ), ∃ r : Osc ℝ ℂ × ℝ, Plays S ws nw L q → ¬ AtZeroBackward q →
      q.prevPhase = Int.fract (o.prevPhase + n * d) →
      S.process .kForward q [Int.fract (o.prevPhase + (n + 1) * d)] [0] = .ok (r.1, [r.2]) ∧
      Plays S ws nw L r.1 ∧ ¬ AtZeroBackward r.1 ∧
      r.1.prevPhase = Int.fract (o.prevPhase + (n + 1 : ℕ) * d) := by
    intro n q
    by_cases h : Plays S ws nw L q ∧ ¬ AtZeroBackward q ∧
      q.prevPhase = Int.fract (o.prevPhase + n * d)
    · obtain ⟨h1, h2, h3⟩ := h
      have hpl := Sys.reached_play hf hl hS.B h1.1
      set p := Int.fract (o.prevPhase + (n + 1) * d) with hpdef
      have hp0 : 0 ≤ p := Int.fract_nonneg _
      have hp1 : p < 1 := Int.fract_lt_one _
      have hk : p = q.prevPhase + d +
          ((⌊o.prevPhase + n * d⌋ - ⌊o.prevPhase + (n + 1) * d⌋ : ℤ) : ℝ) := by
        rw [h3, hpdef]
        unfold Int.fract
        push_cast; ring
      obtain ⟨hstep, hdiff⟩ := steady_diff hd hpl.p0 hpl.p1 hp0 hp1 hk
      have hp : PhaseOk S.env.fl p := ⟨hp0, hp1, by rw [hS.fl]; exact isPhase_id _⟩
      obtain ⟨hc, hc2⟩ := C27_exact S hf hl hS.B nw L q h1.1 .kForward p 0 hp hstep
      rcases hc with ⟨o', v, e⟩ | e
      · refine ⟨(o', v), fun _ _ _ => ⟨e, Plays.process (dir := .kForward) (ps := [p]) (out := [0]) h1
          ⟨hp, hstep, trivial⟩ rfl e, ?_⟩⟩
        obtain ⟨wt, hwt, -⟩ := hpl.wt
        obtain ⟨v', e', -⟩ := process_one (by rw [hwt]; rfl) e
        obtain ⟨-, s1, s2, -⟩ := Sys.stepDir_tables e'
        refine ⟨?_, by dsimp only; rw [s1, hpdef]; push_cast; rfl⟩
        rintro ⟨-, hneg⟩
        dsimp only at hneg
        rw [s2, hS.fl, hdiff] at hneg
        have := (show 0 < d ∧ d ≤ 1 / 2 from hd).1
        linarith
      · exact absurd (hc2.1 e).1 h2
    · exact ⟨(q, 0), fun a b c => absurd ⟨a, b, c⟩ h⟩
  choose f hf' using ex
  let st : ℕ → Osc ℝ ℂ := fun k => Nat.rec o (fun k q => (f k q).1) k
  have hst : ∀ n, Plays S ws nw L (st n) ∧ ¬ AtZeroBackward (st n) ∧
      (st n).prevPhase = Int.fract (o.prevPhase + n * d) := by
    intro n
    induction n with
    | zero =>
      have hpl := Sys.reached_play hf hl hS.B ho.1
      refine ⟨ho, hz, ?_⟩
      rw [Nat.cast_zero, zero_mul, add_zero, Int.fract_eq_self.2 ⟨hpl.p0, hpl.p1⟩]
      rfl
    | succ n ih => exact (hf' n (st n) ih.1 ih.2.1 ih.2.2).2
  exact ⟨st, fun n => (f n (st n)).2, rfl, ho, hd,
    fun n => (hf' n (st n) (hst n).1 (hst n).2.1 (hst n).2.2).1, hoff⟩

/-- Any built-in filter, any eight samples, a step of 5/16 cycle (octave 0 is left for octave 1,
with a crossfade): C52 applies, and the deviation falls below any bound. -/
example (ft : FilterType) (ws : List ℝ) (hws : ws.length = 2 ^ 3) :
    ∃ st y A, SteadyTone (sysOf envX ft) ws 1 3 .kForward (5 / 16) st y ∧
      ∀ n : ℕ, |y n - tone (filterX ft) (waveAt envX ws 3 0 1) (5 / 16) ((n + 1) * (5 / 16))| ≤
        A * Real.exp (-0.29 * n) := by
  obtain ⟨o, h1, hy⟩ := at_init ft ws 3 (by norm_num) (by norm_num) hws 1
    le_rfl (by norm_num) (p := 0) (d := 1 / 16) (by norm_num) (by norm_num) (i := 0)
    (oct0 (by norm_num))
    (cf_idle (by norm_num) (by norm_num) (oct0 (by norm_num [abs_of_pos])))
  have hoff : ∀ n : ℕ, OffDenormal (2 ^ 3) (Int.fract (o.prevPhase + n * (5 / 16))) := by
    intro n
    rw [h1.phase, zero_add]
    have e : Int.fract ((n : ℝ) * (5 / 16)) =
        ((5 * n - 16 * ⌊(n : ℝ) * (5 / 16)⌋ : ℤ) : ℝ) / 2 ^ 4 := by
      unfold Int.fract
      push_cast
      ring
    rw [e]
    exact offDenormal_dyadic _ 4 3 (by norm_num) (by norm_num)
  obtain ⟨st, y, h0, h⟩ := C52_plays _ (exactSys ft) log2X ws 1 3 o h1.plays (by
    rintro ⟨-, h⟩; rw [h1.diff] at h; norm_num at h) (5 / 16)
    (show (0 : ℝ) < 5 / 16 ∧ (5 / 16 : ℝ) ≤ 1 / 2 by norm_num) hoff
  obtain ⟨A, hA⟩ := C52_tone _ (exactSys ft) log2X 0.29 (by norm_num) (C39_poles ft) ws 1 3 _ _ st y h 1
    (oct1 (by norm_num [abs_of_pos]))
  refine ⟨st, y, A, h, fun n => ?_⟩
  have := hA n
  rw [h0, h1.phase, h1.crt, zero_add] at this
  exact this

/-- C53 for the built-in filters. -/
example (ft : FilterType) (ws : List ℝ) (k : ℤ) (d : ℝ) :
    harmonic (tone (filterX ft) (waveAt envX ws 3 0 0) d) k =
      freqResponse (filterX ft) (2 * Real.pi * k * d) * harmonic (waveAt envX ws 3 0 0) k :=
  C53_harmonics _ 0.29 (by norm_num) (C39_poles ft) (exactSys ft).len _ _ _ _ _ _ _

end Adwt.Props
