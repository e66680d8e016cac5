import Verif.Proofs.LatencyNum
import Verif.Props.Headroom

/-!
# C89: the latency of the oscillator
-/

set_option linter.unusedSectionVars false

namespace Adwt.Props
open MeasureTheory WavetableData

theorem line_response {E : Env ℝ} {ws : List ℝ} {nw L m K : ℕ} {flt : Filter ℂ}
    (hz : ∀ k < flt.r.length, (flt.z.getD k 0).re < 0) (hG : dcGain flt ≠ 0) {A κ : ℝ} (hκ : 0 ≤ κ)
    (hws : ws.length = nw * 2 ^ L) (hA : TablesWithin E ws nw L A) {w : ℕ → ℤ}
    (hw : ∀ i < m, 0 ≤ w i ∧ w i < nw) {t : ℕ → MipMapIndices ℝ} (ht : ∀ i < m, Sel L κ (t i))
    {x : ℝ} {d : ℕ → ℝ} (hK0 : 0 < K) (hK : K ≤ m) {a b δ : ℝ} (hδ : 0 ≤ δ)
    (hl : ∀ u : ℝ, (m : ℝ) - K ≤ u → u < m → |playedW E ws L w t (unwrapped x d) u - line a b m u| ≤ δ) :
    |filtered flt (playedW E ws L w t (unwrapped x d)) m - dcGain flt * line a b m (m - latency flt)| ≤
      peakGain flt * δ + remembered flt K * (κ * A + δ) := by
  have hm : 0 < m := by omega
  have hA0 : 0 ≤ A := (abs_nonneg _).trans
    (waveAt_le hws hA (hw 0 hm).1 (hw 0 hm).2 (ht 0 hm).i0 (ht 0 hm).i1 0)
  have h := filtered_line hz (V := playedW E ws L w t (unwrapped x d)) (m := m) (K := K) (A := κ * A) (δ := δ)
    (a := a) (b := b)
    (g := fun i τ => mixture E ws L (w i) (t i) (x + ∑ l ∈ Finset.range i, d l + τ * d i))
    (fun i _ => mixture_continuous.comp (by fun_prop)) (fun i _ u h0 h1 => by
      unfold playedW
      rw [floor_mid h0 h1]
      unfold unwrapped
      rw [floor_mid h0 h1]) (by positivity) hδ (fun u h0 h1 => by
      have hfl : ⌊u⌋₊ < m := (Nat.floor_lt h0).2 h1
      unfold playedW
      exact mixture_le hws hA (hw _ hfl).1 (hw _ hfl).2 (ht _ hfl) _) hK0 hK hl
  have e : dcGain flt * line a b m (m - latency flt) = dcGain flt * a - moment flt * b := by
    rw [latency_eq hz]; unfold line; field_simp; ring
  rw [e]
  refine h.trans (add_le_add le_rfl ?_)
  unfold remembered
  rw [Finset.sum_mul]
  refine Finset.sum_le_sum fun k hk => ?_
  have hk := hz k (Finset.mem_range.1 hk)
  rw [mul_assoc (2 * ‖flt.r.getD k 0‖ * Real.exp ((flt.z.getD k 0).re * K))]
  refine mul_le_mul_of_nonneg_left ?_ (by positivity)
  have h1 : κ * A / -(flt.z.getD k 0).re ≤ (κ * A + δ) / -(flt.z.getD k 0).re :=
    div_le_div_of_nonneg_right (by linarith) (by linarith)
  refine (add_le_add h1 le_rfl).trans (le_of_eq ?_)
  ring

/-- C89, exact arithmetic: if the signal played has been within `δ` of a straight line for the last `K`
samples, the output is, apart from `δ` and what the filter remembers of earlier times, the value that line
had `latency` samples before the end of the sample, times the gain of the filter at frequency 0. -/
theorem C89_exact (S : Sys ℝ ℂ) (hS : ExactSys S) (hl : Log2Spec S.env.log2f)
    (hz : ∀ k < S.flt.r.length, (S.flt.z.getD k 0).re < 0) (hG : dcGain S.flt ≠ 0)
    (ws : List ℝ) (nw L : ℕ) (A : ℝ)
    (hA : TablesWithin S.env ws nw L A) (m : ℕ) (st sw : ℕ → Osc ℝ ℂ) (w : ℕ → ℤ) (dir : ℕ → Sys.Direction)
    (p y : ℕ → ℝ) (t : ℕ → MipMapIndices ℝ) (h : SwitchedRun S ws nw L m st sw w dir p y t)
    (n K : ℕ) (hn : n < m) (hK0 : 0 < K) (hK : K ≤ n + 1) (a b δ : ℝ) (hδ : 0 ≤ δ)
    (hline : ∀ u : ℝ, (n + 1 : ℕ) - K ≤ u → u < (n + 1 : ℕ) →
      |playedW S.env ws L w t (unwrapped (st 0).prevPhase (stepOf dir (st 0).prevPhase p)) u -
        line a b (n + 1 : ℕ) u| ≤ δ) :
    |y n - dcGain S.flt * line a b (n + 1 : ℕ) ((n + 1 : ℕ) - latency S.flt)| ≤
      peakGain S.flt * δ + remembered S.flt K * (A + δ) := by
  have hf := Sys.exact_rounding hS
  have hid : ∀ i, i < m → IsPhase S.env.fl (p i) := fun i _ => by
    rw [hS.fl]; exact isPhase_id _
  rw [C72_switch S hS hl ws nw L m st sw w dir p y t h n hn]
  have := line_response (m := n + 1) hz hG (κ := 1) zero_le_one (plays_length h.plays) hA (w := w)
    (fun i hi => h.wave i (by omega)) (t := t)
    (fun i hi => run_sel hf hl hS.B h hid
      (fun hc _ hd _ e => (Sys.weight_one hS.fl hc hd e).1.le) (by omega))
    (x := (st 0).prevPhase) (d := stepOf dir (st 0).prevPhase p) hK0 hK hδ hline
  push_cast at this ⊢
  rw [one_mul] at this
  exact this

/-- C89: the latencies of the built-in filters: half a sample to one and a half, -/
theorem C89_latency (t : FilterType) : |latency (filterX t) - latencyTable t| ≤ 1e-4 := latency_builtin t

/-- and 64 samples are enough to forget everything else. -/
theorem C89_memory (t : FilterType) : remembered (filterX t) 64 ≤ 1e-6 := remembered_builtin t

/-- the same signal through the filter as stored and as written -/
theorem stored_signal {E : Env ℝ} {ws : List ℝ} {nw L m : ℕ} {ft : FilterType} {flt : Filter ℂ}
    (hst : StoredFilter (1 / 2 ^ 23) ft flt) {A κ : ℝ} (hκ : 0 ≤ κ)
    (hws : ws.length = nw * 2 ^ L) (hA : TablesWithin E ws nw L A) {w : ℕ → ℤ}
    (hw : ∀ i < m, 0 ≤ w i ∧ w i < nw) {t : ℕ → MipMapIndices ℝ} (ht : ∀ i < m, Sel L κ (t i))
    {x : ℝ} {d : ℕ → ℝ} (hm : 0 < m) :
    |filtered flt (playedW E ws L w t (unwrapped x d)) m -
      filtered (filterX ft) (playedW E ws L w t (unwrapped x d)) m| ≤ 1 / 2 ^ 12 * (κ * A) := by
  obtain ⟨s1, s2, s3⟩ := stored_area hst
  have hA0 : 0 ≤ A := (abs_nonneg _).trans
    (waveAt_le hws hA (hw 0 hm).1 (hw 0 hm).2 (ht 0 hm).i0 (ht 0 hm).i1 0)
  set V := playedW E ws L w t (unwrapped x d) with hVdef
  have hg : ∀ i < m, Continuous (fun τ => mixture E ws L (w i) (t i) (x + ∑ l ∈ Finset.range i, d l + τ * d i)) :=
    fun i _ => mixture_continuous.comp (by fun_prop)
  have hV : ∀ i < m, ∀ u : ℝ, (i : ℝ) ≤ u → u < i + 1 →
      V u = (fun i τ => mixture E ws L (w i) (t i) (x + ∑ l ∈ Finset.range i, d l + τ * d i)) i (u - i) := by
    intro i _ u h0 h1
    rw [hVdef]
    unfold playedW
    rw [floor_mid h0 h1]
    unfold unwrapped
    rw [floor_mid h0 h1]
  have hVi := signal_integrable hg hV
  have hc1 := impulse_continuous flt
  have hc2 := impulse_continuous (filterX ft)
  have i1 : IntervalIntegrable (fun u => impulse flt (m - u) * V u) volume (0 : ℝ) m :=
    hVi.continuousOn_mul (Continuous.continuousOn (by fun_prop))
  have i2 : IntervalIntegrable (fun u => impulse (filterX ft) (m - u) * V u) volume (0 : ℝ) m :=
    hVi.continuousOn_mul (Continuous.continuousOn (by fun_prop))
  rw [filtered_impulse hg hV, filtered_impulse hg hV, ← intervalIntegral.integral_sub i1 i2]
  have key : ‖∫ u in (0 : ℝ)..m, (impulse flt (m - u) * V u - impulse (filterX ft) (m - u) * V u)‖ ≤
      ∫ u in (0 : ℝ)..m, |impulse flt (m - u) - impulse (filterX ft) (m - u)| * (κ * A) := by
    apply intervalIntegral.norm_integral_le_of_norm_le (Nat.cast_nonneg m)
    · have hne : ∀ᵐ u : ℝ, u ≠ m := by
        rw [ae_iff]; simp
      filter_upwards [hne] with u hu' hu
      have hlt : u < m := lt_of_le_of_ne hu.2 hu'
      rw [Real.norm_eq_abs, ← sub_mul, abs_mul]
      refine mul_le_mul_of_nonneg_left ?_ (abs_nonneg _)
      have hfl : ⌊u⌋₊ < m := (Nat.floor_lt hu.1.le).2 hlt
      rw [hVdef]
      unfold playedW
      exact mixture_le hws hA (hw _ hfl).1 (hw _ hfl).2 (ht _ hfl) _
    · exact Continuous.intervalIntegrable (by fun_prop) _ _
  rw [intervalIntegral.integral_mul_const,
    intervalIntegral.integral_comp_sub_left (fun u => |impulse flt u - impulse (filterX ft) u|) (m : ℝ), sub_self, sub_zero] at key
  refine key.trans (mul_le_mul_of_nonneg_right (le_trans ?_ s1) (by positivity))
  rw [intervalIntegral.integral_of_le (Nat.cast_nonneg m)]
  exact setIntegral_mono_set ((impulse_integrable s2 0).sub (impulse_integrable s3 0)).abs
    (Filter.Eventually.of_forall fun _ => abs_nonneg _) (Set.Ioc_subset_Ioi_self).eventuallyLE

/-- C89, float arithmetic, with the coefficients of a built-in filter as stored: on a stretch of at least 64
samples that is straight within `δ` the output is the line delayed by the filter's latency, apart from `δ`,
a 4000th of the peak of the tables and the rounding error of the run. -/
theorem C89_float {C : Type} [Zero C] [Add C] [Sub C] [Mul C] [Div C]
    (S : Sys ℝ C) (val : C → ℂ) (ε : ℝ) (hS : FloatSys S val ε) (hl : Log2Spec S.env.log2f)
    (ft : FilterType) (hst : StoredFilter (1 / 2 ^ 23) ft (valFilter val S.flt))
    (ws : List ℝ) (nw L : ℕ) (A Λ : ℝ)
    (hA : TablesWithin S.env ws nw L A) (hΛ : SlopesWithin S.env ws nw L Λ)
    (M0 : 1 / 2 ^ 40 ≤ A + Λ) (M1 : A + Λ ≤ 2 ^ 24)
    (m : ℕ) (st sw : ℕ → Osc ℝ C) (w : ℕ → ℤ) (dir : ℕ → Sys.Direction) (p y : ℕ → ℝ)
    (t : ℕ → MipMapIndices ℝ)
    (h : SwitchedRun S ws nw L m st sw w dir p y t) (hp : ∀ i < m, IsPhase S.env.fl (p i))
    (hd : ∀ i < m, 1 / 2 ^ 100 ≤ |(st (i + 1)).prevPhaseDiff|) (n : ℕ) (hn : n < m) (hK : 64 ≤ n + 1)
    (a b δ : ℝ) (hδ : 0 ≤ δ)
    (hline : ∀ u : ℝ, (n + 1 : ℕ) - 64 ≤ u → u < (n + 1 : ℕ) →
      |playedW S.env ws L w t (unwrapped (st 0).prevPhase (trueStepOf S.env.fl dir (st 0).prevPhase p)) u -
        line a b (n + 1 : ℕ) u| ≤ δ) :
    |y n - dcGain (filterX ft) * line a b (n + 1 : ℕ) ((n + 1 : ℕ) - latency (filterX ft))| ≤
      headroom ft * δ + 1e-6 * (1.001 * A + δ) + 1 / 2 ^ 12 * (1.001 * A) +
      ε * (A + Λ) * roundoffGain (valFilter val S.flt) 6.4 := by
  have hG : dcGain (filterX ft) ≠ 0 := by
    have := (abs_lt.1 (C41_gain ft)).1
    intro h0; rw [h0] at this; norm_num at this
  have hsel : ∀ i < n + 1, Sel L 1.001 (t i) := fun i hi => run_sel hS.fl hl hS.B h hp
      (fun hc _ hd _ e => (Sys.weight_facts hS hc hd e).2.2.1) (by omega)
  have hline' : ∀ u : ℝ, ((n + 1 : ℕ) : ℝ) - (64 : ℕ) ≤ u → u < (n + 1 : ℕ) →
      |playedW S.env ws L w t (unwrapped (st 0).prevPhase (trueStepOf S.env.fl dir (st 0).prevPhase p)) u -
        line a b (n + 1 : ℕ) u| ≤ δ := by
    intro u h1 h2
    exact hline u (by push_cast at h1 ⊢; exact h1) h2
  have b1 := line_response (m := n + 1) (K := 64) (filterX_re ft) hG (κ := 1.001) (by norm_num) (plays_length h.plays) hA (w := w)
    (fun i hi => h.wave i (by omega)) (t := t) hsel
    (x := (st 0).prevPhase) (d := trueStepOf S.env.fl dir (st 0).prevPhase p) (by norm_num) hK hδ hline'
  have b2 := stored_signal (m := n + 1) hst (κ := 1.001) (by norm_num) (plays_length h.plays) hA (w := w)
    (fun i hi => h.wave i (by omega)) (t := t) hsel
    (x := (st 0).prevPhase) (d := trueStepOf S.env.fl dir (st 0).prevPhase p) (Nat.succ_pos n)
  have b3 := C72_float S val ε hS hl ws nw L A Λ hA hΛ M0 M1 m st sw w dir p y t h hp hd n hn
  have hA0 : 0 ≤ A := by
    have := hsel 0 (Nat.succ_pos n)
    have hw := h.wave 0 (by omega)
    exact (abs_nonneg _).trans (waveAt_le (plays_length h.plays) hA hw.1 hw.2 this.i0 this.i1 0)
  have c1 := mul_le_mul_of_nonneg_right (C87_gain ft) hδ
  have c2 := mul_le_mul_of_nonneg_right (C89_memory ft) (by positivity : 0 ≤ 1.001 * A + δ)
  have en : ((n + 1 : ℕ) : ℝ) = n + 1 := by push_cast; rfl
  rw [en] at b1 b2 ⊢
  have e64 : ((64 : ℕ) : ℝ) = 64 := by norm_num
  rw [e64] at b1
  generalize filtered (filterX ft) (playedW S.env ws L w t (unwrapped (st 0).prevPhase
    (trueStepOf S.env.fl dir (st 0).prevPhase p))) (n + 1) = F1 at *
  generalize filtered (valFilter val S.flt) (playedW S.env ws L w t (unwrapped (st 0).prevPhase
    (trueStepOf S.env.fl dir (st 0).prevPhase p))) (n + 1) = F2 at *
  generalize dcGain (filterX ft) * line a b (n + 1) (n + 1 - latency (filterX ft)) = G at *
  have t1 := abs_sub_le (y n) F2 G
  have t2 := abs_sub_le F2 F1 G
  linarith

/-- C89 for the library's oscillators on any machine with IEEE binary32 arithmetic, debug or release build,
any resampler: float phases that are zero or not subnormal, forwards or to and fro, any waveform chosen
before each sample; `t` are the tables the crossfader selects. -/
theorem C89_builtin (E : Env ℝ) (hE : IeeeHost E) (ft : FilterType) (ws : List ℝ) (nw L : ℕ) (A Λ : ℝ)
    (hA : TablesWithin E ws nw L A) (hΛ : SlopesWithin E ws nw L Λ)
    (M0 : 1 / 2 ^ 40 ≤ A + Λ) (M1 : A + Λ ≤ 2 ^ 24)
    (sr dur : ℝ) (wt : WavetableData ℝ) (hb : Built E ws nw L sr dur wt)
    (o0 : Osc ℝ CFloat) (D : ℝ) (r : ℤ) (x : ℕ → ℝ)
    (hx : ∀ n, 0 ≤ x n ∧ x n < 1 ∧ ieee32 (x n) = x n ∧ (x n = 0 ∨ 1 / 2 ^ 126 ≤ x n)) (hD : D ≠ 0)
    (w : ℕ → ℤ) (hw : ∀ n, 0 ≤ w n ∧ w n < nw) (dir : ℕ → Sys.Direction)
    (hstep : ∀ n, StepOk (dir n) (x n) (x (n + 1)))
    (hmin : ∀ n, 1 / 2 ^ 100 ≤ |Sys.dirDiff ieee32 (dir n) (x (n + 1)) (x n)|)
    (hslow : FallsSlowly L ⌊ieee32 (dur * sr)⌋ (stepsAlong ieee32 D dir x))
    (hclear : ClearOfChanges ieee32 L ⌊ieee32 (dur * sr)⌋ (stepsAlong ieee32 D dir x) x)
    (st sw : ℕ → Osc ℝ CFloat) (y : ℕ → ℝ)
    (hi : (sysRnd ieee32 E ft).init o0 (some wt) (x 0) D = .ok (st 0, r))
    (hset : ∀ n, (sysRnd ieee32 E ft).setWaveform (st n) (w n) = .ok (sw n))
    (hcall : ∀ n, (sysRnd ieee32 E ft).process (dir n) (sw n) [x (n + 1)] [0] = .ok (st (n + 1), [y n])) :
    ∃ t : ℕ → MipMapIndices ℝ,
      (∀ n, NextIndices (sysRnd ieee32 E ft) (sw n) (Sys.dirDiff ieee32 (dir n) (x (n + 1)) (x n)) (t n)) ∧
      ∀ n : ℕ, 64 ≤ n + 1 → ∀ a b δ : ℝ, 0 ≤ δ →
        (∀ u : ℝ, (n + 1 : ℕ) - 64 ≤ u → u < (n + 1 : ℕ) →
          |playedW E ws L w t (unwrapped (x 0) (trueStepOf ieee32 dir (x 0) fun n => x (n + 1))) u -
            line a b (n + 1 : ℕ) u| ≤ δ) →
        |y n - dcGain (filterX ft) * line a b (n + 1 : ℕ) ((n + 1 : ℕ) - latency (filterX ft))| ≤
          headroom ft * δ + 1e-6 * (1.001 * A + δ) + 1 / 2 ^ 12 * (1.001 * A) +
          1 / 2 ^ 21 * (A + Λ) * roundoffGain (valFilter CFloat.val (sysRnd ieee32 E ft).flt) 6.4 := by
  have hS : FloatSys (sysRnd ieee32 E ft) CFloat.val (1 / 2 ^ 21) :=
    floatSysRnd (E := E) (by rw [hE.fl]; exact rounding_ieee32) hE.fl hE.dbl ft
  have hfl : (sysRnd ieee32 E ft).env.fl = ieee32 := hE.fl
  obtain ⟨s1, w1, y1, t, a1, a2, a3, a4, a5, a6⟩ := scratch_run (S := sysRnd ieee32 E ft) (w := w) (dir := dir)
    (x := x) (d := stepsAlong ieee32 D dir x) hS.fl hS.B hE.log2 hb
    (fun n => by rw [hfl]; exact ⟨(hx n).1, (hx n).2.1, isPhase_ieee32 (hx n).2.2.1⟩) hD hi hw hstep rfl
    (fun n => by rw [hfl]; rfl)
    (by rw [hfl]; exact hslow) (by rw [hfl]; exact hclear)
    (fun n => normal_offDenormal (hx n).2.2.1 (hx n).1 (hx n).2.2.2 (hE.L100 hb))
  have a5' : ∀ n, (s1 (n + 1)).prevPhaseDiff = Sys.dirDiff ieee32 (dir n) (x (n + 1)) (x n) := a5
  have u1 : ∀ n, sw n = w1 n ∧ y n = y1 n := fun n =>
    (calls_unique (m := n + 1) a1.symm (fun i _ => hset i) (fun i _ => hcall i)
      (fun i _ => a3 i) (fun i _ => a4 i) (Nat.le_succ n)).2 (Nat.lt_succ_self n)
  refine ⟨t, fun n => ?_, fun n hK a b δ hδ hline => ?_⟩
  · have := (a6 (n + 1)).next n (Nat.lt_succ_self n)
    rw [a5', ← (u1 n).1] at this
    exact this
  · rw [(u1 n).2]
    refine C89_float _ _ _ hS hE.log2 ft (C68_stored ft) ws nw L A Λ hA hΛ M0 M1 (n + 1) s1 w1 w dir _ y1 t
      (a6 (n + 1)) (fun i _ => by rw [hfl]; exact isPhase_ieee32 (hx _).2.2.1)
      (fun i _ => by rw [a5']; exact hmin i) n (Nat.lt_succ_self n) hK a b δ hδ ?_
    rw [a2, hfl]
    exact hline

/-! ### the hypotheses are met -/

/-- A waveform of 8 samples in `[-1, 1]` read slowly, 128 samples from one sample to the next, with every
built-in filter: from the 64th to the 128th output one hears the line from the first sample to the second,
delayed by the latency, with an accuracy of a millionth. -/
theorem latencyExample (ft : FilterType) (ws : List ℝ) (hws : ws.length = 2 ^ 3) (hv : ∀ x ∈ ws, |x| ≤ 1) :
    ∃ (st sw : ℕ → Osc ℝ ℂ) (y : ℕ → ℝ),
      (sysOf envX ft).init (sysOf envX ft).fresh (some (wtOf envX ws 1 3 1)) 0 (1 / 1024) = .ok (st 0, 0) ∧
      (∀ n < 128, (sysOf envX ft).setWaveform (st n) 0 = .ok (sw n)) ∧
      (∀ n < 128, (sysOf envX ft).process .kForward (sw n) [((n + 1 : ℕ) : ℝ) / 1024] [0] = .ok (st (n + 1), [y n])) ∧
      ∀ n < 128, 64 ≤ n + 1 →
        |y n - dcGain (filterX ft) * (ws.getD 0 0 + ((n + 1 : ℕ) - latency (filterX ft)) / 128 *
          (ws.getD 1 0 - ws.getD 0 0))| ≤ 1e-6 := by
  obtain ⟨o, ho, h1, hy⟩ := at_init' ft ws 3 (by norm_num) (by norm_num) hws 1
    le_rfl (by norm_num) (p := 0) (d := 1 / 1024) (by norm_num) (by norm_num) (i := 0)
    (oct0 (by norm_num))
    (cf_idle (by norm_num) (by norm_num) (oct0 (by norm_num [abs_of_pos])))
  set c : CrossFader ℝ := ⟨1, octaveScale ℝ 3, 0, 0, 0⟩ with hc
  have hcf : c.newIndices envX |(1 / 1024 : ℝ)| = .ok (c, ⟨0, 1, 1, 0⟩) := by
    have := cf_idle (E := envX) (n := 1) (L := 3) (i := 0) (d := |(1 / 1024 : ℝ)|) (by norm_num) (by norm_num)
      (oct0 (by norm_num [abs_of_pos]))
    exact this
  have hst : ∀ (n : ℕ) (o : Osc ℝ ℂ), ∃ q : Osc ℝ ℂ × ℝ, n < 128 →
      At (sysOf envX ft) ws 3 o c 0 (1 / 1024) ((n : ℝ) / 1024) →
      (sysOf envX ft).process .kForward o [((n + 1 : ℕ) : ℝ) / 1024] [0] = .ok (q.1, [q.2]) ∧
      At (sysOf envX ft) ws 3 q.1 c 0 (1 / 1024) (((n + 1 : ℕ) : ℝ) / 1024) ∧
      NextIndices (sysOf envX ft) o (1 / 1024) ⟨0, 1, 1, 0⟩ := by
    intro n o
    by_cases hh : n < 128 ∧ At (sysOf envX ft) ws 3 o c 0 (1 / 1024) ((n : ℝ) / 1024)
    · obtain ⟨hn, hat⟩ := hh
      have hn' : (n : ℝ) < 128 := by exact_mod_cast hn
      have hn0 : (0 : ℝ) ≤ n := Nat.cast_nonneg n
      obtain ⟨⟨o', y, e1, e2⟩, e3⟩ := hat.step (dir := .kForward) (p' := ((n + 1 : ℕ) : ℝ) / 1024) (d' := 1 / 1024)
        ⟨by positivity, by push_cast; linarith⟩
        (by show Forward _ _; unfold Forward; left; push_cast; constructor <;> linarith)
        (Or.inr (by norm_num))
        (by unfold Sys.dirDiff Sys.fwdDiff; dsimp only [id]; rw [if_neg (by push_cast; linarith)]; push_cast; ring) hcf
      exact ⟨(o', y), fun _ _ => ⟨e1, e2, e3⟩⟩
    · exact ⟨(o, 0), fun a b => absurd ⟨a, b⟩ hh⟩
  choose f hf using hst
  let st : ℕ → Osc ℝ ℂ := fun n => Nat.rec o (fun n o => (f n o).1) n
  have hat : ∀ n ≤ 128, At (sysOf envX ft) ws 3 (st n) c 0 (1 / 1024) ((n : ℝ) / 1024) := by
    intro n
    induction n with
    | zero => intro _; rw [Nat.cast_zero, zero_div]; exact h1
    | succ n ih => intro hn; exact (hf n (st n) (by omega) (ih (by omega))).2.1
  have hcall : ∀ n < 128, (sysOf envX ft).process .kForward (st n) [((n + 1 : ℕ) : ℝ) / 1024] [0] =
      .ok (st (n + 1), [(f n (st n)).2]) := fun n hn => (hf n (st n) hn (hat n hn.le)).1
  have hset : ∀ n < 128, (sysOf envX ft).setWaveform (st n) 0 = .ok (st n) := by
    intro n hn
    obtain ⟨wt, hw, -⟩ := (hat n hn.le).cf
    unfold Sys.setWaveform
    rw [chk_true (by rw [hw]; rfl), R.ok_bind]
    have := (hat n hn.le).crt
    show Except.ok _ = _
    rw [← this]
  have hoff : ∀ n : ℕ, OffDenormal (2 ^ 3) ((n : ℝ) / 1024) := by
    intro n
    have := offDenormal_dyadic n 10 3 (by norm_num) (by norm_num)
    norm_num at this ⊢
    exact this
  have hrun : SwitchedRun (sysOf envX ft) ws 1 3 128 st st (fun _ => 0) (fun _ => .kForward)
      (fun n => ((n + 1 : ℕ) : ℝ) / 1024) (fun n => (f n (st n)).2) (fun _ => ⟨0, 1, 1, 0⟩) := by
    refine ⟨(hat 0 (by norm_num)).plays, ?_, fun _ _ => by norm_num, hset, ?_, ?_, hcall, ?_, ?_, ?_⟩
    · intro y hm
      show y = 0
      have : st 0 = o := rfl
      rw [this, hy] at hm
      exact List.eq_of_mem_replicate hm
    · intro i hi
      have : (i : ℝ) < 128 := by exact_mod_cast hi
      constructor
      · positivity
      · push_cast; linarith
    · intro i hi
      rw [(hat i hi.le).phase]
      show Forward _ _
      have : (i : ℝ) < 128 := by exact_mod_cast hi
      unfold Forward; left; push_cast; constructor <;> linarith
    · intro i hi
      rw [(hat (i + 1) hi).diff]
      exact (hf i (st i) hi (hat i hi.le)).2.2
    · intro i hi
      exact Or.inl (hat i hi.le).mip.symm
    · intro i hi
      rw [(hat i hi.le).phase]
      exact hoff i
  refine ⟨st, st, _, ho, hset, hcall, fun n hn hK => ?_⟩
  have hx0 : (st 0).prevPhase = 0 := by have := (hat 0 (by norm_num)).phase; simpa using this
  have hstep : stepOf (fun _ => .kForward) 0 (fun n => ((n + 1 : ℕ) : ℝ) / 1024) = fun _ => (1 / 1024 : ℝ) := by
    funext i
    unfold stepOf Sys.dirDiff Sys.fwdDiff
    dsimp only [id]
    cases i with
    | zero => norm_num
    | succ i =>
      simp only [Nat.succ_ne_zero, if_false, Nat.add_sub_cancel]
      rw [if_neg (by push_cast; have : (0 : ℝ) ≤ i := Nat.cast_nonneg i; linarith)]
      push_cast; ring
  have hG : dcGain (filterX ft) ≠ 0 := by
    have := (abs_lt.1 (C41_gain ft)).1
    intro h0; rw [h0] at this; norm_num at this
  have hlin : ∀ u : ℝ, 0 ≤ u → u < 128 →
      playedW envX ws 3 (fun _ => 0) (fun _ => ⟨0, 1, 1, 0⟩) (unwrapped 0 fun _ => (1 / 1024 : ℝ)) u =
        ws.getD 0 0 + u / 128 * (ws.getD 1 0 - ws.getD 0 0) := by
    intro u h0 h1
    have hu : unwrapped 0 (fun _ => (1 / 1024 : ℝ)) u = u / 1024 := by
      unfold unwrapped
      rw [Finset.sum_const, Finset.card_range, nsmul_eq_mul]
      ring
    have hm : mipSamples envX (waveformOf ws (2 ^ 3) (0 : ℤ).toNat) (0 : ℤ).toNat = ws := by
      rw [show (0 : ℤ).toNat = 0 from rfl, mipSamples_zero]
      unfold waveformOf
      rw [zero_mul, List.drop_zero, ← hws, List.take_length]
    unfold playedW mixture waveAt
    dsimp only
    rw [hu, hm, zero_mul, add_zero, one_mul]
    unfold interp
    have hfl : ⌊u / 1024 * (ws.length : ℝ)⌋ = 0 := by
      rw [hws, Int.floor_eq_zero_iff]
      constructor
      · positivity
      · norm_num; linarith
    rw [hfl]
    unfold cyc
    rw [hws]
    norm_num
    left; ring
  have key := C89_exact (sysOf envX ft) (exactSys ft) log2X (filterX_re ft) hG ws 1 3 1
    (tablesWithinX zero_le_one hv 1 3) 128 st st _ _ _ _ _ hrun n 64 hn (by norm_num) hK
    (ws.getD 0 0 + (n + 1 : ℕ) / 128 * (ws.getD 1 0 - ws.getD 0 0)) ((ws.getD 1 0 - ws.getD 0 0) / 128) 0 le_rfl
    (fun u h0 h1 => by
      have hn' : ((n + 1 : ℕ) : ℝ) ≤ 128 := by exact_mod_cast hn
      have hK' : (64 : ℝ) ≤ ((n + 1 : ℕ) : ℝ) := by exact_mod_cast hK
      have h64 : ((64 : ℕ) : ℝ) = 64 := by norm_num
      rw [h64] at h0
      rw [hx0, hstep]
      have := hlin u (by linarith) (by linarith)
      show |playedW envX _ _ _ _ _ _ - _| ≤ _
      rw [this]
      unfold line
      rw [show ws.getD 0 0 + u / 128 * (ws.getD 1 0 - ws.getD 0 0) -
        (ws.getD 0 0 + (n + 1 : ℕ) / 128 * (ws.getD 1 0 - ws.getD 0 0) + (ws.getD 1 0 - ws.getD 0 0) / 128 *
          (u - (n + 1 : ℕ))) = 0 by ring, abs_zero])
  have hr := C89_memory ft
  have e64 : ((64 : ℕ) : ℝ) = 64 := by norm_num
  rw [e64, mul_zero, zero_add, add_zero, mul_one] at key
  have el : line (ws.getD 0 0 + (n + 1 : ℕ) / 128 * (ws.getD 1 0 - ws.getD 0 0)) ((ws.getD 1 0 - ws.getD 0 0) / 128)
      (n + 1 : ℕ) ((n + 1 : ℕ) - latency (filterX ft)) =
      ws.getD 0 0 + ((n + 1 : ℕ) - latency (filterX ft)) / 128 * (ws.getD 1 0 - ws.getD 0 0) := by
    unfold line; ring
  have key' : |(f n (st n)).2 - dcGain (filterX ft) * line (ws.getD 0 0 + (n + 1 : ℕ) / 128 * (ws.getD 1 0 - ws.getD 0 0))
      ((ws.getD 1 0 - ws.getD 0 0) / 128) (n + 1 : ℕ) ((n + 1 : ℕ) - latency (filterX ft))| ≤ remembered (filterX ft) 64 := key
  rw [el] at key'
  exact key'.trans hr

end Adwt.Props
