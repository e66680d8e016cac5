import Verif.Proofs.Click
import Verif.Props.Latency
import Verif.Props.TurnOn
import Verif.Props.Scratch

/-!
# C90: clicks
-/

set_option linter.unusedSectionVars false

namespace Adwt.Props
open MeasureTheory WavetableData CrossFader

/-- C90, exact arithmetic: any run with one waveform. If no step is longer than `D` and no table's weight
changes by more than `ω` from one sample to the next, consecutive outputs differ by at most the peak gain of
the filter times (the steepest slope of the tables times `D`, plus `4 ω` times their peak), plus what is still to be
heard of the start of the sound. -/
theorem C90_exact (S : Sys ℝ ℂ) (hS : ExactSys S) (hl : Log2Spec S.env.log2f)
    (hz : ∀ k < S.flt.r.length, (S.flt.z.getD k 0).re < 0)
    (ws : List ℝ) (nw L : ℕ) (A Λ : ℝ) (hA : TablesWithin S.env ws nw L A) (hΛ : SlopesWithin S.env ws nw L Λ)
    (m : ℕ) (st sw : ℕ → Osc ℝ ℂ) (w : ℕ → ℤ) (dir : ℕ → Sys.Direction)
    (p y : ℕ → ℝ) (t : ℕ → MipMapIndices ℝ) (h : SwitchedRun S ws nw L m st sw w dir p y t)
    (n : ℕ) (hn : n + 1 < m) (hw : ∀ i < n + 2, w i = w 0) (D ω : ℝ)
    (hD : ∀ i < n + 2, |stepOf dir (st 0).prevPhase p i| ≤ D)
    (hω : ∀ i < n + 1, ∀ k, |(t (i + 1)).weightOf k - (t i).weightOf k| ≤ ω) :
    |y (n + 1) - y n| ≤ peakGain S.flt * (Λ * D + 4 * ω * A) + A * startRest S.flt (n + 1) := by
  have hf := Sys.exact_rounding hS
  have hid : ∀ i, i < m → IsPhase S.env.fl (p i) := fun i _ => by
    rw [hS.fl]; exact isPhase_id _
  have e1 := C72_switch S hS hl ws nw L m st sw w dir p y t h n (by omega)
  have e2 := C72_switch S hS hl ws nw L m st sw w dir p y t h (n + 1) hn
  have key := signal_succ (m := n + 1) hz (κ := 1) zero_le_one (plays_length h.plays) hA hΛ (w := w) (v := w 0)
    (fun i hi => hw i (by omega)) (h.wave 0 (by omega)) (t := t)
    (fun i hi => run_sel hf hl hS.B h hid
      (fun hc _ hd _ e => (Sys.weight_one hS.fl hc hd e).1.le) (by omega))
    (x := (st 0).prevPhase) (d := stepOf dir (st 0).prevPhase p) hD hω ((abs_nonneg _).trans (hω 0 (by omega) 0))
  unfold startRest
  push_cast at e1 e2 key ⊢
  rw [one_mul, one_mul] at key
  rw [e1, e2]
  exact key

theorem startRest_tail {flt : Filter ℂ} (hz : ∀ k < flt.r.length, (flt.z.getD k 0).re < 0) (n : ℕ) :
    startRest flt n ≤ ∫ t in Set.Ioi (n : ℝ), |impulse flt t| := by
  unfold startRest
  rw [intervalIntegral.integral_of_le (by linarith)]
  exact setIntegral_mono_set (impulse_integrable hz n).abs (Filter.Eventually.of_forall fun _ => abs_nonneg _)
    (Set.Ioc_subset_Ioi_self).eventuallyLE

/-- C90: with the built-in filters nothing is left of the start after 64 samples. -/
theorem C90_start (ft : FilterType) (n : ℕ) (hn : 64 ≤ n) : startRest (filterX ft) n ≤ 1e-6 := by
  have hz := filterX_re ft
  refine (startRest_tail hz n).trans ((impulse_tail hz n).trans (le_trans ?_ (C89_memory ft)))
  unfold remembered
  refine Finset.sum_le_sum fun k hk => ?_
  have hk := hz k (Finset.mem_range.1 hk)
  have hn' : (64 : ℝ) ≤ n := by exact_mod_cast hn
  have e : Real.exp (((filterX ft).z.getD k 0).re * n) ≤ Real.exp (((filterX ft).z.getD k 0).re * 64) :=
    Real.exp_le_exp.2 (by have := mul_nonneg (by linarith : 0 ≤ -((filterX ft).z.getD k 0).re) (by linarith : 0 ≤ (n : ℝ) - 64); linarith)
  have hpos : 0 < -((filterX ft).z.getD k 0).re := by linarith
  rw [mul_assoc (2 * ‖(filterX ft).r.getD k 0‖)]
  refine mul_le_mul_of_nonneg_left ?_ (by positivity)
  rw [div_eq_mul_one_div]
  refine mul_le_mul e ?_ (by positivity) (Real.exp_pos _).le
  have a1 : 0 ≤ 1 / ‖(filterX ft).z.getD k 0‖ := by positivity
  have a2 : 0 ≤ 4 / (64 : ℝ) / ‖(filterX ft).z.getD k 0‖ ^ 2 := by positivity
  linarith

/-- C90, float arithmetic, with the coefficients of a built-in filter as stored. -/
theorem C90_float {C : Type} [Zero C] [Add C] [Sub C] [Mul C] [Div C]
    (S : Sys ℝ C) (val : C → ℂ) (ε : ℝ) (hS : FloatSys S val ε) (hl : Log2Spec S.env.log2f)
    (ft : FilterType) (hst : StoredFilter (1 / 2 ^ 23) ft (valFilter val S.flt))
    (ws : List ℝ) (nw L : ℕ) (A Λ : ℝ)
    (hA : TablesWithin S.env ws nw L A) (hΛ : SlopesWithin S.env ws nw L Λ)
    (M0 : 1 / 2 ^ 40 ≤ A + Λ) (M1 : A + Λ ≤ 2 ^ 24)
    (m : ℕ) (st sw : ℕ → Osc ℝ C) (w : ℕ → ℤ) (dir : ℕ → Sys.Direction) (p y : ℕ → ℝ)
    (t : ℕ → MipMapIndices ℝ)
    (h : SwitchedRun S ws nw L m st sw w dir p y t) (hp : ∀ i < m, IsPhase S.env.fl (p i))
    (hd : ∀ i < m, 1 / 2 ^ 100 ≤ |(st (i + 1)).prevPhaseDiff|)
    (n : ℕ) (hn : n + 1 < m) (hw : ∀ i < n + 2, w i = w 0) (D ω : ℝ)
    (hD : ∀ i < n + 2, |trueStepOf S.env.fl dir (st 0).prevPhase p i| ≤ D)
    (hω : ∀ i < n + 1, ∀ k, |(t (i + 1)).weightOf k - (t i).weightOf k| ≤ ω) :
    |y (n + 1) - y n| ≤ headroom ft * (1.001 * (Λ * D) + 4 * ω * A) + 1.001 * A * startRest (filterX ft) (n + 1) +
      1 / 2 ^ 11 * (1.001 * A) + 2 * (ε * (A + Λ) * roundoffGain (valFilter val S.flt) 6.4) := by
  have hsel : ∀ i < n + 2, Sel L 1.001 (t i) := fun i hi => run_sel hS.fl hl hS.B h hp
      (fun hc _ hd _ e => (Sys.weight_facts hS hc hd e).2.2.1) (by omega)
  have hw0 := h.wave 0 (by omega)
  have hA0 : 0 ≤ A := (abs_nonneg _).trans
    (waveAt_le (plays_length h.plays) hA hw0.1 hw0.2 (hsel 0 (by omega)).i0 (hsel 0 (by omega)).i1 0)
  have hΛ0 : 0 ≤ Λ := le_trans (by positivity) (hΛ (w 0).toNat (by omega) (t 0).idx.toNat
    (by have := (hsel 0 (by omega)).i0; have := (hsel 0 (by omega)).i1; omega) 0)
  have hD0 : 0 ≤ D := (abs_nonneg _).trans (hD 0 (by omega))
  have hω0 : 0 ≤ ω := (abs_nonneg _).trans (hω 0 (by omega) 0)
  have b1 := signal_succ (m := n + 1) (filterX_re ft) (κ := 1.001) (by norm_num) (plays_length h.plays) hA hΛ (w := w) (v := w 0)
    (fun i hi => hw i (by omega)) hw0 (t := t) hsel
    (x := (st 0).prevPhase) (d := trueStepOf S.env.fl dir (st 0).prevPhase p) hD hω hω0
  have b2 := stored_signal (m := n + 1) hst (κ := 1.001) (by norm_num) (plays_length h.plays) hA (w := w)
    (fun i hi => h.wave i (by omega)) (t := t) (fun i hi => hsel i (by omega))
    (x := (st 0).prevPhase) (d := trueStepOf S.env.fl dir (st 0).prevPhase p) (Nat.succ_pos n)
  have b3 := stored_signal (m := n + 1 + 1) hst (κ := 1.001) (by norm_num) (plays_length h.plays) hA (w := w)
    (fun i hi => h.wave i (by omega)) (t := t) (fun i hi => hsel i (by omega))
    (x := (st 0).prevPhase) (d := trueStepOf S.env.fl dir (st 0).prevPhase p) (Nat.succ_pos (n + 1))
  have b4 := C72_float S val ε hS hl ws nw L A Λ hA hΛ M0 M1 m st sw w dir p y t h hp hd n (by omega)
  have b5 := C72_float S val ε hS hl ws nw L A Λ hA hΛ M0 M1 m st sw w dir p y t h hp hd (n + 1) hn
  have c1 := mul_le_mul_of_nonneg_right (C87_gain ft) (by positivity : 0 ≤ 1.001 * (Λ * D) + 4 * ω * A)
  have hcast : (((n + 1 : ℕ) : ℝ)) = n + 1 := by push_cast; rfl
  have hcast' : (((n + 1 + 1 : ℕ) : ℝ)) = n + 1 + 1 := by push_cast; rfl
  unfold startRest
  rw [hcast] at b1 b2 b5 ⊢
  rw [hcast'] at b1 b3
  generalize playedW S.env ws L w t (unwrapped (st 0).prevPhase
    (trueStepOf S.env.fl dir (st 0).prevPhase p)) = V at *
  generalize filtered (filterX ft) V ((n : ℝ) + 1) = F1 at *
  generalize filtered (filterX ft) V ((n : ℝ) + 1 + 1) = F2 at *
  generalize filtered (valFilter val S.flt) V ((n : ℝ) + 1) = G1 at *
  generalize filtered (valFilter val S.flt) V ((n : ℝ) + 1 + 1) = G2 at *
  have t1 := abs_sub_le (y (n + 1)) G2 (y n)
  have t2 := abs_sub_le G2 F2 (y n)
  have t3 := abs_sub_le F2 F1 (y n)
  have t4 := abs_sub_le F1 G1 (y n)
  rw [abs_sub_comm F1 G1] at t4
  rw [abs_sub_comm G1 (y n)] at t4
  linarith

/-! ### tones and vibratos -/

theorem pair_falls {L : ℕ} {num : ℤ} {d : ℕ → ℝ} {i : ℤ} (h : ∀ n, TwoOctaves L i |d n|) : FallsSlowly L num d := by
  intro k n _ _ a b ha hb
  rcases h k with h1 | h1 <;> rcases h n with h2 | h2 <;>
    have e1 := ha.unique h1 <;> have e2 := hb.unique h2 <;> omega

/-- C90 for the library's oscillators on any machine with IEEE binary32 arithmetic, debug or release build,
any resampler, one waveform: an oscillator started in octave `i` (not above the one of a tenth) and played
forwards with steps in the octaves `i` and `i + 1`, never longer than `D`, crossing between them as often as one
likes. -/
theorem C90_builtin (E : Env ℝ) (hE : IeeeHost E) (ft : FilterType) (ws : List ℝ) (nw L : ℕ) (A Λ : ℝ)
    (hA : TablesWithin E ws nw L A) (hΛ : SlopesWithin E ws nw L Λ)
    (M0 : 1 / 2 ^ 40 ≤ A + Λ) (M1 : A + Λ ≤ 2 ^ 24)
    (sr dur : ℝ) (wt : WavetableData ℝ) (hb : Built E ws nw L sr dur wt) (hnum : ⌊ieee32 (dur * sr)⌋ ≤ 2 ^ 24)
    (o0 : Osc ℝ CFloat) (D0 D : ℝ) (r : ℤ) (x : ℕ → ℝ)
    (hx : ∀ n, 0 ≤ x n ∧ x n < 1 ∧ ieee32 (x n) = x n ∧ (x n = 0 ∨ 1 / 2 ^ 126 ≤ x n)) (hD0 : 0 < D0)
    (v : ℤ) (hv : 0 ≤ v ∧ v < nw) (dir : ℕ → Sys.Direction)
    (hstep : ∀ n, StepOk (dir n) (x n) (x (n + 1))) (i : ℤ) (hi0 : IsOctave L i D0)
    (hi1 : i = 0 ∨ 2 ^ i.toNat / 2 ^ L ≤ (1 / 10 : ℝ))
    (hpos : ∀ n, 1 / 2 ^ 100 ≤ Sys.dirDiff ieee32 (dir n) (x (n + 1)) (x n))
    (hoct : ∀ n, TwoOctaves L i (Sys.dirDiff ieee32 (dir n) (x (n + 1)) (x n)))
    (hD : ∀ n, |trueStepOf ieee32 dir (x 0) (fun n => x (n + 1)) n| ≤ D)
    (st sw : ℕ → Osc ℝ CFloat) (y : ℕ → ℝ)
    (hi : (sysRnd ieee32 E ft).init o0 (some wt) (x 0) D0 = .ok (st 0, r))
    (hset : ∀ n, (sysRnd ieee32 E ft).setWaveform (st n) v = .ok (sw n))
    (hcall : ∀ n, (sysRnd ieee32 E ft).process (dir n) (sw n) [x (n + 1)] [0] = .ok (st (n + 1), [y n])) (n : ℕ) :
    |y (n + 1) - y n| ≤ headroom ft * (1.001 * (Λ * D) + 4 * (1 / ⌊ieee32 (dur * sr)⌋ + 1 / 2 ^ 23) * A) +
      1.001 * A * startRest (filterX ft) (n + 1) + 1 / 2 ^ 11 * (1.001 * A) +
      2 * (1 / 2 ^ 21 * (A + Λ) * roundoffGain (valFilter CFloat.val (sysRnd ieee32 E ft).flt) 6.4) := by
  have hS : FloatSys (sysRnd ieee32 E ft) CFloat.val (1 / 2 ^ 21) :=
    floatSysRnd (E := E) (by rw [hE.fl]; exact rounding_ieee32) hE.fl hE.dbl ft
  have hfl : (sysRnd ieee32 E ft).env.fl = ieee32 := hE.fl
  have hpos' : ∀ n, 0 < Sys.dirDiff ieee32 (dir n) (x (n + 1)) (x n) := fun n =>
    lt_of_lt_of_le (by positivity) (hpos n)
  have hd : ∀ n, 0 < stepsAlong ieee32 D0 dir x n := by
    intro n
    cases n with
    | zero => exact hD0
    | succ n => exact hpos' n
  have hoct' : ∀ n, TwoOctaves L i |stepsAlong ieee32 D0 dir x n| := by
    intro n
    rw [abs_of_pos (hd n)]
    cases n with
    | zero => exact Or.inl hi0
    | succ n => exact hoct n
  have hp0 : PhaseOk (sysRnd ieee32 E ft).env.fl (x 0) := by
    rw [hfl]; exact ⟨(hx 0).1, (hx 0).2.1, isPhase_ieee32 (hx 0).2.2.1⟩
  obtain ⟨s1, w1, y1, t, a1, a2, a3, a4, a5, a6⟩ := scratch_run (S := sysRnd ieee32 E ft) (w := fun _ => v) (dir := dir)
    (x := x) (d := stepsAlong ieee32 D0 dir x) hS.fl hS.B hE.log2 hb
    (fun n => by rw [hfl]; exact ⟨(hx n).1, (hx n).2.1, isPhase_ieee32 (hx n).2.2.1⟩) hD0.ne' hi (fun _ => hv) hstep rfl
    (fun n => by rw [hfl]; rfl)
    (pair_falls hoct') ⟨fun n hn => absurd (hd n) (by linarith), fun n hn => absurd (hd n) (by linarith)⟩
    (fun n => normal_offDenormal (hx n).2.2.1 (hx n).1 (hx n).2.2.2 (hE.L100 hb))
  have a5' : ∀ n, (s1 (n + 1)).prevPhaseDiff = Sys.dirDiff ieee32 (dir n) (x (n + 1)) (x n) := a5
  have u1 : ∀ n, sw n = w1 n ∧ y n = y1 n := fun n =>
    (calls_unique (m := n + 1) a1.symm (fun i _ => hset i) (fun i _ => hcall i)
      (fun i _ => a3 i) (fun i _ => a4 i) (Nat.le_succ n)).2 (Nat.lt_succ_self n)
  rw [(u1 n).2, (u1 (n + 1)).2]
  have hph : ∀ j < n + 2, IsPhase (sysRnd ieee32 E ft).env.fl (x (j + 1)) := fun j _ => by
    rw [hfl]; exact isPhase_ieee32 (hx _).2.2.1
  refine C90_float _ _ _ hS hE.log2 ft (C68_stored ft) ws nw L A Λ hA hΛ M0 M1 (n + 2) s1 w1 (fun _ => v) dir _ y1 t
    (a6 (n + 2)) hph (fun j _ => by rw [a5', abs_of_pos (hpos' j)]; exact hpos j) n (by omega)
    (fun _ _ => rfl) D _ (fun j _ => by rw [a2, hfl]; exact hD j) (fun j hj k => ?_)
  have hpair := init_pair hS.fl hE.log2 hb hp0 hD0.ne' hi (by rw [abs_of_pos hD0]; exact hi0) hi1
  rw [hfl] at hpair
  have := run_weights (e := 1 / 2 ^ 24) hS.fl hE.log2 hS.B (a6 (n + 2)) hph (by rw [a1]; exact hpair)
    (fun j _ => by rw [a5', abs_of_pos (hpos' j)]; exact hoct j)
    (fun hc hcn _ hd _ e k => weight_near hfl hc (by rw [hcn]; exact hnum) hd e k) (n := j) (by omega) k
  refine this.trans (le_of_eq ?_)
  ring

/-! ### a change of the waveform is a click -/

theorem waveAt_const {E : Env ℝ} (hk : KeepsConstants E) {ws : List ℝ} {nw L : ℕ} (hws : ws.length = nw * 2 ^ L) {w i : ℤ}
    (w0 : 0 ≤ w) (w1 : w < nw) (i0 : 0 ≤ i) (i1 : i < (L : ℤ) - 1) {c : ℝ}
    (h : waveformOf ws (2 ^ L) w.toNat = List.replicate (2 ^ L) c) (u : ℝ) : waveAt E ws L w i u = c := by
  have hl := WavetableData.mipSamples_length E (WavetableData.waveformOf_length hws (by omega : w.toNat < nw)) i.toNat (by omega)
  unfold waveAt
  rw [h] at hl ⊢
  obtain ⟨m, e⟩ := mip_const hk c (2 ^ L) i.toNat
  rw [e] at hl ⊢
  rw [List.length_replicate] at hl
  have hm : 0 < m := by rw [hl]; positivity
  unfold interp
  rw [cyc_const c hm, cyc_const c hm, sub_self, mul_zero, add_zero]

/-- C90, the finding: `setWaveform` does not crossfade. Two constant waveforms `a` and `b`; the first is played up
to sample `N`, the second from the next one on, with any phases and any steps. -/
theorem C90_switch (S : Sys ℝ ℂ) (hS : ExactSys S) (hl : Log2Spec S.env.log2f) (hk : KeepsConstants S.env)
    (L : ℕ) (a b : ℝ) (m : ℕ) (st sw : ℕ → Osc ℝ ℂ) (w : ℕ → ℤ) (dir : ℕ → Sys.Direction)
    (p y : ℕ → ℝ) (t : ℕ → MipMapIndices ℝ)
    (h : SwitchedRun S (List.replicate (2 ^ L) a ++ List.replicate (2 ^ L) b) 2 L m st sw w dir p y t)
    (N : ℕ) (hN : N + 1 < m) (hw : ∀ n < N + 2, w n = if n ≤ N then 0 else 1) :
    y N = a * stepResponse S.flt (N + 1 : ℕ) ∧
    y (N + 1) = a * (stepResponse S.flt (N + 2 : ℕ) - stepResponse S.flt 1) + b * stepResponse S.flt 1 := by
  have hf := Sys.exact_rounding hS
  have hid : ∀ i, i < m → IsPhase S.env.fl (p i) := fun i _ => by
    rw [hS.fl]; exact isPhase_id _
  set ws := List.replicate (2 ^ L) a ++ List.replicate (2 ^ L) b with hwsd
  have hws : ws.length = 2 * 2 ^ L := plays_length h.plays
  have hW0 : waveformOf ws (2 ^ L) (0 : ℤ).toNat = List.replicate (2 ^ L) a := by
    rw [hwsd]; unfold waveformOf
    simp
  have hW1 : waveformOf ws (2 ^ L) (1 : ℤ).toNat = List.replicate (2 ^ L) b := by
    rw [hwsd]; unfold waveformOf
    simp
  set V := playedW S.env ws L w t (unwrapped (st 0).prevPhase (stepOf dir (st 0).prevPhase p)) with hV
  have hsel : ∀ i < m, Sel L 1 (t i) ∧ (t i).weight + (t i).weightUp = 1 := by
    intro i hi
    have h1 := run_sel hf hl hS.B h hid (κ := 1)
      (fun hc _ hd _ e => (Sys.weight_one hS.fl hc hd e).1.le) hi
    obtain ⟨wt, c, -, hwt, hd, hni, -⟩ := run_fader hf hl hS.B h hid hi
    exact ⟨h1, (Sys.weight_one hS.fl hwt.inv hd hni).1⟩
  have hval : ∀ u : ℝ, 0 ≤ u → u < (N + 2 : ℕ) → V u = if u < (N + 1 : ℕ) then a else b := by
    intro u h0 h1
    have hfl : ⌊u⌋₊ < N + 2 := (Nat.floor_lt h0).2 h1
    obtain ⟨s1, s2⟩ := hsel ⌊u⌋₊ (by omega)
    have key : ∀ v : ℤ, 0 ≤ v → v < (2 : ℕ) → ∀ c, waveformOf ws (2 ^ L) v.toNat = List.replicate (2 ^ L) c →
        ∀ x, mixture S.env ws L v (t ⌊u⌋₊) x = c := by
      intro v v0 v1 c hc x
      unfold mixture
      rw [waveAt_const hk hws v0 v1 s1.i0 s1.i1 hc]
      by_cases hz : (t ⌊u⌋₊).weightUp = 0
      · rw [hz, add_zero] at s2
        rw [hz, s2]; ring
      · obtain ⟨c1, c2⟩ := s1.up hz
        rw [waveAt_const hk hws v0 v1 (by have := s1.i0; omega) c2 hc, ← add_mul, s2, one_mul]
    rw [hV]
    unfold playedW
    rw [hw _ hfl]
    by_cases hc : u < (N + 1 : ℕ)
    · have : ⌊u⌋₊ < N + 1 := (Nat.floor_lt h0).2 hc
      rw [if_pos hc, if_pos (by omega)]
      exact key 0 le_rfl (by norm_num) a hW0 _
    · have : N + 1 ≤ ⌊u⌋₊ := Nat.le_floor (not_lt.1 hc)
      rw [if_neg hc, if_neg (by omega)]
      exact key 1 (by norm_num) (by norm_num) b hW1 _
  have hg : ∀ i < m, Continuous ((fun i τ => mixture S.env ws L (w i) (t i) ((st 0).prevPhase +
      ∑ l ∈ Finset.range i, stepOf dir (st 0).prevPhase p l + τ * stepOf dir (st 0).prevPhase p i)) i) :=
    fun i _ => mixture_continuous.comp (by fun_prop)
  have hVg : ∀ i < m, ∀ u : ℝ, (i : ℝ) ≤ u → u < i + 1 → V u = (fun i τ => mixture S.env ws L (w i) (t i) ((st 0).prevPhase +
      ∑ l ∈ Finset.range i, stepOf dir (st 0).prevPhase p l + τ * stepOf dir (st 0).prevPhase p i)) i (u - i) := by
    intro i _ u h0 h1
    rw [hV]
    unfold playedW
    rw [floor_mid h0 h1]
    unfold unwrapped
    rw [floor_mid h0 h1]
  have hcI := impulse_continuous S.flt
  have ae_eq : ∀ {c d T : ℝ} {e : ℝ}, c ≤ d → (∀ u, c < u → u < d → V u = e) →
      ∫ u in c..d, impulse S.flt (T - u) * V u = e * ∫ s in (T - d)..(T - c), impulse S.flt s := by
    intro c d T e hcd he
    rw [← intervalIntegral.integral_comp_sub_left (fun s => impulse S.flt s) T, ← intervalIntegral.integral_const_mul]
    refine intervalIntegral.integral_congr_ae ?_
    have hne : ∀ᵐ u : ℝ, u ≠ d := by rw [ae_iff]; simp
    filter_upwards [hne] with u hu hu'
    rw [Set.uIoc_of_le hcd] at hu'
    rw [he u hu'.1 (lt_of_le_of_ne hu'.2 hu), mul_comm]
  have e1 := C72_switch S hS hl ws 2 L m st sw w dir p y t h N (by omega)
  have e2 := C72_switch S hS hl ws 2 L m st sw w dir p y t h (N + 1) hN
  rw [← hV] at e1 e2
  have f1 := filtered_impulse (flt := S.flt) (V := V) (m := N + 1) (fun i hi => hg i (by omega)) (fun i hi => hVg i (by omega))
  have f2 := filtered_impulse (flt := S.flt) (V := V) (m := N + 2) (fun i hi => hg i (by omega)) (fun i hi => hVg i (by omega))
  have hN0 : (0 : ℝ) ≤ N := Nat.cast_nonneg N
  have g1 := ae_eq (c := 0) (d := (N + 1 : ℕ)) (T := (N + 1 : ℕ)) (e := a) (by positivity) (fun u h0 h1 => by
    rw [hval u h0.le (by push_cast at h1 ⊢; linarith), if_pos h1])
  have hVi : IntervalIntegrable V volume (0 : ℝ) (N + 2 : ℕ) :=
    signal_integrable (fun i hi => hg i (by omega)) (fun i hi => hVg i (by omega))
  have i1 : IntervalIntegrable (fun u => impulse S.flt ((N + 2 : ℕ) - u) * V u) volume (0 : ℝ) (N + 1 : ℕ) :=
    (hVi.mono_set (by
      rw [Set.uIcc_of_le (by positivity), Set.uIcc_of_le (by positivity)]
      exact Set.Icc_subset_Icc_right (by push_cast; linarith))).continuousOn_mul (Continuous.continuousOn (by fun_prop))
  have i2 : IntervalIntegrable (fun u => impulse S.flt ((N + 2 : ℕ) - u) * V u) volume ((N + 1 : ℕ) : ℝ) (N + 2 : ℕ) :=
    (hVi.mono_set (by
      rw [Set.uIcc_of_le (by push_cast; linarith), Set.uIcc_of_le (by positivity)]
      exact Set.Icc_subset_Icc_left (by positivity))).continuousOn_mul (Continuous.continuousOn (by fun_prop))
  have g2 := ae_eq (c := 0) (d := (N + 1 : ℕ)) (T := (N + 2 : ℕ)) (e := a) (by positivity) (fun u h0 h1 => by
    rw [hval u h0.le (by push_cast at h1 ⊢; linarith), if_pos h1])
  have g3 := ae_eq (c := (N + 1 : ℕ)) (d := (N + 2 : ℕ)) (T := (N + 2 : ℕ)) (e := b) (by push_cast; linarith) (fun u h0 h1 => by
    rw [hval u (by have : (0 : ℝ) ≤ (N + 1 : ℕ) := Nat.cast_nonneg _; linarith) h1, if_neg (by linarith)])
  rw [← intervalIntegral.integral_add_adjacent_intervals i1 i2, g2, g3] at f2
  rw [g1] at f1
  have hI : ∀ c d : ℝ, IntervalIntegrable (fun s => impulse S.flt s) volume c d := fun c d => hcI.intervalIntegrable c d
  unfold stepResponse
  constructor
  · rw [e1]
    rw [show ((N : ℝ) + 1) = (N + 1 : ℕ) by push_cast; rfl, f1, sub_self, sub_zero]
  · rw [e2, show (((N + 1 : ℕ) : ℝ) + 1) = (N + 2 : ℕ) by push_cast; ring, f2, sub_self, sub_zero,
      show (((N + 2 : ℕ) : ℝ) - (N + 1 : ℕ)) = 1 by push_cast; ring,
      ← intervalIntegral.integral_add_adjacent_intervals (hI 0 1) (hI 1 (N + 2 : ℕ)), add_sub_cancel_left]

/-- C90: with the built-in filters, once the start of the sound has died away, the first sample after the change
differs from the last one before it by the difference of the two waveforms times the step response after one
sample, -/
theorem C90_jump (ft : FilterType) (S : Sys ℝ ℂ) (hflt : S.flt = filterX ft) (hS : ExactSys S) (hl : Log2Spec S.env.log2f)
    (hk : KeepsConstants S.env) (L : ℕ) (a b : ℝ) (m : ℕ) (st sw : ℕ → Osc ℝ ℂ) (w : ℕ → ℤ) (dir : ℕ → Sys.Direction)
    (p y : ℕ → ℝ) (t : ℕ → MipMapIndices ℝ)
    (h : SwitchedRun S (List.replicate (2 ^ L) a ++ List.replicate (2 ^ L) b) 2 L m st sw w dir p y t)
    (N : ℕ) (hN : N + 1 < m) (hw : ∀ n < N + 2, w n = if n ≤ N then 0 else 1) (h64 : 64 ≤ N + 1) :
    |y (N + 1) - y N - (b - a) * stepResponse (filterX ft) 1| ≤ 1e-6 * |a| := by
  obtain ⟨e1, e2⟩ := C90_switch S hS hl hk L a b m st sw w dir p y t h N hN hw
  rw [e1, e2, hflt]
  have hc := impulse_continuous (filterX ft)
  have hd : stepResponse (filterX ft) (N + 2 : ℕ) - stepResponse (filterX ft) (N + 1 : ℕ) =
      ∫ s in ((N + 1 : ℕ) : ℝ)..(N + 1 : ℕ) + 1, impulse (filterX ft) s := by
    unfold stepResponse
    rw [intervalIntegral.integral_interval_sub_left (hc.intervalIntegrable _ _) (hc.intervalIntegrable _ _)]
    push_cast
    rw [add_assoc]; norm_num
  have hle : |stepResponse (filterX ft) (N + 2 : ℕ) - stepResponse (filterX ft) (N + 1 : ℕ)| ≤ 1e-6 := by
    rw [hd]
    exact (intervalIntegral.abs_integral_le_integral_abs (by linarith)).trans (C90_start ft (N + 1) h64)
  have e : a * (stepResponse (filterX ft) (N + 2 : ℕ) - stepResponse (filterX ft) 1) + b * stepResponse (filterX ft) 1 -
      a * stepResponse (filterX ft) (N + 1 : ℕ) - (b - a) * stepResponse (filterX ft) 1 =
      a * (stepResponse (filterX ft) (N + 2 : ℕ) - stepResponse (filterX ft) (N + 1 : ℕ)) := by ring
  rw [e, abs_mul, mul_comm]
  exact mul_le_mul_of_nonneg_right hle (abs_nonneg a)

/-- which is at least an eighth, for the shallowest filter nine tenths of that difference. -/
theorem C90_jump_size (ft : FilterType) : stepResponse (filterX ft) 1 ≥ (match ft with
      | .kType1 => 0.933 | .kType2 => 0.1476 | .kType3 => 0.5027 | .kType4 => 0.1261 | .kType5 => 0.129 : ℝ) := by
  have key : ∀ (q : ℚ) (x : ℝ), (stepTable ft).getD 0 0 = q → x ≤ (q : ℝ) - 1e-5 → x ≤ stepResponse (filterX ft) 1 := by
    intro q x hq hx
    have := (abs_le.1 (C88_table ft 0 (by norm_num))).1
    rw [hq] at this
    rw [show ((0 + 1 : ℕ) : ℝ) = 1 by norm_num] at this
    linarith
  cases ft
  · exact key 0.93309 _ rfl (by norm_num)
  · exact key 0.14763 _ rfl (by norm_num)
  · exact key 0.50273 _ rfl (by norm_num)
  · exact key 0.12614 _ rfl (by norm_num)
  · exact key 0.12905 _ rfl (by norm_num)

/-! ### the hypotheses are met -/

theorem zigzag_oct (n : ℕ) : TwoOctaves 3 0 (if n % 2 = 0 then 1 / 8 else 1 / 4 : ℝ) := by
  split_ifs
  · exact Or.inl ⟨by norm_num, by norm_num, Or.inl rfl, Or.inr (by norm_num)⟩
  · exact Or.inr ⟨by norm_num, by norm_num, Or.inr (by norm_num), Or.inl (by norm_num)⟩

theorem zigzag_true (n : ℕ) : |trueStepOf ieee32 (fun _ => .kForward) ((zigzag 0 : ℝ) / 8)
    (fun n => (zigzag (n + 1) : ℝ) / 8) n| ≤ 1 / 4 := by
  have e : trueStepOf ieee32 (fun _ => .kForward) ((zigzag 0 : ℝ) / 8) (fun n => (zigzag (n + 1) : ℝ) / 8) n =
      trueStep ieee32 .kForward ((zigzag (n + 1) : ℝ) / 8) ((zigzag n : ℝ) / 8) := by
    unfold trueStepOf
    cases n with
    | zero => rfl
    | succ n => rfl
  have h1 : Sys.dirDiff ieee32 .kForward ((zigzag (n + 1) : ℝ) / 8) ((zigzag n : ℝ) / 8) =
      (if n % 2 = 0 then 1 / 8 else 1 / 4) := zigzag_float n
  have h2 := (zigzag_step n).2
  obtain ⟨k, hk⟩ : ∃ k : ℤ, (if n % 2 = 0 then 1 / 8 else 1 / 4 : ℝ) =
      (zigzag (n + 1) : ℝ) / 8 - (zigzag n : ℝ) / 8 + k := by
    rw [← h2]
    unfold Sys.dirDiff Sys.fwdDiff
    simp only [id]
    split_ifs
    · exact ⟨1, by push_cast; ring⟩
    · exact ⟨0, by push_cast; ring⟩
  rw [e]
  unfold trueStep
  rw [h1]
  have hr : round ((if n % 2 = 0 then 1 / 8 else 1 / 4 : ℝ) - ((zigzag (n + 1) : ℝ) / 8 - (zigzag n : ℝ) / 8)) = k := by
    rw [hk, add_sub_cancel_left, round_intCast]
  rw [hr, ← hk]
  split_ifs <;> norm_num [abs_of_pos]

/-- C90 applies, for every built-in filter and a waveform of eight samples in `[-1, 1]`, in IEEE floats, to an
endless run in which every step is in the other octave than the one before. -/
example (ft : FilterType) (ws : List ℝ) (hws : ws.length = 1 * 2 ^ 3) (hv : ∀ x ∈ ws, |x| ≤ 1) :
    ∃ (wt : WavetableData ℝ) (st : ℕ → Osc ℝ CFloat) (r : ℤ) (sw : ℕ → Osc ℝ CFloat) (y : ℕ → ℝ),
      Built envI ws 1 3 44100 (1 / 256) wt ∧
      (sysF ft).init (sysF ft).fresh (some wt) 0 (1 / 8) = .ok (st 0, r) ∧
      (∀ n, (sysF ft).setWaveform (st n) 0 = .ok (sw n)) ∧
      (∀ n, (sysF ft).process .kForward (sw n) [(zigzag (n + 1) : ℝ) / 8] [0] = .ok (st (n + 1), [y n])) ∧
      ∀ n, |y (n + 1) - y n| ≤ headroom ft * (1.001 * (16 * (1 / 4)) + 4 * (1 / (⌊ieee32 (1 / 256 * 44100 : ℝ)⌋ : ℝ) + 1 / 2 ^ 23) * 1) +
        1.001 * 1 * startRest (filterX ft) (n + 1) + 1 / 2 ^ 11 * (1.001 * 1) +
        2 * (1 / 2 ^ 21 * (1 + 16) * roundoffGain (valFilter CFloat.val (sysF ft).flt) 6.4) := by
  have hz : ∀ n, zigzag n < 8 := fun n => by unfold zigzag; omega
  have hph : ∀ n, PhaseOk envI.fl ((zigzag n : ℝ) / 8) := by
    intro n
    have := phaseOk_dyadic envI_ok.1 (k := zigzag n) (n := 3) (hz n) (by norm_num)
    norm_num at this ⊢
    exact this
  have hz0 : ((zigzag 0 : ℕ) : ℝ) / 8 = 0 := by simp [zigzag]
  have e2 : envI.fl (1 / 256 * 44100) = 1 / 256 * 44100 := by
    have e : (1 / 256 * 44100 : ℝ) = ((44100 : ℤ) : ℝ) / 2 ^ 8 := by norm_num
    rw [e, envI_ok.1.dyadic 44100 8 (by norm_num)]
  obtain ⟨wt, hb⟩ : ∃ wt, Built envI ws 1 3 44100 (1 / 256) wt := by
    have hr : IsRate envI.fl (44100 : ℝ) := by
      have := envI_ok.1.isRate 44100 (by norm_num); simpa using this
    obtain ⟨wt, h⟩ := C02_succeeds envI envI_ok.1 envI_ok.2.1 envI_ok.2.2 3 (by norm_num) (by norm_num) 1
      (by norm_num) ws hws 44100 (1 / 256) (by norm_num) hr (by rw [e2]; norm_num)
    exact ⟨wt, hr, by rw [e2]; norm_num, by simpa using hws, h⟩
  obtain ⟨o, r, ho⟩ : ∃ o r, (sysF ft).init (sysF ft).fresh (some wt) 0 (1 / 8) = .ok (o, r) := by
    have hw := hb.ok envI_ok.1 envI_ok.2.1
    obtain ⟨t, e, -⟩ := newIndices_eq (E := envI) envI_ok.1 hw.inv (abs_pos.2 (show (1 / 8 : ℝ) ≠ 0 by norm_num))
    have e1 := Sys.reset_ok (S := sysF ft) (o := { (sysF ft).fresh with wt := some wt }) envI_ok.1 rfl hw
      (by have := hph 0; rw [hz0] at this; exact this) (by norm_num) e
    unfold Sys.init
    dsimp only
    rw [e1, R.ok_bind]
    exact ⟨_, _, rfl⟩
  have hd : ∀ n, Sys.dirDiff ieee32 .kForward ((zigzag (n + 1) : ℝ) / 8) ((zigzag n : ℝ) / 8) =
      (if n % 2 = 0 then 1 / 8 else 1 / 4) := zigzag_float
  have hx : ∀ n, 0 ≤ (zigzag n : ℝ) / 8 ∧ (zigzag n : ℝ) / 8 < 1 ∧ ieee32 ((zigzag n : ℝ) / 8) = (zigzag n : ℝ) / 8 ∧
      ((zigzag n : ℝ) / 8 = 0 ∨ 1 / 2 ^ 126 ≤ (zigzag n : ℝ) / 8) := fun n => ⟨(hph n).1, (hph n).2.1, (hph n).2.2.1, by
      rcases Nat.eq_zero_or_pos (zigzag n) with h | h
      · left; rw [h]; norm_num
      · right
        have : (1 : ℝ) ≤ zigzag n := by exact_mod_cast h
        have h8 : (1 : ℝ) / 8 ≤ (zigzag n : ℝ) / 8 := by gcongr
        refine le_trans ?_ h8
        norm_num⟩
  have hpos : ∀ n, 1 / 2 ^ 100 ≤ Sys.dirDiff ieee32 .kForward ((zigzag (n + 1) : ℝ) / 8) ((zigzag n : ℝ) / 8) :=
    fun n => by rw [hd]; split_ifs <;> norm_num
  have hdd : ∀ n, 0 < stepsAlong ieee32 (1 / 8) (fun _ => .kForward) (fun n => (zigzag n : ℝ) / 8) n ∧
      TwoOctaves 3 0 |stepsAlong ieee32 (1 / 8) (fun _ => .kForward) (fun n => (zigzag n : ℝ) / 8) n| := by
    intro n
    cases n with
    | zero =>
      unfold stepsAlong
      exact ⟨by norm_num, by rw [abs_of_pos (by norm_num)]; exact zigzag_oct 0⟩
    | succ n =>
      unfold stepsAlong
      dsimp only
      rw [hd n]
      refine ⟨by split_ifs <;> norm_num, ?_⟩
      rw [abs_of_pos (by split_ifs <;> norm_num)]
      exact zigzag_oct n
  have hS : FloatSys (sysF ft) CFloat.val (1 / 2 ^ 21) :=
    floatSysRnd (rnd := ieee32) (E := envI) rounding_ieee32 rfl ieeeHostI.dbl ft
  have ho' : (sysF ft).init (sysF ft).fresh (some wt) ((fun n : ℕ => (zigzag n : ℝ) / 8) 0) (1 / 8) = .ok (o, r) := by
    dsimp only
    rw [hz0]; exact ho
  obtain ⟨st, sw, y, t, a1, a2, a3, a4, a5, a6⟩ := scratch_run (S := sysF ft) (w := fun _ => 0) (dir := fun _ => .kForward)
    (x := fun n => (zigzag n : ℝ) / 8) (d := stepsAlong ieee32 (1 / 8) (fun _ => .kForward) (fun n => (zigzag n : ℝ) / 8))
    hS.fl hS.B ieeeHostI.log2 hb hph (by norm_num) ho' (fun _ => by norm_num)
    (fun n => (zigzag_step n).1) rfl (fun n => rfl)
    (pair_falls fun n => (hdd n).2)
    ⟨fun n hn => absurd (hdd n).1 (by linarith), fun n hn => absurd (hdd n).1 (by linarith)⟩
    (fun n => normal_offDenormal (hx n).2.2.1 (hx n).1 (hx n).2.2.2 (ieeeHostI.L100 hb))
  have hoct0 : IsOctave 3 0 (1 / 8 : ℝ) := ⟨by norm_num, by norm_num, Or.inl rfl, Or.inr (by norm_num)⟩
  refine ⟨wt, st, r, sw, y, hb, by rw [a1]; exact ho, a3, a4, fun n => ?_⟩
  exact C90_builtin envI ieeeHostI ft ws 1 3 1 16 (tablesWithinI zero_le_one hv 1 3)
    (by have := slopesWithinI zero_le_one hv 1 3; norm_num at this; exact this)
    (by norm_num) (by norm_num) _ _ _ hb (by
      have : ieee32 (1 / 256 * 44100 : ℝ) = 1 / 256 * 44100 := e2
      rw [this]; norm_num) _ (1 / 8) (1 / 4) r (fun n => (zigzag n : ℝ) / 8) hx (by norm_num) 0 (by norm_num)
    (fun _ => .kForward) (fun n => (zigzag_step n).1) 0 hoct0 (Or.inl rfl) hpos
    (fun n => by rw [hd]; exact zigzag_oct n)
    (fun n => zigzag_true n) st sw y (by rw [a1]; exact ho') a3 a4 n

/-- Two constant waveforms, every built-in filter, steps that change the octave every time, and a change of
the waveform after sample `N`: the two outputs next to it. -/
theorem clickExample (ft : FilterType) (a b : ℝ) (N : ℕ) :
    ∃ (wt : WavetableData ℝ) (st : ℕ → Osc ℝ ℂ) (r : ℤ) (sw : ℕ → Osc ℝ ℂ) (y : ℕ → ℝ),
      Built envX (List.replicate (2 ^ 3) a ++ List.replicate (2 ^ 3) b) 2 3 44100 (220 / 44100) wt ∧
      (sysOf envX ft).init (sysOf envX ft).fresh (some wt) 0 (1 / 8) = .ok (st 0, r) ∧
      (∀ n, (sysOf envX ft).setWaveform (st n) (if n ≤ N then 0 else 1) = .ok (sw n)) ∧
      (∀ n, (sysOf envX ft).process .kForward (sw n) [(zigzag (n + 1) : ℝ) / 8] [0] = .ok (st (n + 1), [y n])) ∧
      y N = a * stepResponse (filterX ft) (N + 1 : ℕ) ∧
      y (N + 1) = a * (stepResponse (filterX ft) (N + 2 : ℕ) - stepResponse (filterX ft) 1) +
        b * stepResponse (filterX ft) 1 ∧
      (64 ≤ N + 1 → |y (N + 1) - y N - (b - a) * stepResponse (filterX ft) 1| ≤ 1e-6 * |a|) := by
  have hz : ∀ n, zigzag n < 8 := fun n => by unfold zigzag; omega
  have hph : ∀ n, PhaseOk envX.fl ((zigzag n : ℝ) / 8) := by
    intro n
    have h8 : (zigzag n : ℝ) < 8 := by exact_mod_cast hz n
    exact ⟨by positivity, by linarith, isPhase_id _⟩
  have hz0 : ((zigzag 0 : ℕ) : ℝ) / 8 = 0 := by simp [zigzag]
  have hws : (List.replicate (2 ^ 3) a ++ List.replicate (2 ^ 3) b).length = 2 * 2 ^ 3 := by simp
  obtain ⟨wt, hb⟩ : ∃ wt, Built envX (List.replicate (2 ^ 3) a ++ List.replicate (2 ^ 3) b) 2 3 44100 (220 / 44100) wt := by
    have hr : IsRate envX.fl (44100 : ℝ) := isRate_id _
    have e2 : envX.fl (220 / 44100 * 44100) = 220 := by
      show (220 / 44100 * 44100 : ℝ) = 220
      norm_num
    obtain ⟨wt, h⟩ := C02_succeeds envX envX_ok.1 envX_ok.2.1 envX_ok.2.2 3 (by norm_num) (by norm_num) 2
      (by norm_num) _ hws 44100 (220 / 44100) (by norm_num) hr (by rw [e2]; norm_num)
    exact ⟨wt, hr, by rw [e2]; norm_num, by simpa using hws, h⟩
  obtain ⟨o, r, ho⟩ : ∃ o r, (sysOf envX ft).init (sysOf envX ft).fresh (some wt) ((fun n : ℕ => (zigzag n : ℝ) / 8) 0) (1 / 8) =
      .ok (o, r) := by
    have hw := hb.ok envX_ok.1 envX_ok.2.1
    obtain ⟨t, e, -⟩ := newIndices_eq (E := envX) envX_ok.1 hw.inv (abs_pos.2 (show (1 / 8 : ℝ) ≠ 0 by norm_num))
    have e1 := Sys.reset_ok (S := sysOf envX ft) (o := { (sysOf envX ft).fresh with wt := some wt }) envX_ok.1 rfl hw
      (hph 0) (by norm_num) e
    unfold Sys.init
    dsimp only
    rw [e1, R.ok_bind]
    exact ⟨_, _, rfl⟩
  have hdd : ∀ n, 0 < stepsAlong id (1 / 8) (fun _ => .kForward) (fun n => (zigzag n : ℝ) / 8) n ∧
      TwoOctaves 3 0 |stepsAlong id (1 / 8) (fun _ => .kForward) (fun n => (zigzag n : ℝ) / 8) n| := by
    intro n
    cases n with
    | zero =>
      unfold stepsAlong
      exact ⟨by norm_num, by rw [abs_of_pos (by norm_num)]; exact zigzag_oct 0⟩
    | succ n =>
      unfold stepsAlong
      dsimp only
      rw [(zigzag_step n).2]
      refine ⟨by split_ifs <;> norm_num, ?_⟩
      rw [abs_of_pos (by split_ifs <;> norm_num)]
      exact zigzag_oct n
  have hS := exactSys ft
  obtain ⟨st, sw, y, t, a1, a2, a3, a4, a5, a6⟩ := scratch_run (S := sysOf envX ft) (w := fun n => if n ≤ N then 0 else 1)
    (dir := fun _ => .kForward)
    (x := fun n => (zigzag n : ℝ) / 8) (d := stepsAlong id (1 / 8) (fun _ => .kForward) (fun n => (zigzag n : ℝ) / 8))
    (Sys.exact_rounding hS) hS.B log2X hb hph (by norm_num) ho (fun n => by split_ifs <;> norm_num)
    (fun n => (zigzag_step n).1) rfl (fun n => rfl)
    (pair_falls fun n => (hdd n).2)
    ⟨fun n hn => absurd (hdd n).1 (by linarith), fun n hn => absurd (hdd n).1 (by linarith)⟩
    (fun n => by
      have := offDenormal_dyadic (zigzag n) 3 3 (by norm_num) (by norm_num)
      norm_num at this ⊢
      exact this)
  obtain ⟨k1, k2⟩ := C90_switch (sysOf envX ft) hS log2X keepsX 3 a b (N + 2) st sw _ _ _ y t (a6 (N + 2)) N (by omega)
    (fun n _ => rfl)
  refine ⟨wt, st, r, sw, y, hb, by rw [a1, ← hz0]; exact ho, a3, a4, k1, k2, fun h64 => ?_⟩
  exact C90_jump ft (sysOf envX ft) rfl hS log2X keepsX 3 a b (N + 2) st sw _ _ _ y t (a6 (N + 2)) N (by omega)
    (fun n _ => rfl) h64

end Adwt.Props
