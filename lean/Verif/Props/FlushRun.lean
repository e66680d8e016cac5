import Verif.Spec.FtzHost
import Verif.Props.Flush
import Verif.Props.Sensitive

/-!
# C76: whole runs in flush-to-zero mode
-/

set_option linter.unusedSectionVars false

namespace Adwt.Props
open CrossFader WavetableData

theorem _root_.Adwt.FtzHost.L100 {E : Env ℝ} (h : FtzHost E) {ws : List ℝ} {nw L : ℕ} {sr dur : ℝ}
    {wt : WavetableData ℝ} (hb : Built E ws nw L sr dur wt) : L ≤ 100 := by
  have := (hb.ok (by rw [h.fl]; exact rounding_ftz32) h.log2).L18
  omega

theorem ftzHostI : FtzHost envFtz := ⟨rfl, log2Spec_ieee32, rne53_rel⟩

/-- a phase that is zero or at least `2^-100` is far from subnormal distances -/
theorem ftz_offDenormal {x : ℝ} (h : PhaseOk ftz32 x) {L : ℕ} (hL : L ≤ 100) : OffDenormal (2 ^ L) x := by
  obtain ⟨h0, -, h2, h3⟩ := (C76_phases x).1 h
  refine normal_offDenormal h2 h0 (h3.imp_right fun h => le_trans ?_ h) hL
  exact one_div_le_one_div_of_le (by positivity) (pow_le_pow_right₀ (by norm_num) (by norm_num))

/-- C76, whole runs: C84 (hence C71 and C72) on any machine in flush-to-zero mode, debug or release build,
any resampler, any built-in filter: phases that are zero or at least `2^-100`, going to and fro within
the limits of C84, any waveform chosen before each sample. Every call succeeds and every output, forever,
is that of the filter fed with the waveforms as they are chosen, up to the rounding error. -/
theorem C76_runs (E : Env ℝ) (hE : FtzHost E) (ft : FilterType) (ws : List ℝ) (nw L : ℕ) (A Λ : ℝ)
    (hA : TablesWithin E ws nw L A) (hΛ : SlopesWithin E ws nw L Λ)
    (M0 : 1 / 2 ^ 40 ≤ A + Λ) (M1 : A + Λ ≤ 2 ^ 24)
    (sr dur : ℝ) (wt : WavetableData ℝ) (hb : Built E ws nw L sr dur wt)
    (o0 o : Osc ℝ (CFl ftz32)) (D : ℝ) (r : ℤ) (x : ℕ → ℝ)
    (hx : ∀ n, 0 ≤ x n ∧ x n < 1 ∧ ieee32 (x n) = x n ∧ (x n = 0 ∨ 1 / 2 ^ 100 ≤ x n)) (hD : D ≠ 0)
    (hi : (sysRnd ftz32 E ft).init o0 (some wt) (x 0) D = .ok (o, r))
    (w : ℕ → ℤ) (hw : ∀ n, 0 ≤ w n ∧ w n < nw) (dir : ℕ → Sys.Direction)
    (hstep : ∀ n, StepOk (dir n) (x n) (x (n + 1)))
    (hmin : ∀ n, 1 / 2 ^ 100 ≤ |Sys.dirDiff ftz32 (dir n) (x (n + 1)) (x n)|)
    (hslow : FallsSlowly L ⌊ftz32 (dur * sr)⌋ (stepsAlong ftz32 D dir x))
    (hclear : ClearOfChanges ftz32 L ⌊ftz32 (dur * sr)⌋ (stepsAlong ftz32 D dir x) x) :
    ∃ (st sw : ℕ → Osc ℝ (CFl ftz32)) (y : ℕ → ℝ) (t : ℕ → MipMapIndices ℝ), st 0 = o ∧
      (∀ n, (sysRnd ftz32 E ft).setWaveform (st n) (w n) = .ok (sw n)) ∧
      (∀ n, (sysRnd ftz32 E ft).process (dir n) (sw n) [x (n + 1)] [0] = .ok (st (n + 1), [y n])) ∧
      (∀ n, NextIndices (sysRnd ftz32 E ft) (sw n) (Sys.dirDiff ftz32 (dir n) (x (n + 1)) (x n)) (t n)) ∧
      ∀ n, |y n - filtered (valFilter CFloat.val (sysRnd ftz32 E ft).flt) (playedW E ws L w t
          (unwrapped (x 0) (trueStepOf ftz32 dir (x 0) fun n => x (n + 1)))) (n + 1)| ≤
        1 / 2 ^ 21 * (A + Λ) * roundoffGain (valFilter CFloat.val (sysRnd ftz32 E ft).flt) 6.4 :=
  C84_rounded E rounding_ftz32 hE.fl hE.dbl hE.log2 ft ws nw L A Λ hA hΛ M0 M1 sr dur wt hb o0 o D r x
    (fun n => (C76_phases _).2 (hx n)) (fun n => ftz_offDenormal ((C76_phases _).2 (hx n)) (hE.L100 hb))
    hD hi w hw dir hstep hmin hslow hclear

/-! ### the hypotheses are met -/

/-- C76 for whole runs applies, for every built-in filter and two waveforms of 32 samples, to an endless
run to and fro. -/
example (ft : FilterType) (ws : List ℝ) (hws : ws.length = 2 * 2 ^ 5) (A Λ : ℝ)
    (hA : TablesWithin envFtz ws 2 5 A) (hΛ : SlopesWithin envFtz ws 2 5 Λ)
    (M0 : 1 / 2 ^ 40 ≤ A + Λ) (M1 : A + Λ ≤ 2 ^ 24) :
    ∃ (wt : WavetableData ℝ) (o : Osc ℝ (CFl ftz32)) (r : ℤ) (st sw : ℕ → Osc ℝ (CFl ftz32)) (y : ℕ → ℝ)
        (t : ℕ → MipMapIndices ℝ),
      Built envFtz ws 2 5 44100 (1 / 256) wt ∧
      (sysFtz ft).init (sysFtz ft).fresh (some wt) (toAndFro 0) (1 / 32) = .ok (o, r) ∧ st 0 = o ∧
      (∀ n, (sysFtz ft).setWaveform (st n) (n % 2) = .ok (sw n)) ∧
      (∀ n, (sysFtz ft).process .kBidirectionnal (sw n) [toAndFro (n + 1)] [0] = .ok (st (n + 1), [y n])) ∧
      ∀ n, |y n - filtered (valFilter CFloat.val (sysFtz ft).flt) (playedW envFtz ws 5 (fun n => n % 2) t
        (unwrapped (toAndFro 0) (trueStepOf ftz32 (fun _ => .kBidirectionnal) (toAndFro 0)
          (fun n => toAndFro (n + 1))))) (n + 1)| ≤
        1 / 2 ^ 21 * (A + Λ) * roundoffGain (valFilter CFloat.val (sysFtz ft).flt) 6.4 := by
  have hph : ∀ n, PhaseOk envFtz.fl (toAndFro n) := fun n =>
    phaseOk_dyadic envFtz_ok.1 (n := 5) (by omega) (by norm_num)
  obtain ⟨wt, hb⟩ : ∃ wt, Built envFtz ws 2 5 44100 (1 / 256) wt := by
    have e : (1 / 256 * 44100 : ℝ) = ((44100 : ℤ) : ℝ) / 2 ^ 8 := by norm_num
    have e2 : envFtz.fl (1 / 256 * 44100) = 1 / 256 * 44100 := by
      rw [e, envFtz_ok.1.dyadic 44100 8 (by norm_num)]
    have hr : IsRate envFtz.fl (44100 : ℝ) := by
      have := envFtz_ok.1.isRate 44100 (by norm_num); simpa using this
    obtain ⟨wt, h⟩ := C02_succeeds envFtz envFtz_ok.1 envFtz_ok.2.1 envFtz_ok.2.2 5 (by norm_num) (by norm_num) 2
      (by norm_num) ws hws 44100 (1 / 256) (by norm_num) hr (by rw [e2]; norm_num)
    exact ⟨wt, hr, by rw [e2]; norm_num, by simpa using hws, h⟩
  obtain ⟨o, r, ho⟩ : ∃ o r, (sysFtz ft).init (sysFtz ft).fresh (some wt) (toAndFro 0) (1 / 32) = .ok (o, r) := by
    have hw := hb.ok envFtz_ok.1 envFtz_ok.2.1
    obtain ⟨t, e, -⟩ := newIndices_eq (E := envFtz) envFtz_ok.1 hw.inv (abs_pos.2 (show (1 / 32 : ℝ) ≠ 0 by norm_num))
    have e1 := Sys.reset_ok (S := sysFtz ft) (o := { (sysFtz ft).fresh with wt := some wt }) envFtz_ok.1 rfl hw
      (hph 0) (by norm_num) e
    unfold Sys.init
    dsimp only
    rw [e1, R.ok_bind]
    exact ⟨_, _, rfl⟩
  have habs : ∀ n, |Sys.dirDiff ftz32 .kBidirectionnal (toAndFro (n + 1)) (toAndFro n)| = 1 / 32 := by
    intro n
    rw [toAndFro_diff rounding_ftz32]
    split_ifs <;> norm_num [abs_of_pos, abs_of_neg]
  have hoct : IsOctave 5 0 (1 / 32 : ℝ) := ⟨by norm_num, by norm_num, Or.inl rfl, Or.inr (by norm_num)⟩
  have hall : ∀ n, IsOctave 5 0
      |stepsAlong ftz32 (1 / 32) (fun _ => .kBidirectionnal) toAndFro n| := by
    intro n
    cases n with
    | zero => show IsOctave 5 0 |(1 / 32 : ℝ)|; rw [abs_of_pos (by norm_num)]; exact hoct
    | succ n =>
      show IsOctave 5 0 |Sys.dirDiff ftz32 .kBidirectionnal (toAndFro (n + 1)) (toAndFro n)|
      rw [habs]; exact hoct
  have hc := fun num => scratch_octave (num := num) (x := toAndFro) rounding_ftz32 (by norm_num) (by norm_num)
    (Or.inl rfl) hall
  obtain ⟨st, sw, y, t, a1, a2, a3, -, a5⟩ := C76_runs envFtz ftzHostI ft ws 2 5 A Λ
    hA hΛ M0 M1 _ _ _ hb _ o (1 / 32) r toAndFro
    (fun n => (C76_phases _).1 (hph n))
    (by norm_num) ho (fun n => n % 2) (fun n => by omega)
    (fun _ => .kBidirectionnal)
    (fun n => by
      show toAndFro (n + 1) ≠ toAndFro n
      intro h
      have := habs n
      rw [h] at this
      unfold Sys.dirDiff Sys.biDiff at this
      dsimp only at this
      rw [sub_self, rounding_ftz32.zero] at this
      norm_num at this)
    (fun n => by rw [habs]; norm_num) (hc _).1 (hc _).2
  exact ⟨wt, o, r, st, sw, y, t, hb, ho, a1, a2, a3, a5⟩

end Adwt.Props
