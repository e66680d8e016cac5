import Verif.Props.Seek
import Verif.Props.ResetRun

/-!
# C102 and C103 for the library's oscillators in IEEE binary32 arithmetic
-/

set_option linter.unusedSectionVars false

namespace Adwt.Props
open CrossFader WavetableData

/-- C102 for the library's oscillators on any machine with IEEE binary32 arithmetic, debug or release
build, any resampler, any built-in filter: float phases that are zero or not subnormal. -/
theorem C102_builtin (E : Env ℝ) (hE : IeeeHost E) (ft : FilterType) (ws : List ℝ) (nw L : ℕ) (A Λ : ℝ)
    (hA : TablesWithin E ws nw L A) (hΛ : SlopesWithin E ws nw L Λ)
    (M0 : 1 / 2 ^ 40 ≤ A + Λ) (M1 : A + Λ ≤ 2 ^ 24)
    (o0 : Osc ℝ CFloat) (ho : Plays (sysRnd ieee32 E ft) ws nw L o0) (num : ℤ) (hnum : FadeLength o0 num)
    (D : ℝ) (hD : 0 < D) (x : ℕ → ℝ)
    (hx : ∀ n, 0 ≤ x n ∧ x n < 1 ∧ ieee32 (x n) = x n ∧ (x n = 0 ∨ 1 / 2 ^ 126 ≤ x n))
    (dir : ℕ → Sys.Direction) (hstep : ∀ n, StepOk (dir n) (x n) (x (n + 1)))
    (hpos : ∀ n, 1 / 2 ^ 100 ≤ Sys.dirDiff ieee32 (dir n) (x (n + 1)) (x n))
    (hslow : FallsSlowly L num (stepsAlong ieee32 D dir x))
    (hfade : (∃ i, Settled o0 i) ∨
      ∀ n : ℕ, (n : ℤ) ≤ num → NotHigher L (stepsAlong ieee32 D dir x n) D) :
    ∃ (st : ℕ → Osc ℝ CFloat) (y : ℕ → ℝ) (t : ℕ → MipMapIndices ℝ),
      (sysRnd ieee32 E ft).resetInternals o0 (x 0) D = .ok (st 0) ∧
      (∀ n, (sysRnd ieee32 E ft).process (dir n) (st n) [x (n + 1)] [0] = .ok (st (n + 1), [y n])) ∧
      (∀ n, NextIndices (sysRnd ieee32 E ft) (st n) (Sys.dirDiff ieee32 (dir n) (x (n + 1)) (x n)) (t n)) ∧
      ∀ n, |y n - filtered (valFilter CFloat.val (sysRnd ieee32 E ft).flt) (played E ws L o0.crt t
          (unwrapped (x 0) (trueStepOf ieee32 dir (x 0) fun n => x (n + 1)))) (n + 1)| ≤
        1 / 2 ^ 21 * (A + Λ) * roundoffGain (valFilter CFloat.val (sysRnd ieee32 E ft).flt) 6.4 := by
  obtain ⟨-, sr, dur, wt0, -, hb, -⟩ := id ho
  have hS : FloatSys (sysRnd ieee32 E ft) CFloat.val (1 / 2 ^ 21) :=
    floatSysRnd (E := E) (by rw [hE.fl]; exact rounding_ieee32) hE.fl hE.dbl ft
  have he : (sysRnd ieee32 E ft).env.fl = ieee32 := hE.fl
  have h := C102_float (sysRnd ieee32 E ft) CFloat.val (1 / 2 ^ 21) hS hE.log2 ws nw L A Λ hA hΛ M0 M1 o0 ho
    num hnum D hD x
  rw [he] at h
  exact h (fun n => ⟨(hx n).1, (hx n).2.1, isPhase_ieee32 (hx n).2.2.1⟩)
    (fun n => normal_offDenormal (hx n).2.2.1 (hx n).1 (hx n).2.2.2 (hE.L100 hb)) dir hstep hpos hslow hfade

/-- C103 for the library's oscillators on any machine with IEEE binary32 arithmetic, debug or release
build, any resampler, any built-in filter: float phases that are zero or not subnormal. -/
theorem C103_builtin (E : Env ℝ) (hE : IeeeHost E) (ft : FilterType) (ws : List ℝ) (nw L : ℕ) (A Λ : ℝ)
    (hA : TablesWithin E ws nw L A) (hΛ : SlopesWithin E ws nw L Λ)
    (M0 : 1 / 2 ^ 40 ≤ A + Λ) (M1 : A + Λ ≤ 2 ^ 24)
    (o0 : Osc ℝ CFloat) (ho : Plays (sysRnd ieee32 E ft) ws nw L o0) (num : ℤ) (hnum : FadeLength o0 num)
    (j : ℤ) (hset : Settled o0 j) (a : ℝ) (ha : IsOctave L j a) (D : ℝ) (hD : D ≠ 0) (x : ℕ → ℝ)
    (hx : ∀ n, 0 ≤ x n ∧ x n < 1 ∧ ieee32 (x n) = x n ∧ (x n = 0 ∨ 1 / 2 ^ 126 ≤ x n))
    (w : ℕ → ℤ) (hw : ∀ n, 0 ≤ w n ∧ w n < nw) (dir : ℕ → Sys.Direction)
    (hstep : ∀ n, StepOk (dir n) (x n) (x (n + 1)))
    (hmin : ∀ n, 1 / 2 ^ 100 ≤ |Sys.dirDiff ieee32 (dir n) (x (n + 1)) (x n)|)
    (hslow : FallsSlowly L num (stepsAlong ieee32 D dir x))
    (hclear : ClearFrom L num a (stepsAlong ieee32 D dir x) x) :
    ∃ (st sw : ℕ → Osc ℝ CFloat) (y : ℕ → ℝ) (t : ℕ → MipMapIndices ℝ),
      (sysRnd ieee32 E ft).resetInternals o0 (x 0) D = .ok (st 0) ∧
      (∀ n, (sysRnd ieee32 E ft).setWaveform (st n) (w n) = .ok (sw n)) ∧
      (∀ n, (sysRnd ieee32 E ft).process (dir n) (sw n) [x (n + 1)] [0] = .ok (st (n + 1), [y n])) ∧
      (∀ n, NextIndices (sysRnd ieee32 E ft) (sw n) (Sys.dirDiff ieee32 (dir n) (x (n + 1)) (x n)) (t n)) ∧
      ∀ n, |y n - filtered (valFilter CFloat.val (sysRnd ieee32 E ft).flt) (playedW E ws L w t
          (unwrapped (x 0) (trueStepOf ieee32 dir (x 0) fun n => x (n + 1)))) (n + 1)| ≤
        1 / 2 ^ 21 * (A + Λ) * roundoffGain (valFilter CFloat.val (sysRnd ieee32 E ft).flt) 6.4 := by
  obtain ⟨-, sr, dur, wt0, -, hb, -⟩ := id ho
  have hS : FloatSys (sysRnd ieee32 E ft) CFloat.val (1 / 2 ^ 21) :=
    floatSysRnd (E := E) (by rw [hE.fl]; exact rounding_ieee32) hE.fl hE.dbl ft
  have he : (sysRnd ieee32 E ft).env.fl = ieee32 := hE.fl
  have h := C103_float (sysRnd ieee32 E ft) CFloat.val (1 / 2 ^ 21) hS hE.log2 ws nw L A Λ hA hΛ M0 M1 o0 ho
    num hnum j hset a ha D hD x
  rw [he] at h
  exact h (fun n => ⟨(hx n).1, (hx n).2.1, isPhase_ieee32 (hx n).2.2.1⟩)
    (fun n => normal_offDenormal (hx n).2.2.1 (hx n).1 (hx n).2.2.2 (hE.L100 hb)) w hw dir hstep hmin hslow
    hclear

end Adwt.Props
