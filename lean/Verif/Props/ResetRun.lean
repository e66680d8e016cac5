import Verif.Proofs.SlowReset
import Verif.Props.ResetFalse
import Verif.Props.Reset
import Verif.Props.JumpOk
import Verif.Props.FloatSlow

/-!
# C102: `resetInternals` before a jump
-/

set_option linter.unusedSectionVars false

namespace Adwt.Props
open CrossFader WavetableData Seg MeasureTheory

/-- C102, exact arithmetic. From every state that plays `ws`, whatever was played before: `resetInternals` to any
phase and any positive step `D`, then forward steps none of which is more than an octave below one of the
crossfade before. Every call succeeds and every output, forever, is that of the continuous-time filter, started
from rest, fed with the selected waveform along the unwrapped phase. If a fade was in progress at the reset, no step
of the first crossfade may be in an octave below that of `D` (`C102_false`). -/
theorem C102_exact (S : Sys ℝ ℂ) (hS : ExactSys S) (hl : Log2Spec S.env.log2f) (ws : List ℝ) (nw L : ℕ)
    (o0 : Osc ℝ ℂ) (ho : Plays S ws nw L o0) (num : ℤ) (hnum : FadeLength o0 num) (D : ℝ) (hD : 0 < D)
    (x : ℕ → ℝ) (hx : ∀ n, 0 ≤ x n ∧ x n < 1) (hoff : ∀ n, OffDenormal (2 ^ L) (x n))
    (dir : ℕ → Sys.Direction) (hstep : ∀ n, StepOk (dir n) (x n) (x (n + 1)))
    (hpos : ∀ n, 0 < Sys.dirDiff id (dir n) (x (n + 1)) (x n))
    (hslow : FallsSlowly L num (stepsAlong id D dir x))
    (hfade : (∃ i, Settled o0 i) ∨
      ∀ n : ℕ, (n : ℤ) ≤ num → NotHigher L (stepsAlong id D dir x n) D) :
    ∃ (st : ℕ → Osc ℝ ℂ) (y : ℕ → ℝ) (t : ℕ → MipMapIndices ℝ), S.resetInternals o0 (x 0) D = .ok (st 0) ∧
      (∀ n, S.process (dir n) (st n) [x (n + 1)] [0] = .ok (st (n + 1), [y n])) ∧
      (∀ n, NextIndices S (st n) (Sys.dirDiff id (dir n) (x (n + 1)) (x n)) (t n)) ∧
      ∀ n, y n = filtered S.flt (played S.env ws L o0.crt t
        (unwrapped (x 0) (stepOf dir (x 0) fun n => x (n + 1)))) (n + 1) := by
  have hid : S.env.fl = id := hS.fl
  obtain ⟨st, y, t, a1, a2, a3, a4, a5, a6⟩ := reset_run (S := S) (dir := dir) (x := x)
    (d := stepsAlong id D dir x) (Sys.exact_rounding hS) hS.B hl ho
    (fun n => ⟨(hx n).1, (hx n).2, by rw [hid]; exact isPhase_id _⟩) hnum hstep
    (fun n => by cases n with
      | zero => exact hD
      | succ n => exact hpos n)
    (fun n => by rw [hid]; rfl) hslow
    (hfade.imp (fun ⟨i, wt, h1, h2, _⟩ => ⟨wt, h1, h2⟩) fun h => h) hoff
  refine ⟨st, y, t, a1, a4, fun n => ?_, fun n => ?_⟩
  · have := (a6 (n + 1)).next n (Nat.lt_succ_self n)
    rw [a5] at this
    exact this
  · have := C37_convolution S hS hl ws nw L (n + 1) st dir _ y t (a6 (n + 1)) n (Nat.lt_succ_self n)
    rw [a2, a3] at this
    exact this

/-- C102 with every operation rounded, underflow and overflow included. -/
theorem C102_float {C : Type} [Zero C] [Add C] [Sub C] [Mul C] [Div C]
    (S : Sys ℝ C) (val : C → ℂ) (ε : ℝ) (hS : FloatSys S val ε)
    (hl : Log2Spec S.env.log2f) (ws : List ℝ) (nw L : ℕ) (A Λ : ℝ)
    (hA : TablesWithin S.env ws nw L A) (hΛ : SlopesWithin S.env ws nw L Λ)
    (M0 : 1 / 2 ^ 40 ≤ A + Λ) (M1 : A + Λ ≤ 2 ^ 24)
    (o0 : Osc ℝ C) (ho : Plays S ws nw L o0) (num : ℤ) (hnum : FadeLength o0 num) (D : ℝ) (hD : 0 < D)
    (x : ℕ → ℝ) (hx : ∀ n, PhaseOk S.env.fl (x n)) (hoff : ∀ n, OffDenormal (2 ^ L) (x n))
    (dir : ℕ → Sys.Direction) (hstep : ∀ n, StepOk (dir n) (x n) (x (n + 1)))
    (hpos : ∀ n, 1 / 2 ^ 100 ≤ Sys.dirDiff S.env.fl (dir n) (x (n + 1)) (x n))
    (hslow : FallsSlowly L num (stepsAlong S.env.fl D dir x))
    (hfade : (∃ i, Settled o0 i) ∨
      ∀ n : ℕ, (n : ℤ) ≤ num → NotHigher L (stepsAlong S.env.fl D dir x n) D) :
    ∃ (st : ℕ → Osc ℝ C) (y : ℕ → ℝ) (t : ℕ → MipMapIndices ℝ), S.resetInternals o0 (x 0) D = .ok (st 0) ∧
      (∀ n, S.process (dir n) (st n) [x (n + 1)] [0] = .ok (st (n + 1), [y n])) ∧
      (∀ n, NextIndices S (st n) (Sys.dirDiff S.env.fl (dir n) (x (n + 1)) (x n)) (t n)) ∧
      ∀ n, |y n - filtered (valFilter val S.flt) (played S.env ws L o0.crt t
          (unwrapped (x 0) (trueStepOf S.env.fl dir (x 0) fun n => x (n + 1)))) (n + 1)| ≤
        ε * (A + Λ) * roundoffGain (valFilter val S.flt) 6.4 := by
  obtain ⟨st, y, t, a1, a2, a3, a4, a5, a6⟩ := reset_run (S := S) (dir := dir) (x := x)
    (d := stepsAlong S.env.fl D dir x) hS.fl hS.B hl ho hx hnum hstep
    (fun n => by cases n with
      | zero => exact hD
      | succ n => exact lt_of_lt_of_le (by positivity) (hpos n))
    (fun n => rfl) hslow
    (hfade.imp (fun ⟨i, wt, h1, h2, _⟩ => ⟨wt, h1, h2⟩) fun h => h) hoff
  refine ⟨st, y, t, a1, a4, fun n => ?_, fun n => ?_⟩
  · have := (a6 (n + 1)).next n (Nat.lt_succ_self n)
    rw [a5] at this
    exact this
  · have := C60_run S val ε hS hl ws nw L A Λ hA hΛ M0 M1 (n + 1) st dir _ y t (a6 (n + 1))
      (fun i _ => (hx _).2.2) (fun i _ => by rw [a5]; exact (hpos i).trans (le_abs_self _)) n
      (Nat.lt_succ_self n)
    rw [a2, a3] at this
    exact this

/-- C102: what the README promises of a new frequency. From every state, `resetInternals` to any phase and step, then
a steady tone of this step. -/
theorem C102_new_note (S : Sys ℝ ℂ) (hS : ExactSys S) (hl : Log2Spec S.env.log2f) (ws : List ℝ) (nw L : ℕ)
    (o0 : Osc ℝ ℂ) (ho : Plays S ws nw L o0) (D : ℝ) (hD : 0 < D) (hD2 : D ≤ 1 / 2) (x0 : ℝ)
    (hx0 : 0 ≤ x0 ∧ x0 < 1) (hoff : ∀ n : ℕ, OffDenormal (2 ^ L) (Int.fract (x0 + n * D))) :
    ∃ (st : ℕ → Osc ℝ ℂ) (y : ℕ → ℝ) (t : ℕ → MipMapIndices ℝ), S.resetInternals o0 x0 D = .ok (st 0) ∧
      (∀ n, S.process .kForward (st n) [Int.fract (x0 + (n + 1 : ℕ) * D)] [0] = .ok (st (n + 1), [y n])) ∧
      (∀ n, NextIndices S (st n) D (t n)) ∧
      ∀ n, y n = filtered S.flt (played S.env ws L o0.crt t fun u => x0 + u * D) (n + 1) := by
  have hf := Sys.exact_rounding hS
  have hpl := Sys.reached_play hf hl hS.B ho.1
  obtain ⟨wt, hwt, -⟩ := hpl.wt
  set x : ℕ → ℝ := fun n => Int.fract (x0 + n * D) with hxd
  have e0 : x 0 = x0 := by
    show Int.fract (x0 + (0 : ℕ) * D) = x0
    rw [Nat.cast_zero, zero_mul, add_zero, Int.fract_eq_self.2 hx0]
  have hx : ∀ n, 0 ≤ x n ∧ x n < 1 := fun n => ⟨Int.fract_nonneg _, Int.fract_lt_one _⟩
  have hd : ∀ n, StepOk .kForward (x n) (x (n + 1)) ∧ Sys.dirDiff id .kForward (x (n + 1)) (x n) = D := by
    intro n
    refine steady_diff (dir := .kForward) ⟨hD, hD2⟩ (hx n).1 (hx n).2 (hx _).1 (hx _).2
      (k := ⌊x0 + n * D⌋ - ⌊x0 + (n + 1 : ℕ) * D⌋) ?_
    show Int.fract _ = Int.fract _ + D + _
    unfold Int.fract
    push_cast; ring
  have hs : ∀ n, stepsAlong id D (fun _ => .kForward) x n = D := by
    intro n
    cases n with
    | zero => rfl
    | succ n => exact (hd n).2
  obtain ⟨st, y, t, a1, a2, a3, a4⟩ := C102_exact S hS hl ws nw L o0 ho wt.cf.numSamples ⟨wt, hwt, rfl⟩ D hD x hx
    hoff (fun _ => .kForward) (fun n => (hd n).1) (fun n => by rw [(hd n).2]; exact hD)
    (fun k n _ _ i j hi hj => by
      rw [hs] at hi hj
      have := hi.unique hj
      omega)
    (Or.inr fun n _ i j hi hj => by
      rw [hs] at hi
      exact (hj.unique hi).le)
  refine ⟨st, y, t, by rw [← e0]; exact a1, a2, fun n => by have := a3 n; rwa [(hd n).2] at this, fun n => ?_⟩
  rw [a4 n]
  have e1 : (stepOf (fun _ => .kForward) (x 0) fun n => x (n + 1)) = fun _ => D := by
    funext i
    unfold stepOf
    cases i with
    | zero => exact (hd 0).2
    | succ i => exact (hd (i + 1)).2
  have e2 : unwrapped (x 0) (fun _ => D) = fun u => x0 + u * D := by
    funext u
    unfold unwrapped
    rw [e0, Finset.sum_const, Finset.card_range, nsmul_eq_mul]
    ring
  rw [e1, e2]

/-- C102 applies: `resetInternals` in the middle of a crossfade, then a steady tone two octaves below the one before. -/
example (ft : FilterType) (ws : List ℝ) (hws : ws.length = 2 ^ 4) :
    ∃ (o0 : Osc ℝ ℂ) (st : ℕ → Osc ℝ ℂ) (y : ℕ → ℝ) (t : ℕ → MipMapIndices ℝ),
      Plays (sysOf envX ft) ws 1 4 o0 ∧ (¬ ∃ i, Settled o0 i) ∧ o0.prevPhaseDiff = 3 / 8 ∧
      (sysOf envX ft).resetInternals o0 (7 / 32) (3 / 32) = .ok (st 0) ∧
      (∀ n, (sysOf envX ft).process .kForward (st n) [Int.fract (7 / 32 + (n + 1 : ℕ) * (3 / 32))] [0] =
        .ok (st (n + 1), [y n])) ∧
      ∀ n, y n = filtered (sysOf envX ft).flt (played envX ws 4 o0.crt t fun u => 7 / 32 + u * (3 / 32)) (n + 1) := by
  have e38 : |(3 / 8 : ℝ)| = 3 / 8 := abs_of_pos (by norm_num)
  have octHi : IsOctave 4 2 (3 / 8 : ℝ) := by
    refine ⟨by norm_num, by norm_num, ?_, Or.inl (by norm_num)⟩
    right; rw [show (2 : ℤ).toNat = 2 from rfl]; norm_num
  have octMid : IsOctave 4 0 (1 / 10 : ℝ) := by
    refine ⟨le_rfl, by norm_num, Or.inl rfl, Or.inr ?_⟩
    norm_num
  obtain ⟨o0, -, a0, -⟩ := at_init' ft ws 4 (by norm_num) (by norm_num) hws 2 (by norm_num) (by norm_num)
    (p := 0) (d := 3 / 8) (by norm_num) (by norm_num) octMid
    (cf_up (by norm_num) (by norm_num) (by norm_num) (k := 2) (by rw [e38]; exact octHi) (by norm_num))
  obtain ⟨st, y, t, b1, b2, -, b3⟩ := C102_new_note (sysOf envX ft) (exactSys ft) log2X ws 1 4 o0 a0.plays (3 / 32)
    (by norm_num) (by norm_num) (7 / 32) (by norm_num) (fun n => by
      have e : Int.fract ((7 / 32 : ℝ) + n * (3 / 32)) =
          ((7 + 3 * n - 32 * ⌊(7 / 32 : ℝ) + n * (3 / 32)⌋ : ℤ) : ℝ) / 2 ^ 5 := by
        unfold Int.fract
        push_cast
        ring
      rw [e]
      exact offDenormal_dyadic _ 5 4 (by norm_num) (by norm_num))
  refine ⟨o0, st, y, t, a0.plays, ?_, a0.diff, b1, b2, b3⟩
  rintro ⟨i, wt, h1, h2, -⟩
  obtain ⟨wt', w1, w2⟩ := a0.cf
  rw [h1] at w1; cases w1
  rw [w2] at h2
  norm_num at h2

end Adwt.Props
