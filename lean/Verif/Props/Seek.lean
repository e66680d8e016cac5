import Verif.Proofs.Seek
import Verif.Props.Reset
import Verif.Props.Scratch
import Verif.Props.Reverse

/-!
# C103: `resetInternals`, then playing in both directions
-/

set_option linter.unusedSectionVars false

namespace Adwt.Props
open CrossFader WavetableData

/-- C103, exact arithmetic. An oscillator whose crossfade is over, on the octave of a step `a`. `resetInternals`
to any phase and any step `D ≠ 0`, forward or backward, then forward and backward steps in any order, any
waveform chosen before each sample. If no step is more than an octave below one of the crossfade before, and
backward steps stay clear of table changes, the one from the octave of `a` included, every call succeeds and
output `n` is the value at time `n + 1` of the continuous-time filter, started from rest, fed with the waveform
read at the phase as it goes to and fro. -/
theorem C103_exact (S : Sys ℝ ℂ) (hS : ExactSys S) (hl : Log2Spec S.env.log2f) (ws : List ℝ) (nw L : ℕ)
    (o0 : Osc ℝ ℂ) (ho : Plays S ws nw L o0) (num : ℤ) (hnum : FadeLength o0 num)
    (j : ℤ) (hset : Settled o0 j) (a : ℝ) (ha : IsOctave L j a) (D : ℝ) (hD : D ≠ 0)
    (x : ℕ → ℝ) (hx : ∀ n, 0 ≤ x n ∧ x n < 1) (hoff : ∀ n, OffDenormal (2 ^ L) (x n))
    (w : ℕ → ℤ) (hw : ∀ n, 0 ≤ w n ∧ w n < nw) (dir : ℕ → Sys.Direction)
    (hstep : ∀ n, StepOk (dir n) (x n) (x (n + 1)))
    (hslow : FallsSlowly L num (stepsAlong id D dir x))
    (hclear : ClearFrom L num a (stepsAlong id D dir x) x) :
    ∃ (st sw : ℕ → Osc ℝ ℂ) (y : ℕ → ℝ) (t : ℕ → MipMapIndices ℝ),
      S.resetInternals o0 (x 0) D = .ok (st 0) ∧
      (∀ n, S.setWaveform (st n) (w n) = .ok (sw n)) ∧
      (∀ n, S.process (dir n) (sw n) [x (n + 1)] [0] = .ok (st (n + 1), [y n])) ∧
      (∀ n, NextIndices S (sw n) (Sys.dirDiff id (dir n) (x (n + 1)) (x n)) (t n)) ∧
      ∀ n, y n = filtered S.flt (playedW S.env ws L w t
        (unwrapped (x 0) (stepOf dir (x 0) fun n => x (n + 1)))) (n + 1) := by
  have hid : S.env.fl = id := hS.fl
  obtain ⟨st, sw, y, t, a1, a2, a3, a4, a5, a6⟩ := seek_run (S := S) (w := w) (dir := dir) (x := x)
    (d := stepsAlong S.env.fl D dir x) (Sys.exact_rounding hS) hS.B hl ho hset hnum ha
    (fun n => ⟨(hx n).1, (hx n).2, by rw [hid]; exact isPhase_id _⟩) hD hw hstep rfl (fun n => rfl)
    (by rw [hid]; exact hslow) (by rw [hid]; exact hclear) hoff
  refine ⟨st, sw, y, t, a1, a3, a4, fun n => ?_, fun n => ?_⟩
  · have := (a6 (n + 1)).next n (Nat.lt_succ_self n)
    rw [a5, hid] at this
    exact this
  · have := C72_switch S hS hl ws nw L (n + 1) st sw w dir _ y t (a6 (n + 1)) n (Nat.lt_succ_self n)
    rw [a2] at this
    exact this

/-- C103 with every operation rounded, underflow and overflow included. -/
theorem C103_float {C : Type} [Zero C] [Add C] [Sub C] [Mul C] [Div C]
    (S : Sys ℝ C) (val : C → ℂ) (ε : ℝ) (hS : FloatSys S val ε)
    (hl : Log2Spec S.env.log2f) (ws : List ℝ) (nw L : ℕ) (A Λ : ℝ)
    (hA : TablesWithin S.env ws nw L A) (hΛ : SlopesWithin S.env ws nw L Λ)
    (M0 : 1 / 2 ^ 40 ≤ A + Λ) (M1 : A + Λ ≤ 2 ^ 24)
    (o0 : Osc ℝ C) (ho : Plays S ws nw L o0) (num : ℤ) (hnum : FadeLength o0 num)
    (j : ℤ) (hset : Settled o0 j) (a : ℝ) (ha : IsOctave L j a) (D : ℝ) (hD : D ≠ 0)
    (x : ℕ → ℝ) (hx : ∀ n, PhaseOk S.env.fl (x n)) (hoff : ∀ n, OffDenormal (2 ^ L) (x n))
    (w : ℕ → ℤ) (hw : ∀ n, 0 ≤ w n ∧ w n < nw) (dir : ℕ → Sys.Direction)
    (hstep : ∀ n, StepOk (dir n) (x n) (x (n + 1)))
    (hmin : ∀ n, 1 / 2 ^ 100 ≤ |Sys.dirDiff S.env.fl (dir n) (x (n + 1)) (x n)|)
    (hslow : FallsSlowly L num (stepsAlong S.env.fl D dir x))
    (hclear : ClearFrom L num a (stepsAlong S.env.fl D dir x) x) :
    ∃ (st sw : ℕ → Osc ℝ C) (y : ℕ → ℝ) (t : ℕ → MipMapIndices ℝ),
      S.resetInternals o0 (x 0) D = .ok (st 0) ∧
      (∀ n, S.setWaveform (st n) (w n) = .ok (sw n)) ∧
      (∀ n, S.process (dir n) (sw n) [x (n + 1)] [0] = .ok (st (n + 1), [y n])) ∧
      (∀ n, NextIndices S (sw n) (Sys.dirDiff S.env.fl (dir n) (x (n + 1)) (x n)) (t n)) ∧
      ∀ n, |y n - filtered (valFilter val S.flt) (playedW S.env ws L w t
          (unwrapped (x 0) (trueStepOf S.env.fl dir (x 0) fun n => x (n + 1)))) (n + 1)| ≤
        ε * (A + Λ) * roundoffGain (valFilter val S.flt) 6.4 := by
  obtain ⟨st, sw, y, t, a1, a2, a3, a4, a5, a6⟩ := seek_run (S := S) (w := w) (dir := dir) (x := x)
    (d := stepsAlong S.env.fl D dir x) hS.fl hS.B hl ho hset hnum ha hx hD hw hstep rfl (fun n => rfl)
    hslow hclear hoff
  have a5' : ∀ n, (st (n + 1)).prevPhaseDiff = Sys.dirDiff S.env.fl (dir n) (x (n + 1)) (x n) := a5
  refine ⟨st, sw, y, t, a1, a3, a4, fun n => ?_, fun n => ?_⟩
  · have := (a6 (n + 1)).next n (Nat.lt_succ_self n)
    rw [a5'] at this
    exact this
  · have := C72_float _ _ _ hS hl ws nw L A Λ hA hΛ M0 M1 (n + 1) st sw w dir _ y t
      (a6 (n + 1)) (fun i _ => (hx _).2.2)
      (fun i _ => by rw [a5']; exact hmin i) n (Nat.lt_succ_self n)
    rw [a2] at this
    exact this

/-- C103: a note, forward or backward, in an octave not above the one the oscillator is settled on.
`resetInternals` to any phase and to its step, then the steady tone: exact forever. -/
theorem C103_tone (S : Sys ℝ ℂ) (hS : ExactSys S) (hl : Log2Spec S.env.log2f) (ws : List ℝ) (nw L : ℕ)
    (o0 : Osc ℝ ℂ) (ho : Plays S ws nw L o0) (i j : ℤ) (hset : Settled o0 j) (a : ℝ) (ha : IsOctave L j a)
    (D : ℝ) (hD : D ≠ 0) (hD2 : |D| < 1 / 2) (hi : IsOctave L i |D|) (hij : i ≤ j)
    (x0 : ℝ) (hx0 : 0 ≤ x0 ∧ x0 < 1) (hoff : ∀ n : ℕ, OffDenormal (2 ^ L) (Int.fract (x0 + n * D)))
    (w : ℕ → ℤ) (hw : ∀ n, 0 ≤ w n ∧ w n < nw) :
    ∃ (st sw : ℕ → Osc ℝ ℂ) (y : ℕ → ℝ) (t : ℕ → MipMapIndices ℝ),
      S.resetInternals o0 x0 D = .ok (st 0) ∧
      (∀ n, S.setWaveform (st n) (w n) = .ok (sw n)) ∧
      (∀ n, S.process .kBidirectionnal (sw n) [Int.fract (x0 + (n + 1 : ℕ) * D)] [0] =
        .ok (st (n + 1), [y n])) ∧
      (∀ n, NextIndices S (sw n) D (t n)) ∧
      ∀ n, y n = filtered S.flt (playedW S.env ws L w t fun u => x0 + u * D) (n + 1) := by
  have hf := Sys.exact_rounding hS
  obtain ⟨wt, hwt, -⟩ := (Sys.reached_play hf hl hS.B ho.1).wt
  set x : ℕ → ℝ := fun n => Int.fract (x0 + n * D) with hxd
  have e0 : x 0 = x0 := by
    show Int.fract (x0 + (0 : ℕ) * D) = x0
    rw [Nat.cast_zero, zero_mul, add_zero, Int.fract_eq_self.2 hx0]
  have hx : ∀ n, 0 ≤ x n ∧ x n < 1 := fun n => ⟨Int.fract_nonneg _, Int.fract_lt_one _⟩
  have hd : ∀ n, StepOk .kBidirectionnal (x n) (x (n + 1)) ∧
      Sys.dirDiff id .kBidirectionnal (x (n + 1)) (x n) = D := by
    intro n
    refine steady_diff (dir := .kBidirectionnal) ⟨hD, hD2⟩ (hx n).1 (hx n).2 (hx _).1 (hx _).2
      (k := ⌊x0 + n * D⌋ - ⌊x0 + (n + 1 : ℕ) * D⌋) ?_
    show Int.fract _ = Int.fract _ + D + _
    unfold Int.fract
    push_cast; ring
  have hs : ∀ n, stepsAlong id D (fun _ => .kBidirectionnal) x n = D := by
    intro n
    cases n with
    | zero => rfl
    | succ n => exact (hd n).2
  have hask : ∀ k, ∀ b : ℤ, IsOctave L b (askedFrom a (stepsAlong id D (fun _ => .kBidirectionnal) x) k) →
      i ≤ b ∧ (k ≠ 0 → b = i) := by
    intro k b hb
    cases k with
    | zero => have e : b = j := hb.unique ha; exact ⟨by omega, fun h => absurd rfl h⟩
    | succ k =>
      have hb : IsOctave L b |stepsAlong id D (fun _ => .kBidirectionnal) x k| := hb
      rw [hs] at hb
      have := hb.unique hi
      exact ⟨by omega, fun _ => this⟩
  obtain ⟨st, sw, y, t, a1, a2, a3, a4, a5⟩ := C103_exact S hS hl ws nw L o0 ho wt.cf.numSamples ⟨wt, hwt, rfl⟩
    j hset a ha D hD x hx hoff w hw (fun _ => .kBidirectionnal) (fun n => (hd n).1)
    (fun k n _ _ b c hb hc => by
      rw [hs] at hb hc
      have := hb.unique hc
      omega)
    ⟨fun n _ k l hkl _ _ b c hb hc => by
      have h1 := (hask k b hb).1
      have h2 := (hask l c hc).2 (by omega)
      omega,
     fun n _ _ k _ _ b c hb hc => by
      rw [hs] at hb hc
      exact (hc.unique hb).le⟩
  refine ⟨st, sw, y, t, by rw [← e0]; exact a1, a2, a3, fun n => by have := a4 n; rwa [(hd n).2] at this,
    fun n => ?_⟩
  rw [a5 n]
  have e1 : (stepOf (fun _ => .kBidirectionnal) (x 0) fun n => x (n + 1)) = fun _ => D := by
    funext i
    unfold stepOf
    cases i with
    | zero => exact (hd 0).2
    | succ i => exact (hd (i + 1)).2
  have e2 : unwrapped (x 0) (fun _ => D) = fun u => x0 + u * D := by
    funext u
    unfold unwrapped
    rw [e0, Finset.sum_const, Finset.card_range, nsmul_eq_mul]
    ring
  rw [e1, e2]

/-- C103: why the octave must not rise before a backward step. Eight samples, a fade of one sample, an
oscillator settled on the lowest octave. `resetInternals` to a backward step an octave higher, then one backward
sample: it is not that of the waveform. -/
theorem C103_false :
    ∃ (ws : List ℝ) (o0 o1 o2 : Osc ℝ ℂ) (y : ℝ) (t : MipMapIndices ℝ),
      (∀ s ∈ ws, |s| ≤ 1) ∧ Plays (sysOf envX .kType1) ws 1 3 o0 ∧ Settled o0 0 ∧ FadeLength o0 1 ∧
      (sysOf envX .kType1).resetInternals o0 (3 / 8) (-(5 / 16)) = .ok o1 ∧
      (sysOf envX .kType1).process .kBidirectionnal o1 [3 / 8 - 5 / 16] [0] = .ok (o2, [y]) ∧
      NextIndices (sysOf envX .kType1) o1 (-(5 / 16)) t ∧
      y > output (nextMemory (filterX .kType1) o1.prevY (mixture envX ws 3 o1.crt t) (3 / 8) (-(5 / 16))) := by
  have e5 : |(-(5 / 16) : ℝ)| = 5 / 16 := by norm_num [abs_of_pos]
  have oct1 : IsOctave 3 1 (5 / 16 : ℝ) := by
    refine ⟨by norm_num, by norm_num, ?_, Or.inl (by norm_num)⟩
    right; norm_num
  obtain ⟨o0, h0, -⟩ := at_init .kType1 [0, 0, 0, 0, -1, 0, 0, 0] 3 (by norm_num) (by norm_num) rfl 1
    le_rfl (by norm_num) (p := 0) (d := 1 / 16) (by norm_num) (by norm_num) (i := 0)
    (by refine ⟨le_rfl, by norm_num, Or.inl rfl, Or.inr ?_⟩; norm_num)
    (cf_idle (by norm_num) (by norm_num)
      (by refine ⟨le_rfl, by norm_num, Or.inl rfl, Or.inr ?_⟩; norm_num [abs_of_pos]))
  obtain ⟨o1, hr1, h1, -⟩ := h0.reset (p' := 3 / 8) (d' := -(5 / 16)) (by norm_num) (by norm_num)
    (cf_up (by norm_num) (by norm_num) (by norm_num) (k := 1) (by rw [e5]; exact oct1) (by norm_num))
  obtain ⟨⟨o2, y, hp2, -⟩, hni⟩ := h1.step (dir := .kBidirectionnal) (p' := 3 / 8 - 5 / 16) (d' := -(5 / 16))
    (by norm_num) (show (3 / 8 - 5 / 16 : ℝ) ≠ 3 / 8 by norm_num) (Or.inl (by norm_num))
    (by unfold Sys.dirDiff Sys.biDiff; norm_num)
    (cf_last (n := 1) (i := 0) (k := 1) (L := 3) (d := |(-(5 / 16) : ℝ)|) (by norm_num) (by norm_num)
      (by norm_num) (by norm_num) (by rw [e5]; exact oct1))
  have ed : (3 / 8 - 5 / 16 - 3 / 8 : ℝ) = -(5 / 16) := by norm_num
  have hV : waveAt envX [0, 0, 0, 0, -1, 0, 0, 0] 3 0 1 = interp [0, 0, -1, 0] := by
    unfold waveAt
    rw [show (1 : ℤ).toNat = 1 from rfl, show (0 : ℤ).toNat = 0 from rfl, mip_one _ 3 4 (by norm_num) rfl]
    norm_num [List.range, List.range.loop]
  have hm : o1.prevMip = 0 := by rw [h1.mip]; norm_num
  refine ⟨_, o0, o1, o2, y, _, ?_, h0.plays, ?_, ?_, hr1, hp2, hni, ?_⟩
  · intro s hs
    simp only [List.mem_cons, List.not_mem_nil, or_false] at hs
    rcases hs with rfl | rfl | rfl | rfl | rfl | rfl | rfl | rfl <;> norm_num
  · obtain ⟨wt, w1, w2⟩ := h0.cf
    exact ⟨wt, w1, by rw [w2], by rw [w2]⟩
  · obtain ⟨wt, w1, w2⟩ := h0.cf
    exact ⟨wt, w1, by rw [w2]; rfl⟩
  have key := C100_click [0, 0, 0, 0, -1, 0, 0, 0] 1 3 o1 h1.plays (by rw [h1.diff]; norm_num) (3 / 8 - 5 / 16) 0
    (by norm_num) (by rw [h1.phase]; norm_num) (by rw [h1.phase]; norm_num) o2 y hp2 _
    (by rw [h1.phase, ed]; exact hni) rfl
    (by rw [hm]; norm_num) 4 (by norm_num)
    (by rw [h1.phase]
        have := offDenormal_dyadic 3 3 2 (by norm_num) (by norm_num)
        norm_num at this ⊢
        exact this) 1 (by rw [h1.phase]; norm_num) (by rw [h1.phase, hm]; norm_num) (by norm_num)
    (by rw [h1.phase]; norm_num) _ rfl
  rw [h1.phase, h1.crt, ed] at key
  have := key.1 (by
    dsimp only
    rw [hV]
    norm_num [interp, cyc, tn2, tn3])
  rw [h1.crt]
  have em : mixture envX [0, 0, 0, 0, -1, 0, 0, 0] 3 0 ⟨1, 1, 1, 0⟩ = waveAt envX [0, 0, 0, 0, -1, 0, 0, 0] 3 0 1 := by
    funext s
    unfold mixture
    ring
  rw [em]
  exact this

/-- C103 applies: an oscillator that has played a low note forward jumps to another phase and plays it backward. -/
example (ft : FilterType) (ws : List ℝ) (hws : ws.length = 2 ^ 3) :
    ∃ (o0 : Osc ℝ ℂ) (st sw : ℕ → Osc ℝ ℂ) (y : ℕ → ℝ) (t : ℕ → MipMapIndices ℝ),
      Plays (sysOf envX ft) ws 1 3 o0 ∧ o0.prevPhaseDiff = 1 / 16 ∧
      (sysOf envX ft).resetInternals o0 (3 / 8) (-(1 / 16)) = .ok (st 0) ∧
      (∀ n, (sysOf envX ft).process .kBidirectionnal (sw n)
        [Int.fract (3 / 8 + (n + 1 : ℕ) * (-(1 / 16)))] [0] = .ok (st (n + 1), [y n])) ∧
      ∀ n, y n = filtered (sysOf envX ft).flt
        (playedW envX ws 3 (fun _ => 0) t fun u => 3 / 8 + u * (-(1 / 16))) (n + 1) := by
  have oct0 : IsOctave 3 0 (1 / 16 : ℝ) := by
    refine ⟨le_rfl, by norm_num, Or.inl rfl, Or.inr ?_⟩; norm_num
  obtain ⟨o0, h0, -⟩ := at_init ft ws 3 (by norm_num) (by norm_num) hws 1
    le_rfl (by norm_num) (p := 0) (d := 1 / 16) (by norm_num) (by norm_num) (i := 0)
    (by refine ⟨le_rfl, by norm_num, Or.inl rfl, Or.inr ?_⟩; norm_num)
    (cf_idle (by norm_num) (by norm_num)
      (by refine ⟨le_rfl, by norm_num, Or.inl rfl, Or.inr ?_⟩; norm_num [abs_of_pos]))
  obtain ⟨st, sw, y, t, b1, -, b2, -, b3⟩ := C103_tone (sysOf envX ft) (exactSys ft) log2X ws 1 3 o0 h0.plays 0 0
    (by obtain ⟨wt, w1, w2⟩ := h0.cf
        exact ⟨wt, w1, by rw [w2], by rw [w2]⟩) (1 / 16) oct0 (-(1 / 16)) (by norm_num) (by norm_num [abs_of_pos])
    (by rw [abs_neg, abs_of_pos (by norm_num)]; exact oct0) le_rfl (3 / 8) (by norm_num) (fun n => by
      have e : Int.fract ((3 / 8 : ℝ) + n * (-(1 / 16))) =
          ((6 - n - 16 * ⌊(3 / 8 : ℝ) + n * (-(1 / 16))⌋ : ℤ) : ℝ) / 2 ^ 4 := by
        unfold Int.fract
        push_cast
        ring
      rw [e]
      exact offDenormal_dyadic _ 4 3 (by norm_num) (by norm_num)) (fun _ => 0) (by norm_num)
  exact ⟨o0, st, sw, y, t, h0.plays, h0.diff, b1, b2, b3⟩

end Adwt.Props
