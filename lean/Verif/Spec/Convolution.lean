import Verif.Spec.Playing

/-!
# A whole run as one integral
-/

namespace Adwt
variable {C : Type} [Zero C] [Add C] [Sub C] [Mul C] [Div C]

/-- `m` samples played one after the other: before sample `i` the oscillator is `st i`; it is called
in mode `dir i` with the phase `p i` and gives `y i`; the crossfader selects `t i`. Starts with zero
filter memory; the position is always carried over correctly (cf. C36, C48). -/
structure TrackedRun (S : Sys ℝ C) (ws : List ℝ) (nw L m : ℕ) (st : ℕ → Osc ℝ C)
    (dir : ℕ → Sys.Direction) (p y : ℕ → ℝ) (t : ℕ → MipMapIndices ℝ) : Prop where
  plays : Plays S ws nw L (st 0)
  zero : ∀ y ∈ (st 0).prevY, y = 0
  phase : ∀ i < m, 0 ≤ p i ∧ p i < 1
  step : ∀ i < m, StepOk (dir i) (st i).prevPhase (p i)
  call : ∀ i < m, S.process (dir i) (st i) [p i] [0] = .ok (st (i + 1), [y i])
  next : ∀ i < m, NextIndices S (st i) (st (i + 1)).prevPhaseDiff (t i)
  move : ∀ i < m, TableMove (st i) (t i).idx
  off : ∀ i < m, OffDenormal (2 ^ (L - (t i).idx.toNat)) (st i).prevPhase

/-- A run as in `TrackedRun`, but before each sample `i` the waveform `w i` is chosen: `setWaveform` takes
`st i` to `sw i`, from which the sample is played. -/
structure SwitchedRun (S : Sys ℝ C) (ws : List ℝ) (nw L m : ℕ) (st sw : ℕ → Osc ℝ C) (w : ℕ → ℤ)
    (dir : ℕ → Sys.Direction) (p y : ℕ → ℝ) (t : ℕ → MipMapIndices ℝ) : Prop where
  plays : Plays S ws nw L (st 0)
  zero : ∀ y ∈ (st 0).prevY, y = 0
  wave : ∀ i < m, 0 ≤ w i ∧ w i < nw
  set : ∀ i < m, S.setWaveform (st i) (w i) = .ok (sw i)
  phase : ∀ i < m, 0 ≤ p i ∧ p i < 1
  step : ∀ i < m, StepOk (dir i) (sw i).prevPhase (p i)
  call : ∀ i < m, S.process (dir i) (sw i) [p i] [0] = .ok (st (i + 1), [y i])
  next : ∀ i < m, NextIndices S (sw i) (st (i + 1)).prevPhaseDiff (t i)
  move : ∀ i < m, TableMove (sw i) (t i).idx
  off : ∀ i < m, OffDenormal (2 ^ (L - (t i).idx.toNat)) (sw i).prevPhase

/-- The steps between the phases `x0, p 0, p 1, …`: the phase difference brought into `[0, 1)` in
forward mode, into `[-1/2, 1/2]` in bidirectional mode. -/
noncomputable def stepOf (dir : ℕ → Sys.Direction) (x0 : ℝ) (p : ℕ → ℝ) (i : ℕ) : ℝ :=
  Sys.dirDiff id (dir i) (p i) (if i = 0 then x0 else p (i - 1))

/-- The unwrapped phase at time `u` (in samples): starts at `x0` and moves by `d i` at constant
speed during sample `i`. -/
noncomputable def unwrapped (x0 : ℝ) (d : ℕ → ℝ) (u : ℝ) : ℝ :=
  x0 + ∑ i ∈ Finset.range ⌊u⌋₊, d i + (u - ⌊u⌋₊) * d ⌊u⌋₊

/-- The waveform at time `u`: the mixture of tables selected in the current sample, at the unwrapped
phase. -/
noncomputable def played (E : Env ℝ) (ws : List ℝ) (L : ℕ) (w : ℤ) (t : ℕ → MipMapIndices ℝ)
    (φ : ℝ → ℝ) (u : ℝ) : ℝ := mixture E ws L w (t ⌊u⌋₊) (φ u)

/-- The same, with waveform `w i` during sample `i`. -/
noncomputable def playedW (E : Env ℝ) (ws : List ℝ) (L : ℕ) (w : ℕ → ℤ) (t : ℕ → MipMapIndices ℝ)
    (φ : ℝ → ℝ) (u : ℝ) : ℝ := mixture E ws L (w ⌊u⌋₊) (t ⌊u⌋₊) (φ u)

/-- The response at time `T` of the filter with impulse response `Σ 2 r e^{z τ}`, `τ ≥ 0`, to a
signal `V` that starts at time 0. -/
noncomputable def filtered (flt : Filter ℂ) (V : ℝ → ℝ) (T : ℝ) : ℝ :=
  (∑ k ∈ Finset.range flt.r.length,
    2 * flt.r.getD k 0 * ∫ u in (0 : ℝ)..T, Complex.exp (flt.z.getD k 0 * (T - u)) * (V u : ℂ)).re

end Adwt
