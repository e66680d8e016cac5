import Verif.Model.Drivers
import Verif.Spec.Octave
import Verif.Num.Rne

/-!
# What the shipped programs may be asked to play
-/

namespace Adwt.Drivers
variable {K : Type} [Field K] [LinearOrder K] [IsStrictOrderedRing K] [FloorRing K]

/-- A phase step that can be accumulated in IEEE floats: above `2^-25`, and below 1/2 by more than
`2^-24` (which allows for the rounding of the sum). -/
def StepRange (s : K) : Prop := 1 / 2 ^ 25 < s ∧ s < 1 / 2 - 1 / 2 ^ 24

/-- A frequency of the tones generator: a float whose step is in range and at least `2^-23` away from
the limits of octave `b` of a wavetable of length `2^L`. -/
structure ToneOk (L : ℕ) (b : ℤ) (f : K) : Prop where
  fl : ieee32 f = f
  lo : 1 / 2 ^ 25 < ieee32 (f / kSamplerate)
  hi : ieee32 (f / kSamplerate) ≤ 1 / 2 - 1 / 2 ^ 23
  oct : ∀ d, |d - ieee32 (f / kSamplerate)| ≤ 1 / 2 ^ 23 → IsOctave L b d

/-- The crossfader is not on its way from table `b` to another one. -/
def NotLeaving {C : Type} (b : ℤ) (o : Osc K C) : Prop :=
  ∀ wt, o.wt = some wt → wt.cf.samplesLeft = 0 ∨ wt.cf.prevIdx ≠ b

end Adwt.Drivers

namespace Adwt
variable {K : Type} [Field K] [LinearOrder K]

/-- Phases in `[-1, 2)` following the phase `x`, each less than a cycle away from the one before and,
in bidirectional mode, not exactly half a cycle away. -/
def RawSteps (dir : Sys.Direction) : K → List K → Prop
  | _, [] => True
  | x, q :: qs => -1 ≤ q ∧ q < 2 ∧ |q - x| < 1 ∧ (dir = .kBidirectionnal → |q - x| ≠ 1 / 2) ∧
      RawSteps dir q qs

end Adwt
