import Verif.Spec.Slow
import Verif.Spec.Octave

/-!
# Playing in both directions: when the position is carried over from sample to sample
-/

namespace Adwt

/-- The mipmap octave of `b` is not above the one of `a` (waveform length `2^L`). -/
def NotHigher (L : ℕ) (a b : ℝ) : Prop := ∀ i j : ℤ, IsOctave L i a → IsOctave L j b → j ≤ i

/-- No step, in either direction, is more than one mipmap octave below one of the `num + 1` steps
before it. (A weaker condition than `NoFastFall`.) -/
def FallsSlowly (L : ℕ) (num : ℤ) (d : ℕ → ℝ) : Prop :=
  ∀ k n : ℕ, k < n → (n : ℤ) ≤ k + num + 1 →
    ∀ i j : ℤ, IsOctave L i |d k| → IsOctave L j |d n| → i ≤ j + 1

/-- The sizes of the steps a wavetable's crossfader has been asked for: a tenth on construction, the
step given to `init`, then one per sample. -/
noncomputable def askedFor (fl : ℝ → ℝ) (d : ℕ → ℝ) : ℕ → ℝ
  | 0 => fl (1 / 10)
  | n + 1 => |d n|

/-- The step `D` given to `init`, then the steps between the phases `x 0, x 1, …` as the oscillator
computes them, with the rounding `fl`: in forward mode in `(0, 1)`, in bidirectional mode in
`[-1/2, 1/2]`. -/
noncomputable def stepsAlong (fl : ℝ → ℝ) (D : ℝ) (dir : ℕ → Sys.Direction) (x : ℕ → ℝ) : ℕ → ℝ
  | 0 => D
  | n + 1 => Sys.dirDiff fl (dir n) (x (n + 1)) (x n)

/-- Backward steps stay clear of table changes. `d n` is the step that ends at the phase `x n`
(`d 0` and `x 0` are those given to `init`). -/
structure ClearOfChanges (fl : ℝ → ℝ) (L : ℕ) (num : ℤ) (d x : ℕ → ℝ) : Prop where
  /-- From two crossfades before a backward step to the sample after it, the octave does not rise. -/
  rise : ∀ n, d n < 0 → ∀ j k : ℕ, j < k → k ≤ n + 2 → (n : ℤ) + 1 ≤ j + 2 * num →
    NotHigher L (askedFor fl d j) (askedFor fl d k)
  /-- After a backward step that ends exactly at phase 0, the octave of the next step is not below those
  of the crossfade before. -/
  fall : ∀ n, d n < 0 → x n = 0 → ∀ k : ℕ, k ≤ n → (n : ℤ) ≤ k + num →
    NotHigher L |d (n + 1)| |d k|

end Adwt
