import Verif.Spec.Scratch

/-!
# Playing in both directions after `resetInternals`
-/

namespace Adwt

/-- The sizes of the steps a wavetable's crossfader has been asked for: one of the size `a` in the past, the step given
to `resetInternals`, then one per sample. -/
noncomputable def askedFrom (a : ℝ) (d : ℕ → ℝ) : ℕ → ℝ
  | 0 => a
  | n + 1 => |d n|

/-- Backward steps stay clear of table changes: `ClearOfChanges`, with `a` in the place of the tenth a new crossfader
starts from. `d n` is the step that ends at the phase `x n` (`d 0` and `x 0` are those given to
`resetInternals`). -/
structure ClearFrom (L : ℕ) (num : ℤ) (a : ℝ) (d x : ℕ → ℝ) : Prop where
  /-- From two crossfades before a backward step to the sample after it, the octave does not rise. -/
  rise : ∀ n, d n < 0 → ∀ j k : ℕ, j < k → k ≤ n + 2 → (n : ℤ) + 1 ≤ j + 2 * num →
    NotHigher L (askedFrom a d j) (askedFrom a d k)
  /-- After a backward step that ends exactly at phase 0, the octave of the next step is not below those
  of the crossfade before. -/
  fall : ∀ n, d n < 0 → x n = 0 → ∀ k : ℕ, k ≤ n → (n : ℤ) ≤ k + num →
    NotHigher L |d (n + 1)| |d k|

end Adwt
