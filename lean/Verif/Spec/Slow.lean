import Verif.Spec.Convolution

/-!
# Pitch changes within the documented limit
-/

namespace Adwt

/-- No step is less than half of one of the `num + 1` steps before it: the pitch never falls by more
than an octave within a crossfade. It may rise as fast as it likes. -/
def NoFastFall (num : ℤ) (d : ℕ → ℝ) : Prop :=
  ∀ k n : ℕ, k < n → (n : ℤ) ≤ k + num + 1 → d k / 2 ≤ d n

/-- The step `D` given to `init`, followed by the steps of the samples. -/
noncomputable def stepsFrom (D : ℝ) (dir : ℕ → Sys.Direction) (x0 : ℝ) (p : ℕ → ℝ) : ℕ → ℝ
  | 0 => D
  | n + 1 => stepOf dir x0 p n

/-- The step of sample `i` as the oscillator computes it: the phase difference rounded by `fl`. -/
noncomputable def roundedStepOf (fl : ℝ → ℝ) (dir : ℕ → Sys.Direction) (x0 : ℝ) (p : ℕ → ℝ) (i : ℕ) : ℝ :=
  Sys.dirDiff fl (dir i) (p i) (if i = 0 then x0 else p (i - 1))

/-- The step `D` given to `init`, followed by the rounded steps of the samples. -/
noncomputable def roundedStepsFrom (fl : ℝ → ℝ) (D : ℝ) (dir : ℕ → Sys.Direction) (x0 : ℝ)
    (p : ℕ → ℝ) : ℕ → ℝ
  | 0 => D
  | n + 1 => roundedStepOf fl dir x0 p n

end Adwt
