import Verif.Spec.Tone

/-!
# The spectrum of a sequence of samples
-/

namespace Adwt

/-- The samples `y` have the component `a e^{2πi f n}` at the frequency `f` (in cycles per sample): in the long
run, the mean of `y n` against the oscillation `e^{2πi f n}` is `a`. At frequency 0 this is their mean. -/
def Component (y : ℕ → ℝ) (f : ℝ) (a : ℂ) : Prop :=
  Filter.Tendsto (fun N : ℕ => (∑ n ∈ Finset.range N,
    (y n : ℂ) * Complex.exp (-(2 * Real.pi * Complex.I * f * n))) / N) Filter.atTop (nhds a)

/-- The harmonics of a tone of `d` cycles per sample that are heard at the frequency `f` when the tone is
sampled: those whose frequency differs from `f` by a whole number of cycles per sample. -/
def heardAt (d f : ℝ) : Set ℤ := {k | ∃ m : ℤ, k * d - f = m}

end Adwt
