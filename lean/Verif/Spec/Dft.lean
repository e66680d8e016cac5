import Verif.Spec.Tone
import Mathlib.Analysis.SpecialFunctions.Trigonometric.Sinc

/-!
# The discrete spectrum of a table
-/

namespace Adwt

/-- The discrete Fourier coefficient `k` of the samples `y`, normalised: `(1/N) Σ y_j e^{-2πi k j/N}`. -/
noncomputable def dft (y : List ℝ) (k : ℤ) : ℂ :=
  (∑ j ∈ Finset.range y.length,
    Complex.exp (-(2 * Real.pi * Complex.I * k * j / y.length)) * (y.getD j 0 : ℂ)) / y.length

end Adwt
