import Verif.Model.Osc
import Verif.Spec.Tables
import Mathlib.MeasureTheory.Integral.IntervalIntegral.Basic
import Mathlib.Analysis.SpecialFunctions.Complex.Circle
import Mathlib.Analysis.SpecialFunctions.Exp

/-!
# What a sample should be

The formula of the ADAA method, in exact arithmetic: the waveform is the periodic linear
interpolation of its samples; between two calls the phase moves linearly; every filter coefficient
is a one-pole filter fed with that waveform in continuous time.
-/

namespace Adwt

/-- exact complex arithmetic -/
noncomputable def copsX : COps ℝ ℂ :=
  ⟨fun x => (x : ℂ), Complex.re, Complex.exp, Complex.exp, fun x y z => x * y + z,
    fun x y z => x * y - z, fun x y z => -(x * y) + z⟩

/-- The periodic sequence of samples. -/
def cyc (y : List ℝ) (k : ℤ) : ℝ := y.getD (k % y.length).toNat 0

/-- The periodic linear interpolation of the samples `y` at phase `u` (one period has length 1). -/
noncomputable def interp (y : List ℝ) (u : ℝ) : ℝ :=
  cyc y ⌊u * y.length⌋ +
    (u * y.length - ⌊u * y.length⌋) * (cyc y (⌊u * y.length⌋ + 1) - cyc y ⌊u * y.length⌋)

/-- The response during one sample of a one-pole filter `e^{z t}` to the waveform `W` read from
phase `x` to phase `x + d`. -/
noncomputable def response (W : ℝ → ℝ) (z : ℂ) (x d : ℝ) : ℂ :=
  ∫ t in (0 : ℝ)..1, Complex.exp (z * (1 - t)) * (W (x + t * d) : ℂ)

/-- Filter memory after one sample: per coefficient `e^z y + 2 r * response`. -/
noncomputable def nextMemory (flt : Filter ℂ) (y : List ℂ) (W : ℝ → ℝ) (x d : ℝ) : List ℂ :=
  (List.range flt.r.length).map fun k =>
    Complex.exp (flt.z.getD k 0) * y.getD k 0 +
      2 * flt.r.getD k 0 * response W (flt.z.getD k 0) x d

/-- Output: real part of the sum of the memory. -/
noncomputable def output (y : List ℂ) : ℝ := y.sum.re

end Adwt
