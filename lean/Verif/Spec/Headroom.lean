import Verif.Spec.Convolution

/-!
# The impulse response of the filter and its area
-/

namespace Adwt

/-- The impulse response of the filter at time `t` (in samples): `Re Σ 2 r e^{z t}`. -/
noncomputable def impulse (flt : Filter ℂ) (t : ℝ) : ℝ :=
  (∑ k ∈ Finset.range flt.r.length, 2 * flt.r.getD k 0 * Complex.exp (flt.z.getD k 0 * t)).re

/-- The largest possible ratio of the peak of the output to the peak of the input of a continuous-time
filter: the area under the absolute value of its impulse response. -/
noncomputable def peakGain (flt : Filter ℂ) : ℝ := ∫ t in Set.Ioi (0 : ℝ), |impulse flt t|

/-- Bounds of the peak gains of the built-in filters: 0.83, 6.73, 2.35, 3.47 and 5.58 dB. -/
def headroom : FilterType → ℚ
  | .kType1 => 1.1
  | .kType2 => 2.17
  | .kType3 => 1.31
  | .kType4 => 1.49
  | .kType5 => 1.9

end Adwt
