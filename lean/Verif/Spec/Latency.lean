import Verif.Spec.Headroom

/-!
# The latency of the filter
-/

namespace Adwt
open MeasureTheory

/-- By how many samples the filter delays slow signals: the centre of gravity of its impulse response. -/
noncomputable def latency (flt : Filter ℂ) : ℝ :=
  (∫ t in Set.Ioi (0 : ℝ), t * impulse flt t) / ∫ t in Set.Ioi (0 : ℝ), impulse flt t

/-- The straight line with value `a` and slope `b` at time `T`. -/
def line (a b T u : ℝ) : ℝ := a + b * (u - T)

/-- How much of a signal bounded by 1 the filter still remembers after `K` samples. -/
noncomputable def remembered (flt : Filter ℂ) (K : ℝ) : ℝ :=
  ∑ k ∈ Finset.range flt.r.length, 2 * ‖flt.r.getD k 0‖ * Real.exp ((flt.z.getD k 0).re * K) *
    (1 / -(flt.z.getD k 0).re + 1 / ‖flt.z.getD k 0‖ + 4 / K / ‖flt.z.getD k 0‖ ^ 2)

/-- The latencies of the built-in filters, in samples. -/
def latencyTable : FilterType → ℚ
  | .kType1 => 0.5002
  | .kType2 => 1.3948
  | .kType3 => 0.9242
  | .kType4 => 1.3665
  | .kType5 => 1.4721

end Adwt
