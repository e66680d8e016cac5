import Verif.Spec.Lines

/-!
# The power of a sequence of samples
-/

namespace Adwt

/-- The samples `y` have the mean power `P`: in the long run the mean of their squares is `P`; their level (RMS) is
`√P`. -/
def MeanPower (y : ℕ → ℝ) (P : ℝ) : Prop :=
  Filter.Tendsto (fun N : ℕ => (∑ n ∈ Finset.range N, y n ^ 2) / N) Filter.atTop (nhds P)

end Adwt
