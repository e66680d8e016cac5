import Verif.Spec.Headroom

/-!
# An error that looks into the past
-/

namespace Adwt

/-- What the filter `flt` answers at the end of a backward step (to phase `p`, per sample `d < 0`) to
a ramp that was its input before the step began: zero when the phase was `c`, then rising by `g` per
unit of phase until the step began, one sample ago. -/
noncomputable def wedge (flt : Filter ℂ) (g c p d : ℝ) : ℝ :=
  ∫ u in (1 : ℝ)..(p - c) / d, impulse flt u * (g * (c - (p - u * d)))

end Adwt
