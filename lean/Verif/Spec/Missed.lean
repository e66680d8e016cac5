import Verif.Spec.Headroom

/-!
# What a sample contains if it starts from the wrong segment
-/

namespace Adwt

/-- What the filter `flt` answers at the end of a forward step (to phase `p`, per sample `d > 0`) to an
input which before the step began, from phase `s + h` on, was the difference between the function `V` and
the straight line through its values at the phases `s` and `s + h`. -/
noncomputable def missed (flt : Filter ℂ) (V : ℝ → ℝ) (s h p d : ℝ) : ℝ :=
  ∫ u in (1 : ℝ)..(p - (s + h)) / d,
    impulse flt u * (V (p - u * d) - (V s + (V (s + h) - V s) * ((p - u * d - s) / h)))

end Adwt
