import Verif.Model.Filter
import Mathlib.Analysis.Complex.Basic

/-!
# Coefficients as they are stored

The compiler converts each decimal literal of `adwt/filter_type.hpp` to the nearest `float`.
-/

namespace Adwt

/-- `c` is a decimal literal with both parts rounded, with a relative error of at most `δ`. -/
def StoredAs (δ : ℝ) (c : ℂ) (lit : CLit) : Prop :=
  |c.re - (lit.1 : ℝ)| ≤ δ * |(lit.1 : ℝ)| ∧ |c.im - (lit.2 : ℝ)| ≤ δ * |(lit.2 : ℝ)|

/-- The filter `flt` holds the coefficients of the built-in filter `t`, rounded. -/
structure StoredFilter (δ : ℝ) (t : FilterType) (flt : Filter ℂ) : Prop where
  r : List.Forall₂ (StoredAs δ) flt.r (rLit t)
  z : List.Forall₂ (StoredAs δ) flt.z (zLit t)

end Adwt
