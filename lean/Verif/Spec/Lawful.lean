import Verif.Model.Osc
import Mathlib.Algebra.Field.Basic

/-!
# Lawful complex arithmetic

Needed only where a property speaks about the value of a sample, not for safety.
-/

namespace Adwt
variable {K C : Type} [Field K] [Field C]

/-- The SIMD operations compute what their names say, and `xs::exp` agrees with `std::exp`. -/
structure COps.Lawful (ops : COps K C) : Prop where
  vexp : ops.vexp = ops.exp
  fma : ∀ x y z, ops.fma x y z = x * y + z
  fms : ∀ x y z, ops.fms x y z = x * y - z
  fnma : ∀ x y z, ops.fnma x y z = -(x * y) + z

end Adwt
