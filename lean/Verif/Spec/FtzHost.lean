import Verif.Spec.Float
import Verif.Spec.Log2
import Verif.Num.Ftz

/-!
# Machines in flush-to-zero mode
-/

namespace Adwt

/-- A machine with IEEE binary32 arithmetic whose subnormal results are flushed to zero; otherwise as
`IeeeHost`. -/
structure FtzHost (E : Env ℝ) : Prop where
  fl : E.fl = ftz32
  log2 : Log2Spec E.log2f
  dbl : ∀ x, |E.dbl x - x| ≤ |x| / 2 ^ 53

end Adwt
