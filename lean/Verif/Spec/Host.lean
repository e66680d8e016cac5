import Verif.Spec.Float
import Verif.Spec.Log2
import Verif.Num.Rne

/-!
# The machines the library runs on
-/

namespace Adwt

/-- A machine with IEEE binary32 arithmetic: `float` results are rounded to nearest, ties to even, with
subnormals; `log2f` is accurate enough; `double` operations keep 53 bits. Debug or release build, any
resampler, multiply-adds contracted or not. -/
structure IeeeHost (E : Env ℝ) : Prop where
  fl : E.fl = ieee32
  log2 : Log2Spec E.log2f
  dbl : ∀ x, |E.dbl x - x| ≤ |x| / 2 ^ 53

end Adwt
