import Verif.Model.Osc

/-!
# The padding computed at compile time, as written
-/

namespace Adwt.Sys
variable {K : Type} [Field K] [LinearOrder K] [FloorRing K]

/-- `computeUpperNumCoeffs`, `adwt/adwt.hpp:216-229`, with its float division and `maths::floor`: `n` is
`kNumCoeffs`, `B` is `kBatchSize`. The rest of the model uses `upperNumCoeffs`, which divides natural
numbers. The products are taken without overflow (`std::size_t`). -/
def upperNumCoeffsF (fl : K → K) (n B : Nat) : R Nat := do
  let q ← fdiv fl (fl (n : K)) (fl (B : K))
  let kNumBatch ← Maths.floor fl q
  return if kNumBatch = 0 then B
    else if n % B = 0 then kNumBatch.toNat * B
    else (kNumBatch + 1).toNat * B

end Adwt.Sys
