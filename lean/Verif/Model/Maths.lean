import Verif.Model.Basic

/-!
# `adwt/maths.hpp`
-/

namespace Adwt.Maths
variable {K : Type} [Field K] [LinearOrder K] [FloorRing K]

/-- `maths::floor`, `adwt/maths.hpp:36-39`. The comparison uses `static_cast<float>(ivalue)`,
which rounds, hence `fl`. -/
def floor (fl : K → K) (x : K) : R Int := do
  let i ← toInt x
  return if x ≥ fl (i : K) then i else i - 1

/-- `maths::ceil`, `adwt/maths.hpp:41-44`. -/
def ceil (fl : K → K) (x : K) : R Int := do
  let i ← toInt x
  return if x > fl (i : K) then i + 1 else i

/-- `maths::isOdd`, `adwt/maths.hpp:46-48`. C++ `%` truncates, i.e. `Int.tmod`. -/
def isOdd (v : Int) : Bool := v.tmod 2 == 1

/-- `maths::isPowerOfTwo`, `adwt/maths.hpp:50-56`. `log2f` of a negative number (NaN) is left to
the `log2f` parameter; `build` never passes one. -/
def isPowerOfTwo (E : Env K) (v : Int) : R Bool :=
  if v = 0 then .ok false
  else do
    let fvalue := E.fl (v : K)
    let c ← ceil E.fl (E.log2f fvalue)
    let f ← floor E.fl (E.log2f fvalue)
    return c == f

/-- `std::numeric_limits<float>::min()`, the smallest positive normal float, `2^-126`. -/
def kMin : K := 1 / 2^126

/-- `maths::sign`, `adwt/maths.hpp:58-63`. -/
def sign (x : K) : Int :=
  if |x| < kMin then 0 else if x < 0 then -1 else 1

/-- `maths::reduce<int>`, `adwt/maths.hpp:65-77`. -/
def reduceI (dbg : Bool) (v t : Int) : R Int := do
  chk dbg (0 < t)
  chk dbg (v ≤ 2 * t ∧ v ≥ -t)
  return if v ≥ t then v - t else if v < 0 then v + t else v

/-- `maths::reduce<float>`, `adwt/maths.hpp:65-77`. -/
def reduceF (E : Env K) (v t : K) : R K := do
  chk E.dbg (0 < t)
  chk E.dbg (v ≤ E.fl (2 * t) ∧ v ≥ -t)
  return if v ≥ t then E.fl (v - t) else if v < 0 then E.fl (v + t) else v

end Adwt.Maths
