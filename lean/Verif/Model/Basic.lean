import Mathlib.Algebra.Order.Floor.Ring
import Mathlib.Algebra.Order.Field.Basic
import Mathlib.Data.Rat.Floor

/-!
# Outcomes, environment and checked accesses

No single C++ function is modelled here; these are the conventions shared by all model files.
-/

namespace Adwt

/-- The ways in which executing the C++ code can leave the well-defined, intended path.
Each is a distinct outcome of the model. -/
inductive Err where
  /-- a failed `assert` in a debug build (`NDEBUG` not defined) -/
  | assertFail
  /-- an access outside a `std::vector`, span or array (undefined behaviour, or
  `std::terminate` for a checked `gsl::span`) -/
  | outOfBounds
  /-- dereference of a null `unique_ptr` (undefined behaviour) -/
  | nullDeref
  /-- a floating point division by zero: the result is NaN or infinite, and meaningless under
  the `-ffast-math` of `adwt/CMakeLists.txt:31-35` -/
  | divByZero
  /-- `static_cast<int>` of a float outside the range of `int` (undefined behaviour) -/
  | castOverflow
  /-- `std::length_error` thrown by the `std::vector` constructor -/
  | lengthError
  /-- `std::runtime_error("Downsampled failed")`, `wavetable_data.cpp:94,107` -/
  | runtimeError
deriving DecidableEq, Repr

/-- Result of executing a C++ function. -/
abbrev R (α : Type) := Except Err α

/-- What one call of libsamplerate's `src_simple` leaves behind: its error code, the output
buffer, and the two frame counters of `SRC_DATA`. -/
structure SrcResult (K : Type) where
  err : Int
  data : Nat → K
  inputUsed : Nat
  outputGen : Nat

/-- The parameters of the model: everything the library obtains from outside.

* `dbg`: are `assert`s compiled in?
* `fl`: the rounding applied to the result of every float operation. `fl = id` is exact
  arithmetic.
* `dbl`: the rounding applied to the result of every `double` operation; `dbl_fl`: a `float` is a
  `double`. (So `fl = id` forces `dbl = id`.)
* `mad a b c`: the float expression `a * b + c`. A compiler may contract it into one fused operation
  (GCC does by default when the target has FMA, one of the configurations of the README), so the result
  is either rounded once or twice, `mad_eq`; which of the two may depend on the operands, i.e. on the
  place in the code.
* `dmm a b c d`: the `double` expression `a * b - c * d`, in which either product (not both) may be
  contracted with the subtraction, `dmm_eq`.
* `log2f`: `std::log2` / `std::log2f`.
* `src inp outLen ratio`: `src_simple` of libsamplerate on input `inp`, with an output buffer of
  `outLen` samples and `src_ratio = 1/ratio`. -/
structure Env (K : Type) [Field K] where
  dbg : Bool
  fl : K → K
  dbl : K → K
  dbl_fl : ∀ x, fl x = x → dbl x = x
  mad : K → K → K → K
  mad_eq : ∀ a b c, mad a b c = fl (a * b + c) ∨ mad a b c = fl (fl (a * b) + c)
  dmm : K → K → K → K → K
  dmm_eq : ∀ a b c d, dmm a b c d = dbl (dbl (a * b) - dbl (c * d)) ∨
    dmm a b c d = dbl (a * b - dbl (c * d)) ∨ dmm a b c d = dbl (dbl (a * b) - c * d)
  log2f : K → K
  src : List K → Nat → Nat → SrcResult K

/-- `assert(c)`: aborts in debug builds, absent in release builds. -/
def chk (dbg : Bool) (c : Prop) [Decidable c] : R Unit :=
  if dbg = true ∧ ¬ c then .error .assertFail else .ok ()

/-- `v[i]` on a vector or span, with a C++ (signed) index. -/
def rd {α : Type} (l : List α) (i : Int) : R α :=
  if 0 ≤ i then
    match l[i.toNat]? with
    | some a => .ok a
    | none => .error .outOfBounds
  else .error .outOfBounds

section Num
variable {K : Type} [Field K] [LinearOrder K] [FloorRing K]

/-- Float division: a zero denominator is an error outcome. -/
def fdiv (fl : K → K) (a b : K) : R K :=
  if b = 0 then .error .divByZero else .ok (fl (a / b))

/-- Truncation toward zero. -/
def trunc (x : K) : Int := if 0 ≤ x then ⌊x⌋ else ⌈x⌉

/-- `static_cast<int>(float)`: truncates toward zero, undefined outside the range of `int`. -/
def toInt (x : K) : R Int :=
  if -2^31 ≤ trunc x ∧ trunc x < 2^31 then .ok (trunc x) else .error .castOverflow

/-- `static_cast<float>(bool)`. -/
def ofBool (b : Bool) : K := if b then 1 else 0

end Num

end Adwt
