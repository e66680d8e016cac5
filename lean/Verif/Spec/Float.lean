import Verif.Spec.Convolution
import Verif.Spec.Decay
import Verif.Spec.Bounded
import Verif.Num.Rounding

/-!
# Rounded arithmetic

`std::complex<float>` and the SIMD operations are a type `C` with operations that are accurate up to
a relative error `ε`. `val` is the complex number which an element of `C` stands for.
-/

namespace Adwt
variable {C : Type} [Zero C] [Add C] [Sub C] [Mul C] [Div C]

/-- The error of a rounded result: relative to the exact one, and absolute below `2^-80`, where a
`float` underflows gradually. -/
noncomputable def roundErr (ε m : ℝ) : ℝ := ε * max m (1 / 2 ^ 80)

/-- Every complex operation has a small relative error, as long as the intermediate results neither
overflow (`2^110`) nor underflow (`2^-80`, below which the error is absolute). The error of a fused
operation is relative to the sum of the magnitudes of both parts; exponentials are only needed for
real parts up to 1; conversion from a real and the real part are exact. -/
structure Accurate (ops : COps ℝ C) (val : C → ℂ) (ε : ℝ) : Prop where
  zero : val 0 = 0
  ofK : ∀ x, val (ops.ofK x) = x
  re : ∀ a, ops.re a = (val a).re
  add : ∀ a b, ‖val a‖ + ‖val b‖ ≤ 2 ^ 110 →
    ‖val (a + b) - (val a + val b)‖ ≤ roundErr ε ‖val a + val b‖
  sub : ∀ a b, ‖val a‖ + ‖val b‖ ≤ 2 ^ 110 →
    ‖val (a - b) - (val a - val b)‖ ≤ roundErr ε ‖val a - val b‖
  mul : ∀ a b, ‖val a‖ * ‖val b‖ ≤ 2 ^ 110 →
    ‖val (a * b) - val a * val b‖ ≤ roundErr ε ‖val a * val b‖
  div : ∀ a b, ‖val a‖ ≤ 2 ^ 98 → 1 / 2 ^ 9 ≤ ‖val b‖ → ‖val b‖ ≤ 2 ^ 12 →
    ‖val (a / b) - val a / val b‖ ≤ roundErr ε ‖val a / val b‖
  fma : ∀ a b c, ‖val a‖ * ‖val b‖ + ‖val c‖ ≤ 2 ^ 110 →
    ‖val (ops.fma a b c) - (val a * val b + val c)‖ ≤ roundErr ε (‖val a * val b‖ + ‖val c‖)
  fms : ∀ a b c, ‖val a‖ * ‖val b‖ + ‖val c‖ ≤ 2 ^ 110 →
    ‖val (ops.fms a b c) - (val a * val b - val c)‖ ≤ roundErr ε (‖val a * val b‖ + ‖val c‖)
  fnma : ∀ a b c, ‖val a‖ * ‖val b‖ + ‖val c‖ ≤ 2 ^ 110 →
    ‖val (ops.fnma a b c) - (-(val a * val b) + val c)‖ ≤ roundErr ε (‖val a * val b‖ + ‖val c‖)
  exp : ∀ a, (val a).re ≤ 1 → ‖val (ops.exp a) - Complex.exp (val a)‖ ≤ roundErr ε ‖Complex.exp (val a)‖
  vexp : ∀ a, (val a).re ≤ 1 →
    ‖val (ops.vexp a) - Complex.exp (val a)‖ ≤ roundErr ε ‖Complex.exp (val a)‖

/-- A system whose real and complex arithmetic is rounded with relative error at most `ε` (absolute
below `2^-80`, none claimed above `2^110`), with a filter in the range of the built-in ones.
`ε ≤ 2^-21` leaves some room above the `2^-24` of a correctly rounded `float`. -/
structure FloatSys (S : Sys ℝ C) (val : C → ℂ) (ε : ℝ) : Prop where
  fl : Rounding S.env.fl
  ε0 : 0 ≤ ε
  ε1 : ε ≤ 1 / 2 ^ 21
  rel : ∀ x, |x| ≤ 2 ^ 110 → |S.env.fl x - x| ≤ roundErr ε |x|
  dbl : ∀ x, |S.env.dbl x - x| ≤ ε * |x|
  ops : Accurate S.ops val ε
  B : 0 < S.B
  len : S.flt.r.length = S.flt.z.length
  few : S.flt.r.length ≤ 2 ^ 10
  poles : ∀ z ∈ S.flt.z, 1 / 2 ^ 4 ≤ -(val z).re ∧ ‖val z‖ ≤ 2 ^ 5
  residues : ∀ r ∈ S.flt.r, 1 / 2 ^ 10 ≤ ‖val r‖ ∧ ‖val r‖ ≤ 2 ^ 10

/-- Slopes: the difference of neighbouring samples of every mipmap table (taken as periodic), times
the number of samples of the table, is at most `Λ` in absolute value. -/
def SlopesWithin (E : Env ℝ) (ws : List ℝ) (nw L : ℕ) (Λ : ℝ) : Prop :=
  ∀ w < nw, ∀ i, i + 1 < L → ∀ k : ℤ,
    |cyc (mipSamples E (waveformOf ws (2 ^ L) w) i) (k + 1) -
      cyc (mipSamples E (waveformOf ws (2 ^ L) w) i) k| * 2 ^ (L - i) ≤ Λ

/-- The step which a rounded step stands for: the number nearest to it among those that differ from
the exact phase difference by an integer. -/
noncomputable def trueStep (fl : ℝ → ℝ) (dir : Sys.Direction) (p x : ℝ) : ℝ :=
  p - x + round (Sys.dirDiff fl dir p x - (p - x))

/-- The filter whose coefficients are the stored ones. -/
def valFilter (val : C → ℂ) (flt : Filter C) : Filter ℂ := ⟨flt.r.map val, flt.z.map val⟩

/-- The steps between the phases `x0, p 0, p 1, …` which the rounded steps stand for. -/
noncomputable def trueStepOf (fl : ℝ → ℝ) (dir : ℕ → Sys.Direction) (x0 : ℝ) (p : ℕ → ℝ) (i : ℕ) : ℝ :=
  trueStep fl (dir i) (p i) (if i = 0 then x0 else p (i - 1))

/-- How much rounding may disturb the output, in units of `ε` times the size of the tables (samples
and slopes): a constant depending only on the filter and on a bound `ν` for the number of table
points passed in one sample, plus 2. -/
noncomputable def roundoffGain (flt : Filter ℂ) (ν : ℝ) : ℝ :=
  (∑ k ∈ Finset.range flt.r.length, 8 * ‖flt.r.getD k 0‖ * (1 + 1 / -(flt.z.getD k 0).re) *
    (132 * ν ^ 2 * (1 + ‖flt.z.getD k 0‖) / ‖flt.z.getD k 0‖ ^ 2 + 5 / -(flt.z.getD k 0).re + 7)) +
  3 * flt.r.length * filterGain flt

end Adwt
