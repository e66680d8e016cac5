import Verif.Model.Basic

/-!
# `adwt/filter_type.hpp`
-/

namespace Adwt

/-- `FilterType`, `adwt/filter_type.hpp:77-84`. -/
inductive FilterType where
  | kType1 | kType2 | kType3 | kType4 | kType5
deriving DecidableEq, Repr

/-- A complex literal, real and imaginary part, as a decimal fraction. The conversion of the
decimal literals to `float` is not modelled. -/
abbrev CLit := ℚ × ℚ

/-- `r<Ftype>()`, `adwt/filter_type.hpp:132-135, 143-149, 161-165, 174-179, 189-194`. -/
def rLit : FilterType → List CLit
  | .kType1 => [(0, -1.99929732)]
  | .kType2 => [(0.26281952, -0.41698263), (2.34161433, 1.04896884), (-2.63431397, 7.51745447),
      (-16.67718259, -6.76247888), (16.69636533, -23.51135536)]
  | .kType3 => [(-1.30610392, 0.54100596), (1.30610392, -3.15321379)]
  | .kType4 => [(-4.30788702, -8.10390177e-14), (0.57714742, 9.99648661e-01),
      (3.73073959, -6.46183052e+00)]
  | .kType5 => [(0.5995431, -1.42710928e-03), (-0.10125199, 2.87722419e+00),
      (-7.73846024, -1.56288290e+00), (7.23293555, -1.16751094e+01)]

/-- `z<Ftype>()`, `adwt/filter_type.hpp:137-140, 151-157, 167-171, 181-186, 196-201`. -/
def zLit : FilterType → List CLit
  | .kType1 => [(-1.99929732, 1.99929732)]
  | .kType2 => [(-0.29931827, 2.94764072), (-0.97441784, 2.98286211), (-1.89003202, 2.94796957),
      (-3.15580399, 2.50801272), (-4.37780671, 1.08149105)]
  | .kType3 => [(-1.08201191, 2.61220784), (-2.61220784, 1.08201191)]
  | .kType4 => [(-1.99929732, 1.99929732), (-0.73179361, 2.73109093), (-2.73109093, 0.73179361)]
  | .kType5 => [(-0.37870934, 2.57341531), (-1.23202254, 2.49225066), (-2.30871469, 2.08510777),
      (-3.31413228, 0.89104016)]

/-- `numCoeffs<Ftype>()`, `adwt/filter_type.hpp:204-207`. -/
def numCoeffs (t : FilterType) : Nat := (rLit t).length

/-- The coefficients held by an `Oscillator<Ftype>`: `r_array_`, `z_array_`,
`adwt/adwt.hpp:389-393`, before padding. -/
structure Filter (C : Type) where
  r : List C
  z : List C

end Adwt
