import Verif.Spec.Polarity

/-!
# Waveforms at another volume
-/

namespace Adwt
variable {K C : Type} [Field K] [LinearOrder K] [FloorRing K]
variable [Zero C] [Add C] [Sub C] [Mul C] [Div C]

/-- The same statement with every waveform sample multiplied by `s`. -/
def Call.scale (s : K) : Call K → Call K
  | .init ws n sr dur p d => .init (ws.map (s * ·)) n sr dur p d
  | .swap ws n sr dur p d => .swap (ws.map (s * ·)) n sr dur p d
  | c => c

/-- Rounding commutes with multiplication by `s` (as it does for powers of two as long as nothing
underflows or overflows), and the resampler maps a scaled input to the scaled output. -/
structure ScaleEnv (s : K) (E : Env K) : Prop where
  fl : ∀ x, E.fl (s * x) = s * E.fl x
  dbl : ∀ x, E.dbl (s * x) = s * E.dbl x
  mad : ∀ a b c, E.mad (s * a) b (s * c) = s * E.mad a b c
  dmm : ∀ a b c d, E.dmm (s * a) b c (s * d) = s * E.dmm a b c d
  src : ∀ l n r, E.src (l.map (s * ·)) n r =
    ⟨(E.src l n r).err, fun i => s * (E.src l n r).data i, (E.src l n r).inputUsed,
      (E.src l n r).outputGen⟩

/-- The resampler puts out `s` times its output if its input is multiplied by `s`. -/
def ScaleSrc (s : K) (E : Env K) : Prop :=
  ∀ l n r, E.src (l.map (s * ·)) n r =
    ⟨(E.src l n r).err, fun i => s * (E.src l n r).data i, (E.src l n r).inputUsed,
      (E.src l n r).outputGen⟩

/-- The compiler contracts floating-point expressions either everywhere or nowhere. -/
structure Uniform (E : Env K) : Prop where
  mad : (∀ a b c, E.mad a b c = E.fl (a * b + c)) ∨ ∀ a b c, E.mad a b c = E.fl (E.fl (a * b) + c)
  dmm : (∀ a b c d, E.dmm a b c d = E.dbl (E.dbl (a * b) - E.dbl (c * d))) ∨
    (∀ a b c d, E.dmm a b c d = E.dbl (a * b - E.dbl (c * d))) ∨
    ∀ a b c d, E.dmm a b c d = E.dbl (E.dbl (a * b) - c * d)

/-- The complex operations commute with multiplication by `s`, which is `g` on complex numbers. -/
structure ScaleOps (s : K) (g : C → C) (A : COps K C) : Prop where
  zero : g 0 = 0
  add : ∀ a b : C, g a + g b = g (a + b)
  sub : ∀ a b : C, g a - g b = g (a - b)
  mul_left : ∀ a b : C, g a * b = g (a * b)
  mul_right : ∀ a b : C, a * g b = g (a * b)
  div : ∀ a b : C, g a / b = g (a / b)
  ofK : ∀ x, A.ofK (s * x) = g (A.ofK x)
  re : ∀ a, A.re (g a) = s * A.re a
  fma : ∀ a b c, A.fma a (g b) (g c) = g (A.fma a b c)
  fms : ∀ a b c, A.fms a (g b) (g c) = g (A.fms a b c)
  fnma : ∀ a b c, A.fnma a (g b) (g c) = g (A.fnma a b c)

end Adwt
