import Verif.Spec.Polarity
import Verif.Model.Held

/-!
# Numbers that are not numbers
-/

namespace Adwt
variable {K C : Type} [Field K] [LinearOrder K] [FloorRing K]
variable [Zero C] [Add C] [Sub C] [Mul C] [Div C]

/-- `Bad` behaves like NaN: sums and products with a bad operand, and quotients with a bad dividend,
are bad. -/
structure Poison (Bad : C → Prop) : Prop where
  add_left : ∀ b x, Bad b → Bad (b + x)
  add_right : ∀ b x, Bad b → Bad (x + b)
  mul_left : ∀ b x, Bad b → Bad (b * x)
  mul_right : ∀ b x, Bad b → Bad (x * b)
  div : ∀ b x, Bad b → Bad (b / x)

/-- Every sample is the real part of a bad number. -/
def AllBad (S : Sys K C) (Bad : C → Prop) (ys : List K) : Prop :=
  ∀ y ∈ ys, ∃ b, Bad b ∧ y = S.ops.re b

/-- Executing one statement, as `runCall`, but with divisions by a zero step carried out. -/
def runCallZ (S : Sys K C) (divz : K → Nat → C → C) (o : Osc K C) : Call K → R (Osc K C × List K)
  | .process dir ps => S.processZ divz dir o ps (List.replicate ps.length 0)
  | c => runCall S o c

/-- Executing a program, concatenating all outputs. -/
def runCallsZ (S : Sys K C) (divz : K → Nat → C → C) (o : Osc K C) :
    List (Call K) → R (Osc K C × List K)
  | [] => .ok (o, [])
  | c :: cs => do
    let (o1, y1) ← runCallZ S divz o c
    let (o2, y2) ← runCallsZ S divz o1 cs
    return (o2, y1 ++ y2)

/-- The statement is none of `init`, `swapWavetable`, `resetInternals`. -/
def Call.Keeps : Call K → Prop
  | .init .. => False
  | .swap .. => False
  | .reset .. => False
  | _ => True

end Adwt
