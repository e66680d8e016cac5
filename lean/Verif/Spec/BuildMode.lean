import Verif.Spec.Program

/-!
# Debug and release builds
-/

namespace Adwt
variable {K C : Type} [Field K]

/-- The same machine and compiler, with `NDEBUG` defined: no `assert` is compiled in. -/
def Env.release (E : Env K) : Env K := { E with dbg := false }

/-- The release build of the same oscillator type. -/
def Sys.release (S : Sys K C) : Sys K C := { S with env := S.env.release }

/-- Two outcomes of the same code, with assertions (`a`) and without (`b`): unless an assertion fails they are the
same, and without assertions none can fail. -/
def SameUnlessAborted {α : Type} (a b : R α) : Prop :=
  (a = .error .assertFail ∨ b = a) ∧ b ≠ .error .assertFail

end Adwt
