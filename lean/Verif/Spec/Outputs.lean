import Verif.Model.Basic

/-!
# What is heard of a history
-/

namespace Adwt

/-- What the user gets from a history of calls: the output samples, or the fault. -/
def outputs {σ α : Type} : R (σ × α) → R α
  | .ok (_, y) => .ok y
  | .error e => .error e

end Adwt
