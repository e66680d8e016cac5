import Verif.Model.Osc

/-!
# Orders of summation

Built with `-ffast-math`, the compiler may add up the outputs of the filter's sections
(`std::accumulate`, `adwt/adwt.cpp:490-493` and `596-599`) in any order it likes.
-/

namespace Adwt

/-- A way of adding up numbers `0, 1, …`, with brackets; `zero` is the start value of `std::accumulate`. -/
inductive SumTree where
  | zero : SumTree
  | leaf : ℕ → SumTree
  | add : SumTree → SumTree → SumTree

namespace SumTree

/-- The numbers added, in order. -/
def leaves : SumTree → List ℕ
  | zero => []
  | leaf i => [i]
  | add l r => l.leaves ++ r.leaves

/-- The number of additions. -/
def adds : SumTree → ℕ
  | zero => 0
  | leaf _ => 0
  | add l r => l.adds + r.adds + 1

/-- The sum as computed. -/
def eval {C : Type} [Zero C] [Add C] (y : ℕ → C) : SumTree → C
  | zero => 0
  | leaf i => y i
  | add l r => l.eval y + r.eval y

/-- A sum of the numbers `0, …, n - 1`, each exactly once, with at most one superfluous addition of a
zero. -/
def Sums (t : SumTree) (n : ℕ) : Prop := t.leaves.Perm (List.range n) ∧ t.adds ≤ n

end SumTree
end Adwt
