import Verif.Model.Maths
import Mathlib.Data.Int.Log
import Mathlib.Tactic.Linarith
import Mathlib.Tactic.Ring
import Mathlib.Tactic.FieldSimp
import Mathlib.Tactic.Positivity
import Mathlib.Tactic.NormNum
import Mathlib.Tactic.GCongr
import Mathlib.Algebra.Order.Archimedean.Basic

/-!
# Laws of float rounding

`Rounding fl` are the laws of a binary floating-point rounding used by the proofs. They are
*hypotheses* of theorems, and they are proved below for exact arithmetic (`fl = id`) and in
`Verif.Num.Rne` for IEEE round-to-nearest-even with a 24 bit significand.
-/

namespace Adwt
variable {K : Type} [Field K] [LinearOrder K] [IsStrictOrderedRing K] [FloorRing K]

/-- `x` is zero or not tiny: at least `2^-100` in magnitude. The difference of two floats of this kind
is zero or a normal number. -/
def Fine (x : K) : Prop := x = 0 ∨ 1 / 2 ^ 100 ≤ |x|

/-- Gradual underflow: the rounded difference of two different floats is not zero. -/
def Gradual (fl : K → K) : Prop := ∀ x y, fl x = x → fl y = y → fl (x - y) = 0 → x = y

/-- Laws of a binary rounding with (at least) the precision and the normal exponent range of IEEE
`float`: `k·2^n` is a float for `|k| ≤ 2^24` in the normal exponent range, floats stay floats when
scaled up by powers of two unless they overflow, and the rounded difference of two different floats
is not zero if neither of them is tiny. Nothing else is assumed of the rounding of tiny or huge
values: underflow may be gradual or flush to zero. -/
structure Rounding (fl : K → K) : Prop where
  mono : Monotone fl
  idem : ∀ x, fl (fl x) = fl x
  symm : ∀ x, fl x = x → fl (-x) = -x
  range : ∀ k n : ℤ, |k| ≤ 2 ^ 24 → -126 ≤ n → n ≤ 103 → fl ((k : K) * 2 ^ n) = (k : K) * 2 ^ n
  up : ∀ (x : K) (n : ℕ), fl x = x → |x * 2 ^ n| ≤ 2 ^ 127 → fl (x * 2 ^ n) = x * 2 ^ n
  sub : ∀ x y, fl x = x → fl y = y → Fine x → Fine y → fl (x - y) = 0 → x = y

/-- `x` is a float whose differences with others of its kind do not underflow to zero: any float if
underflow is gradual; otherwise one that is not tiny. -/
def IsPhase (fl : K → K) (x : K) : Prop := fl x = x ∧ (Gradual fl ∨ Fine x)

/-- `x` is a float, i.e. not changed by rounding. -/
def IsFl (fl : K → K) (x : K) : Prop := fl x = x

omit [IsStrictOrderedRing K] [FloorRing K] in
theorem rounding_id : Rounding (id : K → K) where
  mono := monotone_id
  idem _ := rfl
  symm _ _ := rfl
  range _ _ _ _ _ := rfl
  up _ _ _ _ := rfl
  sub _ _ _ _ _ _ h := sub_eq_zero.1 h

omit [LinearOrder K] [IsStrictOrderedRing K] [FloorRing K] in
theorem gradual_id : Gradual (id : K → K) := fun _ _ _ _ h => sub_eq_zero.1 h

omit [IsStrictOrderedRing K] [FloorRing K] in
theorem isPhase_id (x : K) : IsPhase (id : K → K) x := ⟨rfl, Or.inl gradual_id⟩

omit [IsStrictOrderedRing K] [FloorRing K] in
theorem isPhase_ge {fl : K → K} {x : K} (h : fl x = x) (hx : 1 / 2 ^ 100 ≤ |x|) : IsPhase fl x :=
  ⟨h, Or.inr (Or.inr hx)⟩

namespace Rounding
variable {fl : K → K} (h : Rounding fl)
include h

omit [FloorRing K] [IsStrictOrderedRing K] in
theorem int (n : ℤ) (hn : |n| ≤ 2 ^ 24) : fl (n : K) = n := by
  simpa using h.range n 0 hn (by norm_num) (by norm_num)
omit [FloorRing K] [IsStrictOrderedRing K] in
theorem zero : fl 0 = 0 := by simpa using h.int 0 (by norm_num)
omit [FloorRing K] [IsStrictOrderedRing K] in
theorem one : fl 1 = 1 := by simpa using h.int 1 (by norm_num)

omit [FloorRing K] [IsStrictOrderedRing K] in
theorem natCast (n : ℕ) (hn : n ≤ 2 ^ 24) : fl (n : K) = n := by
  have := h.int (n : ℤ) (by rw [abs_of_nonneg (by positivity)]; exact_mod_cast hn)
  simpa using this

omit [FloorRing K] [IsStrictOrderedRing K] in
/-- dyadic fractions with a small numerator are exact -/
theorem dyadic (k : ℤ) (n : ℕ) (hk : |k| ≤ 2 ^ 24) (hn : n ≤ 126 := by omega) :
    fl ((k : K) / 2 ^ n) = (k : K) / 2 ^ n := by
  have := h.range k (-n) hk (by omega) (by omega)
  rwa [zpow_neg, zpow_natCast, ← div_eq_mul_inv] at this

omit [FloorRing K] [IsStrictOrderedRing K] in
theorem inv_pow (n : ℕ) (hn : n ≤ 126 := by omega) : fl ((1 : K) / 2 ^ n) = 1 / 2 ^ n := by
  have := h.dyadic 1 n (by norm_num) hn
  rwa [Int.cast_one] at this

omit [FloorRing K] in
theorem half : fl (1 / 2 : K) = 1 / 2 := by
  have := h.dyadic 1 1 (by norm_num); simpa using this
omit [FloorRing K] in
theorem neg_half : fl (-(1 / 2) : K) = -(1 / 2) := by
  have := h.dyadic (-1) 1 (by norm_num)
  simp only [Int.cast_neg, Int.cast_one, pow_one] at this
  have e : (-1 / 2 : K) = -(1 / 2) := by ring
  rwa [e] at this

omit [FloorRing K] [IsStrictOrderedRing K] in
theorem nonneg {x : K} (hx : 0 ≤ x) : 0 ≤ fl x := by
  have := h.mono hx; rwa [h.zero] at this
omit [FloorRing K] [IsStrictOrderedRing K] in
theorem nonpos {x : K} (hx : x ≤ 0) : fl x ≤ 0 := by
  have := h.mono hx; rwa [h.zero] at this

omit [FloorRing K] in
/-- no underflow to zero from the smallest normal number on -/
theorem pos {x : K} (hx : 1 / 2 ^ 126 ≤ x) : 0 < fl x := by
  have := h.mono hx
  rw [h.inv_pow 126] at this
  exact lt_of_lt_of_le (by positivity) this

omit [FloorRing K] in
theorem pos_of_ge {x : K} (n : ℕ) (hx : 1 / 2 ^ n ≤ x) (hn : n ≤ 126 := by omega) : 0 < fl x :=
  h.pos (le_trans (one_div_le_one_div_of_le (by positivity)
    (pow_le_pow_right₀ (by norm_num) hn)) hx)

omit [FloorRing K] [IsStrictOrderedRing K] in
/-- the difference of two phases -/
theorem sub_ph {x y : K} (hx : IsPhase fl x) (hy : IsPhase fl y) (e : fl (x - y) = 0) : x = y := by
  rcases hx.2 with g | g
  · exact g x y hx.1 hy.1 e
  rcases hy.2 with g' | g'
  · exact g' x y hx.1 hy.1 e
  · exact h.sub x y hx.1 hy.1 g g' e

omit [FloorRing K] [IsStrictOrderedRing K] in
theorem sub_pos {x y : K} (hx : IsPhase fl x) (hy : IsPhase fl y) (hxy : 0 ≤ x - y) (hne : x ≠ y) :
    0 < fl (x - y) :=
  lt_of_le_of_ne (h.nonneg hxy) fun e => hne (h.sub_ph hx hy e.symm)

omit [FloorRing K] [IsStrictOrderedRing K] in
theorem sub_neg {x y : K} (hx : IsPhase fl x) (hy : IsPhase fl y) (hxy : x - y ≤ 0) (hne : x ≠ y) :
    fl (x - y) < 0 :=
  lt_of_le_of_ne (h.nonpos hxy) fun e => hne (h.sub_ph hx hy e)

omit [FloorRing K] [IsStrictOrderedRing K] in
theorem sub_eq_zero_iff {x y : K} (hx : IsPhase fl x) (hy : IsPhase fl y) :
    fl (x - y) = 0 ↔ x = y := by
  refine ⟨h.sub_ph hx hy, fun e => ?_⟩
  rw [e, sub_self, h.zero]

omit [FloorRing K] [IsStrictOrderedRing K] in
theorem zero_ph : IsPhase fl 0 := ⟨h.zero, Or.inr (Or.inl rfl)⟩

omit [FloorRing K] in
theorem one_ph : IsPhase fl 1 := isPhase_ge h.one (by
  rw [abs_one, div_le_one (by positivity)]; exact one_le_pow₀ (by norm_num))

omit [FloorRing K] in
theorem neg_one_ph : IsPhase fl (-1) := isPhase_ge (h.symm _ h.one) (by
  rw [abs_neg, abs_one, div_le_one (by positivity)]; exact one_le_pow₀ (by norm_num))

omit [FloorRing K] in
/-- a float of magnitude at least `1/2` -/
theorem big_ph {x : K} (hx : fl x = x) (hb : 1 / 2 ≤ |x|) : IsPhase fl x := isPhase_ge hx (by
  refine le_trans ?_ hb
  exact one_div_le_one_div_of_le (by norm_num) (by norm_num))

omit [FloorRing K] [IsStrictOrderedRing K] in
theorem neg_one : fl (-1) = -1 := h.symm _ h.one

omit [FloorRing K] in
theorem dyadic_ph (k n : ℕ) (hk : k ≤ 2 ^ 24) (hn : n ≤ 100 := by omega) :
    IsPhase fl ((k : K) / 2 ^ n) := by
  have := h.dyadic (k : ℤ) n (by rw [abs_of_nonneg (by positivity)]; exact_mod_cast hk)
  refine ⟨by simpa using this, Or.inr ?_⟩
  rcases Nat.eq_zero_or_pos k with rfl | h0
  · left; simp
  · right
    rw [abs_of_nonneg (by positivity)]
    have h1 : (1 : K) ≤ k := by exact_mod_cast h0
    calc (1 : K) / 2 ^ 100 ≤ 1 / 2 ^ n :=
          one_div_le_one_div_of_le (by positivity) (pow_le_pow_right₀ (by norm_num) (by omega))
      _ ≤ k / 2 ^ n := by gcongr

omit [FloorRing K] in
/-- a float above `-1` plus one -/
theorem add_one_pos {x : K} (hx : fl x = x) (h1 : -1 < x) : 0 < fl (x + 1) := by
  rcases le_or_gt x (-(1 / 2)) with hb | hb
  · have := h.sub_pos (h.big_ph hx (by rw [abs_of_nonpos (by linarith)]; linarith)) h.neg_one_ph
      (by linarith) (by linarith)
    rwa [sub_neg_eq_add] at this
  · have := h.mono (show (1 / 2 : K) ≤ x + 1 by linarith)
    rw [h.half] at this
    linarith

omit [FloorRing K] in
/-- a float below 1 minus one -/
theorem sub_one_neg {x : K} (hx : fl x = x) (h1 : x < 1) : fl (x - 1) < 0 := by
  rcases le_or_gt (1 / 2) x with hb | hb
  · exact h.sub_neg (h.big_ph hx (by rw [abs_of_nonneg (by linarith)]; exact hb)) h.one_ph
      (by linarith) (by linarith)
  · have := h.mono (show x - 1 ≤ -(1 / 2 : K) by linarith)
    rw [h.neg_half] at this
    linarith

omit [FloorRing K] in
/-- one minus a float below 1 -/
theorem one_sub_pos {x : K} (hx : fl x = x) (h1 : x < 1) : 0 < fl (1 - x) := by
  rcases le_or_gt (1 / 2) x with hb | hb
  · exact h.sub_pos h.one_ph (h.big_ph hx (by rw [abs_of_nonneg (by linarith)]; exact hb))
      (by linarith) (by linarith)
  · have := h.mono (show (1 / 2 : K) ≤ 1 - x by linarith)
    rw [h.half] at this
    linarith

omit [FloorRing K] [IsStrictOrderedRing K] in
theorem le_of_le {x y : K} (hy : fl y = y) (hxy : x ≤ y) : fl x ≤ y := by
  have := h.mono hxy; rwa [hy] at this
omit [FloorRing K] [IsStrictOrderedRing K] in
theorem ge_of_ge {x y : K} (hy : fl y = y) (hxy : y ≤ x) : y ≤ fl x := by
  have := h.mono hxy; rwa [hy] at this

end Rounding
end Adwt
