import Verif.Num.Rounding
import Mathlib.Algebra.Order.Field.Power

/-!
# IEEE round-to-nearest-even with a 24 bit significand satisfies the laws

`rne24` has an unbounded exponent range. `ieee32` is the rounding of IEEE `float` with subnormal
numbers and overflow.
-/

set_option linter.unusedSectionVars false

namespace Adwt
variable {K : Type} [Field K] [LinearOrder K] [IsStrictOrderedRing K] [FloorRing K]

/-- Round to the nearest integer, ties to even. -/
def roundEven (y : K) : ℤ :=
  if y - ⌊y⌋ < 1 / 2 then ⌊y⌋ else if 1 / 2 < y - ⌊y⌋ then ⌊y⌋ + 1
  else if Even ⌊y⌋ then ⌊y⌋ else ⌊y⌋ + 1

/-- The exponent of the unit in the last place of a 24 bit significand. -/
def ulpExp (x : K) : ℤ := Int.log 2 |x| - 23

/-- Round to nearest, ties to even, 24 significant bits. -/
def rne24 (x : K) : K := (roundEven (x / 2 ^ ulpExp x) : K) * 2 ^ ulpExp x

theorem roundEven_err (y : K) : |(roundEven y : K) - y| ≤ 1 / 2 := by
  have h1 := Int.floor_le y
  have h2 := Int.lt_floor_add_one y
  unfold roundEven
  split_ifs <;> rw [abs_le] <;> constructor <;> push_cast <;> linarith

@[simp] theorem roundEven_int (n : ℤ) : roundEven (n : K) = n := by
  simp [roundEven]

theorem roundEven_ge {y : K} {n : ℤ} (h : (n : K) ≤ y) : n ≤ roundEven y := by
  have : n ≤ ⌊y⌋ := Int.le_floor.2 h
  unfold roundEven; split_ifs <;> omega

theorem roundEven_le {y : K} {n : ℤ} (h : y ≤ (n : K)) : roundEven y ≤ n := by
  by_cases hy : y = n
  · subst hy; simp
  · have hlt : y < n := lt_of_le_of_ne h hy
    have : ⌊y⌋ < n := Int.floor_lt.2 hlt
    unfold roundEven; split_ifs <;> omega

theorem roundEven_mono : Monotone (roundEven : K → ℤ) := by
  intro x y hxy
  have hf : ⌊x⌋ ≤ ⌊y⌋ := Int.floor_mono hxy
  rcases hf.lt_or_eq with hlt | heq
  · have h1 : roundEven x ≤ ⌊x⌋ + 1 := by unfold roundEven; split_ifs <;> omega
    have h2 : ⌊y⌋ ≤ roundEven y := by unfold roundEven; split_ifs <;> omega
    omega
  · unfold roundEven
    rw [heq]
    split_ifs <;> first | omega | (exfalso; linarith)

theorem roundEven_neg (y : K) : roundEven (-y) = -roundEven y := by
  by_cases hi : y = ⌊y⌋
  · rw [hi, ← Int.cast_neg, roundEven_int, roundEven_int]
  · have h1 := Int.floor_le y
    have h2 := Int.lt_floor_add_one y
    have h3 : (⌊y⌋ : K) < y := lt_of_le_of_ne h1 (Ne.symm hi)
    have hfl : ⌊-y⌋ = -⌊y⌋ - 1 := by
      rw [Int.floor_eq_iff]; push_cast; constructor <;> linarith
    unfold roundEven
    rw [hfl]
    push_cast
    have he : Even (-⌊y⌋ - 1) ↔ ¬ Even ⌊y⌋ := by
      rw [Int.even_sub, even_neg]; simp
    simp only [he]
    split_ifs <;> first | omega | (exfalso; linarith)

theorem log2_scale {x : K} (hx : 0 < x) (n : ℤ) : Int.log 2 (x * 2 ^ n) = Int.log 2 x + n := by
  have h0 : (0 : K) < x * 2 ^ n := by positivity
  have key : ∀ m : ℤ, m ≤ Int.log 2 (x * 2 ^ n) ↔ m ≤ Int.log 2 x + n := by
    intro m
    rw [← Int.zpow_le_iff_le_log (by norm_num) h0, ← sub_le_iff_le_add,
      ← Int.zpow_le_iff_le_log (by norm_num) hx]
    push_cast
    rw [zpow_sub₀ (by norm_num), div_le_iff₀ (by positivity)]
  exact le_antisymm ((key _).1 le_rfl) ((key _).2 le_rfl)

theorem ulpExp_scale {x : K} (hx : x ≠ 0) (n : ℤ) : ulpExp (x * 2 ^ n) = ulpExp x + n := by
  unfold ulpExp
  have h2 : |(2 : K) ^ n| = 2 ^ n := abs_of_pos (by positivity)
  rw [abs_mul, h2, log2_scale (abs_pos.2 hx)]
  ring

@[simp] theorem rne24_zero : rne24 (0 : K) = 0 := by
  have : roundEven (0 : K) = 0 := by simpa using roundEven_int (K := K) 0
  simp [rne24, this]

theorem rne24_zscale (x : K) (n : ℤ) : rne24 (x * 2 ^ n) = rne24 x * 2 ^ n := by
  rcases eq_or_ne x 0 with rfl | hx
  · simp
  · unfold rne24
    rw [ulpExp_scale hx, zpow_add₀ (by norm_num), mul_div_mul_right _ _ (by positivity), mul_assoc]

theorem rne24_neg (x : K) : rne24 (-x) = -rne24 x := by
  have : ulpExp (-x) = ulpExp x := by simp [ulpExp]
  unfold rne24
  rw [this, neg_div, roundEven_neg]; push_cast; ring

theorem log_bounds {x : K} (hx : 0 < x) :
    (2 : K) ^ Int.log 2 x ≤ x ∧ x < 2 ^ (Int.log 2 x + 1) := by
  constructor
  · have := Int.zpow_log_le_self (b := 2) (by norm_num) hx; norm_num at this ⊢; exact this
  · have := Int.lt_zpow_succ_log_self (b := 2) (by norm_num) x; norm_num at this ⊢; exact this

/-- the scaled significand of a positive number lies between 2^23 and 2^24 -/
theorem mant_bounds {x : K} (hx : 0 < x) :
    (2 : K) ^ 23 ≤ x / 2 ^ ulpExp x ∧ x / 2 ^ ulpExp x < 2 ^ 24 := by
  have h := log_bounds hx
  have e : ulpExp x = Int.log 2 x - 23 := by unfold ulpExp; rw [abs_of_pos hx]
  have p : (0 : K) < 2 ^ ulpExp x := by positivity
  have e1 : (2 : K) ^ Int.log 2 x = 2 ^ 23 * 2 ^ ulpExp x := by
    rw [e, ← zpow_natCast, ← zpow_add₀ (by norm_num)]; congr 1; push_cast; ring
  have e2 : (2 : K) ^ (Int.log 2 x + 1) = 2 ^ 24 * 2 ^ ulpExp x := by
    rw [e, ← zpow_natCast, ← zpow_add₀ (by norm_num)]; congr 1; push_cast; ring
  rw [le_div_iff₀ p, div_lt_iff₀ p, ← e1, ← e2]
  exact h

theorem rne24_pos_bounds {x : K} (hx : 0 < x) :
    (2 : K) ^ Int.log 2 x ≤ rne24 x ∧ rne24 x ≤ 2 ^ (Int.log 2 x + 1) := by
  have hm := mant_bounds hx
  have e : ulpExp x = Int.log 2 x - 23 := by unfold ulpExp; rw [abs_of_pos hx]
  have p : (0 : K) < 2 ^ ulpExp x := by positivity
  have e1 : (2 : K) ^ Int.log 2 x = 2 ^ 23 * 2 ^ ulpExp x := by
    rw [e, ← zpow_natCast, ← zpow_add₀ (by norm_num)]; congr 1; push_cast; ring
  have e2 : (2 : K) ^ (Int.log 2 x + 1) = 2 ^ 24 * 2 ^ ulpExp x := by
    rw [e, ← zpow_natCast, ← zpow_add₀ (by norm_num)]; congr 1; push_cast; ring
  have g : (2 ^ 23 : ℤ) ≤ roundEven (x / 2 ^ ulpExp x) :=
    roundEven_ge (by rw [Int.cast_pow]; exact_mod_cast hm.1)
  have l : roundEven (x / 2 ^ ulpExp x) ≤ (2 ^ 24 : ℤ) :=
    roundEven_le (by rw [Int.cast_pow]; exact_mod_cast hm.2.le)
  have g' : ((2 : K) ^ 23) ≤ (roundEven (x / 2 ^ ulpExp x) : K) := by exact_mod_cast g
  have l' : (roundEven (x / 2 ^ ulpExp x) : K) ≤ (2 : K) ^ 24 := by exact_mod_cast l
  unfold rne24
  rw [e1, e2]
  constructor <;> gcongr

theorem rne24_mono_pos {x y : K} (hx : 0 < x) (hxy : x ≤ y) : rne24 x ≤ rne24 y := by
  have hy : 0 < y := lt_of_lt_of_le hx hxy
  have hlog : Int.log 2 x ≤ Int.log 2 y := Int.log_mono_right hx hxy
  rcases hlog.lt_or_eq with hlt | heq
  · refine (rne24_pos_bounds hx).2.trans (le_trans ?_ (rne24_pos_bounds hy).1)
    exact zpow_le_zpow_right₀ (by norm_num) hlt
  · have : ulpExp x = ulpExp y := by
      unfold ulpExp; rw [abs_of_pos hx, abs_of_pos hy, heq]
    unfold rne24
    rw [this]
    have : roundEven (x / 2 ^ ulpExp y) ≤ roundEven (y / 2 ^ ulpExp y) :=
      roundEven_mono (by gcongr)
    have h' : (roundEven (x / 2 ^ ulpExp y) : K) ≤ roundEven (y / 2 ^ ulpExp y) := by
      exact_mod_cast this
    gcongr

theorem rne24_pos {x : K} (hx : 0 < x) : 0 < rne24 x :=
  lt_of_lt_of_le (by positivity) (rne24_pos_bounds hx).1

theorem rne24_mono : Monotone (rne24 : K → K) := by
  intro x y hxy
  rcases lt_trichotomy x 0 with hx | rfl | hx
  · have hx' := rne24_pos (x := -x) (by linarith)
    rw [rne24_neg] at hx'
    rcases lt_trichotomy y 0 with hy | rfl | hy
    · have := rne24_mono_pos (x := -y) (y := -x) (by linarith) (by linarith)
      rw [rne24_neg, rne24_neg] at this; linarith
    · simp; linarith
    · have := rne24_pos hy; linarith
  · rcases hxy.lt_or_eq with hy | rfl
    · have := rne24_pos hy; simp; linarith
    · exact le_rfl
  · exact rne24_mono_pos hx hxy

theorem rne24_int_pos (n : ℕ) (h0 : 0 < n) (hn : n ≤ 2 ^ 24) : rne24 (n : K) = n := by
  have hp : (0 : K) < n := by exact_mod_cast h0
  have hb := log_bounds hp
  have hle : Int.log 2 (n : K) ≤ 24 := by
    by_contra hc
    have h25 : (2 : K) ^ (25 : ℤ) ≤ 2 ^ Int.log 2 (n : K) :=
      zpow_le_zpow_right₀ (by norm_num) (by omega)
    have : (n : K) ≤ 2 ^ 24 := by exact_mod_cast hn
    have h2 : (2 : K) ^ (25 : ℤ) = 2 ^ 25 := by norm_cast
    rw [h2] at h25
    have : (2 : K) ^ 25 ≤ 2 ^ 24 := by linarith [hb.1]
    norm_num at this
  rcases hle.lt_or_eq with hlt | heq
  · have e : ulpExp (n : K) ≤ 0 := by unfold ulpExp; rw [abs_of_pos hp]; omega
    obtain ⟨k, hk⟩ := Int.eq_ofNat_of_zero_le (show 0 ≤ -ulpExp (n : K) by omega)
    have hu : ulpExp (n : K) = -(k : ℤ) := by omega
    unfold rne24
    rw [hu, zpow_neg, zpow_natCast, div_inv_eq_mul]
    have : ((n : K) * 2 ^ k) = (((n * 2 ^ k : ℕ) : ℤ) : K) := by push_cast; ring
    rw [this, roundEven_int, ← this, mul_assoc, mul_inv_cancel₀ (by positivity), mul_one]
  · have h1 : (2 : K) ^ (24 : ℤ) = 2 ^ 24 := by norm_cast
    have : n = 2 ^ 24 := by
      have h2 : ((2 ^ 24 : ℕ) : K) ≤ n := by
        have := hb.1; rw [heq, h1] at this; rw [Nat.cast_pow]; exact_mod_cast this
      exact le_antisymm hn (by exact_mod_cast h2)
    have e : ulpExp (n : K) = 1 := by unfold ulpExp; rw [abs_of_pos hp, heq]; norm_num
    unfold rne24
    rw [e, this]
    have h3 : ((2 ^ 24 : ℕ) : K) / 2 ^ (1 : ℤ) = ((2 ^ 23 : ℤ) : K) := by
      push_cast; rw [zpow_one]; norm_num
    rw [h3, roundEven_int]; push_cast; rw [zpow_one]; norm_num

theorem rne24_int (n : ℤ) (hn : |n| ≤ 2 ^ 24) : rne24 (n : K) = n := by
  rcases lt_trichotomy n 0 with h | rfl | h
  · obtain ⟨k, hk⟩ := Int.eq_ofNat_of_zero_le (show 0 ≤ -n by omega)
    have hn' : n = -(k : ℤ) := by omega
    subst hn'
    have := rne24_int_pos (K := K) k (by omega) (by
      rw [abs_neg, abs_of_nonneg (by omega)] at hn; exact_mod_cast hn)
    push_cast; rw [rne24_neg, this]
  · simp
  · obtain ⟨k, rfl⟩ := Int.eq_ofNat_of_zero_le h.le
    have := rne24_int_pos (K := K) k (by omega) (by
      rw [abs_of_nonneg (by omega)] at hn; exact_mod_cast hn)
    simpa using this

theorem roundEven_abs_le (x : K) : |roundEven (x / 2 ^ ulpExp x)| ≤ 2 ^ 24 := by
  have pos : ∀ y : K, 0 < y → |roundEven (y / 2 ^ ulpExp y)| ≤ 2 ^ 24 := by
    intro y hy
    have hm := mant_bounds hy
    have l : roundEven (y / 2 ^ ulpExp y) ≤ (2 ^ 24 : ℤ) :=
      roundEven_le (by rw [Int.cast_pow]; exact_mod_cast hm.2.le)
    have g : (0 : ℤ) ≤ roundEven (y / 2 ^ ulpExp y) :=
      roundEven_ge (by push_cast; exact le_trans (by positivity) hm.1)
    rw [abs_of_nonneg g]; exact l
  rcases lt_trichotomy x 0 with h | rfl | h
  · have := pos (-x) (by linarith)
    have e : ulpExp (-x) = ulpExp x := by simp [ulpExp]
    rwa [e, neg_div, roundEven_neg, abs_neg] at this
  · have : roundEven (0 : K) = 0 := by simpa using roundEven_int (K := K) 0
    simp [this]
  · exact pos x h

theorem rne24_idem (x : K) : rne24 (rne24 x) = rne24 x := by
  conv_lhs => rw [show rne24 x = (roundEven (x / 2 ^ ulpExp x) : K) * 2 ^ ulpExp x from rfl]
  rw [rne24_zscale, rne24_int _ (roundEven_abs_le x)]
  rfl

theorem rne24_eq_zero {x : K} (h : rne24 x = 0) : x = 0 := by
  rcases lt_trichotomy x 0 with hx | hx | hx
  · have := rne24_pos (x := -x) (by linarith)
    rw [rne24_neg, h] at this; simp at this
  · exact hx
  · have := rne24_pos hx; linarith

theorem rne24_dyadic (k n : ℤ) (hk : |k| ≤ 2 ^ 24) : rne24 ((k : K) * 2 ^ n) = (k : K) * 2 ^ n := by
  rw [rne24_zscale, rne24_int k hk]

/-- Rounding with unbounded exponent range satisfies the laws. -/
theorem rounding_rne24 : Rounding (rne24 : K → K) where
  mono := rne24_mono
  idem := rne24_idem
  symm x h := by rw [rne24_neg, h]
  range k n hk _ _ := rne24_dyadic k n hk
  up x n h _ := by
    have := rne24_zscale x (n : ℤ)
    rw [zpow_natCast, h] at this; exact this
  sub x y _ _ _ _ h := sub_eq_zero.1 (rne24_eq_zero h)

/-! ### subnormal numbers and overflow -/

/-- Round to nearest, ties to even, to 24 significant bits but at most to the multiples of
`2^-149`, the smallest subnormal `float`. -/
def rneSub (x : K) : K :=
  (roundEven (x / 2 ^ max (ulpExp x) (-149)) : K) * 2 ^ max (ulpExp x) (-149)

/-- The rounding of IEEE `float`, round to nearest even: 24 significant bits, subnormal numbers
down to `2^-149`, and overflow. (`±2^128` stands for the infinities.) -/
def ieee32 (x : K) : K := max (-2 ^ 128) (min (2 ^ 128) (rneSub x))

theorem ulp_lt {x : K} (h : ulpExp x < -149) : |x| < 1 / 2 ^ 126 := by
  rcases eq_or_ne x 0 with rfl | hx
  · rw [abs_zero]; positivity
  · have hb := (log_bounds (abs_pos.2 hx)).2
    have : (2 : K) ^ (Int.log 2 |x| + 1) ≤ 2 ^ (-126 : ℤ) :=
      zpow_le_zpow_right₀ (by norm_num) (by unfold ulpExp at h; omega)
    have e : (2 : K) ^ (-126 : ℤ) = 1 / 2 ^ 126 := by
      rw [zpow_neg, one_div]; norm_cast
    rw [e] at this; linarith

theorem ulp_ge {x : K} (h : -149 ≤ ulpExp x) : x = 0 ∨ 1 / 2 ^ 126 ≤ |x| := by
  rcases eq_or_ne x 0 with rfl | hx
  · left; rfl
  · right
    have hb := (log_bounds (abs_pos.2 hx)).1
    have : (2 : K) ^ (-126 : ℤ) ≤ 2 ^ (Int.log 2 |x|) :=
      zpow_le_zpow_right₀ (by norm_num) (by unfold ulpExp at h; omega)
    have e : (2 : K) ^ (-126 : ℤ) = 1 / 2 ^ 126 := by
      rw [zpow_neg, one_div]; norm_cast
    rw [e] at this; linarith

theorem rneSub_normal {x : K} (h : -149 ≤ ulpExp x) : rneSub x = rne24 x := by
  unfold rneSub rne24; rw [max_eq_left h]

theorem rneSub_tiny {x : K} (h : ulpExp x < -149) :
    rneSub x = (roundEven (x * 2 ^ 149) : K) / 2 ^ 149 := by
  have e : (2 : K) ^ (-149 : ℤ) = 1 / 2 ^ 149 := by rw [zpow_neg, one_div]; norm_cast
  unfold rneSub
  rw [max_eq_right h.le, e, div_div_eq_mul_div, div_one, mul_one_div]

/-- numbers with at most 24 significant bits that are multiples of 2^-149 are not changed -/
theorem rneSub_exact (k n : ℤ) (hk : |k| ≤ 2 ^ 24) (hn : -149 ≤ n) :
    rneSub ((k : K) * 2 ^ n) = (k : K) * 2 ^ n := by
  rcases le_or_gt (-149) (ulpExp ((k : K) * 2 ^ n)) with h | h
  · rw [rneSub_normal h, rne24_dyadic k n hk]
  · rw [rneSub_tiny h]
    obtain ⟨j, hj⟩ := Int.eq_ofNat_of_zero_le (show 0 ≤ n + 149 by omega)
    have e : (k : K) * 2 ^ n * 2 ^ 149 = ((k * 2 ^ j : ℤ) : K) := by
      have : n = (j : ℤ) - 149 := by omega
      rw [this, zpow_sub₀ (by norm_num), zpow_natCast]
      have : ((2 : K) ^ (149 : ℤ)) = 2 ^ 149 := by norm_cast
      rw [this, mul_assoc, div_mul_cancel₀ _ (by positivity), Int.cast_mul, Int.cast_pow]
      norm_num
    rw [e, roundEven_int, ← e, mul_div_cancel_right₀ _ (by positivity)]

theorem rneSub_form (x : K) : ∃ k n : ℤ, |k| ≤ 2 ^ 24 ∧ -149 ≤ n ∧ rneSub x = (k : K) * 2 ^ n := by
  rcases le_or_gt (-149) (ulpExp x) with h | h
  · exact ⟨_, _, roundEven_abs_le x, h, rneSub_normal h⟩
  · refine ⟨roundEven (x * 2 ^ 149), -149, ?_, le_rfl, ?_⟩
    · have hx := abs_lt.1 (ulp_lt h)
      have e : (1 : K) / 2 ^ 126 * 2 ^ 149 = 2 ^ 23 := by norm_num
      have h1 : x * 2 ^ 149 ≤ ((2 ^ 23 : ℤ) : K) := by
        have := mul_le_mul_of_nonneg_right hx.2.le (show (0 : K) ≤ 2 ^ 149 by positivity)
        rw [e] at this; norm_num at this ⊢; exact this
      have h2 : ((-2 ^ 23 : ℤ) : K) ≤ x * 2 ^ 149 := by
        have := mul_le_mul_of_nonneg_right hx.1.le (show (0 : K) ≤ 2 ^ 149 by positivity)
        rw [neg_mul, e] at this; norm_num at this ⊢; exact this
      have := roundEven_le h1
      have := roundEven_ge h2
      rw [abs_le]; constructor <;> omega
    · have e : (2 : K) ^ (-149 : ℤ) = 1 / 2 ^ 149 := by rw [zpow_neg, one_div]; norm_cast
      rw [rneSub_tiny h, e, mul_one_div]

theorem rneSub_neg (x : K) : rneSub (-x) = -rneSub x := by
  have : ulpExp (-x) = ulpExp x := by simp [ulpExp]
  unfold rneSub
  rw [this, neg_div, roundEven_neg]; push_cast; ring

theorem rneSub_min : rneSub (1 / 2 ^ 126 : K) = 1 / 2 ^ 126 := by
  have := rneSub_exact (K := K) 1 (-126) (by norm_num) (by norm_num)
  have e : (2 : K) ^ (-126 : ℤ) = 1 / 2 ^ 126 := by rw [zpow_neg, one_div]; norm_cast
  rwa [Int.cast_one, one_mul, e] at this

theorem rneSub_tiny_le {x : K} (h : ulpExp x < -149) : |rneSub x| ≤ 1 / 2 ^ 126 := by
  have e : (1 : K) / 2 ^ 126 * 2 ^ 149 = 2 ^ 23 := by norm_num
  have hx := abs_lt.1 (ulp_lt h)
  have h1 : x * 2 ^ 149 ≤ ((2 ^ 23 : ℤ) : K) := by
    have := mul_le_mul_of_nonneg_right hx.2.le (show (0 : K) ≤ 2 ^ 149 by positivity)
    rw [e] at this; norm_num at this ⊢; exact this
  have h2 : ((-2 ^ 23 : ℤ) : K) ≤ x * 2 ^ 149 := by
    have := mul_le_mul_of_nonneg_right hx.1.le (show (0 : K) ≤ 2 ^ 149 by positivity)
    rw [neg_mul, e] at this; norm_num at this ⊢; exact this
  have l1 : ((roundEven (x * 2 ^ 149) : ℤ) : K) ≤ ((2 ^ 23 : ℤ) : K) := by
    exact_mod_cast roundEven_le h1
  have l2 : ((-2 ^ 23 : ℤ) : K) ≤ ((roundEven (x * 2 ^ 149) : ℤ) : K) := by
    exact_mod_cast roundEven_ge h2
  push_cast at l1 l2
  rw [rneSub_tiny h, abs_le, le_div_iff₀ (by positivity), div_le_iff₀ (by positivity), neg_mul, e]
  rw [show (2 : K) ^ 23 = 8388608 by norm_num]; exact ⟨l2, l1⟩

theorem rneSub_mono : Monotone (rneSub : K → K) := by
  intro x y hxy
  have big : ∀ z : K, 1 / 2 ^ 126 ≤ z → 1 / 2 ^ 126 ≤ rne24 z := by
    intro z hz
    have := rne24_mono hz
    have e : (2 : K) ^ (-126 : ℤ) = 1 / 2 ^ 126 := by rw [zpow_neg, one_div]; norm_cast
    have h1 := rne24_dyadic (K := K) 1 (-126) (by norm_num)
    rw [Int.cast_one, one_mul, e] at h1
    rwa [h1] at this
  rcases le_or_gt (-149) (ulpExp x) with hx | hx
  · rcases le_or_gt (-149) (ulpExp y) with hy | hy
    · rw [rneSub_normal hx, rneSub_normal hy]; exact rne24_mono hxy
    · have h1 := abs_lt.1 (ulp_lt hy)
      have h2 := abs_le.1 (rneSub_tiny_le hy)
      rcases ulp_ge hx with rfl | h3
      · rw [rneSub_normal hx, rne24_zero, rneSub_tiny hy]
        have : (0 : ℤ) ≤ roundEven (y * 2 ^ 149) := roundEven_ge (by push_cast; positivity)
        have : (0 : K) ≤ roundEven (y * 2 ^ 149) := by exact_mod_cast this
        positivity
      · rcases le_abs.1 h3 with h3 | h3
        · linarith
        · have := big _ h3
          rw [rne24_neg] at this
          rw [rneSub_normal hx]; linarith
  · have h1 := abs_lt.1 (ulp_lt hx)
    have h2 := abs_le.1 (rneSub_tiny_le hx)
    rcases le_or_gt (-149) (ulpExp y) with hy | hy
    · rcases ulp_ge hy with rfl | h3
      · rw [rneSub_normal hy, rne24_zero, rneSub_tiny hx]
        have : roundEven (x * 2 ^ 149) ≤ (0 : ℤ) :=
          roundEven_le (by push_cast; exact mul_nonpos_of_nonpos_of_nonneg hxy (by positivity))
        have : (roundEven (x * 2 ^ 149) : K) ≤ 0 := by exact_mod_cast this
        exact div_nonpos_of_nonpos_of_nonneg this (by positivity)
      · rcases le_abs.1 h3 with h3 | h3
        · have := big _ h3
          rw [rneSub_normal hy]; linarith
        · linarith
    · rw [rneSub_tiny hx, rneSub_tiny hy]
      have := roundEven_mono (mul_le_mul_of_nonneg_right hxy (show (0 : K) ≤ 2 ^ 149 by positivity))
      have : (roundEven (x * 2 ^ 149) : K) ≤ roundEven (y * 2 ^ 149) := by exact_mod_cast this
      gcongr

theorem rneSub_inf : rneSub (2 ^ 128 : K) = 2 ^ 128 := by
  have := rneSub_exact (K := K) 1 128 (by norm_num) (by norm_num)
  have e : (2 : K) ^ (128 : ℤ) = 2 ^ 128 := by norm_cast
  rwa [Int.cast_one, one_mul, e] at this

theorem ieee32_eq {x : K} (h : |rneSub x| ≤ 2 ^ 128) : ieee32 x = rneSub x := by
  unfold ieee32
  rw [min_eq_right (abs_le.1 h).2, max_eq_right (abs_le.1 h).1]

theorem ieee32_cases (x : K) : (|rneSub x| ≤ 2 ^ 128 ∧ ieee32 x = rneSub x) ∨
    (2 ^ 128 < rneSub x ∧ ieee32 x = 2 ^ 128) ∨ (rneSub x < -2 ^ 128 ∧ ieee32 x = -2 ^ 128) := by
  have hp : (0 : K) < 2 ^ 128 := by positivity
  rcases le_or_gt (|rneSub x|) (2 ^ 128) with h | h
  · exact Or.inl ⟨h, ieee32_eq h⟩
  · right
    rcases lt_abs.1 h with h | h
    · left; refine ⟨h, ?_⟩
      unfold ieee32; rw [min_eq_left h.le, max_eq_right (by linarith)]
    · right; refine ⟨by linarith, ?_⟩
      unfold ieee32
      rw [min_eq_right (by linarith), max_eq_left (by linarith)]

/-- the floats are among the numbers not changed by `rneSub` -/
theorem rneSub_of_ieee32 {x : K} (h : ieee32 x = x) : rneSub x = x := by
  rcases ieee32_cases x with ⟨_, e⟩ | ⟨_, e⟩ | ⟨_, e⟩
  · rw [← e, h]
  · rw [e] at h; rw [← h, rneSub_inf]
  · rw [e] at h; rw [← h, rneSub_neg, rneSub_inf]

theorem rneSub_idem (x : K) : rneSub (rneSub x) = rneSub x := by
  obtain ⟨k, n, hk, hn, e⟩ := rneSub_form x
  rw [e, rneSub_exact k n hk hn]

theorem ieee32_neg (x : K) : ieee32 (-x) = -ieee32 x := by
  have hp : (0 : K) < 2 ^ 128 := by positivity
  rcases ieee32_cases x with ⟨h, e⟩ | ⟨h, e⟩ | ⟨h, e⟩
  · rw [e, ieee32_eq (by rw [rneSub_neg, abs_neg]; exact h), rneSub_neg]
  · rw [e]; unfold ieee32
    rw [rneSub_neg, min_eq_right (by linarith), max_eq_left (by linarith)]
  · rw [e]; unfold ieee32
    rw [rneSub_neg, min_eq_left (by linarith), max_eq_right (by linarith)]; ring

theorem ieee32_mono : Monotone (ieee32 : K → K) := fun _ _ h =>
  max_le_max le_rfl (min_le_min le_rfl (rneSub_mono h))

/-- On zero and on numbers between the smallest normal float and 2^127 the exponent range does not
matter. -/
theorem ieee32_normal {x : K} (h : x = 0 ∨ 1 / 2 ^ 126 ≤ |x|) (h2 : |x| ≤ 2 ^ 127) :
    ieee32 x = rne24 x := by
  have key : rneSub x = rne24 x := by
    rcases h with rfl | h
    · rcases le_or_gt (-149) (ulpExp (0 : K)) with hu | hu
      · exact rneSub_normal hu
      · rw [rneSub_tiny hu, rne24_zero, zero_mul]
        have : roundEven (0 : K) = 0 := by simpa using roundEven_int (K := K) 0
        simp [this]
    · rcases le_or_gt (-149) (ulpExp x) with hu | hu
      · exact rneSub_normal hu
      · exact absurd (ulp_lt hu) (not_lt.2 h)
  have e : rne24 (2 ^ 127 : K) = 2 ^ 127 := by
    have := rne24_dyadic (K := K) 1 127 (by norm_num)
    have e : (2 : K) ^ (127 : ℤ) = 2 ^ 127 := by norm_cast
    rwa [Int.cast_one, one_mul, e] at this
  have h1 := rne24_mono (abs_le.1 h2).2
  have h3 := rne24_mono (abs_le.1 h2).1
  rw [rne24_neg, e] at h3
  rw [e] at h1
  have h4 : (2 : K) ^ 127 ≤ 2 ^ 128 := by gcongr <;> norm_num
  rw [ieee32_eq (by rw [key, abs_le]; constructor <;> linarith), key]

/-- IEEE `float` underflow is gradual. -/
theorem gradual_ieee32 : Gradual (ieee32 : K → K) := by
  intro x y hx hy h
  have mult : ∀ z : K, ieee32 z = z → ∃ j : ℤ, z = (j : K) * (1 / 2 ^ 149) := by
    intro z hz
    obtain ⟨k, n, hk, hn, e⟩ := rneSub_form z
    rw [rneSub_of_ieee32 hz] at e
    obtain ⟨j, hj⟩ := Int.eq_ofNat_of_zero_le (show 0 ≤ n + 149 by omega)
    refine ⟨k * 2 ^ j, ?_⟩
    have : n = (j : ℤ) - 149 := by omega
    rw [e, this, zpow_sub₀ (by norm_num), zpow_natCast]
    have : ((2 : K) ^ (149 : ℤ)) = 2 ^ 149 := by norm_cast
    rw [this]; push_cast; ring
  obtain ⟨a, ha⟩ := mult x hx
  obtain ⟨b, hb⟩ := mult y hy
  have hd : x - y = ((a - b : ℤ) : K) * (1 / 2 ^ 149) := by rw [ha, hb]; push_cast; ring
  have key : ∀ z : K, 1 / 2 ^ 149 ≤ z → 0 < ieee32 z := by
    intro z hz
    have e1 : rneSub (1 / 2 ^ 149 : K) = 1 / 2 ^ 149 := by
      have := rneSub_exact (K := K) 1 (-149) (by norm_num) (by norm_num)
      have e : (2 : K) ^ (-149 : ℤ) = 1 / 2 ^ 149 := by rw [zpow_neg, one_div]; norm_cast
      rwa [Int.cast_one, one_mul, e] at this
    have h1 : ieee32 (1 / 2 ^ 149 : K) = 1 / 2 ^ 149 := by
      refine (ieee32_eq ?_).trans e1
      rw [e1, abs_of_pos (by positivity)]
      refine le_trans (b := 1) ?_ (one_le_pow₀ (by norm_num))
      rw [div_le_one (by positivity)]; exact one_le_pow₀ (by norm_num)
    have := ieee32_mono hz
    rw [h1] at this
    exact lt_of_lt_of_le (by positivity) this
  have hu : (0 : K) < 1 / 2 ^ 149 := by positivity
  rcases lt_trichotomy a b with hab | hab | hab
  · exfalso
    have h1 : ((1 : ℤ) : K) ≤ ((b - a : ℤ) : K) := by exact_mod_cast (by omega : 1 ≤ b - a)
    have := key (-(x - y)) (by
      rw [hd]; push_cast at h1 ⊢
      nlinarith)
    rw [ieee32_neg, h] at this; simp at this
  · rw [ha, hb, hab]
  · exfalso
    have h1 : ((1 : ℤ) : K) ≤ ((a - b : ℤ) : K) := by exact_mod_cast (by omega : 1 ≤ a - b)
    have := key (x - y) (by
      rw [hd]; push_cast at h1 ⊢
      nlinarith)
    rw [h] at this; exact lt_irrefl _ this

/-- IEEE `float` rounding, with subnormal numbers and overflow, satisfies the laws. -/
theorem rounding_ieee32 : Rounding (ieee32 : K → K) where
  mono := ieee32_mono
  idem x := by
    rcases ieee32_cases x with ⟨h, e⟩ | ⟨h, e⟩ | ⟨h, e⟩
    · rw [e, ieee32_eq (by rw [rneSub_idem]; exact h), rneSub_idem]
    · rw [e, ieee32_eq (by rw [rneSub_inf]; exact (abs_of_pos (by positivity)).le), rneSub_inf]
    · rw [e, ieee32_neg,
        ieee32_eq (by rw [rneSub_inf]; exact (abs_of_pos (by positivity)).le), rneSub_inf]
  symm x h := by rw [ieee32_neg, h]
  range k n hk h1 h2 := by
    have e := rneSub_exact (K := K) k n hk (by omega)
    refine (ieee32_eq ?_).trans e
    rw [e, abs_mul, abs_of_pos (show (0 : K) < 2 ^ n by positivity)]
    have a : |(k : K)| ≤ 2 ^ 24 := by
      have : ((|k| : ℤ) : K) ≤ ((2 ^ 24 : ℤ) : K) := by exact_mod_cast hk
      norm_num at this ⊢; exact this
    have b : (2 : K) ^ n ≤ 2 ^ 103 := by
      have := zpow_le_zpow_right₀ (show (1 : K) ≤ 2 by norm_num) h2
      have e : (2 : K) ^ (103 : ℤ) = 2 ^ 103 := by norm_cast
      rwa [e] at this
    calc |(k : K)| * 2 ^ n ≤ 2 ^ 24 * 2 ^ 103 := by gcongr
      _ ≤ 2 ^ 128 := by norm_num
  up x n h hb := by
    have hx := rneSub_of_ieee32 h
    obtain ⟨k, m, hk, hm, e⟩ := rneSub_form x
    have e2 : x * 2 ^ n = (k : K) * 2 ^ (m + n) := by
      rw [← hx, e, zpow_add₀ (by norm_num), zpow_natCast]; ring
    have e3 : rneSub (x * 2 ^ n) = x * 2 ^ n := by rw [e2, rneSub_exact k _ hk (by omega)]
    refine (ieee32_eq ?_).trans e3
    rw [e3]
    have h4 : (2 : K) ^ 127 ≤ 2 ^ 128 := by gcongr <;> norm_num
    exact hb.trans h4
  sub x y hx hy _ _ h := gradual_ieee32 x y hx hy h

theorem isPhase_ieee32 {x : K} (h : ieee32 x = x) : IsPhase (ieee32 : K → K) x :=
  ⟨h, Or.inl gradual_ieee32⟩

/-- Floats have 24 significant bits. -/
theorem rne24_of_ieee32 {x : K} (h : ieee32 x = x) : rne24 x = x := by
  obtain ⟨k, n, hk, -, e⟩ := rneSub_form x
  rw [rneSub_of_ieee32 h] at e
  rw [e, rne24_dyadic k n hk]

/-- absolute error: half a unit in the last place -/
theorem rne24_err (x : K) : |rne24 x - x| ≤ 2 ^ ulpExp x / 2 := by
  have p : (0 : K) < 2 ^ ulpExp x := by positivity
  have h := roundEven_err (x / 2 ^ ulpExp x)
  have e : rne24 x - x = ((roundEven (x / 2 ^ ulpExp x) : K) - x / 2 ^ ulpExp x) * 2 ^ ulpExp x := by
    unfold rne24; field_simp
  rw [e, abs_mul, abs_of_pos p]
  nlinarith

/-- relative error 2^-24 -/
theorem rne24_rel (x : K) : |rne24 x - x| ≤ |x| / 2 ^ 24 := by
  rcases eq_or_ne x 0 with rfl | hx
  · simp
  · refine (rne24_err x).trans ?_
    have hb := (log_bounds (abs_pos.2 hx)).1
    have e : ulpExp x = Int.log 2 |x| - 23 := rfl
    rw [e, zpow_sub₀ (by norm_num), show ((2 : K) ^ (23 : ℤ)) = 2 ^ 23 by norm_cast]
    rw [div_div, div_le_div_iff₀ (by positivity) (by positivity)]
    nlinarith

/-! ### double precision -/

theorem ieee32_err {x : K} (hx : |x| ≤ 2 ^ 127) :
    |ieee32 x - x| ≤ 1 / 2 ^ 24 * max |x| (1 / 2 ^ 126) := by
  by_cases h : x = 0 ∨ 1 / 2 ^ 126 ≤ |x|
  · rw [ieee32_normal h hx]
    have h1 := rne24_rel x
    rw [div_eq_mul_one_div, mul_comm] at h1
    exact h1.trans (mul_le_mul_of_nonneg_left (le_max_left _ _) (by positivity))
  · rw [not_or, not_le] at h
    have ht : ulpExp x < -149 := by
      by_contra hc
      rcases ulp_ge (not_lt.1 hc) with h1 | h1
      · exact h.1 h1
      · linarith [h.2]
    have e := rneSub_tiny_le ht
    have e2 : ieee32 x = rneSub x := ieee32_eq (e.trans (by norm_num))
    rw [e2, rneSub_tiny ht]
    have h3 := roundEven_err (x * 2 ^ 149)
    have h4 : |(roundEven (x * 2 ^ 149) : K) / 2 ^ 149 - x| ≤ 1 / 2 ^ 24 * (1 / 2 ^ 126) := by
      have e3 : (roundEven (x * 2 ^ 149) : K) / 2 ^ 149 - x =
          ((roundEven (x * 2 ^ 149) : K) - x * 2 ^ 149) * (1 / 2 ^ 149) := by
        rw [sub_mul, mul_one_div, mul_assoc, mul_one_div_cancel (by positivity), mul_one]
      rw [e3, abs_mul, abs_of_pos (by positivity : (0 : K) < 1 / 2 ^ 149)]
      calc _ ≤ (1 : K) / 2 * (1 / 2 ^ 149) := by gcongr
        _ = _ := by norm_num
    exact h4.trans (mul_le_mul_of_nonneg_left (le_max_right _ _) (by positivity))

/-- Round to nearest, ties to even, 53 significant bits. -/
def rne53 (x : K) : K :=
  (roundEven (x / 2 ^ (Int.log 2 |x| - 52)) : K) * 2 ^ (Int.log 2 |x| - 52)

/-- relative error 2^-53 -/
theorem rne53_rel (x : K) : |rne53 x - x| ≤ |x| / 2 ^ 53 := by
  rcases eq_or_ne x 0 with rfl | hx
  · have : roundEven (0 : K) = 0 := by simpa using roundEven_int (K := K) 0
    simp [rne53, this]
  · set e := Int.log 2 |x| - 52 with he
    have p : (0 : K) < 2 ^ e := by positivity
    have h := roundEven_err (x / 2 ^ e)
    have e1 : rne53 x - x = ((roundEven (x / 2 ^ e) : K) - x / 2 ^ e) * 2 ^ e := by
      unfold rne53; rw [← he]; field_simp
    rw [e1, abs_mul, abs_of_pos p]
    have hb := (log_bounds (abs_pos.2 hx)).1
    have e2 : (2 : K) ^ Int.log 2 |x| = 2 ^ 52 * 2 ^ e := by
      rw [he, ← zpow_natCast, ← zpow_add₀ (by norm_num)]; congr 1; push_cast; ring
    rw [e2] at hb
    rw [le_div_iff₀ (by positivity)]
    nlinarith

/-- Every float is a double. -/
theorem rne53_of_rne24 (x : K) (h : rne24 x = x) : rne53 x = x := by
  have e : (2 : K) ^ (Int.log 2 |x| - 52) * 2 ^ (29 : ℕ) = 2 ^ ulpExp x := by
    unfold ulpExp
    rw [← zpow_natCast, ← zpow_add₀ (by norm_num)]
    congr 1; push_cast; ring
  have h2 : x / 2 ^ (Int.log 2 |x| - 52) = ((roundEven (x / 2 ^ ulpExp x) * 2 ^ 29 : ℤ) : K) := by
    have p : (0 : K) < 2 ^ (Int.log 2 |x| - 52) := by positivity
    rw [div_eq_iff p.ne']
    push_cast
    have e' : (536870912 : K) * 2 ^ (Int.log 2 |x| - 52) = 2 ^ ulpExp x := by
      rw [← e, mul_comm]; norm_num
    rw [mul_assoc, e']
    exact h.symm
  unfold rne53
  rw [h2, roundEven_int, ← h2]
  field_simp

theorem rne53_of_ieee32 (x : K) (h : ieee32 x = x) : rne53 x = x :=
  rne53_of_rne24 x (rne24_of_ieee32 h)

end Adwt
