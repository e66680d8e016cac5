import Verif.Proofs.Maths

/-!
# C44-C47: `adwt/maths.hpp`
-/

set_option linter.unusedSectionVars false

namespace Adwt.Props
variable {K : Type} [Field K] [LinearOrder K] [IsStrictOrderedRing K] [FloorRing K]

/-! ### C44 -/

/-- C44. For every float `x` in the range of `int` (IEEE single precision), `maths::floor` returns
the mathematical floor. -/
theorem C44_floor (x : K) (hx : ieee32 x = x) (h1 : -2 ^ 31 ≤ x) (h2 : x < 2 ^ 31) :
    Maths.floor ieee32 x = .ok ⌊x⌋ :=
  Maths.floor_eq h1 h2 (Maths.ieee32_trunc hx h1 h2)

/-- C44. For every float `x` in the range of `int`, `maths::ceil` returns the mathematical
ceiling. -/
theorem C44_ceil (x : K) (hx : ieee32 x = x) (h1 : -2 ^ 31 ≤ x) (h2 : x < 2 ^ 31) :
    Maths.ceil ieee32 x = .ok ⌈x⌉ :=
  Maths.ceil_eq h1 h2 (Maths.ieee32_trunc hx h1 h2)

/-- C44, for any rounding obeying the laws: arguments up to `2^24` in magnitude, floats or not. -/
theorem C44_any_rounding (fl : K → K) (hf : Rounding fl) (x : K) (h1 : -2 ^ 24 ≤ x)
    (h2 : x ≤ 2 ^ 24) : Maths.floor fl x = .ok ⌊x⌋ ∧ Maths.ceil fl x = .ok ⌈x⌉ :=
  ⟨Maths.floor_small hf h1 h2, Maths.ceil_small hf h1 h2⟩

/-- Outside the range of `int` the conversion is undefined behaviour. -/
theorem C44_out_of_range (fl : K → K) (x : K) (h : 2 ^ 31 ≤ x) :
    Maths.floor fl x = .error .castOverflow := by
  have h0 : (0 : K) ≤ x := le_trans (by positivity) h
  have e2 : ((2 ^ 31 : ℤ) : K) = 2 ^ 31 := by rw [Int.cast_pow]; norm_num
  have : 2 ^ 31 ≤ ⌊x⌋ := Int.le_floor.2 (by rw [e2]; exact h)
  unfold Maths.floor toInt
  rw [trunc_nonneg h0, if_neg (by omega)]; rfl

-- the hypotheses of `C44_floor` hold for the float -2.5, and the answer is -3
example : ieee32 (-5 / 2 : ℚ) = -5 / 2 ∧ -2 ^ 31 ≤ (-5 / 2 : ℚ) ∧ (-5 / 2 : ℚ) < 2 ^ 31 := by
  refine ⟨?_, by norm_num, by norm_num⟩
  have := (rounding_ieee32 (K := ℚ)).dyadic (-5) 1 (by norm_num)
  simpa using this

example : Maths.floor id (-5 / 2 : ℚ) = .ok (-3) := by
  rw [Maths.floor_id (by norm_num) (by norm_num)]; congr 1; rw [Int.floor_eq_iff]; norm_num

/-! ### C45 -/

/-- C45, integers: for `-t ≤ v < 2t` the result is the remainder of `v` modulo `t`, and no
assertion fails. -/
theorem C45_reduce_int (dbg : Bool) (v t : ℤ) (ht : 0 < t) (h1 : -t ≤ v) (h2 : v < 2 * t) :
    Maths.reduceI dbg v t = .ok (v % t) := Maths.reduceI_eq ht h1 h2

/-- C45, exact reals: the result is the representative of `v` modulo `t` in `[0, t)`. -/
theorem C45_reduce_real (E : Env K) (he : E.fl = id) (v t : K) (ht : 0 < t) (h1 : -t ≤ v)
    (h2 : v < 2 * t) :
    ∃ r, Maths.reduceF E v t = .ok r ∧ 0 ≤ r ∧ r < t ∧ ∃ c : ℤ, v = r + c * t := by
  unfold Maths.reduceF
  rw [chk_true ht, chk_true ⟨by rw [he]; exact h2.le, h1⟩, he]
  simp only [R.ok_bind, R.pure_eq, id]
  refine ⟨_, rfl, ?_⟩
  split
  · refine ⟨by linarith, by linarith, 1, by push_cast; ring⟩
  · split
    · refine ⟨by linarith, by linarith, -1, by push_cast; ring⟩
    · refine ⟨by linarith, by linarith, 0, by push_cast; ring⟩

/-- C45: outside the admitted range a debug build aborts. -/
theorem C45_reduce_int_rejects (v t : ℤ) (ht : 0 < t) (h : v < -t ∨ 2 * t < v) :
    Maths.reduceI true v t = .error .assertFail := by
  unfold Maths.reduceI
  rw [chk_true ht]
  have : ¬ (v ≤ 2 * t ∧ v ≥ -t) := by omega
  simp [chk, this]

/-- C45 fails at the edge the assertion admits: `reduce(2t, t)` is `t`, not `0`. -/
theorem C45_edge (dbg : Bool) (t : ℤ) (ht : 0 < t) : Maths.reduceI dbg (2 * t) t = .ok t := by
  unfold Maths.reduceI
  rw [chk_true ht, chk_true (by omega)]
  simp only [R.ok_bind, R.pure_eq]
  rw [if_pos (by omega)]; congr 1; omega

/-- C45 fails for floats: reducing the float `-2^-30` modulo `1` rounds up to `1`, which is not in
`[0, 1)`. -/
theorem C45_float_edge (E : Env ℚ) (he : E.fl = ieee32) :
    Maths.reduceF E (-(1 / 2 ^ 30)) 1 = .ok 1 := by
  have h2 : rne24 (2 * 1 : ℚ) = 2 := by
    rw [mul_one]; simpa using rne24_int (K := ℚ) 2 (by norm_num)
  have hr : rne24 (-(1 / 2 ^ 30) + 1 : ℚ) = 1 := by
    apply le_antisymm
    · have := rne24_mono (show (-(1 / 2 ^ 30) + 1 : ℚ) ≤ 1 by norm_num)
      rwa [show rne24 (1 : ℚ) = 1 by simpa using rne24_int (K := ℚ) 1 (by norm_num)] at this
    · have hpos : (0 : ℚ) < -(1 / 2 ^ 30) + 1 := by norm_num
      have hlog : Int.log 2 (-(1 / 2 ^ 30) + 1 : ℚ) = -1 := by
        have hb := log_bounds hpos
        have h1 : -1 ≤ Int.log 2 (-(1 / 2 ^ 30) + 1 : ℚ) := by
          rw [← Int.zpow_le_iff_le_log (by norm_num) hpos]; norm_num
        have h3 : Int.log 2 (-(1 / 2 ^ 30) + 1 : ℚ) < 0 := by
          by_contra hc
          rw [not_lt, ← Int.zpow_le_iff_le_log (by norm_num) hpos] at hc
          norm_num at hc
        omega
      have hu : ulpExp (-(1 / 2 ^ 30) + 1 : ℚ) = -24 := by
        unfold ulpExp; rw [abs_of_pos hpos, hlog]; norm_num
      have hn : roundEven ((-(1 / 2 ^ 30) + 1 : ℚ) / 2 ^ (-24 : ℤ)) = 2 ^ 24 := by
        have hfl : ⌊(-(1 / 2 ^ 30) + 1 : ℚ) / 2 ^ (-24 : ℤ)⌋ = 2 ^ 24 - 1 := by
          rw [Int.floor_eq_iff]; norm_num
        unfold roundEven
        rw [hfl]; norm_num
      unfold rne24
      rw [hu, hn]; norm_num
  have h2' : ieee32 (2 * 1 : ℚ) = 2 := by
    rw [ieee32_normal (Or.inr (by norm_num)) (by norm_num), h2]
  have hr' : ieee32 (-(1 / 2 ^ 30) + 1 : ℚ) = 1 := by
    rw [ieee32_normal (Or.inr (by norm_num [abs_of_pos])) (by norm_num [abs_of_pos]), hr]
  unfold Maths.reduceF
  rw [chk_true (by norm_num), chk_true ⟨by rw [he, h2']; norm_num, by norm_num⟩, he, hr']
  norm_num

example : Maths.reduceI true (-3) 8 = .ok 5 := by decide

/-! ### C46 -/

/-- C46: from 0 to below `2^20`, and for any admissible `log2f`, `maths::isPowerOfTwo` is exact. -/
theorem C46_isPowerOfTwo (E : Env K) (hf : Rounding E.fl) (hl : Log2Spec E.log2f) (v : ℕ)
    (h2 : v < 2 ^ 20) :
    ∃ b, Maths.isPowerOfTwo E v = .ok b ∧ (b = true ↔ ∃ k, v = 2 ^ k) := by
  rcases Nat.eq_zero_or_pos v with h0 | h1
  · refine ⟨false, by rw [h0]; simp [Maths.isPowerOfTwo], ?_⟩
    simp only [Bool.false_eq_true, false_iff, not_exists]
    intro k
    have : 0 < 2 ^ k := by positivity
    omega
  have hfv : E.fl ((v : ℤ) : K) = v := by
    rw [hf.int v (by rw [abs_of_nonneg (by positivity)]; omega)]; simp
  obtain ⟨k, hk1, hk2⟩ : ∃ k, 2 ^ k ≤ v ∧ v < 2 ^ (k + 1) :=
    ⟨Nat.log 2 v, Nat.pow_log_le_self 2 (by omega), Nat.lt_pow_succ_log_self (by norm_num) v⟩
  have hk : k ≤ 19 := by
    by_contra hc
    have : 2 ^ 20 ≤ 2 ^ k := Nat.pow_le_pow_right (by norm_num) (by omega)
    omega
  have hkK : (k : K) ≤ 19 := by exact_mod_cast hk
  unfold Maths.isPowerOfTwo
  rw [if_neg (by omega)]
  simp only [hfv]
  rcases hk1.lt_or_eq with hlt | heq
  · obtain ⟨a, b⟩ := hl.between v k h2 hlt hk2
    have h0 : (0 : K) ≤ k := by positivity
    obtain ⟨rf, rc⟩ := C44_any_rounding E.fl hf (E.log2f v) (by linarith)
      (by have : (20 : K) ≤ 2 ^ 24 := by norm_num
          linarith)
    have e1 : ⌊E.log2f (v : K)⌋ = k := by
      rw [Int.floor_eq_iff]; exact ⟨by exact_mod_cast a.le, by exact_mod_cast b⟩
    have e2 : ⌈E.log2f (v : K)⌉ = k + 1 := by
      rw [Int.ceil_eq_iff]; push_cast; exact ⟨by simpa using a, b.le⟩
    rw [rc, rf, e1, e2]
    refine ⟨false, by simp, ?_⟩
    simp only [Bool.false_eq_true, false_iff, not_exists]
    rintro k' rfl
    have h3 : k < k' := (Nat.pow_lt_pow_iff_right (by norm_num)).1 hlt
    have h4 : k' < k + 1 := (Nat.pow_lt_pow_iff_right (by norm_num)).1 hk2
    omega
  · have e : E.log2f (v : K) = ((k : ℤ) : K) := by
      rw [← heq]; push_cast
      have := hl.pow (k : ℤ) (by rw [abs_of_nonneg (by positivity)]; omega)
      rw [zpow_natCast] at this; simpa using this
    obtain ⟨rf, rc⟩ := C44_any_rounding E.fl hf (E.log2f v)
      (by rw [e]; have : (0 : K) ≤ k := by positivity
          push_cast; linarith)
      (by rw [e]; have : (20 : K) ≤ 2 ^ 24 := by norm_num
          push_cast; linarith)
    rw [rc, rf, e]
    refine ⟨true, by simp, by simpa using ⟨k, heq.symm⟩⟩

/-- C46 is false from `2^21` on: a correctly rounded `log2f` makes `2^21+1` a power of two. -/
theorem C46_false_above (E : Env ℝ) (he : E.fl = ieee32)
    (hl : E.log2f = fun x => ieee32 (Real.logb 2 x)) :
    Maths.isPowerOfTwo E (2 ^ 21 + 1) = .ok true ∧ ¬ ∃ k, 2 ^ 21 + 1 = 2 ^ k := by
  constructor
  · have hv : ieee32 (((2 ^ 21 + 1 : ℤ)) : ℝ) = ((2 ^ 21 + 1 : ℤ) : ℝ) :=
      rounding_ieee32.int _ (by norm_num)
    have hlb : Real.logb 2 (((2 ^ 21 + 1 : ℤ)) : ℝ) = 21 + Real.logb 2 (1 + 1 / 2 ^ 21) := by
      have : (((2 ^ 21 + 1 : ℤ)) : ℝ) = 2 ^ 21 * (1 + 1 / 2 ^ 21) := by push_cast; norm_num
      rw [this, Real.logb_mul (by positivity) (by positivity)]
      have e := logb_pow (21 : ℤ)
      rw [show ((2 : ℝ) ^ (21 : ℤ)) = 2 ^ 21 by norm_cast] at e
      rw [e]; norm_num
    have hup := logb_one_add_le (t := 1 / 2 ^ 21) (by positivity)
    -- sharper: log 2 > 0.69
    have hup2 : Real.logb 2 (1 + 1 / 2 ^ 21) < 1 / 2 ^ 20 := by
      have hlg := Real.log_le_sub_one_of_pos (x := 1 + 1 / 2 ^ 21) (by positivity)
      have h2 : 0.69 < Real.log 2 := by have := Real.log_two_gt_d9; linarith
      unfold Real.logb
      rw [div_lt_iff₀ (by linarith)]
      have : (1 : ℝ) / 2 ^ 20 * 0.69 < 1 / 2 ^ 20 * Real.log 2 := by
        apply mul_lt_mul_of_pos_left h2 (by positivity)
      have : (1 : ℝ) / 2 ^ 21 < 1 / 2 ^ 20 * 0.69 := by norm_num
      linarith
    have hlo := logb_one_add_ge (t := 1 / 2 ^ 21) (by positivity) (by norm_num)
    have hlo0 : (0 : ℝ) < 1 / 2 ^ 21 := by positivity
    set L := Real.logb 2 (((2 ^ 21 + 1 : ℤ)) : ℝ) with hL
    have b1 : 21 < L := by rw [hlb]; linarith
    have b2 : L < 21 + 1 / 2 ^ 20 := by rw [hlb]; linarith
    have hpos : 0 < L := by linarith
    have hb2' : (1 : ℝ) / 2 ^ 20 < 1 := by norm_num
    have hlog : Int.log 2 L = 4 := by
      have h1 : 4 ≤ Int.log 2 L := by
        rw [← Int.zpow_le_iff_le_log (by norm_num) hpos]
        have : (((2 : ℕ) : ℝ)) ^ (4 : ℤ) = 16 := by norm_num
        rw [this]; linarith
      have h3 : Int.log 2 L < 5 := by
        by_contra hc
        rw [not_lt, ← Int.zpow_le_iff_le_log (by norm_num) hpos] at hc
        have : (((2 : ℕ) : ℝ)) ^ (5 : ℤ) = 32 := by norm_num
        rw [this] at hc; linarith
      omega
    have hu : ulpExp L = -19 := by unfold ulpExp; rw [abs_of_pos hpos, hlog]; norm_num
    have hr : rne24 L = 21 := by
      have e19 : (2 : ℝ) ^ (-19 : ℤ) = 1 / 2 ^ 19 := by norm_num
      have hfl : ⌊L / (1 / 2 ^ 19)⌋ = 21 * 2 ^ 19 := by
        rw [Int.floor_eq_iff]
        have : L / (1 / 2 ^ 19) = L * 2 ^ 19 := by field_simp
        rw [this]; push_cast
        constructor
        · norm_num; linarith
        · have : (1 : ℝ) / 2 ^ 20 * 2 ^ 19 = 1 / 2 := by norm_num
          have : L * 2 ^ 19 < (21 + 1 / 2 ^ 20) * 2 ^ 19 :=
            mul_lt_mul_of_pos_right b2 (by positivity)
          norm_num at this ⊢; linarith
      have hre : roundEven (L / (1 / 2 ^ 19)) = 21 * 2 ^ 19 := by
        unfold roundEven
        rw [hfl, if_pos]
        have : L / (1 / 2 ^ 19) = L * 2 ^ 19 := by field_simp
        rw [this]; push_cast
        have : L * 2 ^ 19 < (21 + 1 / 2 ^ 20) * 2 ^ 19 :=
          mul_lt_mul_of_pos_right b2 (by positivity)
        norm_num at this ⊢; linarith
      unfold rne24
      rw [hu, e19, hre]; push_cast; norm_num
    have hr' : ieee32 L = 21 := by
      rw [ieee32_normal (Or.inr ?_) ?_, hr]
      · rw [abs_of_pos hpos]; norm_num; linarith
      · rw [abs_of_pos hpos]; norm_num; linarith
    have hf : Rounding E.fl := by rw [he]; exact rounding_ieee32
    have hlv : E.log2f (E.fl (((2 ^ 21 + 1 : ℤ)) : ℝ)) = ((21 : ℤ) : ℝ) := by
      rw [he, hl, hv]; simp only []; rw [← hL, hr']; norm_num
    unfold Maths.isPowerOfTwo
    rw [if_neg (by norm_num)]
    simp only [hlv]
    obtain ⟨rf, rc⟩ := C44_any_rounding E.fl hf ((21 : ℤ) : ℝ) (by norm_num) (by norm_num)
    rw [rc, rf]; simp
  · rintro ⟨k, hk⟩
    have h1 : 2 ^ 21 < 2 ^ k := by omega
    have h2 : 2 ^ k < 2 ^ 22 := by rw [← hk]; norm_num
    have h3 := (Nat.pow_lt_pow_iff_right (a := 2) (by norm_num)).1 h1
    have h4 := (Nat.pow_lt_pow_iff_right (a := 2) (by norm_num)).1 h2
    omega

-- the hypotheses of `C46_isPowerOfTwo` are met by IEEE rounding and a correctly rounded log2f
example : Rounding (ieee32 : ℝ → ℝ) ∧ Log2Spec (fun x : ℝ => ieee32 (Real.logb 2 x)) :=
  ⟨rounding_ieee32, log2Spec_ieee32⟩

/-! ### C47 -/

/-- C47, non-negative arguments. -/
theorem C47_isOdd_nonneg (v : ℤ) (h : 0 ≤ v) : Maths.isOdd v = true ↔ Odd v := by
  unfold Maths.isOdd
  rw [beq_iff_eq, Int.tmod_eq_emod_of_nonneg h, Int.odd_iff]

/-- C47 is false for every negative odd argument: the answer is always "not odd". -/
theorem C47_isOdd_negative (v : ℤ) (h : v < 0) : Maths.isOdd v = false := by
  unfold Maths.isOdd
  have : v.tmod 2 ≤ 0 := by
    have h1 := Int.tmod_nonneg (a := -v) 2 (by omega)
    rw [Int.neg_tmod] at h1; omega
  simp only [beq_eq_false_iff_ne, ne_eq]; omega

example : Odd (-3 : ℤ) ∧ Maths.isOdd (-3) = false := by decide

end Adwt.Props
