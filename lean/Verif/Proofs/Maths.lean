import Verif.Proofs.Ok
import Verif.Spec.Log2

set_option linter.unusedSectionVars false

namespace Adwt
variable {K : Type} [Field K] [LinearOrder K] [IsStrictOrderedRing K] [FloorRing K]

theorem trunc_nonneg {x : K} (h : 0 ≤ x) : trunc x = ⌊x⌋ := by simp [trunc, h]
theorem trunc_neg {x : K} (h : x < 0) : trunc x = ⌈x⌉ := by simp [trunc, not_le.2 h]

theorem trunc_int (n : ℤ) : trunc (n : K) = n := by
  unfold trunc; split <;> simp

theorem toInt_ok {x : K} (h1 : -2 ^ 31 ≤ x) (h2 : x < 2 ^ 31) : toInt x = .ok (trunc x) := by
  have e1 : ((-2 ^ 31 : ℤ) : K) = -2 ^ 31 := by rw [Int.cast_neg, Int.cast_pow]; norm_num
  have e2 : ((2 ^ 31 : ℤ) : K) = 2 ^ 31 := by rw [Int.cast_pow]; norm_num
  have a : -2 ^ 31 ≤ trunc x ∧ trunc x < 2 ^ 31 := by
    unfold trunc
    split
    · exact ⟨Int.le_floor.2 (by rw [e1]; exact h1), Int.floor_lt.2 (by rw [e2]; exact h2)⟩
    · rename_i hx
      constructor
      · have : ((-2 ^ 31 : ℤ) : K) ≤ ⌈x⌉ := le_trans (by rw [e1]; exact h1) (Int.le_ceil x)
        exact_mod_cast this
      · have : ⌈x⌉ ≤ 0 := Int.ceil_le.2 (by push_cast; exact (not_le.1 hx).le)
        omega
  unfold toInt
  rw [if_pos a]

namespace Maths

theorem floor_eq {fl : K → K} {x : K} (h1 : -2 ^ 31 ≤ x) (h2 : x < 2 ^ 31)
    (hr : fl (trunc x : K) = trunc x) : Maths.floor fl x = .ok ⌊x⌋ := by
  unfold Maths.floor
  rw [toInt_ok h1 h2, R.ok_bind, hr]
  rcases le_or_gt 0 x with h | h
  · rw [trunc_nonneg h, if_pos (Int.floor_le x)]; rfl
  · rw [trunc_neg h]
    by_cases hx : x ≥ (⌈x⌉ : K)
    · have e : x = (⌈x⌉ : K) := le_antisymm (Int.le_ceil x) hx
      rw [if_pos hx]
      have : ⌊x⌋ = ⌈x⌉ := by rw [e]; simp
      rw [this]; rfl
    · rw [if_neg hx]
      have : ⌊x⌋ = ⌈x⌉ - 1 := by
        rw [Int.floor_eq_iff]
        have h3 := Int.ceil_lt_add_one x
        push_cast
        constructor
        · linarith
        · simp only [sub_add_cancel]; exact not_le.1 hx
      rw [this]; rfl

theorem ceil_eq {fl : K → K} {x : K} (h1 : -2 ^ 31 ≤ x) (h2 : x < 2 ^ 31)
    (hr : fl (trunc x : K) = trunc x) : Maths.ceil fl x = .ok ⌈x⌉ := by
  unfold Maths.ceil
  rw [toInt_ok h1 h2, R.ok_bind, hr]
  rcases le_or_gt 0 x with h | h
  · rw [trunc_nonneg h]
    by_cases hx : x > (⌊x⌋ : K)
    · rw [if_pos hx]
      have : ⌈x⌉ = ⌊x⌋ + 1 := by
        rw [Int.ceil_eq_iff]
        have h3 := Int.lt_floor_add_one x
        push_cast
        constructor
        · simpa using hx
        · exact h3.le
      rw [this]; rfl
    · have e : x = (⌊x⌋ : K) := le_antisymm (not_lt.1 hx) (Int.floor_le x)
      rw [if_neg hx]
      have : ⌈x⌉ = ⌊x⌋ := by rw [e]; simp
      rw [this]; rfl
  · rw [trunc_neg h, if_neg (not_lt.2 (Int.le_ceil x))]; rfl

/-- small arguments need no assumption beyond the rounding laws -/
theorem trunc_exact {fl : K → K} (hf : Rounding fl) {x : K} (h1 : -2 ^ 24 ≤ x) (h2 : x ≤ 2 ^ 24) :
    fl (trunc x : K) = trunc x := by
  apply hf.int
  have e1 : ((-2 ^ 24 : ℤ) : K) = -2 ^ 24 := by rw [Int.cast_neg, Int.cast_pow]; norm_num
  have e2 : ((2 ^ 24 : ℤ) : K) = 2 ^ 24 := by rw [Int.cast_pow]; norm_num
  rw [abs_le]
  unfold trunc
  split
  · have a : (0 : ℤ) ≤ ⌊x⌋ := Int.floor_nonneg.2 (by assumption)
    refine ⟨by omega, ?_⟩
    have : (⌊x⌋ : K) ≤ ((2 ^ 24 : ℤ) : K) := by rw [e2]; exact (Int.floor_le x).trans h2
    exact_mod_cast this
  · rename_i hx
    have a : ⌈x⌉ ≤ 0 := Int.ceil_le.2 (by push_cast; exact (not_le.1 hx).le)
    refine ⟨?_, by omega⟩
    have : ((-2 ^ 24 : ℤ) : K) ≤ ⌈x⌉ := by rw [e1]; exact h1.trans (Int.le_ceil x)
    exact_mod_cast this

theorem floor_small {fl : K → K} (hf : Rounding fl) {x : K} (h1 : -2 ^ 24 ≤ x) (h2 : x ≤ 2 ^ 24) :
    Maths.floor fl x = .ok ⌊x⌋ :=
  floor_eq (by linarith) (by linarith) (trunc_exact hf h1 h2)

theorem ceil_small {fl : K → K} (hf : Rounding fl) {x : K} (h1 : -2 ^ 24 ≤ x) (h2 : x ≤ 2 ^ 24) :
    Maths.ceil fl x = .ok ⌈x⌉ :=
  ceil_eq (by linarith) (by linarith) (trunc_exact hf h1 h2)

theorem floor_id {x : K} (h1 : -2 ^ 31 ≤ x) (h2 : x < 2 ^ 31) :
    Maths.floor id x = .ok ⌊x⌋ := floor_eq h1 h2 rfl

/-- a 24 bit float of magnitude at least `2^23` is an integer -/
theorem rne24_big_int {x : K} (hx : rne24 x = x) (hb : 2 ^ 23 ≤ |x|) : ∃ n : ℤ, x = n := by
  have hx0 : 0 < |x| := lt_of_lt_of_le (by positivity) hb
  have hlog : 23 ≤ Int.log 2 |x| := by
    rw [← Int.zpow_le_iff_le_log (by norm_num) hx0]
    have e : ((2 : ℕ) : K) ^ (23 : ℤ) = 2 ^ 23 := by norm_cast
    rw [e]; exact hb
  obtain ⟨k, hk⟩ := Int.eq_ofNat_of_zero_le (show 0 ≤ ulpExp x by unfold ulpExp; omega)
  refine ⟨roundEven (x / 2 ^ ulpExp x) * 2 ^ k, ?_⟩
  conv_lhs => rw [← hx]
  unfold rne24
  rw [hk]
  push_cast
  simp

theorem rne24_trunc {x : K} (hx : rne24 x = x) : rne24 (trunc x : K) = trunc x := by
  rcases le_or_gt (2 ^ 23) |x| with hb | hb
  · obtain ⟨n, hn⟩ := rne24_big_int hx hb
    rw [hn, trunc_int, ← hn, hx]
  · rw [abs_lt] at hb
    apply trunc_exact rounding_rne24
    · have : (2 : K) ^ 23 ≤ 2 ^ 24 := by norm_num
      linarith
    · have : (2 : K) ^ 23 ≤ 2 ^ 24 := by norm_num
      linarith

theorem ieee32_trunc {x : K} (hx : ieee32 x = x) (h1 : -2 ^ 31 ≤ x) (h2 : x < 2 ^ 31) :
    ieee32 (trunc x : K) = trunc x := by
  have h := rne24_trunc (rne24_of_ieee32 hx)
  rw [ieee32_normal ?_ ?_, h]
  · rcases eq_or_ne (trunc x) 0 with h0 | h0
    · left; rw [h0]; simp
    · right
      have : (1 : K) ≤ |(trunc x : K)| := by exact_mod_cast Int.one_le_abs h0
      exact le_trans (by norm_num) this
  · have : |(trunc x : K)| ≤ |x| := by
      rcases le_total 0 x with hx0 | hx0
      · rw [trunc_nonneg hx0, abs_of_nonneg hx0, abs_of_nonneg (by exact_mod_cast Int.floor_nonneg.2 hx0)]
        exact Int.floor_le x
      · have e : trunc x = ⌈x⌉ := by
          rcases eq_or_lt_of_le hx0 with rfl | hx0
          · simp [trunc]
          · unfold trunc; rw [if_neg (not_le.2 hx0)]
        rw [e, abs_of_nonpos hx0, abs_of_nonpos (by exact_mod_cast Int.ceil_le.2 (by simpa using hx0))]
        have := Int.le_ceil x
        linarith
    have h3 : |x| ≤ 2 ^ 31 := abs_le.2 ⟨h1, h2.le⟩
    exact this.trans (h3.trans (by norm_num))

theorem reduceI_eq {dbg : Bool} {v t : ℤ} (ht : 0 < t) (h1 : -t ≤ v) (h2 : v < 2 * t) :
    reduceI dbg v t = .ok (v % t) := by
  unfold reduceI
  rw [chk_true ht, chk_true ⟨h2.le, h1⟩]
  simp only [R.ok_bind, R.pure_eq]
  congr 1
  split
  · rw [← Int.sub_emod_right, Int.emod_eq_of_lt] <;> omega
  · split
    · rw [← Int.add_emod_right, Int.emod_eq_of_lt] <;> omega
    · rw [Int.emod_eq_of_lt] <;> omega

theorem reduceF_unit {E : Env K} (hf : Rounding E.fl) {x : K} (h0 : 0 ≤ x) (h1 : x < 1) :
    reduceF E x 1 = .ok x := by
  have h2 : E.fl (2 * 1 : K) = 2 := by
    rw [mul_one]; simpa using hf.natCast 2 (by norm_num)
  unfold reduceF
  rw [chk_true (by norm_num), chk_true ⟨by rw [h2]; linarith, by linarith⟩]
  simp [not_le.2 h1, not_lt.2 h0]

end Maths
end Adwt
