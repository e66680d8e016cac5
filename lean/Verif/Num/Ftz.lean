import Verif.Num.Rne

/-!
# Flush to zero

Audio hosts usually run their plugins with the FTZ and DAZ bits of the floating-point unit set: results
below the smallest normal number are replaced by zero. `ftz32` is IEEE binary32 rounding with that
flush. It obeys the same laws (`Rounding`), but underflow is not gradual: the difference of two
different floats can be zero if both are tiny.
-/

namespace Adwt
variable {K : Type} [Field K] [LinearOrder K] [IsStrictOrderedRing K] [FloorRing K]

/-- zero in place of numbers below the smallest normal one -/
def flush (y : K) : K := if |y| < 1 / 2 ^ 126 then 0 else y

/-- IEEE binary32 rounding in flush-to-zero mode -/
def ftz32 (x : K) : K := flush (ieee32 x)

theorem flush_cases (y : K) : (|y| < 1 / 2 ^ 126 ∧ flush y = 0) ∨ (1 / 2 ^ 126 ≤ |y| ∧ flush y = y) := by
  unfold flush
  by_cases h : |y| < 1 / 2 ^ 126
  · exact Or.inl ⟨h, if_pos h⟩
  · exact Or.inr ⟨not_lt.1 h, if_neg h⟩

theorem flush_mono : Monotone (flush : K → K) := by
  intro a b h
  rcases flush_cases a with ⟨ha, ea⟩ | ⟨ha, ea⟩ <;> rcases flush_cases b with ⟨hb, eb⟩ | ⟨hb, eb⟩ <;>
    rw [ea, eb]
  · obtain ⟨a1, a2⟩ := abs_lt.1 ha
    by_contra hc
    have hc := not_le.1 hc
    rw [abs_of_neg hc] at hb
    linarith
  · obtain ⟨b1, b2⟩ := abs_lt.1 hb
    by_contra hc
    have hc := not_le.1 hc
    rw [abs_of_pos hc] at ha
    linarith
  · exact h

theorem ftz32_neg (x : K) : ftz32 (-x) = -ftz32 x := by
  unfold ftz32 flush
  rw [ieee32_neg, abs_neg]
  split
  · simp
  · rfl

/-- a flushed float is a float, zero or normal -/
theorem ftz32_fix {x : K} : ftz32 x = x ↔ ieee32 x = x ∧ (x = 0 ∨ 1 / 2 ^ 126 ≤ |x|) := by
  unfold ftz32
  constructor
  · intro h
    rcases flush_cases (ieee32 x) with ⟨h1, e⟩ | ⟨h1, e⟩
    · have hx : x = 0 := by rw [← h, e]
      exact ⟨by rw [hx]; exact rounding_ieee32.zero, Or.inl hx⟩
    · have hx : ieee32 x = x := by rw [← e]; exact h
      exact ⟨hx, Or.inr (by rwa [hx] at h1)⟩
  · rintro ⟨h, h2⟩
    rw [h]
    unfold flush
    rcases h2 with rfl | h2
    · simp
    · rw [if_neg (not_lt.2 h2)]

/-- a float of magnitude at least `2^-100` is a multiple of `2^-123` -/
theorem multiple_of_big {x : K} (h : ieee32 x = x) (hx : 1 / 2 ^ 100 ≤ |x|) :
    ∃ j : ℤ, x = (j : K) * (1 / 2 ^ 123) := by
  have e := rne24_of_ieee32 h
  have hx0 : 0 < |x| := lt_of_lt_of_le (by positivity) hx
  have hl : (-100 : ℤ) ≤ Int.log 2 |x| := by
    have h1 := (log_bounds hx0).2
    have h3 : (2 : K) ^ (-100 : ℤ) < 2 ^ (Int.log 2 |x| + 1) := by
      rw [zpow_neg, ← one_div]
      exact lt_of_le_of_lt (by exact_mod_cast hx) h1
    have := (zpow_lt_zpow_iff_right₀ (by norm_num : (1 : K) < 2)).1 h3
    omega
  obtain ⟨d, hd⟩ : ∃ d : ℕ, ulpExp x = -123 + d := ⟨(ulpExp x + 123).toNat, by unfold ulpExp; omega⟩
  refine ⟨roundEven (x / 2 ^ ulpExp x) * 2 ^ d, ?_⟩
  conv_lhs => rw [← e]
  unfold rne24
  rw [hd, zpow_add₀ (by norm_num), zpow_natCast, zpow_neg, ← one_div]
  push_cast
  have : (2 : K) ^ (123 : ℤ) = 2 ^ (123 : ℕ) := by norm_cast
  rw [this]; ring

theorem rounding_ftz32 : Rounding (ftz32 : K → K) where
  mono := flush_mono.comp ieee32_mono
  idem x := by
    rw [ftz32_fix]
    unfold ftz32
    rcases flush_cases (ieee32 x) with ⟨_, e⟩ | ⟨h, e⟩ <;> rw [e]
    · exact ⟨rounding_ieee32.zero, Or.inl rfl⟩
    · exact ⟨rounding_ieee32.idem x, Or.inr h⟩
  symm x h := by rw [ftz32_neg, h]
  range k n hk h1 h2 := by
    rw [ftz32_fix]
    refine ⟨rounding_ieee32.range k n hk h1 h2, ?_⟩
    rcases eq_or_ne k 0 with rfl | h0
    · left; simp
    · right
      rw [abs_mul, abs_of_pos (by positivity : (0 : K) < 2 ^ n)]
      have a1 : (1 : K) ≤ |(k : K)| := by
        have : (1 : ℤ) ≤ |k| := Int.one_le_abs h0
        rw [← Int.cast_abs]; exact_mod_cast this
      have a2 : (1 : K) / 2 ^ 126 ≤ 2 ^ n := by
        have : (2 : K) ^ (-126 : ℤ) ≤ 2 ^ n := zpow_le_zpow_right₀ (by norm_num) h1
        rw [zpow_neg, ← one_div] at this
        exact_mod_cast this
      calc (1 : K) / 2 ^ 126 ≤ 1 * 2 ^ n := by rw [one_mul]; exact a2
        _ ≤ _ := by gcongr
  up x n h hb := by
    rw [ftz32_fix] at h ⊢
    refine ⟨rounding_ieee32.up x n h.1 hb, h.2.imp (fun e => by rw [e, zero_mul]) fun e => ?_⟩
    rw [abs_mul, abs_of_pos (by positivity : (0 : K) < 2 ^ n)]
    exact e.trans (le_mul_of_one_le_right (abs_nonneg _) (one_le_pow₀ (by norm_num)))
  sub x y hx hy fx fy h := by
    rw [ftz32_fix] at hx hy
    by_contra hne
    -- the difference is at least 2^-123
    have key : 1 / 2 ^ 123 ≤ |x - y| := by
      have w : (1 : K) / 2 ^ 123 ≤ 1 / 2 ^ 100 :=
        one_div_le_one_div_of_le (by positivity) (pow_le_pow_right₀ (by norm_num) (by norm_num))
      rcases fx with rfl | fx
      · rcases fy with rfl | fy
        · exact absurd rfl hne
        · rw [zero_sub, abs_neg]; exact w.trans fy
      · rcases fy with rfl | fy
        · rw [sub_zero]; exact w.trans fx
        · obtain ⟨i, hi⟩ := multiple_of_big hx.1 fx
          obtain ⟨j, hj⟩ := multiple_of_big hy.1 fy
          have hij : i ≠ j := by rintro rfl; exact hne (hi.trans hj.symm)
          rw [hi, hj, ← sub_mul, abs_mul, abs_of_pos (by positivity : (0 : K) < 1 / 2 ^ 123)]
          have : (1 : K) ≤ |(i : K) - j| := by
            have h1 : (1 : ℤ) ≤ |i - j| := Int.one_le_abs (sub_ne_zero.2 hij)
            have h2 : ((|i - j| : ℤ) : K) = |(i : K) - j| := by push_cast; rfl
            rw [← h2]; exact_mod_cast h1
          exact le_mul_of_one_le_left (by positivity) this
    have w : (1 : K) / 2 ^ 126 ≤ 1 / 2 ^ 123 :=
      one_div_le_one_div_of_le (by positivity) (pow_le_pow_right₀ (by norm_num) (by norm_num))
    have pos : ∀ z : K, 1 / 2 ^ 123 ≤ z → 1 / 2 ^ 126 ≤ |ieee32 z| := by
      intro z hz
      have := rounding_ieee32.ge_of_ge (rounding_ieee32.inv_pow (K := K) 123) hz
      rw [abs_of_pos (lt_of_lt_of_le (by positivity) this)]
      exact w.trans this
    have big : 1 / 2 ^ 126 ≤ |ieee32 (x - y)| := by
      rcases abs_cases (x - y) with ⟨e, _⟩ | ⟨e, _⟩
      · exact pos _ (e ▸ key)
      · have := pos (-(x - y)) (e ▸ key)
        rwa [ieee32_neg, abs_neg] at this
    unfold ftz32 flush at h
    rw [if_neg (not_lt.2 big)] at h
    rw [h, abs_zero] at big
    exact absurd big (not_le.2 (by positivity))

/-- the error of flushed rounding -/
theorem ftz32_err {x : K} (hx : |x| ≤ 2 ^ 127) : |ftz32 x - x| ≤ 1 / 2 ^ 24 * |x| + 1 / 2 ^ 126 := by
  have c0 : (0 : K) ≤ 1 / 2 ^ 126 := by positivity
  have b0 : (0 : K) ≤ 1 / 2 ^ 24 * |x| := by positivity
  unfold ftz32
  rcases flush_cases (ieee32 x) with ⟨h, e⟩ | ⟨h, e⟩ <;> rw [e]
  · -- then x itself is below the smallest normal number
    have : |x| < 1 / 2 ^ 126 := by
      by_contra hc
      have hc := not_lt.1 hc
      have pos : ∀ z : K, 1 / 2 ^ 126 ≤ z → 1 / 2 ^ 126 ≤ |ieee32 z| := by
        intro z hz
        have := rounding_ieee32.ge_of_ge (rounding_ieee32.inv_pow (K := K) 126) hz
        rw [abs_of_pos (lt_of_lt_of_le (by positivity) this)]
        exact this
      rcases abs_cases x with ⟨e', _⟩ | ⟨e', _⟩
      · exact absurd h (not_lt.2 (pos _ (e' ▸ hc)))
      · have := pos (-x) (e' ▸ hc)
        rw [ieee32_neg, abs_neg] at this
        exact absurd h (not_lt.2 this)
    rw [zero_sub, abs_neg]
    linarith
  · refine (ieee32_err hx).trans ?_
    have h1 : max |x| (1 / 2 ^ 126) ≤ |x| + 1 / 2 ^ 126 :=
      max_le (by linarith) (by linarith [abs_nonneg x])
    have h2 := mul_le_mul_of_nonneg_left h1 (show (0 : K) ≤ 1 / 2 ^ 24 by positivity)
    rw [mul_add] at h2
    refine h2.trans (add_le_add le_rfl ?_)
    exact mul_le_of_le_one_left c0 (by norm_num)

theorem ieee32_of_ftz32 {x : K} (h : ftz32 x = x) : ieee32 x = x := (ftz32_fix.1 h).1

/-- underflow is not gradual in this mode: `1.5·2^-126` and `2^-126` are different floats, and their
difference is flushed to zero -/
theorem not_gradual_ftz32 : ¬ Gradual (ftz32 : K → K) := by
  intro h
  have sub : ∀ k : ℤ, |k| ≤ 3 → ieee32 ((k : K) / 2 ^ 127) = (k : K) / 2 ^ 127 := by
    intro k hk
    have e : (k : K) / 2 ^ 127 = (k : K) * 2 ^ (-127 : ℤ) := by
      rw [zpow_neg, div_eq_mul_inv]; norm_cast
    have h1 := rneSub_exact (K := K) k (-127) (hk.trans (by norm_num)) (by norm_num)
    rw [← e] at h1
    refine (ieee32_eq ?_).trans h1
    rw [h1, abs_div, abs_of_pos (by positivity : (0 : K) < 2 ^ 127), div_le_iff₀ (by positivity)]
    have h2 : |(k : K)| ≤ 3 := by rw [← Int.cast_abs]; exact_mod_cast hk
    exact h2.trans (by norm_num)
  have e1 : ftz32 ((3 : K) / 2 ^ 127) = 3 / 2 ^ 127 := by
    rw [ftz32_fix]
    refine ⟨by have := sub 3 (by norm_num); push_cast at this; exact this, Or.inr ?_⟩
    rw [abs_of_pos (by positivity), div_le_div_iff₀ (by positivity) (by positivity)]; norm_num
  have e2 : ftz32 ((1 : K) / 2 ^ 126) = 1 / 2 ^ 126 := rounding_ftz32.inv_pow 126
  have e3 : (3 : K) / 2 ^ 127 - 1 / 2 ^ 126 = 1 / 2 ^ 127 := by norm_num
  have e4 : ieee32 ((1 : K) / 2 ^ 127) = 1 / 2 ^ 127 := by
    have := sub 1 (by norm_num); push_cast at this; exact this
  have := h _ _ e1 e2 (by
    rw [e3]
    unfold ftz32 flush
    rw [e4, if_pos]
    rw [abs_of_pos (by positivity)]
    exact one_div_lt_one_div_of_lt (by positivity) (by norm_num))
  norm_num at this

end Adwt
