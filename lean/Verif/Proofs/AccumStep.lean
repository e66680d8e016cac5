import Verif.Proofs.Accum

/-!
# The step seen by the oscillator, for all steps in the range of C61
-/

set_option linter.unusedSectionVars false

namespace Adwt.Drivers
variable {K : Type} [Field K] [LinearOrder K] [IsStrictOrderedRing K] [FloorRing K]

/-- a float from one half on is a multiple of `2^-24` -/
theorem multiple_of_half {x : K} (h : ieee32 x = x) (hx : 1 / 2 ≤ |x|) : ∃ j : ℤ, x = (j : K) / 2 ^ 24 := by
  have e := rne24_of_ieee32 h
  have hx0 : 0 < |x| := lt_of_lt_of_le (by positivity) hx
  have hl : (-1 : ℤ) ≤ Int.log 2 |x| := by
    have h1 := (log_bounds hx0).2
    have h3 : (2 : K) ^ (-1 : ℤ) < 2 ^ (Int.log 2 |x| + 1) := by
      rw [zpow_neg, ← one_div, zpow_one]
      exact lt_of_le_of_lt hx h1
    have := (zpow_lt_zpow_iff_right₀ (by norm_num : (1 : K) < 2)).1 h3
    omega
  obtain ⟨d, hd⟩ : ∃ d : ℕ, ulpExp x = -24 + d := ⟨(ulpExp x + 24).toNat, by unfold ulpExp; omega⟩
  refine ⟨roundEven (x / 2 ^ ulpExp x) * 2 ^ d, ?_⟩
  conv_lhs => rw [← e]
  unfold rne24
  rw [hd, zpow_add₀ (by norm_num), zpow_natCast, zpow_neg, ← one_div]
  push_cast
  have : (2 : K) ^ (24 : ℤ) = 2 ^ (24 : ℕ) := by norm_cast
  rw [this]; ring

/-- the difference across the end of the cycle is computed without error -/
theorem accum_exact {x s w : K} (hx : PhaseOk ieee32 x) (h0 : 1 / 2 ^ 25 < s) (h1 : s < 1 / 2 - 1 / 2 ^ 24)
    (h : Accum x s (fmod1 (ieee32 (x + s))) w) (hw : w = 1) :
    ieee32 (fmod1 (ieee32 (x + s)) - x) = fmod1 (ieee32 (x + s)) - x := by
  subst hw
  have hd := h.dist h1
  have hp := h.ok
  have hx2 : 1 / 2 < x := by have := hp.1; linarith
  obtain ⟨j, hj⟩ := multiple_of_half hx.2.2.1 (by rw [abs_of_pos (by linarith)]; exact hx2.le)
  have hpx : fmod1 (ieee32 (x + s)) < x := by
    rcases h.wrap with ⟨h, -⟩ | ⟨-, h⟩
    · exact absurd h one_ne_zero
    · exact h
  obtain ⟨k, hk⟩ : ∃ k : ℤ, fmod1 (ieee32 (x + s)) = (k : K) / 2 ^ 24 := by
    have hr := rounding_ieee32 (K := K)
    rcases lt_or_ge (x + s) 1 with hs | hs
    · have hle : ieee32 (x + s) ≤ 1 := hr.le_of_le hr.one hs.le
      rcases hle.lt_or_eq with hl | hl
      · exfalso
        have he := h.err
        have hz2 : 1 / 2 ≤ ieee32 (x + s) :=
          hr.ge_of_ge hr.half (by linarith [show (0 : K) < 1 / 2 ^ 25 by positivity])
        have hz : (0 : K) ≤ ieee32 (x + s) := le_trans (by norm_num) hz2
        have e : fmod1 (ieee32 (x + s)) = ieee32 (x + s) := by
          unfold fmod1; rw [trunc_zero hz hl, Int.cast_zero, sub_zero]
        rw [e] at he hpx
        have := (abs_le.1 he).2
        linarith [show (1 : K) / 2 ^ 24 < 1 / 4 by norm_num]
      · refine ⟨0, ?_⟩
        unfold fmod1
        rw [hl, trunc_one le_rfl (by norm_num)]; simp
    · obtain ⟨k, k0, k1, hk⟩ := ieee32_one_two hs (by linarith [hx.2.1, show (0 : K) < 1 / 2 ^ 24 by positivity])
      have hge : 1 ≤ ieee32 (x + s) := hr.ge_of_ge hr.one hs
      have hlt : ieee32 (x + s) < 2 := by
        have : ieee32 (x + s) ≤ 3 / 2 := by
          have h32 : ieee32 (3 / 2 : K) = 3 / 2 := by
            have := hr.dyadic 3 1 (by norm_num); norm_num at this ⊢; exact this
          exact hr.le_of_le h32 (by linarith [hx.2.1, show (0 : K) < 1 / 2 ^ 24 by positivity])
        linarith
      refine ⟨2 * k, ?_⟩
      unfold fmod1
      rw [trunc_one hge hlt, hk]
      push_cast
      field_simp
      ring
  have e : fmod1 (ieee32 (x + s)) - x = ((k - j : ℤ) : K) / 2 ^ 24 := by
    rw [hk]; conv_lhs => rw [hj]
    push_cast; ring
  rw [e]
  refine (rounding_ieee32 (K := K)).dyadic _ 24 ?_
  have h3 : |((k - j : ℤ) : K) / 2 ^ 24| ≤ 1 := by
    rw [← e, abs_le]; constructor <;> linarith [hx.2.1, hp.1]
  rw [abs_div, abs_of_pos (by positivity : (0 : K) < 2 ^ 24), div_le_one (by positivity)] at h3
  exact_mod_cast h3

/-- both modes compute a positive step within `2^-23` of the intended one -/
theorem Accum.diff' {x s p w : K} (h : Accum x s p w) (hx : PhaseOk ieee32 x) (h0 : 1 / 2 ^ 25 < s)
    (h1 : s < 1 / 2 - 1 / 2 ^ 24) (hw : w = 1 → ieee32 (p - x) = p - x) (dir : Sys.Direction) :
    0 < Sys.dirDiff ieee32 dir p x ∧ Sys.dirDiff ieee32 dir p x ≤ 1 / 2 ∧
      |Sys.dirDiff ieee32 dir p x - s| ≤ 1 / 2 ^ 23 := by
  have hf := rounding_ieee32 (K := K)
  have c1 : (1 : K) / 2 ^ 23 = 4 / 2 ^ 25 := by norm_num
  have c2 : (1 : K) / 2 ^ 24 = 2 / 2 ^ 25 := by norm_num
  have c3 : (0 : K) < 1 / 2 ^ 25 := by positivity
  have c4 : (4 : K) / 2 ^ 25 = 4 * (1 / 2 ^ 25) := by ring
  have c5 : (2 : K) / 2 ^ 25 = 2 * (1 / 2 ^ 25) := by ring
  have hfw := h.forward (by linarith)
  have herr := abs_le.1 h.err
  have key : (Sys.dirDiff ieee32 dir p x = if w = 0 then ieee32 (p - x) else ieee32 (ieee32 (p - x) + 1)) := by
    rcases h.wrap with ⟨rfl, h2⟩ | ⟨rfl, h2⟩
    · have hp : 0 < ieee32 (p - x) := hf.sub_pos h.ok.2.2 hx.2.2 (by linarith) h2.ne'
      have hle : ieee32 (p - x) ≤ 1 / 2 := hf.le_of_le hf.half (by linarith)
      rw [if_pos rfl]
      cases dir with
      | kForward => unfold Sys.dirDiff Sys.fwdDiff; dsimp only; rw [if_neg (by linarith)]
      | kBidirectionnal =>
        unfold Sys.dirDiff Sys.biDiff; dsimp only; rw [if_neg (by linarith), if_neg (by linarith)]
    · have hlt : ieee32 (p - x) < -(1 / 2) := by
        rw [hw rfl]; linarith
      rw [if_neg one_ne_zero]
      cases dir with
      | kForward => unfold Sys.dirDiff Sys.fwdDiff; dsimp only; rw [if_pos (by linarith)]
      | kBidirectionnal => unfold Sys.dirDiff Sys.biDiff; dsimp only; rw [if_pos hlt]
  have hr : 0 < Sys.dirDiff ieee32 dir p x ∧ Sys.dirDiff ieee32 dir p x ≤ 1 / 2 := by
    have := Sys.fwdDiff_range hf hx h.ok hfw
    have e : Sys.dirDiff ieee32 dir p x = Sys.fwdDiff ieee32 p x := by
      rw [key]
      rcases h.wrap with ⟨rfl, h2⟩ | ⟨rfl, h2⟩
      · have hp : 0 < ieee32 (p - x) := hf.sub_pos h.ok.2.2 hx.2.2 (by linarith) h2.ne'
        rw [if_pos rfl]; unfold Sys.fwdDiff; dsimp only; rw [if_neg (by linarith)]
      · have hp : ieee32 (p - x) < 0 := hf.sub_neg h.ok.2.2 hx.2.2 (by linarith) h2.ne
        rw [if_neg one_ne_zero]; unfold Sys.fwdDiff; dsimp only; rw [if_pos hp]
    rw [e]; exact this
  refine ⟨hr.1, hr.2, ?_⟩
  rw [key]
  rcases h.wrap with ⟨rfl, h2⟩ | ⟨rfl, h2⟩
  · rw [if_pos rfl]
    have := abs_le.1 (err_half (x := p - x) (by rw [abs_of_pos (by linarith)]; linarith))
    rw [abs_le]; constructor <;> linarith [this.1, this.2, herr.1, herr.2]
  · rw [if_neg one_ne_zero]
    have e1 : |ieee32 (p - x) - (p - x)| ≤ 1 / 2 ^ 25 := by
      have := ieee32_err_below (x := x - p) 0 (by
          linarith [show (1 : K) / 2 ^ 126 < 1 / 2 by norm_num]) (by
          rw [zpow_zero]; linarith [hx.2.1, h.ok.1]) (by norm_num)
      rw [show (0 - 25 : ℤ) = -25 by norm_num,
        show (2 : K) ^ (-25 : ℤ) = 1 / 2 ^ 25 by rw [zpow_neg, one_div]; norm_cast] at this
      have e : ieee32 (p - x) - (p - x) = -(ieee32 (x - p) - (x - p)) := by
        rw [show p - x = -(x - p) by ring, ieee32_neg]; ring
      rw [e, abs_neg]; exact this
    have b1 := abs_le.1 e1
    have hneg : ieee32 (p - x) ≤ -(1 / 2) := hf.le_of_le hf.neg_half (by linarith)
    have hgt : -1 ≤ ieee32 (p - x) := hf.ge_of_ge hf.neg_one (by linarith [hx.2.1, h.ok.1])
    have b2 := abs_le.1 (err_half (x := ieee32 (p - x) + 1) (by rw [abs_le]; constructor <;> linarith))
    rw [abs_le]; constructor <;> linarith [b1.1, b1.2, b2.1, b2.2, herr.1, herr.2]


end Adwt.Drivers
