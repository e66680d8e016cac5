import Verif.Model.Drivers
import Verif.Num.Rne
import Verif.Proofs.Reached

/-!
# Accumulating phases in IEEE floats
-/

set_option linter.unusedSectionVars false

namespace Adwt.Drivers
variable {K C : Type} [Field K] [LinearOrder K] [IsStrictOrderedRing K] [FloorRing K]
variable [Zero C] [Add C] [Sub C] [Mul C] [Div C]

theorem ulpExp_lt {x : K} (hx : 0 < x) (n : ℤ) (h : x < 2 ^ n) : ulpExp x ≤ n - 24 := by
  have hb := (log_bounds hx).1
  have h1 : (2 : K) ^ (Int.log 2 x) < 2 ^ n := lt_of_le_of_lt hb h
  have h2 := (zpow_lt_zpow_iff_right₀ (by norm_num : (1 : K) < 2)).1 h1
  unfold ulpExp
  rw [abs_of_pos hx]; omega

/-- error of rounding a number below `2^n` -/
theorem ieee32_err_below {x : K} (n : ℤ) (h0 : 1 / 2 ^ 126 ≤ x) (h : x < 2 ^ n) (hn : n ≤ 127) :
    |ieee32 x - x| ≤ 2 ^ (n - 25) := by
  have hx : 0 < x := lt_of_lt_of_le (by positivity) h0
  have hb : x ≤ 2 ^ 127 := h.le.trans (by
    have := zpow_le_zpow_right₀ (by norm_num : (1 : K) ≤ 2) hn
    rwa [show (2 : K) ^ (127 : ℤ) = 2 ^ 127 by norm_cast] at this)
  rw [ieee32_normal (Or.inr (by rwa [abs_of_pos hx])) (by rwa [abs_of_pos hx])]
  refine (rne24_err x).trans ?_
  have h1 := zpow_le_zpow_right₀ (by norm_num : (1 : K) ≤ 2) (ulpExp_lt hx n h)
  have e : (2 : K) ^ (n - 25) = 2 ^ (n - 24) / 2 := by
    rw [show n - 24 = n - 25 + 1 by ring, zpow_add_one₀ (by norm_num)]; field_simp
  rw [e]; linarith

/-- floats in `[1, 2)` are multiples of `2^-23` -/
theorem ieee32_one_two {x : K} (h0 : 1 ≤ x) (h1 : x < 2) :
    ∃ k : ℤ, 0 ≤ k ∧ k ≤ 2 ^ 23 ∧ ieee32 x = 1 + (k : K) / 2 ^ 23 := by
  have hx : 0 < x := by linarith
  have hl : Int.log 2 x = 0 := by
    have hb := log_bounds hx
    have h2 : (2 : K) ^ (Int.log 2 x) < 2 ^ (1 : ℤ) := by rw [zpow_one]; exact lt_of_le_of_lt hb.1 h1
    have h3 : (2 : K) ^ (0 : ℤ) < 2 ^ (Int.log 2 x + 1) := by rw [zpow_zero]; exact lt_of_le_of_lt h0 hb.2
    have := (zpow_lt_zpow_iff_right₀ (by norm_num : (1 : K) < 2)).1 h2
    have := (zpow_lt_zpow_iff_right₀ (by norm_num : (1 : K) < 2)).1 h3
    omega
  have hb : x ≤ 2 ^ 127 := by linarith [show (2 : K) ≤ 2 ^ 127 by norm_num]
  have hu : ulpExp x = -23 := by unfold ulpExp; rw [abs_of_pos hx, hl]; norm_num
  rw [ieee32_normal (Or.inr (by rw [abs_of_pos hx]; linarith [show (1 : K) / 2 ^ 126 ≤ 1 by norm_num]))
    (by rwa [abs_of_pos hx])]
  unfold rne24
  rw [hu]
  have e : (2 : K) ^ (-23 : ℤ) = 1 / 2 ^ 23 := by rw [zpow_neg, one_div]; norm_cast
  rw [e]
  refine ⟨roundEven (x / (1 / 2 ^ 23)) - 2 ^ 23, ?_, ?_, ?_⟩
  · have : (2 ^ 23 : ℤ) ≤ roundEven (x / (1 / 2 ^ 23)) := roundEven_ge (by
      push_cast; rw [le_div_iff₀ (by positivity)]; norm_num; linarith)
    linarith
  · have : roundEven (x / (1 / 2 ^ 23)) ≤ (2 ^ 24 : ℤ) := roundEven_le (by
      push_cast; rw [div_le_iff₀ (by positivity)]; norm_num; linarith)
    norm_num at this ⊢
    linarith
  · push_cast; field_simp; ring

theorem trunc_zero {x : K} (h0 : 0 ≤ x) (h1 : x < 1) : trunc x = 0 := by
  unfold trunc; rw [if_pos h0, Int.floor_eq_iff]; constructor <;> push_cast <;> linarith
theorem trunc_one {x : K} (h0 : 1 ≤ x) (h1 : x < 2) : trunc x = 1 := by
  unfold trunc; rw [if_pos (by linarith), Int.floor_eq_iff]; constructor <;> push_cast <;> linarith

/-- What one addition does to the phase: the new phase is a float in `[0, 1)`, `w` wraps later than
the old one, and differs from the exact sum by at most `2^-24`. -/
structure Accum (x s p w : K) : Prop where
  ok : PhaseOk ieee32 p
  wrap : (w = 0 ∧ x < p) ∨ (w = 1 ∧ p < x)
  err : |p + w - (x + s)| ≤ 1 / 2 ^ 24

theorem accum_step {x s : K} (hx : PhaseOk ieee32 x) (h0 : 1 / 2 ^ 25 < s) (h1 : s < 1 / 2 - 1 / 2 ^ 24) :
    ∃ w, Accum x s (fmod1 (ieee32 (x + s))) w := by
  have hf := rounding_ieee32 (K := K)
  obtain ⟨x0, x1, xf⟩ := hx
  have e24 : (2 : K) ^ (-24 : ℤ) = 1 / 2 ^ 24 := by rw [zpow_neg, one_div]; norm_cast
  have e25 : (2 : K) ^ (-25 : ℤ) = 1 / 2 ^ 25 := by rw [zpow_neg, one_div]; norm_cast
  have c1 : (1 : K) / 2 ^ 126 ≤ 1 / 2 ^ 25 := by norm_num
  have c2 : (1 : K) / 2 ^ 25 < 1 / 2 ^ 24 := by norm_num
  have c3 : (1 : K) / 2 ^ 24 < 1 / 4 := by norm_num
  rcases lt_or_ge (x + s) 1 with hs | hs
  · have he := ieee32_err_below (x := x + s) 0 (by linarith) (by rw [zpow_zero]; exact hs) (by norm_num)
    rw [show (0 - 25 : ℤ) = -25 by norm_num, e25] at he
    have hle : ieee32 (x + s) ≤ 1 := hf.le_of_le hf.one hs.le
    have hgt : x < ieee32 (x + s) := by have := (abs_le.1 he).1; linarith
    rcases hle.lt_or_eq with hl | hl
    · refine ⟨0, ?_⟩
      unfold fmod1
      rw [trunc_zero (by linarith) hl, Int.cast_zero, sub_zero]
      exact ⟨⟨by linarith, hl, isPhase_ieee32 (hf.idem _)⟩, Or.inl ⟨rfl, hgt⟩, by rw [add_zero]; linarith⟩
    · refine ⟨1, ?_⟩
      unfold fmod1
      rw [hl, trunc_one le_rfl (by norm_num), Int.cast_one, sub_self]
      rw [hl] at he
      refine ⟨⟨le_rfl, by norm_num, hf.zero_ph⟩, Or.inr ⟨rfl, ?_⟩, by rw [zero_add]; linarith⟩
      have := (abs_le.1 he).2; linarith
  · have he := ieee32_err_below (x := x + s) 1 (by linarith) (by rw [zpow_one]; linarith) (by norm_num)
    rw [show (1 - 25 : ℤ) = -24 by norm_num, e24] at he
    obtain ⟨a, b⟩ := abs_le.1 he
    obtain ⟨k, k0, k1, hk⟩ := ieee32_one_two hs (by linarith)
    have hge : 1 ≤ ieee32 (x + s) := hf.ge_of_ge hf.one hs
    refine ⟨1, ?_⟩
    unfold fmod1
    rw [trunc_one hge (by linarith), Int.cast_one]
    refine ⟨⟨by linarith, by linarith, ?_⟩, Or.inr ⟨rfl, by linarith⟩, ?_⟩
    · rw [hk, add_sub_cancel_left]
      exact isPhase_ieee32 (hf.dyadic k 23 (by
        rw [abs_of_nonneg k0]; linarith [show (2 : ℤ) ^ 23 ≤ 2 ^ 24 by norm_num]))
    · rw [sub_add_cancel]; exact he

theorem Accum.dist {x s p w : K} (h : Accum x s p w) (h1 : s < 1 / 2 - 1 / 2 ^ 24) : p + w - x < 1 / 2 := by
  have := (abs_le.1 h.err).2; linarith

theorem Accum.forward {x s p w : K} (h : Accum x s p w) (h1 : s < 1 / 2 - 1 / 2 ^ 24) : Forward x p := by
  have := h.dist h1
  rcases h.wrap with ⟨rfl, h2⟩ | ⟨rfl, h2⟩
  · left; constructor <;> linarith
  · right; constructor <;> linarith

theorem Accum.safe {x s p w : K} (h : Accum x s p w) (hx : PhaseOk ieee32 x) (h1 : s < 1 / 2 - 1 / 2 ^ 24)
    (dir : Sys.Direction) : StepSafe dir x p := by
  cases dir with
  | kForward => exact h.forward h1
  | kBidirectionnal =>
    have := h.dist h1
    rcases h.wrap with ⟨rfl, h2⟩ | ⟨rfl, h2⟩
    · exact ⟨h2.ne', fun e => by have := hx.1; linarith⟩
    · exact ⟨h2.ne, fun e => by linarith⟩

theorem accumulate_length (fl : K → K) (x : K) (ss : List K) : (accumulate fl x ss).length = ss.length := by
  induction ss generalizing x with
  | nil => rfl
  | cons s ss ih => simp [accumulate, ih]

/-- accumulated phases may be played in either direction mode -/
theorem accumulate_safe {x : K} (hx : PhaseOk ieee32 x) {ss : List K}
    (h : ∀ s ∈ ss, 1 / 2 ^ 25 < s ∧ s < 1 / 2 - 1 / 2 ^ 24) (dir : Sys.Direction) :
    BlockSafe ieee32 dir x (accumulate ieee32 x ss) := by
  induction ss generalizing x with
  | nil => trivial
  | cons s ss ih =>
    obtain ⟨h0, h1⟩ := h s List.mem_cons_self
    obtain ⟨w, hw⟩ := accum_step hx h0 h1
    exact ⟨hw.ok, hw.safe hx h1 dir, ih hw.ok fun s hs => h s (List.mem_cons_of_mem _ hs)⟩

/-- the phase after all steps, up to whole cycles, is the sum of the steps up to `2^-24` per step -/
theorem accumulate_drift {x : K} (hx : PhaseOk ieee32 x) {ss : List K}
    (h : ∀ s ∈ ss, 1 / 2 ^ 25 < s ∧ s < 1 / 2 - 1 / 2 ^ 24) :
    ∃ k : ℕ, |(accumulate ieee32 x ss).getLastD x + k - (x + ss.sum)| ≤ ss.length / 2 ^ 24 := by
  induction ss generalizing x with
  | nil => exact ⟨0, by simp [accumulate]⟩
  | cons s ss ih =>
    obtain ⟨h0, h1⟩ := h s List.mem_cons_self
    obtain ⟨w, hw⟩ := accum_step hx h0 h1
    obtain ⟨k, hk⟩ := ih hw.ok fun s hs => h s (List.mem_cons_of_mem _ hs)
    have hw' : ∃ m : ℕ, (m : K) = w := by
      rcases hw.wrap with ⟨e, -⟩ | ⟨e, -⟩
      · exact ⟨0, by simp [e]⟩
      · exact ⟨1, by simp [e]⟩
    obtain ⟨m, rfl⟩ := hw'
    refine ⟨k + m, ?_⟩
    unfold accumulate
    rw [List.getLastD_cons, List.sum_cons, List.length_cons]
    have := hw.err
    push_cast
    rw [add_div, abs_le] at *
    constructor <;> linarith [hk.1, hk.2]


/-! ### the step seen by the oscillator -/

theorem err_half {x : K} (h : |x| ≤ 1 / 2) : |ieee32 x - x| ≤ 1 / 2 ^ 25 := by
  have h1 := ieee32_err (x := x) (h.trans (by norm_num))
  refine h1.trans ?_
  have : max |x| (1 / 2 ^ 126) ≤ 1 / 2 := max_le h (by norm_num)
  calc _ ≤ (1 : K) / 2 ^ 24 * (1 / 2) := by gcongr
    _ = _ := by norm_num

/-- both modes compute a positive step within `2^-23` of the intended one -/
theorem Accum.diff {x s p w : K} (h : Accum x s p w) (hx : PhaseOk ieee32 x) (h0 : 1 / 2 ^ 25 < s)
    (h1 : s ≤ 1 / 2 - 1 / 2 ^ 23) (dir : Sys.Direction) :
    0 < Sys.dirDiff ieee32 dir p x ∧ Sys.dirDiff ieee32 dir p x ≤ 1 / 2 ∧
      |Sys.dirDiff ieee32 dir p x - s| ≤ 1 / 2 ^ 23 := by
  have hf := rounding_ieee32 (K := K)
  have c1 : (1 : K) / 2 ^ 23 = 4 / 2 ^ 25 := by norm_num
  have c2 : (1 : K) / 2 ^ 24 = 2 / 2 ^ 25 := by norm_num
  have c3 : (0 : K) < 1 / 2 ^ 25 := by positivity
  have c4 : (4 : K) / 2 ^ 25 = 4 * (1 / 2 ^ 25) := by ring
  have c5 : (2 : K) / 2 ^ 25 = 2 * (1 / 2 ^ 25) := by ring
  have hfw := h.forward (by linarith)
  have herr := abs_le.1 h.err
  have key : (Sys.dirDiff ieee32 dir p x = if w = 0 then ieee32 (p - x) else ieee32 (ieee32 (p - x) + 1)) := by
    rcases h.wrap with ⟨rfl, h2⟩ | ⟨rfl, h2⟩
    · have hp : 0 < ieee32 (p - x) := hf.sub_pos h.ok.2.2 hx.2.2 (by linarith) h2.ne'
      have hle : ieee32 (p - x) ≤ 1 / 2 := hf.le_of_le hf.half (by linarith)
      rw [if_pos rfl]
      cases dir with
      | kForward => unfold Sys.dirDiff Sys.fwdDiff; dsimp only; rw [if_neg (by linarith)]
      | kBidirectionnal =>
        unfold Sys.dirDiff Sys.biDiff; dsimp only; rw [if_neg (by linarith), if_neg (by linarith)]
    · have hlt : ieee32 (p - x) < -(1 / 2) := by
        have hb : |x - p| < 2 ^ (0 : ℤ) := by
          rw [zpow_zero, abs_of_pos (by linarith)]; linarith [hx.2.1, h.ok.1]
        have := ieee32_err_below (x := x - p) 0 (by
          linarith [show (1 : K) / 2 ^ 126 < 1 / 2 by norm_num]) (lt_of_abs_lt hb) (by norm_num)
        rw [show (0 - 25 : ℤ) = -25 by norm_num,
          show (2 : K) ^ (-25 : ℤ) = 1 / 2 ^ 25 by rw [zpow_neg, one_div]; norm_cast] at this
        have e : ieee32 (p - x) = - ieee32 (x - p) := by rw [← ieee32_neg, neg_sub]
        rw [e]
        have := (abs_le.1 this).1
        linarith
      rw [if_neg one_ne_zero]
      cases dir with
      | kForward => unfold Sys.dirDiff Sys.fwdDiff; dsimp only; rw [if_pos (by linarith)]
      | kBidirectionnal => unfold Sys.dirDiff Sys.biDiff; dsimp only; rw [if_pos hlt]
  have hr : 0 < Sys.dirDiff ieee32 dir p x ∧ Sys.dirDiff ieee32 dir p x ≤ 1 / 2 := by
    have := Sys.fwdDiff_range hf hx h.ok hfw
    have e : Sys.dirDiff ieee32 dir p x = Sys.fwdDiff ieee32 p x := by
      rw [key]
      rcases h.wrap with ⟨rfl, h2⟩ | ⟨rfl, h2⟩
      · have hp : 0 < ieee32 (p - x) := hf.sub_pos h.ok.2.2 hx.2.2 (by linarith) h2.ne'
        rw [if_pos rfl]; unfold Sys.fwdDiff; dsimp only; rw [if_neg (by linarith)]
      · have hp : ieee32 (p - x) < 0 := hf.sub_neg h.ok.2.2 hx.2.2 (by linarith) h2.ne
        rw [if_neg one_ne_zero]; unfold Sys.fwdDiff; dsimp only; rw [if_pos hp]
    rw [e]; exact this
  refine ⟨hr.1, hr.2, ?_⟩
  rw [key]
  rcases h.wrap with ⟨rfl, h2⟩ | ⟨rfl, h2⟩
  · rw [if_pos rfl]
    have := abs_le.1 (err_half (x := p - x) (by rw [abs_of_pos (by linarith)]; linarith))
    rw [abs_le]; constructor <;> linarith [this.1, this.2, herr.1, herr.2]
  · rw [if_neg one_ne_zero]
    have e1 : |ieee32 (p - x) - (p - x)| ≤ 1 / 2 ^ 25 := by
      have := ieee32_err_below (x := x - p) 0 (by
          linarith [show (1 : K) / 2 ^ 126 < 1 / 2 by norm_num]) (by
          rw [zpow_zero]; linarith [hx.2.1, h.ok.1]) (by norm_num)
      rw [show (0 - 25 : ℤ) = -25 by norm_num,
        show (2 : K) ^ (-25 : ℤ) = 1 / 2 ^ 25 by rw [zpow_neg, one_div]; norm_cast] at this
      have e : ieee32 (p - x) - (p - x) = -(ieee32 (x - p) - (x - p)) := by
        rw [show p - x = -(x - p) by ring, ieee32_neg]; ring
      rw [e, abs_neg]; exact this
    have b1 := abs_le.1 e1
    have hneg : ieee32 (p - x) ≤ -(1 / 2) := hf.le_of_le hf.neg_half (by linarith)
    have hgt : -1 ≤ ieee32 (p - x) := hf.ge_of_ge hf.neg_one (by linarith [hx.2.1, h.ok.1])
    have b2 := abs_le.1 (err_half (x := ieee32 (p - x) + 1) (by rw [abs_le]; constructor <;> linarith))
    rw [abs_le]; constructor <;> linarith [b1.1, b1.2, b2.1, b2.2, herr.1, herr.2]

/-! ### too small a step -/

/-- floats are multiples of `2^-149` -/
theorem float_grid {x : K} (h : ieee32 x = x) : ∃ k : ℤ, x = (k : K) / 2 ^ 149 := by
  obtain ⟨k, n, -, hn, e⟩ := rneSub_form x
  rw [rneSub_of_ieee32 h] at e
  obtain ⟨m, hm⟩ := Int.eq_ofNat_of_zero_le (show 0 ≤ n + 149 by omega)
  refine ⟨k * 2 ^ m, ?_⟩
  have : n = (m : ℤ) - (149 : ℕ) := by push_cast; omega
  rw [e, this, zpow_sub₀ (by norm_num), zpow_natCast, zpow_natCast]
  push_cast; ring

theorem half_tie : ieee32 (1 / 2 + 1 / 2 ^ 25 : K) = 1 / 2 := by
  have hx : (0 : K) < 1 / 2 + 1 / 2 ^ 25 := by positivity
  have hl : Int.log 2 (1 / 2 + 1 / 2 ^ 25 : K) = -1 := by
    have hb := log_bounds hx
    have h2 : (2 : K) ^ (Int.log 2 (1 / 2 + 1 / 2 ^ 25 : K)) < 2 ^ (0 : ℤ) :=
      lt_of_le_of_lt hb.1 (by norm_num)
    have h3 : (2 : K) ^ (-1 : ℤ) < 2 ^ (Int.log 2 (1 / 2 + 1 / 2 ^ 25 : K) + 1) :=
      lt_trans (by norm_num) hb.2
    have := (zpow_lt_zpow_iff_right₀ (by norm_num : (1 : K) < 2)).1 h2
    have := (zpow_lt_zpow_iff_right₀ (by norm_num : (1 : K) < 2)).1 h3
    omega
  rw [ieee32_normal (Or.inr (by rw [abs_of_pos hx]; norm_num)) (by rw [abs_of_pos hx]; norm_num)]
  have hu : ulpExp (1 / 2 + 1 / 2 ^ 25 : K) = -24 := by
    unfold ulpExp; rw [abs_of_pos hx, hl]; norm_num
  unfold rne24
  rw [hu, show (2 : K) ^ (-24 : ℤ) = 1 / 2 ^ 24 by rw [zpow_neg, one_div]; norm_cast]
  have e : (1 / 2 + 1 / 2 ^ 25 : K) / (1 / 2 ^ 24) = 8388608 + 1 / 2 := by norm_num
  have hfl : ⌊(8388608 + 1 / 2 : K)⌋ = 8388608 := by
    rw [Int.floor_eq_iff]; constructor <;> push_cast <;> norm_num
  have hr : roundEven (8388608 + 1 / 2 : K) = 8388608 := by
    unfold roundEven
    simp only [hfl]
    norm_num
    exact ⟨4194304, by norm_num⟩
  rw [e, hr]; norm_num

/-- a step of at most `2^-25` never takes the phase above 1/2 -/
theorem small_step {x s : K} (hx : PhaseOk ieee32 x) (h : x ≤ 1 / 2) (h0 : 0 ≤ s) (h1 : s ≤ 1 / 2 ^ 25) :
    fmod1 (ieee32 (x + s)) = ieee32 (x + s) ∧ x ≤ ieee32 (x + s) ∧ ieee32 (x + s) ≤ 1 / 2 := by
  have hf := rounding_ieee32 (K := K)
  have a : x ≤ ieee32 (x + s) := hf.ge_of_ge hx.2.2.1 (by linarith)
  have b : ieee32 (x + s) ≤ 1 / 2 := by
    have := hf.mono (show x + s ≤ 1 / 2 + 1 / 2 ^ 25 by linarith)
    rwa [half_tie] at this
  refine ⟨?_, a, b⟩
  unfold fmod1
  rw [trunc_zero (by linarith [hx.1]) (by linarith), Int.cast_zero, sub_zero]

/-- with such a step the phase gets stuck: there is a number of steps after which the phase does not
move, all steps before being forward steps -/
theorem stall (s : K) (h0 : 0 ≤ s) (h1 : s ≤ 1 / 2 ^ 25) (m : ℕ) (x : K) (hx : PhaseOk ieee32 x)
    (h : x ≤ 1 / 2) (hm : 1 / 2 - x ≤ (m : K) / 2 ^ 149) :
    ∃ n, (∀ dir, BlockSafe ieee32 dir x (accumulate ieee32 x (List.replicate n s))) ∧
      (accumulate ieee32 x (List.replicate n s)).getLastD x ≤ 1 / 2 ∧
      PhaseOk ieee32 ((accumulate ieee32 x (List.replicate n s)).getLastD x) ∧
      fmod1 (ieee32 ((accumulate ieee32 x (List.replicate n s)).getLastD x + s)) =
        (accumulate ieee32 x (List.replicate n s)).getLastD x := by
  induction m generalizing x with
  | zero =>
    have hx2 : x = 1 / 2 := by simp at hm; linarith
    obtain ⟨a, b, c⟩ := small_step hx h h0 h1
    refine ⟨0, fun _ => trivial, ?_⟩
    simp only [List.replicate_zero, accumulate, List.getLastD_nil]
    exact ⟨h, hx, by rw [a]; linarith⟩
  | succ m ih =>
    obtain ⟨a, b, c⟩ := small_step hx h h0 h1
    rcases b.eq_or_lt with e | e
    · refine ⟨0, fun _ => trivial, ?_⟩
      simp only [List.replicate_zero, accumulate, List.getLastD_nil]
      exact ⟨h, hx, by rw [a]; exact e.symm⟩
    · have hf := rounding_ieee32 (K := K)
      have hp : PhaseOk ieee32 (ieee32 (x + s)) := ⟨by linarith [hx.1], by linarith, isPhase_ieee32 (hf.idem _)⟩
      obtain ⟨k, hk⟩ := float_grid hx.2.2.1
      obtain ⟨l, hl⟩ := float_grid hp.2.2.1
      have hkl : k + 1 ≤ l := by
        have : (k : K) / 2 ^ 149 < l / 2 ^ 149 := by rw [← hk, ← hl]; exact e
        have := (div_lt_div_iff_of_pos_right (by positivity : (0 : K) < 2 ^ 149)).1 this
        have : k < l := by exact_mod_cast this
        omega
      have hd : x + 1 / 2 ^ 149 ≤ ieee32 (x + s) := by
        rw [hl]
        conv_lhs => rw [hk]
        rw [← add_div]
        gcongr
        exact_mod_cast hkl
      obtain ⟨n, h3, h4⟩ := ih (ieee32 (x + s)) hp c (by
        push_cast at hm; rw [add_div] at hm; linarith)
      refine ⟨n + 1, ?_⟩
      simp only [List.replicate_succ, accumulate, a, List.getLastD_cons]
      refine ⟨fun dir => ⟨hp, ?_, h3 dir⟩, h4⟩
      cases dir with
      | kForward => exact Or.inl ⟨e, by linarith [hx.1]⟩
      | kBidirectionnal => exact ⟨e.ne', fun h => by linarith [hx.1]⟩

end Adwt.Drivers
