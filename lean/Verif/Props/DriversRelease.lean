import Verif.Props.Drivers

/-!
# C62 in release builds: tones that are too slow divide by zero
-/

set_option linter.unusedSectionVars false

namespace Adwt.Drivers
variable {K C : Type} [Field K] [LinearOrder K] [IsStrictOrderedRing K] [FloorRing K]
variable [Zero C] [Add C] [Sub C] [Mul C] [Div C]

theorem quarter_tie : ieee32 (1 / 4 + 1 / 2 ^ 26 : K) = 1 / 4 := by
  have hx : (0 : K) < 1 / 4 + 1 / 2 ^ 26 := by positivity
  have hl : Int.log 2 (1 / 4 + 1 / 2 ^ 26 : K) = -2 := by
    have hb := log_bounds hx
    have h2 : (2 : K) ^ (Int.log 2 (1 / 4 + 1 / 2 ^ 26 : K)) < 2 ^ (-1 : ℤ) :=
      lt_of_le_of_lt hb.1 (by norm_num)
    have h3 : (2 : K) ^ (-2 : ℤ) < 2 ^ (Int.log 2 (1 / 4 + 1 / 2 ^ 26 : K) + 1) :=
      lt_trans (by norm_num [zpow_neg]) hb.2
    have := (zpow_lt_zpow_iff_right₀ (by norm_num : (1 : K) < 2)).1 h2
    have := (zpow_lt_zpow_iff_right₀ (by norm_num : (1 : K) < 2)).1 h3
    omega
  rw [ieee32_normal (Or.inr (by rw [abs_of_pos hx]; norm_num)) (by rw [abs_of_pos hx]; norm_num)]
  have hu : ulpExp (1 / 4 + 1 / 2 ^ 26 : K) = -25 := by
    unfold ulpExp; rw [abs_of_pos hx, hl]; norm_num
  unfold rne24
  rw [hu, show (2 : K) ^ (-25 : ℤ) = 1 / 2 ^ 25 by rw [zpow_neg, one_div]; norm_cast]
  have e : (1 / 4 + 1 / 2 ^ 26 : K) / (1 / 2 ^ 25) = 8388608 + 1 / 2 := by norm_num
  have hfl : ⌊(8388608 + 1 / 2 : K)⌋ = 8388608 := by
    rw [Int.floor_eq_iff]; constructor <;> push_cast <;> norm_num
  have hr : roundEven (8388608 + 1 / 2 : K) = 8388608 := by
    unfold roundEven
    simp only [hfl]
    norm_num
    exact ⟨4194304, by norm_num⟩
  rw [e, hr]; norm_num

/-- with steps of at most `2^-26` the phase stays below 1/4 -/
theorem below_quarter {s : K} (h0 : 0 ≤ s) (h1 : s ≤ 1 / 2 ^ 26) (n : ℕ) (x : K)
    (hx : PhaseOk ieee32 x) (h : x ≤ 1 / 4) :
    (accumulate ieee32 x (List.replicate n s)).getLastD x ≤ 1 / 4 := by
  have hf := rounding_ieee32 (K := K)
  induction n generalizing x with
  | zero => simpa [accumulate] using h
  | succ n ih =>
    obtain ⟨a, b, c⟩ := small_step hx (by linarith [show (1 : K) / 4 ≤ 1 / 2 by norm_num]) h0
      (h1.trans (by norm_num))
    have b2 : ieee32 (x + s) ≤ 1 / 4 := by
      have := hf.mono (show x + s ≤ 1 / 4 + 1 / 2 ^ 26 by linarith)
      rwa [quarter_tie] at this
    simp only [List.replicate_succ, accumulate, a, List.getLastD_cons]
    exact ih _ ⟨by linarith [hx.1], by linarith, isPhase_ieee32 (hf.idem _)⟩ b2

/-- a phase below `2^n` at which a step above `2^(n-25)` gets nowhere: impossible -/
theorem not_stuck {p s : K} (n : ℤ) (hn : n ≤ 0) (hp0 : 0 ≤ p) (hp : p < 2 ^ n)
    (hfix : ieee32 ((2 : K) ^ n) = 2 ^ n) (hs : (2 : K) ^ (n - 25) < s) (hs0 : 1 / 2 ^ 126 ≤ s) :
    ieee32 (p + s) ≠ p := by
  have hf := rounding_ieee32 (K := K)
  intro e
  rcases lt_or_ge (p + s) (2 ^ n) with h | h
  · have := abs_le.1 (ieee32_err_below n (by linarith) h (by omega))
    rw [e] at this
    linarith [this.1]
  · have := hf.ge_of_ge hfix h
    rw [e] at this
    linarith

/-- where the phase gets stuck -/
theorem stuck_quarter (s : K) (h0 : 1 / 2 ^ 27 < s) (h1 : s ≤ 1 / 2 ^ 25) :
    ∃ (n : ℕ) (m : ℤ), m ≠ 0 ∧ (∀ dir, BlockSafe ieee32 dir 0 (accumulate ieee32 0 (List.replicate n s))) ∧
      (accumulate ieee32 0 (List.replicate n s)).getLastD 0 = (m : K) / 4 ∧
      fmod1 (ieee32 ((m : K) / 4 + s)) = (m : K) / 4 := by
  have hf := rounding_ieee32 (K := K)
  have hs : 0 ≤ s := le_trans (by positivity) h0.le
  have hsn : 1 / 2 ^ 126 ≤ s := le_trans (by norm_num) h0.le
  have f4 : ieee32 ((2 : K) ^ (-2 : ℤ)) = 2 ^ (-2 : ℤ) := by
    have := hf.dyadic 1 2 (by norm_num); norm_num at this ⊢; exact this
  have f2 : ieee32 ((2 : K) ^ (-1 : ℤ)) = 2 ^ (-1 : ℤ) := by
    have := hf.dyadic 1 1 (by norm_num); norm_num at this ⊢; exact this
  have e27 : (2 : K) ^ (-2 - 25 : ℤ) = 1 / 2 ^ 27 := by norm_num [zpow_neg]
  have e26 : (2 : K) ^ (-1 - 25 : ℤ) = 1 / 2 ^ 26 := by norm_num [zpow_neg]
  obtain ⟨n, p, a1, a2, a3, a4, a5⟩ := stuck s hs h1
  have a6 : ieee32 (p + s) = p := by rw [← (small_step a3 a4 hs h1).1]; exact a5
  have q : 1 / 4 ≤ p := by
    by_contra hc
    exact not_stuck (-2) (by norm_num) a3.1 (lt_of_lt_of_eq (not_le.1 hc) (by norm_num [zpow_neg])) f4
      (by rw [e27]; exact h0) hsn a6
  rcases le_or_gt s (1 / 2 ^ 26) with hc | hc
  · have := below_quarter hs hc n 0 ⟨le_rfl, by norm_num, hf.zero_ph⟩ (by norm_num)
    rw [a2] at this
    have hp : p = ((1 : ℤ) : K) / 4 := by push_cast; linarith
    exact ⟨n, 1, by norm_num, a1, by rw [a2, hp], by rw [← hp]; exact a5⟩
  · have q2 : 1 / 2 ≤ p := by
      by_contra h
      exact not_stuck (-1) (by norm_num) a3.1 (lt_of_lt_of_eq (not_le.1 h) (by norm_num [zpow_neg])) f2
        (by rw [e26]; exact hc) hsn a6
    have hp : p = ((2 : ℤ) : K) / 4 := by push_cast; linarith
    exact ⟨n, 2, by norm_num, a1, by rw [a2, hp], by rw [← hp]; exact a5⟩

end Adwt.Drivers

namespace Adwt.Props
open Drivers
variable {K C : Type} [Field K] [LinearOrder K] [IsStrictOrderedRing K] [FloorRing K]
variable [Zero C] [Add C] [Sub C] [Mul C] [Div C]

/-- C62: in a release build, a tone of such a frequency with a step above `2^-27` divides by zero if it is
long enough, whatever was played before: its phase stops at 1/2 or at 1/4. -/
theorem C62_release_divides_by_zero (S : Sys K C) (he : S.env.fl = ieee32) (hl : Log2Spec S.env.log2f)
    (hB : 0 < S.B) (hdbg : S.env.dbg = false) (nw L : ℕ) (o : Osc K C) (ho : Reached S nw L o) (freq : K)
    (h0 : 1 / 2 ^ 27 < ieee32 (freq / kSamplerate)) (h1 : ieee32 (freq / kSamplerate) ≤ 1 / 2 ^ 25) :
    ∃ N, ∀ n, N ≤ n → generateTone S o freq n = .error .divByZero := by
  have hf : Rounding S.env.fl := by rw [he]; exact rounding_ieee32
  have hs : 0 < ieee32 (freq / kSamplerate) := lt_trans (by positivity) h0
  have hp := Sys.reached_play hf hl hB ho
  obtain ⟨wt, hwt, hw⟩ := hp.wt
  have hz : PhaseOk S.env.fl (0 : K) := ⟨le_rfl, by norm_num, hf.zero_ph⟩
  obtain ⟨o1, e1, r1, r2, r3, -, -⟩ := Sys.reset_play hf hwt hw hz hs.ne' hp.crt0 hp.crt1
  have ho1 : Reached S nw L o1 := Reached.reset ho ⟨hz, hs.ne'⟩ e1
  have hsafe : OscSafe S nw L o1 := ⟨r1, fun h => absurd h (by rw [r3]; exact not_lt.2 hs.le)⟩
  obtain ⟨N, k, k0, a1, a2, a5⟩ := stuck_quarter _ h0 h1
  refine ⟨N + 1, fun n hn => ?_⟩
  obtain ⟨m, rfl⟩ := Nat.exists_eq_add_of_le hn
  have hblk : BlockSafe S.env.fl .kBidirectionnal o1.prevPhase
      (accumulate ieee32 0 (List.replicate N (ieee32 (freq / kSamplerate)))) := by
    rw [he, r2]; exact a1 .kBidirectionnal
  obtain ⟨⟨o2, ys⟩, e2, b1, b2, -, b4⟩ := Sys.run_ok hf hB hsafe hblk
  dsimp only at b1 b2 b4
  rw [r2, a2] at b2
  obtain ⟨wt1, hw1, -⟩ := r1.wt
  obtain ⟨wt2, hw2, -⟩ := b1.wt
  have ho2 : Reached S nw L o2 := Reached.process ho1 (Sys.blockSafe_ok hblk)
    (out := List.replicate N 0) (by simp [accumulate_length])
    (Sys.process_eq hw1 _ (by simp [accumulate_length]) e2 b4)
  unfold generateTone
  dsimp only
  unfold generateTonePhase
  rw [he, e1, R.ok_bind]
  rw [Sys.process_runDir S _ (by rw [hw1]; rfl) (by simp [accumulate_length]),
    Nat.add_assoc, List.replicate_add, accumulate_append, a2, accumulate_stuck a5, runDir_append, e2,
    R.ok_bind]
  dsimp only
  have := (C28_release_divides_by_zero S hf hl hB hdbg nw L o2 ho2 k b2 .kBidirectionnal
    (List.replicate m ((k : K) / 4)) (List.replicate (m + 1) 0) (by simp)).resolve_right (by
      rintro ⟨⟨h, -⟩, -⟩
      rw [b2] at h
      have : (k : K) ≠ 0 := by exact_mod_cast k0
      exact this (by linarith [h]))
  rw [b2, Sys.process_runDir S _ (by rw [hw2]; rfl) (by simp)] at this
  rw [Nat.add_comm 1 m, List.replicate_succ, this]
  rfl

/-- frequencies that meet the hypotheses of the theorem, at the samplerate of the program -/
example : 1 / 2 ^ 27 < ieee32 ((1 / 1024 : ℚ) / kSamplerate) ∧
    ieee32 ((1 / 1024 : ℚ) / kSamplerate) ≤ 1 / 2 ^ 25 := by
  have hf := rounding_ieee32 (K := ℚ)
  have f25 : ieee32 ((1 : ℚ) / 2 ^ 25) = 1 / 2 ^ 25 := by
    have := hf.dyadic 1 25 (by norm_num); norm_num at this ⊢; exact this
  have f26 : ieee32 ((1 : ℚ) / 2 ^ 26) = 1 / 2 ^ 26 := by
    have := hf.dyadic 1 26 (by norm_num); norm_num at this ⊢; exact this
  constructor
  · refine lt_of_lt_of_le (b := 1 / 2 ^ 26) (by norm_num) (hf.ge_of_ge f26 ?_)
    unfold kSamplerate; norm_num
  · refine hf.le_of_le f25 ?_
    unfold kSamplerate; norm_num

end Adwt.Props
