import Verif.Proofs.Gain
import Verif.Spec.Passband

/-!
# Lower bounds on gains between two frequencies
-/

set_option linter.unusedSectionVars false

namespace Adwt.Gain

/-- Nonnegative between the first and the last of the points. -/
def chkIn (p : List ℚ) : List ℚ → Bool
  | [] => true
  | [_] => true
  | a :: b :: l => decide (a < b) && nonneg (homog a b p).1 && chkIn p (b :: l)

/-- The last of the points. -/
def top : ℚ → List ℚ → ℚ
  | a, [] => a
  | _, b :: l => top b l

theorem chkIn_sound {p : List ℚ} {a : ℚ} {l : List ℚ} (h : chkIn p (a :: l) = true) {v : ℝ}
    (hv : (a : ℝ) ≤ v) (ht : v < top a l) : 0 ≤ ev p v := by
  induction l generalizing a with
  | nil => exact absurd ht (not_lt.2 hv)
  | cons b l ih =>
    simp only [chkIn, Bool.and_eq_true, decide_eq_true_eq] at h
    obtain ⟨⟨hab, h1⟩, h2⟩ := h
    rcases lt_or_ge v b with hb | hb
    · have hab' : (a : ℝ) < b := by exact_mod_cast hab
      have ht : 0 ≤ (v - a) / (b - v) := div_nonneg (by linarith) (by linarith)
      obtain ⟨e1, e2⟩ := ev_homog a b p ht
      have h3 := ev_nonneg h1 ht
      have ev' : ((a : ℝ) + b * ((v - a) / (b - v))) / (1 + (v - a) / (b - v)) = v := by
        have h4 : (b : ℝ) - v ≠ 0 := by linarith
        have h5 : (1 : ℝ) + (v - a) / (b - v) = (b - a) / (b - v) := by field_simp; ring
        have h6 : (b : ℝ) - a ≠ 0 := by linarith
        rw [h5]
        field_simp
        ring
      rw [e2, ev'] at h3
      exact nonneg_of_mul_nonneg_right h3 e1
    · exact ih h2 hb ht

/-- A lower bound on the gain below a frequency. -/
theorem gain_ge {t : FilterType} {g : ℚ} {l : List ℚ} (hg : 0 ≤ g)
    (h : chkIn (padd (nn t) (smul (-(g * g)) (dd t))) (0 :: l) = true) {ω : ℝ}
    (hω : ω ^ 2 < top 0 l) : (g : ℝ) ≤ ‖freqResponse (Props.filterX t) ω‖ := by
  obtain ⟨h1, h2⟩ := response_sq t ω
  have h3 := chkIn_sound h (by push_cast; positivity) hω
  rw [ev_padd, ev_smul, ← h2] at h3
  push_cast at h3
  have h4 : (g : ℝ) ^ 2 ≤ ‖freqResponse (Props.filterX t) ω‖ ^ 2 := by
    by_contra hc
    push Not at hc
    have := mul_lt_mul_of_pos_right hc h1
    linarith
  exact (pow_le_pow_iff_left₀ (by exact_mod_cast hg) (norm_nonneg _) two_ne_zero).1 h4

end Adwt.Gain
