import Verif.Proofs.FloatTables

/-!
# One table in float arithmetic: the computed sums are close to the integrals
-/

set_option linter.unusedSectionVars false

namespace Adwt
open Seg

theorem one_add_pow_le {ε : ℝ} (h0 : 0 ≤ ε) {n : ℕ} (h : n * ε ≤ 1 / 2) : (1 + ε) ^ n ≤ 2 := by
  have key : ∀ m : ℕ, m ≤ n → (1 + ε) ^ m ≤ 1 + 2 * (m * ε) := by
    intro m
    induction m with
    | zero => intro _; simp
    | succ m ih =>
      intro hm
      have h1 := ih (by omega)
      have h2 : (m : ℝ) * ε ≤ 1 / 2 := by
        refine le_trans ?_ h
        gcongr; omega
      rw [pow_succ]
      have h3 : (m : ℝ) * ε * ε ≤ 1 / 2 * ε := by gcongr
      calc (1 + ε) ^ m * (1 + ε) ≤ (1 + 2 * (m * ε)) * (1 + ε) := by gcongr
        _ ≤ _ := by push_cast; linarith
  have := key n le_rfl
  linarith

/-- accumulation of rounding errors in a sum -/
theorem fold_err {C ι : Type} {val : C → ℂ} {step : C → ι → C} {T : ι → ℂ} {ε D P τ e0 R : ℝ}
    (h0 : 0 ≤ ε) (hD : 0 ≤ D) (hτ : 0 ≤ τ) (hP : 0 ≤ P) (l : List ι)
    (hstep : ∀ old, ‖val old‖ ≤ R → ∀ i ∈ l, ‖val (step old i) - (val old + T i)‖ ≤ ε * ‖val old‖ + D)
    (hT : ∀ i ∈ l, ‖T i‖ ≤ τ) (c : C) (c' : ℂ) (hc : ‖val c - c'‖ ≤ e0) (hc' : ‖c'‖ ≤ P)
    (hR : (1 + ε) ^ l.length * (e0 + l.length * (ε * (P + l.length * τ) + D)) + (P + l.length * τ) ≤ R) :
    ‖val (l.foldl step c) - l.foldl (fun o i => o + T i) c'‖ ≤
      (1 + ε) ^ l.length * (e0 + l.length * (ε * (P + l.length * τ) + D)) ∧
    ‖l.foldl (fun o i => o + T i) c'‖ ≤ P + l.length * τ := by
  induction l generalizing c c' e0 P with
  | nil => simpa using ⟨hc, hc'⟩
  | cons i l ih =>
    have he0 : 0 ≤ e0 := (norm_nonneg _).trans hc
    have hn := near_norm hc hc'
    set n := l.length with hnl
    have hn0 : (0 : ℝ) ≤ n := by positivity
    rw [List.length_cons, ← hnl] at hR
    have key : (1 + ε) ^ n * ((1 + ε) * e0 + (ε * P + D) + n * (ε * (P + τ + n * τ) + D)) ≤
        (1 + ε) ^ (n + 1) * (e0 + ((n + 1 : ℕ) : ℝ) * (ε * (P + ((n + 1 : ℕ) : ℝ) * τ) + D)) := by
      rw [pow_succ, mul_assoc]
      apply mul_le_mul_of_nonneg_left _ (by positivity)
      push_cast
      have e1 : 0 ≤ ε * e0 := by positivity
      have k1 : 0 ≤ ε * ((n + 1) * (ε * (P + (n + 1) * τ) + D)) := by positivity
      have k2 : 0 ≤ ε * τ := by positivity
      have k3 : 0 ≤ ε * (n * τ) := by positivity
      nlinarith
    have hcR : ‖val c‖ ≤ R := by
      refine le_trans ?_ hR
      have g1 : 1 ≤ (1 + ε) ^ (n + 1) := one_le_pow₀ (by linarith)
      have g2 : 0 ≤ ((n + 1 : ℕ) : ℝ) * (ε * (P + ((n + 1 : ℕ) : ℝ) * τ) + D) := by positivity
      have g3 : 0 ≤ ((n + 1 : ℕ) : ℝ) * τ := by positivity
      have g4 := mul_le_mul_of_nonneg_right g1 (add_nonneg he0 g2)
      linarith
    have h1 := hstep c hcR i (by simp)
    have h2 : ‖val (step c i) - (c' + T i)‖ ≤ (1 + ε) * e0 + (ε * P + D) := by
      have a : ε * ‖val c‖ ≤ ε * (P + e0) := by gcongr
      have b := near_trans h1 (near_add hc (b := T i) (y := T i) (e' := 0) (by simp))
      linarith
    have h3 : ‖c' + T i‖ ≤ P + τ := (norm_add_le _ _).trans (add_le_add hc' (hT i (by simp)))
    obtain ⟨i1, i2⟩ := ih (P := P + τ) (by positivity)
      (fun old ho i hi => hstep old ho i (by simp [hi]))
      (fun i hi => hT i (by simp [hi])) (step c i) (c' + T i) h2 h3
      (le_trans (by push_cast at key ⊢; linarith) hR)
    rw [List.foldl_cons, List.foldl_cons, List.length_cons]
    exact ⟨i1.trans key, i2.trans (by push_cast; linarith)⟩

variable {C : Type} [Zero C] [Add C] [Sub C] [Mul C] [Div C]

namespace Sys

theorem fwd_ideal {N : ℕ} {Y : ℤ → ℝ} (hY : ∀ i, Y (i + N) = Y i) {jmin jmax : ℤ}
    (h0 : 0 ≤ jmin) (h1 : jmin < N) (h2 : 0 ≤ jmax) (h3 : jmax < N) {prev x d : ℝ} (hd0 : d ≠ 0)
    (hu : In N jmin (bar prev)) (hv : In N jmax x)
    (hd : d = x - bar prev + (if jmin > jmax then 1 else 0)) (z : ℂ) :
    z ^ 2 * response (W N Y) z prev d =
      (irange jmin (bornSup jmin jmax N)).foldl (fun old i => old +
        Seg.T N Y z (x + (if jmin > jmax then 1 else 0)) d i)
      (Complex.exp z * (z * ((line N Y jmin (bar prev) : ℝ) : ℂ) + ((M N Y jmin * d : ℝ) : ℂ)) -
        (z * ((line N Y jmax x : ℝ) : ℂ) + ((M N Y jmax * d : ℝ) : ℂ))) := by
  have hN : 0 < N := by omega
  have hN' : (0 : ℝ) < N := by exact_mod_cast hN
  set b := bornSup jmin jmax N with hb
  have hbv : b = jmax + if jmin > jmax then (N : ℤ) else 0 := rfl
  set X1 : ℝ := x + (if jmin > jmax then 1 else 0) with hX
  have hX1 : bar prev + d = X1 := by rw [hd, hX]; ring
  have hjb : jmin ≤ b := by rw [hbv]; split_ifs <;> omega
  have hbe : jmin + ((b - jmin).toNat : ℤ) = b := by omega
  have hInb : In N b X1 := by
    rw [hbv, hX]
    split_ifs
    · exact hv.shift hN
    · simpa using hv
  rw [← response_bar hY, response_eq _ _ hd0, hX1]
  have key := (segs (Y := Y) (z := z) (x1 := X1) hN' hd0 hu (b - jmin).toNat
    (v := X1) (by rw [hbe]; exact hInb)).2
  rw [key, hbe]
  have hline : line N Y b X1 = line N Y jmax x ∧ M N Y b = M N Y jmax := by
    rw [hbv, hX]
    split_ifs
    · exact ⟨line_period hY _ _, M_period hY _⟩
    · simp
  rw [foldl_irange]
  congr 1
  unfold G
  rw [hline.1, hline.2]
  have e1 : (X1 - bar prev) / d = 1 := by
    rw [← hX1]; field_simp; ring
  rw [e1, sub_self, zero_div]
  push_cast
  simp

theorem bwd_ideal {N : ℕ} {Y : ℤ → ℝ} (hY : ∀ i, Y (i + N) = Y i) {jmin jmax : ℤ}
    (h0 : 0 ≤ jmin) (h1 : jmin < N) (h2 : 0 ≤ jmax) (h3 : jmax < N) {prev x d : ℝ} (hd0 : d ≠ 0)
    (hu : In N jmax prev) (hv : In N jmin (bar x))
    (hd : d = bar x - prev - (if jmin > jmax then 1 else 0)) (z : ℂ) :
    z ^ 2 * response (W N Y) z prev d =
      (irange jmin (bornSup jmin jmax N)).foldl (fun old i => old + -Seg.T N Y z (bar x) d i)
      (Complex.exp z * (z * ((line N Y jmax prev : ℝ) : ℂ) + ((M N Y jmax * d : ℝ) : ℂ)) -
        (z * ((line N Y jmin (bar x) : ℝ) : ℂ) + ((M N Y jmin * d : ℝ) : ℂ))) := by
  have hN : 0 < N := by omega
  have hN' : (0 : ℝ) < N := by exact_mod_cast hN
  set b := bornSup jmin jmax N with hb
  have hbv : b = jmax + if jmin > jmax then (N : ℤ) else 0 := rfl
  set X0 : ℝ := prev + (if jmin > jmax then 1 else 0) with hX
  have hX1 : X0 + d = bar x := by rw [hd, hX]; ring
  have hjb : jmin ≤ b := by rw [hbv]; split_ifs <;> omega
  have hbe : jmin + ((b - jmin).toNat : ℤ) = b := by omega
  have hInb : In N b X0 := by
    rw [hbv, hX]
    split_ifs
    · exact hu.shift hN
    · simpa using hu
  have hrs : response (W N Y) z prev d = response (W N Y) z X0 d := by
    rw [hX]
    unfold response
    split_ifs
    · congr 1; funext t
      rw [show prev + 1 + t * d = prev + t * d + 1 by ring, W_period hY]
    · rw [add_zero]
  rw [hrs, response_eq _ _ hd0, hX1, intervalIntegral.integral_symm]
  have key := (segs (Y := Y) (z := z) (x1 := bar x) hN' hd0 hv (b - jmin).toNat
    (v := X0) (by rw [hbe]; exact hInb)).2
  rw [mul_neg, key, hbe]
  have hline : line N Y b X0 = line N Y jmax prev ∧ M N Y b = M N Y jmax := by
    rw [hbv, hX]
    split_ifs
    · exact ⟨line_period hY _ _, M_period hY _⟩
    · simp
  rw [foldl_irange, Finset.sum_neg_distrib]
  unfold G
  rw [hline.1, hline.2]
  have e1 : (bar x - X0) / d = 1 := by
    rw [← hX1]; field_simp; ring
  rw [e1, sub_self, zero_div]
  push_cast
  simp
  ring

variable {S : Sys ℝ C} {val : C → ℂ} {ε : ℝ} (hS : FloatSys S val ε)
include hS

/-- the float exponent of a corner -/
theorem expo_near {bf B ph d d' : ℝ} (hB : |bf - B| ≤ 4 * ε) (hdd : |d - d'| ≤ 3 * ε)
    (hs : (0 < d ∧ 0 < d' ∧ ph ≤ bf ∧ ph ≤ B) ∨ (d < 0 ∧ d' < 0 ∧ bf ≤ ph ∧ B ≤ ph))
    (hn : |B - ph| ≤ |d'|) (hd1 : |d'| ≤ 1) (hdl : 1 / 2 ^ 100 ≤ |d|) :
    0 ≤ S.env.fl (S.env.fl (bf - ph) / d) ∧ S.env.fl (S.env.fl (bf - ph) / d) ≤ 2 ^ 104 ∧ 0 ≤ (B - ph) / d' ∧
      |S.env.fl (S.env.fl (bf - ph) / d) - (B - ph) / d'| * |d| ≤ 11 * ε ∧
      S.env.fl (S.env.fl (bf - ph) / d) * |d| ≤ 2 := by
  have h0 := hS.ε0
  have h1 := FloatSys.εs hS
  have hd : d ≠ 0 := by rcases hs with h | h; exacts [h.1.ne', h.1.ne]
  have hd' : d' ≠ 0 := by rcases hs with h | h; exacts [h.2.1.ne', h.2.1.ne]
  have p1 : 0 ≤ S.env.fl (S.env.fl (bf - ph) / d) := by
    apply hS.fl.nonneg
    rcases hs with ⟨a, b, c, e⟩ | ⟨a, b, c, e⟩
    · exact div_nonneg (hS.fl.nonneg (by linarith)) a.le
    · exact div_nonneg_of_nonpos (hS.fl.nonpos (by linarith)) a.le
  have p2 : 0 ≤ (B - ph) / d' := by
    rcases hs with ⟨a, b, c, e⟩ | ⟨a, b, c, e⟩
    · exact div_nonneg (by linarith) b.le
    · exact div_nonneg_of_nonpos (by linarith) b.le
  set s := S.env.fl (bf - ph) with hsd
  set a := S.env.fl (s / d) with had
  have u1 : ε * ε ≤ 1 / 1000 * ε := by gcongr
  have u2 : ε * (ε * ε) ≤ 1 / 1000 * (1 / 1000 * ε) := by gcongr
  have q1 : |s - (B - ph)| ≤ 4 * ε + ε * (1 + 4 * ε) := by
    apply fl_near hS _ (hn.trans hd1)
    rw [sub_sub_sub_cancel_right]; exact hB
  have q2 := abs_near q1 (hn.trans hd1)
  have hda : |d| ≤ 2 := by
    have := abs_near hdd hd1
    linarith
  have hd0 : 0 < |d| := abs_pos.2 hd
  have q5 : |s / d| ≤ 2 ^ 102 := by
    rw [abs_div, div_le_iff₀ hd0]
    have : (2 : ℝ) ^ 102 * (1 / 2 ^ 100) ≤ 2 ^ 102 * |d| := by gcongr
    norm_num at this ⊢
    linarith
  have q3 : |a * d - s| ≤ ε * |s| + ε * (1 / 1000) := by
    have := (hS.rel (s / d) (q5.trans (by norm_num))).trans
      (roundErr_add h0 le_rfl (abs_nonneg _))
    have e : a * d - s = (a - s / d) * d := by field_simp
    rw [e, abs_mul]
    calc |a - s / d| * |d| ≤ ε * (|s / d| + 1 / 2 ^ 80) * |d| := by gcongr
      _ = ε * |s| + ε * (1 / 2 ^ 80 * |d|) := by rw [abs_div]; field_simp
      _ ≤ ε * |s| + ε * (1 / 2 ^ 80 * 2) := by gcongr
      _ ≤ _ := by gcongr; norm_num
  have q6 : a ≤ 2 ^ 104 := by
    have := abs_near (hS.rel (s / d) (q5.trans (by norm_num))) le_rfl
    have g := (roundErr_add h0 (m := |s / d|) le_rfl (abs_nonneg _)).trans
      (mul_le_mul_of_nonneg_right h1 (by positivity))
    have := (le_abs_self a)
    norm_num at g q5 ⊢
    linarith
  have q4 : ε * |s| ≤ ε * (1 + (4 * ε + ε * (1 + 4 * ε))) := by gcongr
  refine ⟨p1, q6, p2, ?_, ?_⟩
  · have e : (a - (B - ph) / d') * d = (a * d - s) + (s - (B - ph)) + (B - ph) / d' * (d' - d) := by
      field_simp; ring
    rw [← abs_mul, e]
    have t1 := abs_add_le ((a * d - s) + (s - (B - ph))) ((B - ph) / d' * (d' - d))
    have t2 := abs_add_le (a * d - s) (s - (B - ph))
    have t3 : |(B - ph) / d' * (d' - d)| ≤ 1 * (3 * ε) := by
      rw [abs_mul, abs_div]
      apply mul_le_mul _ (by rw [abs_sub_comm]; exact hdd) (abs_nonneg _) (by norm_num)
      rw [div_le_one (abs_pos.2 hd')]; exact hn
    linarith
  · have : a * |d| = |a * d| := by rw [abs_mul, abs_of_nonneg p1]
    rw [this]
    have := abs_near (T := 1 + (4 * ε + ε * (1 + 4 * ε))) q3 q2
    linarith

end Sys
end Adwt
