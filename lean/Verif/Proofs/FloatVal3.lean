import Verif.Proofs.FloatVal2

/-!
# One table in float arithmetic: backward
-/

set_option linter.unusedSectionVars false

namespace Adwt
open Seg

variable {C : Type} [Zero C] [Add C] [Sub C] [Mul C] [Div C]

namespace Sys
variable {S : Sys ℝ C} {val : C → ℂ} {ε : ℝ} (hS : FloatSys S val ε)
include hS

/-- the float boundary of a backward corner -/
theorem bwd_bar {x p o c : ℝ} (hx : 0 ≤ x ∧ x < 1 ∧ S.env.fl x = x)
    (hp : S.env.fl p = p) (hp1 : S.env.fl (p - 1) = p - 1) (ho : o = 0 ∨ o = -1)
    (hc : c = 0 ∨ c = 1) (hle : x + o + c ≤ p) :
    |S.env.fl (S.env.fl (x + o) + c) - (x + o + c)| ≤ 4 * ε ∧ S.env.fl (S.env.fl (x + o) + c) ≤ p := by
  have e0 := hS.ε0
  have e1 := FloatSys.εs hS
  constructor
  · have a1 : |x + o| ≤ 1 := by
      rw [abs_le]; rcases ho with rfl | rfl <;> constructor <;> linarith [hx.1, hx.2.1]
    have a2 : |S.env.fl (x + o) - (x + o)| ≤ ε := by
      refine (hS.rel _ (a1.trans (by norm_num))).trans ?_
      have := roundErr_le e0 a1 (by norm_num)
      linarith
    have a3 : |S.env.fl (x + o) + c| ≤ 2 + ε := by
      have e : S.env.fl (x + o) + c = (S.env.fl (x + o) - (x + o)) + (x + o) + c := by ring
      rw [e]
      have t1 := abs_add_le ((S.env.fl (x + o) - (x + o)) + (x + o)) c
      have t2 := abs_add_le (S.env.fl (x + o) - (x + o)) (x + o)
      have t3 : |c| ≤ 1 := by rcases hc with rfl | rfl <;> simp
      linarith
    have a4 : |S.env.fl (S.env.fl (x + o) + c) - (S.env.fl (x + o) + c)| ≤ ε * (2 + ε) :=
      (hS.rel _ (a3.trans (by norm_num; linarith))).trans (roundErr_le e0 a3 (by norm_num; linarith))
    have u1 : ε * ε ≤ 1 / 1000 * ε := by gcongr
    have e : S.env.fl (S.env.fl (x + o) + c) - (x + o + c) =
      (S.env.fl (S.env.fl (x + o) + c) - (S.env.fl (x + o) + c)) + (S.env.fl (x + o) - (x + o)) := by
      ring
    rw [e]
    have := abs_add_le (S.env.fl (S.env.fl (x + o) + c) - (S.env.fl (x + o) + c))
      (S.env.fl (x + o) - (x + o))
    linarith
  · rcases ho with rfl | rfl
    · rw [add_zero, hx.2.2]
      rw [add_zero] at hle
      have := hS.fl.mono hle
      rwa [hp] at this
    · rcases hc with rfl | rfl
      · rw [add_zero] at hle ⊢
        have := hS.fl.mono hle
        rw [hp] at this
        have := hS.fl.mono this
        rwa [hp] at this
      · have h1 : x + -1 ≤ p - 1 := by linarith
        have h2 := hS.fl.mono h1
        rw [hp1] at h2
        have h3 := hS.fl.mono (show S.env.fl (x + -1) + 1 ≤ p by linarith)
        rwa [hp] at h3

theorem bwdVal_near {N : ℕ} {Y : ℤ → ℝ} {m q md qd ph : List ℝ} {M : ℝ} (hN : (N : ℝ) ≤ 2 ^ 18)
    (hph : ∀ i : ℤ, 0 ≤ i → i < N → S.env.fl (ph.getD (i + 1).toNat 0) = ph.getD (i + 1).toNat 0 ∧
      S.env.fl (ph.getD (i + 1).toNat 0 - 1) = ph.getD (i + 1).toNat 0 - 1)
    (hY : ∀ i, Y (i + N) = Y i) (T0 : FLines ε M N Y m q md qd ph) {jm jmin jmax : ℤ}
    (h0 : 0 ≤ jmin) (h1 : jmin < N) (h2 : 0 ≤ jmax) (h3 : jmax < N) {prev x d d' : ℝ}
    (hpr : 0 ≤ prev ∧ prev < 1) (hx : 0 ≤ x ∧ x < 1 ∧ S.env.fl x = x)
    (hd0 : d < 0) (hd1 : -1 ≤ d) (hd0' : d' < 0) (hd1' : -1 ≤ d') (hdd : |d - d'| ≤ 3 * ε)
    (hu : In N jmax prev) (hv : In N jmin (bar x)) (hjm : jm = 0 ↔ x = 0)
    (hx0 : x = 0 → jmin > jmax)
    (hd : d' = bar x - prev - (if jmin > jmax then 1 else 0)) (M0 : 1 / 2 ^ 40 ≤ M) (M1 : M ≤ 2 ^ 24)
    (hdl : 1 / 2 ^ 100 ≤ -d) {k : ℕ} (hk : k < S.n) :
    ‖val (S.bwdVal m q md qd ph N prev jm jmin jmax d x k) -
      val (S.zA k) ^ 2 * response (W N Y) (val (S.zA k)) prev d'‖ ≤
      120 * (N * (-d') + 2) ^ 2 * ε * ((1 + ‖val (S.zA k)‖) * M) ∧
    ‖val (S.zA k) ^ 2 * response (W N Y) (val (S.zA k)) prev d'‖ ≤
      2.02 * (N * (-d') + 2) * ((1 + ‖val (S.zA k)‖) * M) := by
  have e0 := hS.ε0
  have e1 := FloatSys.εs hS
  have hNp : 0 < N := by omega
  have hN' : (0 : ℝ) < N := by exact_mod_cast hNp
  have hM : 0 ≤ M := (abs_nonneg _).trans (T0.Y 0)
  have hzr := z_re hS hk
  rw [bwd_ideal hY h0 h1 h2 h3 hd0'.ne hu hv hd]
  set z := val (S.zA k) with hz
  set b := bornSup jmin jmax N with hb
  have hbv : b = jmax + if jmin > jmax then (N : ℤ) else 0 := rfl
  set X0 : ℝ := prev + (if jmin > jmax then 1 else 0) with hX
  have hX1 : X0 + d' = bar x := by rw [hd, hX]; ring
  have hjb : jmin ≤ b := by rw [hbv]; split_ifs <;> omega
  have hInb : In N b X0 := by
    rw [hbv, hX]
    split_ifs
    · exact hu.shift hNp
    · simpa using hu
  have hlen : ((irange jmin b).length : ℝ) = (b : ℝ) - jmin := by
    unfold irange
    simp only [List.length_map, List.length_range]
    have : (((b - jmin).toNat : ℤ) : ℝ) = ((b - jmin : ℤ) : ℝ) := by
      rw [Int.toNat_of_nonneg (by omega)]
    push_cast at this; exact this
  have hnd : (b : ℝ) - jmin ≤ N * (-d') + 1 := by
    obtain ⟨a1, -⟩ := hInb
    obtain ⟨-, a2⟩ := hv
    rw [div_le_iff₀ hN'] at a1
    rw [le_div_iff₀ hN'] at a2
    have : X0 * N = bar x * N + N * (-d') := by rw [← hX1]; ring
    linarith
  have hbN : (b : ℝ) - jmin ≤ N := by
    have : b - jmin ≤ N := by rw [hbv]; split_ifs <;> omega
    exact_mod_cast this
  have hbar1 : |bar x| ≤ 1 := by
    unfold bar
    rw [abs_le]
    split_ifs with h
    · rw [h]; norm_num
    · constructor <;> linarith [hx.1, hx.2.1]
  have hbf : S.env.fl (x + ofBool (decide (x = 0))) = bar x := by
    unfold bar ofBool
    by_cases h : x = 0
    · simp [h, hS.fl.one]
    · simp [h, hx.2.2]
  have hp1 : |prev| ≤ 1 := abs_le.2 ⟨by linarith [hpr.1], hpr.2.le⟩
  have L1 := T0.line jmin h0 h1
  have L2 := T0.line jmax h2 h3
  have b1 : |Seg.M N Y jmin * bar x + (Y jmin - jmin * (Y (jmin + 1) - Y jmin))| ≤ M :=
    line_bound hN' T0.Y hv
  have b2 : |Seg.M N Y jmax * prev + (Y jmax - jmax * (Y (jmax + 1) - Y jmax))| ≤ M :=
    line_bound hN' T0.Y hu
  have i0 := i0Val_near hS hk L2 L1 hM M0 M1 (by rw [abs_of_neg hd0]; linarith) hdd hp1 hbar1 b2 b1
  have smul : ∀ {a : ℝ}, |a| ≤ M → |a * d'| ≤ M := by
    intro a ha
    rw [abs_mul, abs_of_neg hd0']
    calc |a| * -d' ≤ M * 1 := mul_le_mul ha (by linarith) (by linarith) hM
      _ = M := mul_one M
  have i0b := fi0_bound hzr b2 (smul L2.bm) b1 (smul L1.bm) hM
  -- facts about a corner
  have hc : ∀ i ∈ irange jmin b, 0 ≤ red i N ∧ red i N < N ∧
      Seg.M N Y (red i N + 1) - Seg.M N Y (red i N) = Seg.M N Y (i + 1) - Seg.M N Y i ∧
      x + cycleOffset jm jmin jmax + ofBool (decide (red i N > jmax)) - ((red i N : ℝ) + 1) / N =
        bar x - ((i : ℝ) + 1) / N ∧
      bar x - ((i : ℝ) + 1) / N ≤ 0 ∧ -(bar x - ((i : ℝ) + 1) / N) ≤ -d' := by
    intro i hi
    obtain ⟨hi0, hi1⟩ := mem_irange.1 hi
    have hir : i < 2 * N := by rw [hbv] at hi1; split_ifs at hi1 <;> omega
    have hr : 0 ≤ red i N ∧ red i N < N := (reduceI_red (dbg := true) (by omega) hir).2
    refine ⟨hr.1, hr.2, ?_, ?_, ?_, ?_⟩
    · unfold red
      split_ifs
      · rw [← M_period hY (i - N + 1), ← M_period hY (i - N)]
        congr 2 <;> ring
      · rfl
    · unfold ofBool cycleOffset bar
      by_cases hw : jmin > jmax
      · rw [hbv, if_pos hw] at hi1
        unfold red
        by_cases hx : x = 0
        · rw [if_neg (by rw [hjm.2 hx]; simp), if_pos hx]
          by_cases hiN : i ≥ N
          · rw [if_pos hiN, if_neg (by simp; omega)]
            push_cast; field_simp; ring
          · rw [if_neg hiN, if_pos (by simp; omega)]; ring
        · rw [if_pos ⟨fun h => hx (hjm.1 h), hw⟩, if_neg hx]
          by_cases hiN : i ≥ N
          · rw [if_pos hiN, if_neg (by simp; omega)]
            push_cast; field_simp; ring
          · rw [if_neg hiN, if_pos (by simp; omega)]; ring
      · rw [if_neg (fun h => hw h.2), if_neg (fun h => hw (hx0 h))]
        rw [hbv, if_neg hw] at hi1
        unfold red
        rw [if_neg (show ¬ i ≥ (N : ℤ) by omega), if_neg (by simp; omega)]
        ring
    · obtain ⟨-, a2⟩ := hv
      have : ((jmin : ℝ) + 1) / N ≤ ((i : ℝ) + 1) / N := by
        apply div_le_div_of_nonneg_right _ hN'.le
        have : (jmin : ℝ) ≤ i := by exact_mod_cast hi0
        linarith
      linarith
    · obtain ⟨a1, -⟩ := hInb
      have : ((i : ℝ) + 1) / N ≤ b / N := by
        apply div_le_div_of_nonneg_right _ hN'.le
        exact_mod_cast hi1
      linarith
  unfold bwdVal
  rw [hbf]
  have fin := fold_near hS (M := M) hM M1 (Z := ‖z‖) (norm_nonneg _) (z_range hS hk).2.2.1 (l := irange jmin b)
    (step := fun old i => S.cornB d
      (S.env.fl (S.env.fl (x + cycleOffset jm jmin jmax) + ofBool (decide (red i N > jmax))))
      (ph.getD (red i N + 1).toNat 0)
      (md.getD (red i N).toNat 0) (qd.getD (red i N).toNat 0) k old)
    (T := fun i => -Seg.T N Y z (bar x) d' i) (by
      rw [hlen]
      exact hbN.trans hN) (by
      intro old hold i hi
      obtain ⟨c1, c2, c3, c4, c5, c6⟩ := hc i hi
      have hp := T0.ph _ c1 c2
      have hco := T0.corner _ c1 c2
      obtain ⟨hfx, hfx1⟩ := hph _ c1 c2
      set p := ph.getD (red i N + 1).toNat 0 with hpd
      set B := x + cycleOffset jm jmin jmax + ofBool (decide (red i N > jmax)) with hB
      have hBp : B - p = bar x - ((i : ℝ) + 1) / N := by rw [hp]; exact c4
      obtain ⟨hBe, hmono⟩ := bwd_bar hS (p := p) (o := cycleOffset jm jmin jmax)
        (c := ofBool (decide (red i N > jmax))) hx hfx hfx1
        (by unfold cycleOffset; split_ifs <;> simp)
        (by unfold ofBool; split_ifs <;> simp) (by rw [← hB]; linarith)
      obtain ⟨x1, x1', x2, x3, x4⟩ := expo_near hS hBe hdd
        (Or.inr ⟨hd0, hd0', hmono, by linarith⟩)
        (by rw [hBp, abs_of_nonpos c5, abs_of_neg hd0']; exact c6)
        (by rw [abs_of_neg hd0']; linarith) (by rw [abs_of_neg hd0]; exact hdl)
      have := (corn_near hS hk hM M0 M1 hco (by rw [abs_of_neg hd0]; linarith) hdd x1 x1' x2 x3 x4
        old hold).2
      rw [hBp, c3] at this
      unfold Seg.T
      push_cast at this ⊢
      rw [← sub_eq_add_neg]
      exact this) (by
      intro i hi
      obtain ⟨c1, c2, c3, c4, c5, c6⟩ := hc i hi
      rw [norm_neg]
      apply fcorner_bound hzr (div_nonneg_of_nonpos c5 hd0'.le) _ hM
        (by rw [abs_of_neg hd0']; linarith)
      rw [← c3]
      exact (T0.corner _ c1 c2).b) _ _ i0 i0b
  rw [hlen] at fin
  have hb0 : 0 ≤ (b : ℝ) - jmin := by
    have : (jmin : ℝ) ≤ b := by exact_mod_cast hjb
    linarith
  have hQ0 : 0 ≤ (1 + ‖z‖) * M := by positivity
  have hk2 : 1 + ((b : ℝ) - jmin) ≤ N * (-d') + 2 := by linarith
  have hk0 : 0 ≤ 1 + ((b : ℝ) - jmin) := by linarith
  generalize 1 + ((b : ℝ) - jmin) = ν at fin hk2 hk0
  refine ⟨fin.1.trans ?_, fin.2.trans ?_⟩
  · gcongr
  · gcongr

end Sys
end Adwt
