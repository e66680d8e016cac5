import Verif.Proofs.FloatVal

/-!
# One table in float arithmetic: both directions
-/

set_option linter.unusedSectionVars false

namespace Adwt
open Seg

variable {C : Type} [Zero C] [Add C] [Sub C] [Mul C] [Div C]

namespace Sys
variable {S : Sys ℝ C} {val : C → ℂ} {ε : ℝ} (hS : FloatSys S val ε)
include hS

/-- the tail of both directions: the initial value and `n` corners -/
theorem fold_near {M : ℝ} (hM : 0 ≤ M) (M1 : M ≤ 2 ^ 24) {Z : ℝ} (hZ : 0 ≤ Z) (hZ2 : Z ≤ 32)
    {ι : Type} {l : List ι}
    {step : C → ι → C} {T : ι → ℂ} (hl : (l.length : ℝ) ≤ 2 ^ 18)
    (hstep : ∀ old, ‖val old‖ ≤ 2 ^ 100 → ∀ i ∈ l, ‖val (step old i) - (val old + T i)‖ ≤
      ε * ‖val old‖ + 112 * ε * ((1 + Z) * M))
    (hT : ∀ i ∈ l, ‖T i‖ ≤ 2 * M) (c : C) (c' : ℂ) (hc : ‖val c - c'‖ ≤ 60 * ε * ((1 + Z) * M))
    (hc' : ‖c'‖ ≤ 2.02 * ((1 + Z) * M)) :
    ‖val (l.foldl step c) - l.foldl (fun o i => o + T i) c'‖ ≤
      120 * (1 + l.length) ^ 2 * ε * ((1 + Z) * M) ∧
    ‖l.foldl (fun o i => o + T i) c'‖ ≤ 2.02 * (1 + l.length) * ((1 + Z) * M) := by
  have h0 := hS.ε0
  have h1 := FloatSys.εs hS
  set Q := (1 + Z) * M with hQ
  have hQ0 : 0 ≤ Q := by positivity
  have hMQ : M ≤ Q := by rw [hQ]; nlinarith
  have hQ1 : Q ≤ 2 ^ 30 := by
    calc Q ≤ (1 + 32) * 2 ^ 24 := by rw [hQ]; gcongr
      _ ≤ _ := by norm_num
  have hle : l.length * ε ≤ 1 / 2 := by
    calc (l.length : ℝ) * ε ≤ 2 ^ 18 * (1 / 2 ^ 21) := mul_le_mul hl hS.ε1 h0 (by positivity)
        _ ≤ 1 / 2 := by norm_num
  have hp := one_add_pow_le h0 hle
  set n := l.length with hn
  have hn0 : (0 : ℝ) ≤ n := by positivity
  have k1 : (1 + ε) ^ n * (60 * ε * Q + n * (ε * (2.02 * Q + n * (2 * Q)) + 112 * ε * Q)) ≤
      120 * (1 + n) ^ 2 * ε * Q := by
    calc (1 + ε) ^ n * (60 * ε * Q + n * (ε * (2.02 * Q + n * (2 * Q)) + 112 * ε * Q)) ≤
        2 * (60 * ε * Q + n * (ε * (2.02 * Q + n * (2 * Q)) + 112 * ε * Q)) := by gcongr
      _ = (120 + 228.04 * n + 4 * n ^ 2) * (ε * Q) := by ring
      _ ≤ (120 * (1 + n) ^ 2) * (ε * Q) := by
        apply mul_le_mul_of_nonneg_right _ (by positivity)
        nlinarith
      _ = _ := by ring
  have k2 : 2.02 * Q + n * (2 * Q) ≤ 2.02 * (1 + n) * Q := by
    have : 0 ≤ n * Q := by positivity
    linarith
  have k3 : 120 * (1 + n) ^ 2 * ε * Q + 2.02 * (1 + n) * Q ≤ 2 ^ 100 := by
    calc 120 * (1 + n) ^ 2 * ε * Q + 2.02 * (1 + n) * Q ≤
        120 * (1 + 2 ^ 18 : ℝ) ^ 2 * (1 / 1000) * 2 ^ 30 + 2.02 * (1 + 2 ^ 18) * 2 ^ 30 := by gcongr
      _ ≤ _ := by norm_num
  obtain ⟨r1, r2⟩ := fold_err h0 (R := 2 ^ 100) (by positivity) (by positivity) (by positivity) l hstep
    (fun i hi => (hT i hi).trans (by linarith : 2 * M ≤ 2 * Q)) c c' hc hc' (by
      rw [← hn]; linarith)
  exact ⟨r1.trans k1, r2.trans k2⟩

omit hS in
/-- size of the ideal boundary terms -/
theorem fi0_bound {z : ℂ} (hz : z.re ≤ 0) {M a b c d : ℝ} (ha : |a| ≤ M) (hb : |b| ≤ M)
    (hc : |c| ≤ M) (hd : |d| ≤ M) (hM : 0 ≤ M) :
    ‖Complex.exp z * (z * (a : ℂ) + (b : ℂ)) - (z * (c : ℂ) + (d : ℂ))‖ ≤ 2.02 * ((1 + ‖z‖) * M) := by
  have nE : ‖Complex.exp z‖ ≤ 1 := by
    rw [Complex.norm_exp]; exact Real.exp_le_one_iff.2 hz
  have key : ∀ {a b : ℝ}, |a| ≤ M → |b| ≤ M → ‖z * (a : ℂ) + (b : ℂ)‖ ≤ (1 + ‖z‖) * M := by
    intro a b ha hb
    refine (norm_add_le _ _).trans ?_
    have := norm_mul_le' (a := z) le_rfl (norm_real_le ha)
    have := norm_real_le hb
    linarith
  refine (norm_sub_le _ _).trans ?_
  have h1 := norm_mul_le' nE (key ha hb)
  have h2 := key hc hd
  have : 0 ≤ (1 + ‖z‖) * M := by positivity
  linarith

omit hS in
theorem fcorner_bound {N : ℝ} {Y : ℤ → ℝ} {z : ℂ} (hz : z.re ≤ 0) {X d M : ℝ} {i : ℤ}
    (ha : 0 ≤ (X - (i + 1) / N) / d) (hb : |Seg.M N Y (i + 1) - Seg.M N Y i| ≤ 2 * M) (hM : 0 ≤ M)
    (hd : |d| ≤ 1) : ‖Seg.T N Y z X d i‖ ≤ 2 * M := by
  unfold Seg.T
  have nE : ‖Complex.exp (z * ((X - (i + 1) / N) / d : ℝ))‖ ≤ 1 := by
    rw [Complex.norm_exp]
    apply Real.exp_le_one_iff.2
    rw [Complex.re_mul_ofReal]
    exact mul_nonpos_of_nonpos_of_nonneg hz ha
  have h1 := norm_mul_le' (norm_real_le hb) (norm_real_le hd)
  have := norm_mul_le' nE h1
  linarith

theorem fwdVal_near {N : ℕ} {Y : ℤ → ℝ} {m q md qd ph : List ℝ} {M : ℝ} (hN : (N : ℝ) ≤ 2 ^ 18)
    (hph : ∀ i : ℤ, 0 ≤ i → i < N → S.env.fl (ph.getD (i + 1).toNat 0) = ph.getD (i + 1).toNat 0)
    (hY : ∀ i, Y (i + N) = Y i) (T0 : FLines ε M N Y m q md qd ph) {jmin jmax : ℤ}
    (h0 : 0 ≤ jmin) (h1 : jmin < N) (h2 : 0 ≤ jmax) (h3 : jmax < N) {prev x d d' : ℝ}
    (hpr : 0 ≤ prev ∧ prev < 1 ∧ S.env.fl prev = prev) (hx : 0 ≤ x ∧ x < 1)
    (hd0 : 0 < d) (hd1 : d ≤ 1) (hd0' : 0 < d') (hd1' : d' ≤ 1) (hdd : |d - d'| ≤ 3 * ε)
    (hu : In N jmin (bar prev)) (hv : In N jmax x)
    (hd : d' = x - bar prev + (if jmin > jmax then 1 else 0)) (M0 : 1 / 2 ^ 40 ≤ M) (M1 : M ≤ 2 ^ 24)
    (hdl : 1 / 2 ^ 100 ≤ d) {k : ℕ} (hk : k < S.n) :
    ‖val (S.fwdVal m q md qd ph N prev jmin jmax d x k) -
      val (S.zA k) ^ 2 * response (W N Y) (val (S.zA k)) prev d'‖ ≤
      120 * (N * d' + 2) ^ 2 * ε * ((1 + ‖val (S.zA k)‖) * M) ∧
    ‖val (S.zA k) ^ 2 * response (W N Y) (val (S.zA k)) prev d'‖ ≤
      2.02 * (N * d' + 2) * ((1 + ‖val (S.zA k)‖) * M) := by
  have e0 := hS.ε0
  have e1 := FloatSys.εs hS
  have hNp : 0 < N := by omega
  have hN' : (0 : ℝ) < N := by exact_mod_cast hNp
  have hM : 0 ≤ M := (abs_nonneg _).trans (T0.Y 0)
  have hzr := z_re hS hk
  rw [fwd_ideal hY h0 h1 h2 h3 hd0'.ne' hu hv hd]
  set z := val (S.zA k) with hz
  set b := bornSup jmin jmax N with hb
  have hbv : b = jmax + if jmin > jmax then (N : ℤ) else 0 := rfl
  set X1 : ℝ := x + (if jmin > jmax then 1 else 0) with hX
  have hX1 : bar prev + d' = X1 := by rw [hd, hX]; ring
  have hjb : jmin ≤ b := by rw [hbv]; split_ifs <;> omega
  have hInb : In N b X1 := by
    rw [hbv, hX]
    split_ifs
    · exact hv.shift hNp
    · simpa using hv
  have hlen : ((irange jmin b).length : ℝ) = (b : ℝ) - jmin := by
    unfold irange
    simp only [List.length_map, List.length_range]
    have : (((b - jmin).toNat : ℤ) : ℝ) = ((b - jmin : ℤ) : ℝ) := by
      rw [Int.toNat_of_nonneg (by omega)]
    push_cast at this; exact this
  have hnd : (b : ℝ) - jmin ≤ N * d' + 1 := by
    obtain ⟨a1, -⟩ := hInb
    obtain ⟨-, a2⟩ := hu
    rw [div_le_iff₀ hN'] at a1
    rw [le_div_iff₀ hN'] at a2
    have : X1 * N = bar prev * N + N * d' := by rw [← hX1]; ring
    linarith
  have hbN : (b : ℝ) - jmin ≤ N := by
    have : b - jmin ≤ N := by rw [hbv]; split_ifs <;> omega
    exact_mod_cast this
  have hbar1 : |bar prev| ≤ 1 := by
    unfold bar
    rw [abs_le]
    split_ifs with h
    · rw [h]; norm_num
    · constructor <;> linarith [hpr.1, hpr.2.1]
  have hbf : S.env.fl (prev + ofBool (decide (prev = 0))) = bar prev := by
    unfold bar ofBool
    by_cases h : prev = 0
    · simp [h, hS.fl.one]
    · simp [h, hpr.2.2]
  have hx1 : |x| ≤ 1 := abs_le.2 ⟨by linarith [hx.1], hx.2.le⟩
  have L1 := T0.line jmin h0 h1
  have L2 := T0.line jmax h2 h3
  have b1 : |Seg.M N Y jmin * bar prev + (Y jmin - jmin * (Y (jmin + 1) - Y jmin))| ≤ M :=
    line_bound hN' T0.Y hu
  have b2 : |Seg.M N Y jmax * x + (Y jmax - jmax * (Y (jmax + 1) - Y jmax))| ≤ M :=
    line_bound hN' T0.Y hv
  have i0 := i0Val_near hS hk L1 L2 hM M0 M1 (by rw [abs_of_pos hd0]; exact hd1) hdd hbar1 hx1 b1 b2
  have smul : ∀ {a : ℝ}, |a| ≤ M → |a * d'| ≤ M := by
    intro a ha
    rw [abs_mul, abs_of_pos hd0']
    calc |a| * d' ≤ M * 1 := mul_le_mul ha hd1' hd0'.le hM
      _ = M := mul_one M
  have i0b := fi0_bound hzr b1 (smul L1.bm) b2 (smul L2.bm) hM
  -- facts about a corner
  have hc : ∀ i ∈ irange jmin b, 0 ≤ red i N ∧ red i N < N ∧
      Seg.M N Y (red i N + 1) - Seg.M N Y (red i N) = Seg.M N Y (i + 1) - Seg.M N Y i ∧
      x + ofBool (decide (red i N > jmax)) - ((red i N : ℝ) + 1) / N = X1 - ((i : ℝ) + 1) / N ∧
      0 ≤ X1 - ((i : ℝ) + 1) / N ∧ X1 - ((i : ℝ) + 1) / N ≤ d' := by
    intro i hi
    obtain ⟨hi0, hi1⟩ := mem_irange.1 hi
    have hir : i < 2 * N := by rw [hbv] at hi1; split_ifs at hi1 <;> omega
    have hr : 0 ≤ red i N ∧ red i N < N := (reduceI_red (dbg := true) (by omega) hir).2
    refine ⟨hr.1, hr.2, ?_, ?_, ?_, ?_⟩
    · unfold red
      split_ifs
      · rw [← M_period hY (i - N + 1), ← M_period hY (i - N)]
        congr 2 <;> ring
      · rfl
    · rw [hX]
      unfold ofBool
      by_cases hw : jmin > jmax
      · rw [if_pos hw]
        rw [hbv, if_pos hw] at hi1
        unfold red
        by_cases hiN : i ≥ N
        · rw [if_pos hiN, if_neg (by simp; omega)]
          push_cast; field_simp; ring
        · rw [if_neg hiN, if_pos (by simp; omega)]
      · rw [if_neg hw]
        rw [hbv, if_neg hw] at hi1
        unfold red
        rw [if_neg (show ¬ i ≥ (N : ℤ) by omega), if_neg (by simp; omega)]
    · obtain ⟨a1, -⟩ := hInb
      have : ((i : ℝ) + 1) / N ≤ b / N := by
        apply div_le_div_of_nonneg_right _ hN'.le
        exact_mod_cast hi1
      linarith
    · obtain ⟨-, a2⟩ := hu
      have : ((jmin : ℝ) + 1) / N ≤ ((i : ℝ) + 1) / N := by
        apply div_le_div_of_nonneg_right _ hN'.le
        have : (jmin : ℝ) ≤ i := by exact_mod_cast hi0
        linarith
      linarith
  unfold fwdVal
  rw [hbf]
  have fin := fold_near hS (M := M) hM M1 (Z := ‖z‖) (norm_nonneg _) (z_range hS hk).2.2.1 (l := irange jmin b)
    (step := fun old i => S.cornF d
      (S.env.fl (x + ofBool (decide (red i N > jmax)))) (ph.getD (red i N + 1).toNat 0)
      (md.getD (red i N).toNat 0) (qd.getD (red i N).toNat 0) k old)
    (T := fun i => Seg.T N Y z X1 d' i) (by
      rw [hlen]
      exact hbN.trans hN) (by
      intro old hold i hi
      obtain ⟨c1, c2, c3, c4, c5, c6⟩ := hc i hi
      have hp := T0.ph _ c1 c2
      have hco := T0.corner _ c1 c2
      have hfx := hph _ c1 c2
      set p := ph.getD (red i N + 1).toNat 0 with hpd
      set B := x + ofBool (decide (red i N > jmax)) with hB
      have hBp : B - p = X1 - ((i : ℝ) + 1) / N := by rw [hp]; exact c4
      have hB2 : |B| ≤ 2 := by
        rw [hB]; unfold ofBool
        rw [abs_le]
        split_ifs <;> constructor <;> linarith [hx.1, hx.2]
      have hBe : |S.env.fl B - B| ≤ 4 * ε := by
        refine (hS.rel B (hB2.trans (by norm_num))).trans ?_
        have := roundErr_le e0 hB2 (by norm_num)
        linarith
      have hmono : p ≤ S.env.fl B := by
        have := hS.fl.mono (show p ≤ B by linarith)
        rwa [hfx] at this
      obtain ⟨x1, x1', x2, x3, x4⟩ := expo_near hS hBe hdd
        (Or.inl ⟨hd0, hd0', hmono, by linarith⟩)
        (by rw [hBp, abs_of_nonneg c5, abs_of_pos hd0']; exact c6)
        (by rw [abs_of_pos hd0']; exact hd1') (by rw [abs_of_pos hd0]; exact hdl)
      have := (corn_near hS hk hM M0 M1 hco (by rw [abs_of_pos hd0]; exact hd1) hdd x1 x1' x2 x3 x4
        old hold).1
      rw [hBp, c3] at this
      unfold Seg.T
      push_cast at this ⊢
      exact this) (by
      intro i hi
      obtain ⟨c1, c2, c3, c4, c5, c6⟩ := hc i hi
      apply fcorner_bound hzr (div_nonneg c5 hd0'.le) _ hM (by rw [abs_of_pos hd0']; exact hd1')
      rw [← c3]
      exact (T0.corner _ c1 c2).b) _ _ i0 i0b
  rw [hlen] at fin
  have hb0 : 0 ≤ (b : ℝ) - jmin := by
    have : (jmin : ℝ) ≤ b := by exact_mod_cast hjb
    linarith
  have hQ0 : 0 ≤ (1 + ‖z‖) * M := by positivity
  have hk2 : 1 + ((b : ℝ) - jmin) ≤ N * d' + 2 := by linarith
  have hk0 : 0 ≤ 1 + ((b : ℝ) - jmin) := by linarith
  generalize 1 + ((b : ℝ) - jmin) = ν at fin hk2 hk0
  refine ⟨fin.1.trans ?_, fin.2.trans ?_⟩
  · gcongr
  · gcongr

end Sys
end Adwt
