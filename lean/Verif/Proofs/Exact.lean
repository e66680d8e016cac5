import Verif.Proofs.Segments
import Verif.Spec.Playing
import Verif.Proofs.Reached

/-!
# One table: the computed sums are the integrals
-/

set_option linter.unusedSectionVars false

namespace Adwt
open Seg

namespace Seg
variable {N : ℕ} {Y : ℤ → ℝ}

theorem M_period (hY : ∀ i, Y (i + N) = Y i) (i : ℤ) : M N Y (i + N) = M N Y i := by
  unfold M
  rw [show i + (N : ℤ) + 1 = i + 1 + N by ring, hY, hY]

theorem line_period (hY : ∀ i, Y (i + N) = Y i) (i : ℤ) (u : ℝ) :
    line N Y (i + N) (u + 1) = line N Y i u := by
  unfold line
  rw [M_period hY, hY, show i + (N : ℤ) + 1 = i + 1 + N by ring, hY]
  unfold M
  push_cast
  ring

theorem W_period (hY : ∀ i, Y (i + N) = Y i) (u : ℝ) : W N Y (u + 1) = W N Y u := by
  unfold W
  rw [add_mul, one_mul, Int.floor_add_natCast, line_period hY]

theorem In.shift {i : ℤ} {u : ℝ} (hN : 0 < N) (h : In N i u) : In N (i + N) (u + 1) := by
  have hN' : (0 : ℝ) < N := by exact_mod_cast hN
  obtain ⟨a, b⟩ := h
  rw [div_le_iff₀ hN'] at a
  rw [le_div_iff₀ hN'] at b
  refine ⟨?_, ?_⟩
  · rw [div_le_iff₀ hN']; push_cast; linarith
  · rw [le_div_iff₀ hN']; push_cast; linarith

end Seg

/-- `y` as a table of lines: what the getters return in exact arithmetic -/
structure Lines (N : ℕ) (Y : ℤ → ℝ) (lm lq lmd lqd lph : List ℝ) : Prop where
  m : ∀ i : ℤ, 0 ≤ i → i < N → lm.getD i.toNat 0 = M N Y i
  q : ∀ i : ℤ, 0 ≤ i → i < N → lq.getD i.toNat 0 = Y i - i * (Y (i + 1) - Y i)
  md : ∀ i : ℤ, 0 ≤ i → i < N → lmd.getD i.toNat 0 = M N Y (i + 1) - M N Y i
  ph : ∀ i : ℤ, 0 ≤ i → i < N → lph.getD (i + 1).toNat 0 = (i + 1) / N
  qd : ∀ i : ℤ, 0 ≤ i → i < N →
    lqd.getD i.toNat 0 = -(lmd.getD i.toNat 0 * lph.getD (i + 1).toNat 0)

namespace Sys

theorem foldl_irange (g : ℤ → ℂ) (a b : ℤ) (c : ℂ) :
    (irange a b).foldl (fun old i => old + g i) c =
      c + ∑ k ∈ Finset.range (b - a).toNat, g (a + (k : ℤ)) := by
  unfold irange
  rw [List.foldl_map]
  induction (b - a).toNat with
  | zero => simp
  | succ n ih =>
    rw [List.range_succ, List.foldl_append, ih, Finset.sum_range_succ]
    simp [add_assoc]

variable {S : Sys ℝ ℂ} (hS : ExactSys S)
include hS

theorem expZA_eq {k : ℕ} (hk : k < S.n) : S.expZA k = Complex.exp (S.zA k) := by
  have : k < S.flt.z.length := by rw [← hS.len]; exact hk
  unfold expZA zA
  rw [hS.ops]
  simp [List.getD_eq_getElem?_getD, this, copsX]

theorem zPow2A_eq {k : ℕ} (hk : k < S.n) : S.zPow2A k = S.zA k ^ 2 := by
  have : k < S.flt.z.length := by rw [← hS.len]; exact hk
  unfold zPow2A zA
  simp [List.getD_eq_getElem?_getD, this, sq]

theorem zA_ne {k : ℕ} (hk : k < S.n) : S.zA k ≠ 0 := by
  have : k < S.flt.z.length := by rw [← hS.len]; exact hk
  unfold zA
  rw [List.getD_eq_getElem?_getD, List.getElem?_eq_getElem this]
  exact hS.z0 _ (List.getElem_mem _)

theorem cornF_exact {d bar ph md qd : ℝ} (h : qd = -(md * ph)) (k : ℕ) (old : ℂ) :
    S.cornF d bar ph md qd k old =
      old + Complex.exp (S.zA k * ((bar - ph) / d : ℝ)) * ((md : ℂ) * (d : ℂ)) := by
  subst h
  unfold cornF eff cornerS cornerV
  rw [hS.fl, hS.ops]
  simp only [copsX, id]
  split_ifs <;> push_cast <;> ring

theorem cornB_exact {d bar ph md qd : ℝ} (h : qd = -(md * ph)) (k : ℕ) (old : ℂ) :
    S.cornB d bar ph md qd k old =
      old + -(Complex.exp (S.zA k * ((bar - ph) / d : ℝ)) * ((md : ℂ) * (d : ℂ))) := by
  subst h
  unfold cornB eff cornerS cornerV
  rw [hS.fl, hS.ops]
  simp only [copsX, id]
  split_ifs <;> push_cast <;> ring

theorem i0Val_exact {mp qp mn qn d pb nb : ℝ} {k : ℕ} (hk : k < S.n) :
    S.i0Val mp qp mn qn d pb nb k =
      Complex.exp (S.zA k) * (S.zA k * ((mp * pb + qp : ℝ) : ℂ) + (mp : ℂ) * (d : ℂ)) -
        (S.zA k * ((mn * nb + qn : ℝ) : ℂ) + (mn : ℂ) * (d : ℂ)) := by
  unfold i0Val eff
  rw [WavetableData.mad_id hS.fl, WavetableData.mad_id hS.fl, hS.fl, hS.ops]
  simp only [copsX, id]
  rw [expZA_eq hS hk]
  split_ifs <;> push_cast <;> ring

/-- `0` read as the end of the previous period -/
noncomputable def bar (x : ℝ) : ℝ := x + if x = 0 then 1 else 0

omit hS in
theorem response_bar {N : ℕ} {Y : ℤ → ℝ} (hY : ∀ i, Y (i + N) = Y i) (z : ℂ) (x d : ℝ) :
    response (W N Y) z (bar x) d = response (W N Y) z x d := by
  unfold bar response
  by_cases h : x = 0
  · rw [if_pos h]
    congr 1; funext t
    rw [show x + 1 + t * d = x + t * d + 1 by ring, W_period hY]
  · rw [if_neg h, add_zero]

variable {N : ℕ} {Y : ℤ → ℝ} {m q md qd ph : List ℝ}

theorem fwdVal_exact (hY : ∀ i, Y (i + N) = Y i) (T0 : Lines N Y m q md qd ph) {jmin jmax : ℤ}
    (h0 : 0 ≤ jmin) (h1 : jmin < N) (h2 : 0 ≤ jmax) (h3 : jmax < N) {prev x d : ℝ} (hd0 : d ≠ 0)
    (hu : In N jmin (bar prev)) (hv : In N jmax x)
    (hd : d = x - bar prev + (if jmin > jmax then 1 else 0)) {k : ℕ} (hk : k < S.n) :
    S.fwdVal m q md qd ph N prev jmin jmax d x k =
      S.zA k ^ 2 * response (W N Y) (S.zA k) prev d := by
  have hN : 0 < N := by omega
  have hN' : (0 : ℝ) < N := by exact_mod_cast hN
  set b := bornSup jmin jmax N with hb
  have hbv : b = jmax + if jmin > jmax then (N : ℤ) else 0 := rfl
  set X1 : ℝ := x + (if jmin > jmax then 1 else 0) with hX
  have hX1 : bar prev + d = X1 := by rw [hd, hX]; ring
  have hjb : jmin ≤ b := by rw [hbv]; split_ifs <;> omega
  have hbe : jmin + ((b - jmin).toNat : ℤ) = b := by omega
  have hInb : In N b X1 := by
    rw [hbv, hX]
    split_ifs
    · exact hv.shift hN
    · simpa using hv
  rw [← response_bar hY, response_eq _ _ hd0, hX1]
  have key := (segs (Y := Y) (z := S.zA k) (x1 := X1) hN' hd0 hu (b - jmin).toNat
    (v := X1) (by rw [hbe]; exact hInb)).2
  rw [key, hbe]
  -- the fold
  unfold fwdVal
  have hline : line N Y b X1 = line N Y jmax x ∧ M N Y b = M N Y jmax := by
    rw [hbv, hX]
    split_ifs
    · exact ⟨line_period hY _ _, M_period hY _⟩
    · simp
  have hfold : ∀ c : ℂ, (irange jmin (bornSup jmin jmax N)).foldl (fun old i => S.cornF d
      (S.env.fl (x + ofBool (decide (red i N > jmax)))) (ph.getD (red i N + 1).toNat 0)
      (md.getD (red i N).toNat 0) (qd.getD (red i N).toNat 0) k old) c =
      (irange jmin b).foldl (fun old i => old + Seg.T N Y (S.zA k) X1 d i) c := by
    intro c
    rw [← hb]
    apply List.foldl_ext
    intro old i hi
    obtain ⟨hi0, hi1⟩ := mem_irange.1 hi
    have hir : i < 2 * N := by rw [hbv] at hi1; split_ifs at hi1 <;> omega
    have hr : 0 ≤ red i N ∧ red i N < N := (reduceI_red (dbg := true) (by omega) hir).2
    rw [cornF_exact hS (T0.qd _ hr.1 hr.2), T0.ph _ hr.1 hr.2, T0.md _ hr.1 hr.2, hS.fl]
    unfold Seg.T
    simp only [id]
    have hMs : M N Y (red i N + 1) - M N Y (red i N) = M N Y (i + 1) - M N Y i := by
      unfold red
      split_ifs
      · rw [← M_period hY (i - N + 1), ← M_period hY (i - N)]
        congr 2 <;> ring
      · rfl
    have hbar : x + ofBool (decide (red i N > jmax)) - ((red i N : ℝ) + 1) / N =
        X1 - ((i : ℝ) + 1) / N := by
      rw [hX]
      unfold ofBool
      by_cases hw : jmin > jmax
      · rw [if_pos hw]
        rw [hbv, if_pos hw] at hi1
        unfold red
        by_cases hiN : i ≥ N
        · rw [if_pos hiN, if_neg (by simp; omega)]
          push_cast; field_simp; ring
        · rw [if_neg hiN, if_pos (by simp; omega)]
      · rw [if_neg hw]
        rw [hbv, if_neg hw] at hi1
        unfold red
        rw [if_neg (show ¬ i ≥ (N : ℤ) by omega), if_neg (by simp; omega)]
    rw [hMs, hbar]
  rw [hfold, foldl_irange, i0Val_exact hS hk]
  congr 1
  rw [T0.m _ h0 h1, T0.q _ h0 h1, T0.m _ h2 h3, T0.q _ h2 h3]
  have eb : S.env.fl (prev + ofBool (decide (prev = 0))) = bar prev := by
    rw [hS.fl]; unfold bar ofBool; simp
  rw [eb]
  unfold G
  rw [hline.1, hline.2]
  have e1 : (X1 - bar prev) / d = 1 := by
    rw [← hX1]; field_simp; ring
  rw [e1, sub_self, zero_div]
  unfold line
  push_cast
  simp

theorem bwdVal_exact (hY : ∀ i, Y (i + N) = Y i) (T0 : Lines N Y m q md qd ph) {jm jmin jmax : ℤ}
    (h0 : 0 ≤ jmin) (h1 : jmin < N) (h2 : 0 ≤ jmax) (h3 : jmax < N) {prev x d : ℝ} (hd0 : d ≠ 0)
    (hu : In N jmax prev) (hv : In N jmin (bar x)) (hjm : jm = 0 ↔ x = 0)
    (hx0 : x = 0 → jmin > jmax)
    (hd : d = bar x - prev - (if jmin > jmax then 1 else 0)) {k : ℕ} (hk : k < S.n) :
    S.bwdVal m q md qd ph N prev jm jmin jmax d x k =
      S.zA k ^ 2 * response (W N Y) (S.zA k) prev d := by
  have hN : 0 < N := by omega
  have hN' : (0 : ℝ) < N := by exact_mod_cast hN
  set b := bornSup jmin jmax N with hb
  have hbv : b = jmax + if jmin > jmax then (N : ℤ) else 0 := rfl
  set X0 : ℝ := prev + (if jmin > jmax then 1 else 0) with hX
  have hX1 : X0 + d = bar x := by rw [hd, hX]; ring
  have hjb : jmin ≤ b := by rw [hbv]; split_ifs <;> omega
  have hbe : jmin + ((b - jmin).toNat : ℤ) = b := by omega
  have hInb : In N b X0 := by
    rw [hbv, hX]
    split_ifs
    · exact hu.shift hN
    · simpa using hu
  have hrs : response (W N Y) (S.zA k) prev d = response (W N Y) (S.zA k) X0 d := by
    rw [hX]
    unfold response
    split_ifs
    · congr 1; funext t
      rw [show prev + 1 + t * d = prev + t * d + 1 by ring, W_period hY]
    · rw [add_zero]
  rw [hrs, response_eq _ _ hd0, hX1, intervalIntegral.integral_symm]
  have key := (segs (Y := Y) (z := S.zA k) (x1 := bar x) hN' hd0 hv (b - jmin).toNat
    (v := X0) (by rw [hbe]; exact hInb)).2
  rw [mul_neg, key, hbe]
  unfold bwdVal
  have hline : line N Y b X0 = line N Y jmax prev ∧ M N Y b = M N Y jmax := by
    rw [hbv, hX]
    split_ifs
    · exact ⟨line_period hY _ _, M_period hY _⟩
    · simp
  have hfold : ∀ c : ℂ, (irange jmin (bornSup jmin jmax N)).foldl (fun old i => S.cornB d
      (S.env.fl (S.env.fl (x + cycleOffset jm jmin jmax) + ofBool (decide (red i N > jmax))))
      (ph.getD (red i N + 1).toNat 0)
      (md.getD (red i N).toNat 0) (qd.getD (red i N).toNat 0) k old) c =
      (irange jmin b).foldl (fun old i => old + -Seg.T N Y (S.zA k) (bar x) d i) c := by
    intro c
    rw [← hb]
    apply List.foldl_ext
    intro old i hi
    obtain ⟨hi0, hi1⟩ := mem_irange.1 hi
    have hir : i < 2 * N := by rw [hbv] at hi1; split_ifs at hi1 <;> omega
    have hr : 0 ≤ red i N ∧ red i N < N := (reduceI_red (dbg := true) (by omega) hir).2
    rw [cornB_exact hS (T0.qd _ hr.1 hr.2), T0.ph _ hr.1 hr.2, T0.md _ hr.1 hr.2, hS.fl]
    unfold Seg.T
    simp only [id]
    have hMs : M N Y (red i N + 1) - M N Y (red i N) = M N Y (i + 1) - M N Y i := by
      unfold red
      split_ifs
      · rw [← M_period hY (i - N + 1), ← M_period hY (i - N)]
        congr 2 <;> ring
      · rfl
    have hbar : x + cycleOffset jm jmin jmax + ofBool (decide (red i N > jmax)) -
        ((red i N : ℝ) + 1) / N = bar x - ((i : ℝ) + 1) / N := by
      unfold ofBool cycleOffset bar
      by_cases hw : jmin > jmax
      · rw [hbv, if_pos hw] at hi1
        unfold red
        by_cases hx : x = 0
        · rw [if_neg (by rw [hjm.2 hx]; simp), if_pos hx]
          by_cases hiN : i ≥ N
          · rw [if_pos hiN, if_neg (by simp; omega)]
            push_cast; field_simp; ring
          · rw [if_neg hiN, if_pos (by simp; omega)]; ring
        · rw [if_pos ⟨fun h => hx (hjm.1 h), hw⟩, if_neg hx]
          by_cases hiN : i ≥ N
          · rw [if_pos hiN, if_neg (by simp; omega)]
            push_cast; field_simp; ring
          · rw [if_neg hiN, if_pos (by simp; omega)]; ring
      · rw [if_neg (fun h => hw h.2), if_neg (fun h => hw (hx0 h))]
        rw [hbv, if_neg hw] at hi1
        unfold red
        rw [if_neg (show ¬ i ≥ (N : ℤ) by omega), if_neg (by simp; omega)]
        ring
    rw [hMs, hbar]
  rw [hfold, foldl_irange, i0Val_exact hS hk, Finset.sum_neg_distrib]
  rw [T0.m _ h0 h1, T0.q _ h0 h1, T0.m _ h2 h3, T0.q _ h2 h3]
  have eb : S.env.fl (x + ofBool (decide (x = 0))) = bar x := by
    rw [hS.fl]; unfold bar ofBool; simp
  rw [eb]
  unfold G
  rw [hline.1, hline.2]
  have e1 : (bar x - X0) / d = 1 := by
    rw [← hX1]; field_simp; ring
  rw [e1, sub_self, zero_div]
  unfold line
  push_cast
  simp
  ring

end Sys
end Adwt
