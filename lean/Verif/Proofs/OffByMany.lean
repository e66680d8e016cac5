import Verif.Proofs.Plays

/-!
# What a forward sample computes from a segment index that is too low by any number
-/

set_option linter.unusedSectionVars false

namespace Adwt
open Seg MeasureTheory
namespace Sys
variable {S : Sys ℝ ℂ} (hS : ExactSys S) {N : ℕ} {Y : ℤ → ℝ} {m q md qd ph : List ℝ}
include hS

/-- starting one segment lower, wherever the start is -/
theorem fwdVal_pred (T0 : Lines N Y m q md qd ph) {a jmax : ℤ}
    (h0 : 1 ≤ a) (h1 : a ≤ jmax) (h3 : jmax < N) {prev x d : ℝ} (hd0 : d ≠ 0) (hp : prev ≠ 0)
    (hd : d = x - prev) {k : ℕ} (hk : k < S.n) :
    S.fwdVal m q md qd ph N prev (a - 1) jmax d x k =
      S.fwdVal m q md qd ph N prev a jmax d x k +
        S.zA k ^ 2 * ∫ s in (a / N : ℝ)..prev, f (fun s => line N Y a s - line N Y (a - 1) s) (S.zA k) x d s := by
  have hN : 0 < N := by omega
  have hN' : (0 : ℝ) < N := by exact_mod_cast hN
  -- the corner loop has one more iteration
  unfold fwdVal
  have eb : S.env.fl (prev + ofBool (decide (prev = 0))) = prev := by
    rw [hS.fl]; unfold ofBool; simp [hp]
  rw [eb]
  have hb : bornSup (a - 1) jmax N = jmax ∧ bornSup a jmax N = jmax := by
    unfold bornSup
    rw [if_neg (by omega), if_neg (by omega)]; simp
  rw [hb.1, hb.2]
  have hir : irange (a - 1) jmax = (a - 1) :: irange a jmax := by
    unfold irange
    have e : (jmax - (a - 1)).toNat = (jmax - a).toNat + 1 := by omega
    rw [e, List.range_succ_eq_map]
    simp only [List.map_cons, List.map_map, Nat.cast_zero, add_zero]
    congr 1
    apply List.map_congr_left
    intro c _
    simp only [Function.comp, Nat.succ_eq_add_one]
    push_cast; ring
  rw [hir, List.foldl_cons]
  have hred : ∀ i : ℤ, i < N → red i N = i := fun i h => by unfold red; rw [if_neg (by omega)]
  have hfold : ∀ c : ℂ, ∀ b : ℤ, 0 ≤ b → (irange b jmax).foldl (fun old i => S.cornF d
      (S.env.fl (x + ofBool (decide (red i N > jmax)))) (ph.getD (red i N + 1).toNat 0)
      (md.getD (red i N).toNat 0) (qd.getD (red i N).toNat 0) k old) c =
      (irange b jmax).foldl (fun old i => old + Seg.T N Y (S.zA k) x d i) c := by
    intro c b hb0
    apply List.foldl_ext
    intro old i hi
    obtain ⟨hi0, hi1⟩ := mem_irange.1 hi
    rw [hred i (by omega), cornF_exact hS (T0.qd _ (by omega) (by omega)), T0.ph _ (by omega) (by omega),
      T0.md _ (by omega) (by omega), hS.fl]
    unfold Seg.T ofBool
    simp only [id]
    rw [if_neg (by simp; omega), add_zero]
  have hc1 : S.cornF d (S.env.fl (x + ofBool (decide (red (a - 1) N > jmax))))
      (ph.getD (red (a - 1) N + 1).toNat 0) (md.getD (red (a - 1) N).toNat 0)
      (qd.getD (red (a - 1) N).toNat 0) k
      (S.i0Val (m.getD (a - 1).toNat 0) (q.getD (a - 1).toNat 0) (m.getD jmax.toNat 0)
        (q.getD jmax.toNat 0) d prev x k) =
      S.i0Val (m.getD (a - 1).toNat 0) (q.getD (a - 1).toNat 0) (m.getD jmax.toNat 0)
        (q.getD jmax.toNat 0) d prev x k + Seg.T N Y (S.zA k) x d (a - 1) := by
    rw [hred _ (by omega), cornF_exact hS (T0.qd _ (by omega) (by omega)), T0.ph _ (by omega) (by omega),
      T0.md _ (by omega) (by omega), hS.fl]
    unfold Seg.T ofBool
    simp only [id]
    rw [if_neg (by simp; omega), add_zero]
  rw [hc1, hfold _ _ (by omega), hfold _ _ (by omega), foldl_irange, foldl_irange,
    i0Val_exact hS hk, i0Val_exact hS hk, T0.m _ (by omega) (by omega), T0.q _ (by omega) (by omega),
    T0.m a (by omega) (by omega), T0.q a (by omega) (by omega)]
  have l1 := seg_line (N := N) (Y := Y) (z := S.zA k) (x1 := x) hd0 a (a / N : ℝ) prev
  have l2 := seg_line (N := N) (Y := Y) (z := S.zA k) (x1 := x) hd0 (a - 1) (a / N : ℝ) prev
  have hsplit : S.zA k ^ 2 * (∫ s in (a / N : ℝ)..prev,
      f (fun s => line N Y a s - line N Y (a - 1) s) (S.zA k) x d s) =
      S.zA k ^ 2 * (∫ s in (a / N : ℝ)..prev, f (line N Y a) (S.zA k) x d s) -
      S.zA k ^ 2 * (∫ s in (a / N : ℝ)..prev, f (line N Y (a - 1)) (S.zA k) x d s) := by
    rw [← mul_sub, ← intervalIntegral.integral_sub
      ((f_continuous _ _ _ _).intervalIntegrable _ _) ((f_continuous _ _ _ _).intervalIntegrable _ _)]
    congr 2
    funext s
    unfold f
    push_cast; ring
  have hcorner := G_corner (N := N) (Y := Y) (z := S.zA k) (x1 := x) (d := d) hN' (a - 1)
  rw [show (((a - 1 : ℤ) : ℝ) + 1) = a by push_cast; ring, sub_add_cancel] at hcorner
  have e1 : (x - prev) / d = 1 := by rw [← hd]; exact div_self hd0
  rw [hsplit, l1, l2, ← hcorner]
  have hG : ∀ i : ℤ, G N Y (S.zA k) x d i prev = Complex.exp (S.zA k) *
      (S.zA k * ((M N Y i * prev + (Y i - i * (Y (i + 1) - Y i)) : ℝ) : ℂ) +
        (M N Y i : ℂ) * (d : ℂ)) := by
    intro i
    unfold G line
    rw [e1]
    simp
  rw [hG, hG]
  ring



/-- Starting in segment `b` instead of `a` adds the filtered difference of the waveform and the line of
segment `b`, from the end of this segment to the start. -/
theorem fwdVal_lows (hY : ∀ i, Y (i + N) = Y i) (T0 : Lines N Y m q md qd ph) {a jmax : ℤ}
    (h1 : a ≤ jmax) (h3 : jmax < N) {prev x d : ℝ} (hd0 : d ≠ 0) (hp : prev ≠ 0)
    (hd : d = x - prev) (hu : In N a prev) (hv : In N jmax x) {k : ℕ} (hk : k < S.n) (c : ℕ) (hc : 0 ≤ a - c) :
    S.fwdVal m q md qd ph N prev (a - c) jmax d x k =
      S.zA k ^ 2 * (response (W N Y) (S.zA k) prev d +
        ∫ s in ((a - c + 1 : ℤ) / N : ℝ)..prev, f (fun s => W N Y s - line N Y (a - c) s) (S.zA k) x d s) := by
  have hN : 0 < N := by omega
  have hN' : (0 : ℝ) < N := by exact_mod_cast hN
  have hcont : ∀ b : ℤ, Continuous (f (fun s => W N Y s - line N Y b s) (S.zA k) x d) := fun b => by
    have h1 := W_continuous (Y := Y) hN'
    have h2 := line_continuous (N := N) (Y := Y) b
    unfold f; fun_prop
  have zero : ∀ b : ℤ, ∀ u v : ℝ, In N b u → In N b v →
      ∫ s in u..v, f (fun s => W N Y s - line N Y b s) (S.zA k) x d s = 0 := by
    intro b u v hu hv
    apply intervalIntegral.integral_zero_ae
    filter_upwards with s hs
    have : (b / N : ℝ) ≤ s ∧ s ≤ (b + 1) / N := by
      obtain ⟨u1, u2⟩ := hu
      obtain ⟨v1, v2⟩ := hv
      rcases Set.mem_uIoc.1 hs with h | h
      · exact ⟨u1.trans h.1.le, h.2.trans v2⟩
      · exact ⟨v1.trans h.1.le, h.2.trans u2⟩
    unfold f
    dsimp only
    rw [W_eq hN' this.1 this.2]
    simp
  induction c with
  | zero =>
    have hb1 : bar prev = prev := by unfold bar; rw [if_neg hp, add_zero]
    simp only [Nat.cast_zero, sub_zero]
    have e : In N a (((a + 1 : ℤ) : ℝ) / N) := by
      constructor
      · gcongr; push_cast; linarith
      · push_cast; exact le_rfl
    rw [zero a _ _ e hu, add_zero]
    exact fwdVal_exact hS hY T0 (jmin := a) (jmax := jmax) (by push_cast at hc; omega) (by omega)
      (by push_cast at hc; omega) h3
      (prev := prev) (x := x) hd0 (by rw [hb1]; exact hu) hv
      (by rw [if_neg (by omega), hb1, add_zero]; exact hd) hk
  | succ c ih =>
    push_cast at hc ⊢
    have e : a - ((c : ℤ) + 1) = a - c - 1 := by ring
    rw [e, fwdVal_pred hS T0 (a := a - c) (by omega) (by omega) h3 hd0 hp hd hk, ih (by omega), ← mul_add, add_assoc]
    congr 2
    have hb : In N (a - c) (((a - c : ℤ) : ℝ) / N) := by
      constructor
      · exact le_rfl
      · gcongr; linarith
    have hb' : In N (a - c) (((a - c + 1 : ℤ) : ℝ) / N) := by
      constructor
      · gcongr; linarith
      · push_cast; exact le_rfl
    have z := zero (a - c) _ _ hb hb'
    have s1 := intervalIntegral.integral_add_adjacent_intervals (μ := volume)
      ((hcont (a - c)).intervalIntegrable (((a - c : ℤ) : ℝ) / N) (((a - c + 1 : ℤ) : ℝ) / N))
      ((hcont (a - c)).intervalIntegrable (((a - c + 1 : ℤ) : ℝ) / N) prev)
    rw [z, zero_add] at s1
    rw [s1, ← intervalIntegral.integral_add ((hcont _).intervalIntegrable _ _)
      ((by
        have h1 := line_continuous (N := N) (Y := Y) (a - c)
        have h2 := line_continuous (N := N) (Y := Y) (a - c - 1)
        unfold f; fun_prop : Continuous _).intervalIntegrable _ _)]
    push_cast
    rw [show (a : ℝ) - (c + 1) + 1 = a - c by ring]
    congr 1
    funext s
    unfold f
    push_cast
    ring

end Sys
end Adwt
