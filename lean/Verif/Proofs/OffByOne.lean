import Verif.Proofs.Plays

/-!
# What a forward sample computes from a segment index that is one too low
-/

set_option linter.unusedSectionVars false

namespace Adwt
open Seg MeasureTheory
namespace Sys
variable {S : Sys ℝ ℂ} (hS : ExactSys S) {N : ℕ} {Y : ℤ → ℝ} {m q md qd ph : List ℝ}
include hS

/-- Starting one segment too low adds the filtered difference of the two lines between the corner
and the start. -/
theorem fwdVal_low (hY : ∀ i, Y (i + N) = Y i) (T0 : Lines N Y m q md qd ph) {a jmax : ℤ}
    (h0 : 1 ≤ a) (h1 : a ≤ jmax) (h3 : jmax < N) {prev x d : ℝ} (hd0 : d ≠ 0) (hp : prev ≠ 0)
    (hd : d = x - prev) (hu : In N a prev) (hv : In N jmax x) {k : ℕ} (hk : k < S.n) :
    S.fwdVal m q md qd ph N prev (a - 1) jmax d x k =
      S.zA k ^ 2 * (response (W N Y) (S.zA k) prev d +
        ∫ s in (a / N : ℝ)..prev, f (fun s => line N Y a s - line N Y (a - 1) s) (S.zA k) x d s) := by
  have hN : 0 < N := by omega
  have hN' : (0 : ℝ) < N := by exact_mod_cast hN
  have hb1 : bar prev = prev := by unfold bar; rw [if_neg hp, add_zero]
  have key := fwdVal_exact hS hY T0 (jmin := a) (jmax := jmax) (by omega) (by omega) (by omega) h3
    (prev := prev) (x := x) hd0 (by rw [hb1]; exact hu) hv
    (by rw [if_neg (by omega), hb1, add_zero]; exact hd) hk
  rw [mul_add, ← key]
  -- the corner loop has one more iteration
  unfold fwdVal
  have eb : S.env.fl (prev + ofBool (decide (prev = 0))) = prev := by
    rw [hS.fl]; unfold ofBool; simp [hp]
  rw [eb]
  have hb : bornSup (a - 1) jmax N = jmax ∧ bornSup a jmax N = jmax := by
    unfold bornSup
    rw [if_neg (by omega), if_neg (by omega)]; simp
  rw [hb.1, hb.2]
  have hir : irange (a - 1) jmax = (a - 1) :: irange a jmax := by
    unfold irange
    have e : (jmax - (a - 1)).toNat = (jmax - a).toNat + 1 := by omega
    rw [e, List.range_succ_eq_map]
    simp only [List.map_cons, List.map_map, Nat.cast_zero, add_zero]
    congr 1
    apply List.map_congr_left
    intro c _
    simp only [Function.comp, Nat.succ_eq_add_one]
    push_cast; ring
  rw [hir, List.foldl_cons]
  have hred : ∀ i : ℤ, i < N → red i N = i := fun i h => by unfold red; rw [if_neg (by omega)]
  have hfold : ∀ c : ℂ, ∀ b : ℤ, 0 ≤ b → (irange b jmax).foldl (fun old i => S.cornF d
      (S.env.fl (x + ofBool (decide (red i N > jmax)))) (ph.getD (red i N + 1).toNat 0)
      (md.getD (red i N).toNat 0) (qd.getD (red i N).toNat 0) k old) c =
      (irange b jmax).foldl (fun old i => old + Seg.T N Y (S.zA k) x d i) c := by
    intro c b hb0
    apply List.foldl_ext
    intro old i hi
    obtain ⟨hi0, hi1⟩ := mem_irange.1 hi
    rw [hred i (by omega), cornF_exact hS (T0.qd _ (by omega) (by omega)), T0.ph _ (by omega) (by omega),
      T0.md _ (by omega) (by omega), hS.fl]
    unfold Seg.T ofBool
    simp only [id]
    rw [if_neg (by simp; omega), add_zero]
  have hc1 : S.cornF d (S.env.fl (x + ofBool (decide (red (a - 1) N > jmax))))
      (ph.getD (red (a - 1) N + 1).toNat 0) (md.getD (red (a - 1) N).toNat 0)
      (qd.getD (red (a - 1) N).toNat 0) k
      (S.i0Val (m.getD (a - 1).toNat 0) (q.getD (a - 1).toNat 0) (m.getD jmax.toNat 0)
        (q.getD jmax.toNat 0) d prev x k) =
      S.i0Val (m.getD (a - 1).toNat 0) (q.getD (a - 1).toNat 0) (m.getD jmax.toNat 0)
        (q.getD jmax.toNat 0) d prev x k + Seg.T N Y (S.zA k) x d (a - 1) := by
    rw [hred _ (by omega), cornF_exact hS (T0.qd _ (by omega) (by omega)), T0.ph _ (by omega) (by omega),
      T0.md _ (by omega) (by omega), hS.fl]
    unfold Seg.T ofBool
    simp only [id]
    rw [if_neg (by simp; omega), add_zero]
  rw [hc1, hfold _ _ (by omega), hfold _ _ (by omega), foldl_irange, foldl_irange,
    i0Val_exact hS hk, i0Val_exact hS hk, T0.m _ (by omega) (by omega), T0.q _ (by omega) (by omega),
    T0.m a (by omega) (by omega), T0.q a (by omega) (by omega)]
  have l1 := seg_line (N := N) (Y := Y) (z := S.zA k) (x1 := x) hd0 a (a / N : ℝ) prev
  have l2 := seg_line (N := N) (Y := Y) (z := S.zA k) (x1 := x) hd0 (a - 1) (a / N : ℝ) prev
  have hsplit : S.zA k ^ 2 * (∫ s in (a / N : ℝ)..prev,
      f (fun s => line N Y a s - line N Y (a - 1) s) (S.zA k) x d s) =
      S.zA k ^ 2 * (∫ s in (a / N : ℝ)..prev, f (line N Y a) (S.zA k) x d s) -
      S.zA k ^ 2 * (∫ s in (a / N : ℝ)..prev, f (line N Y (a - 1)) (S.zA k) x d s) := by
    rw [← mul_sub, ← intervalIntegral.integral_sub
      ((f_continuous _ _ _ _).intervalIntegrable _ _) ((f_continuous _ _ _ _).intervalIntegrable _ _)]
    congr 2
    funext s
    unfold f
    push_cast; ring
  have hcorner := G_corner (N := N) (Y := Y) (z := S.zA k) (x1 := x) (d := d) hN' (a - 1)
  rw [show (((a - 1 : ℤ) : ℝ) + 1) = a by push_cast; ring, sub_add_cancel] at hcorner
  have e1 : (x - prev) / d = 1 := by rw [← hd]; exact div_self hd0
  rw [hsplit, l1, l2, ← hcorner]
  have hG : ∀ i : ℤ, G N Y (S.zA k) x d i prev = Complex.exp (S.zA k) *
      (S.zA k * ((M N Y i * prev + (Y i - i * (Y (i + 1) - Y i)) : ℝ) : ℂ) +
        (M N Y i : ℂ) * (d : ℂ)) := by
    intro i
    unfold G line
    rw [e1]
    simp
  rw [hG, hG]
  ring

end Sys
end Adwt
