import Verif.Proofs.Plays

/-!
# What a backward sample computes from a segment index that is too high by any number
-/

set_option linter.unusedSectionVars false

namespace Adwt
open Seg MeasureTheory
namespace Sys
variable {S : Sys ℝ ℂ} (hS : ExactSys S) {N : ℕ} {Y : ℤ → ℝ} {m q md qd ph : List ℝ}
include hS

/-- starting one segment higher, wherever the start is -/
theorem bwdVal_succ (T0 : Lines N Y m q md qd ph) {jm jmin a : ℤ}
    (h0 : 0 ≤ jmin) (h1 : jmin ≤ a) (h3 : a + 1 < N) {prev x d : ℝ} (hd0 : d ≠ 0) (hx : x ≠ 0)
    (hd : d = x - prev) {k : ℕ} (hk : k < S.n) :
    S.bwdVal m q md qd ph N prev jm jmin (a + 1) d x k =
      S.bwdVal m q md qd ph N prev jm jmin a d x k + S.zA k ^ 2 *
        ∫ s in prev..((a + 1 : ℤ) / N : ℝ), f (fun s => line N Y (a + 1) s - line N Y a s) (S.zA k) x d s := by
  have hN : 0 < N := by omega
  have hN' : (0 : ℝ) < N := by exact_mod_cast hN
  unfold bwdVal
  have eb : S.env.fl (x + ofBool (decide (x = 0))) = x := by
    rw [hS.fl]; unfold ofBool; simp [hx]
  rw [eb]
  have hb : bornSup jmin (a + 1) N = a + 1 ∧ bornSup jmin a N = a := by
    unfold bornSup
    rw [if_neg (by omega), if_neg (by omega)]; simp
  rw [hb.1, hb.2]
  have hir : irange jmin (a + 1) = irange jmin a ++ [a] := by
    unfold irange
    have e : (a + 1 - jmin).toNat = (a - jmin).toNat + 1 := by omega
    rw [e, List.range_succ, List.map_append]
    simp only [List.map_cons, List.map_nil]
    congr 2
    omega
  rw [hir, List.foldl_append]
  have hred : ∀ i : ℤ, i < N → red i N = i := fun i h => by unfold red; rw [if_neg (by omega)]
  have hco : ∀ b : ℤ, jmin ≤ b → cycleOffset (K := ℝ) jm jmin b = 0 := by
    intro b hb
    unfold cycleOffset
    rw [if_neg (fun h => absurd h.2 (by omega))]
  have hfold : ∀ c : ℂ, ∀ b : ℤ, a ≤ b → (irange jmin a).foldl (fun old i => S.cornB d
      (S.env.fl (S.env.fl (x + cycleOffset jm jmin b) + ofBool (decide (red i N > b))))
      (ph.getD (red i N + 1).toNat 0)
      (md.getD (red i N).toNat 0) (qd.getD (red i N).toNat 0) k old) c =
      (irange jmin a).foldl (fun old i => old + -Seg.T N Y (S.zA k) x d i) c := by
    intro c b hb0
    apply List.foldl_ext
    intro old i hi
    obtain ⟨hi0, hi1⟩ := mem_irange.1 hi
    rw [hred i (by omega), cornB_exact hS (T0.qd _ (by omega) (by omega)), T0.ph _ (by omega) (by omega),
      T0.md _ (by omega) (by omega), hS.fl, hco b (by omega)]
    unfold Seg.T ofBool
    simp only [id]
    rw [if_neg (by simp; omega), add_zero, add_zero]
  have hc1 : ∀ c : ℂ, S.cornB d
      (S.env.fl (S.env.fl (x + cycleOffset jm jmin (a + 1)) + ofBool (decide (red a N > a + 1))))
      (ph.getD (red a N + 1).toNat 0) (md.getD (red a N).toNat 0) (qd.getD (red a N).toNat 0) k c =
      c + -Seg.T N Y (S.zA k) x d a := by
    intro c
    rw [hred _ (by omega), cornB_exact hS (T0.qd _ (by omega) (by omega)), T0.ph _ (by omega) (by omega),
      T0.md _ (by omega) (by omega), hS.fl, hco _ (by omega)]
    unfold Seg.T ofBool
    simp only [id]
    rw [if_neg (by simp), add_zero, add_zero]
  rw [List.foldl_cons, List.foldl_nil, hc1, hfold _ _ (by omega), hfold _ _ le_rfl, foldl_irange, foldl_irange,
    i0Val_exact hS hk, i0Val_exact hS hk, T0.m _ (by omega) (by omega), T0.q _ (by omega) (by omega),
    T0.m a (by omega) (by omega), T0.q a (by omega) (by omega)]
  have l1 := seg_line (N := N) (Y := Y) (z := S.zA k) (x1 := x) hd0 (a + 1) prev ((a + 1 : ℤ) / N : ℝ)
  have l2 := seg_line (N := N) (Y := Y) (z := S.zA k) (x1 := x) hd0 a prev ((a + 1 : ℤ) / N : ℝ)
  have hsplit : S.zA k ^ 2 * (∫ s in prev..((a + 1 : ℤ) / N : ℝ),
      f (fun s => line N Y (a + 1) s - line N Y a s) (S.zA k) x d s) =
      S.zA k ^ 2 * (∫ s in prev..((a + 1 : ℤ) / N : ℝ), f (line N Y (a + 1)) (S.zA k) x d s) -
      S.zA k ^ 2 * (∫ s in prev..((a + 1 : ℤ) / N : ℝ), f (line N Y a) (S.zA k) x d s) := by
    rw [← mul_sub, ← intervalIntegral.integral_sub
      ((f_continuous _ _ _ _).intervalIntegrable _ _) ((f_continuous _ _ _ _).intervalIntegrable _ _)]
    congr 2
    funext s
    unfold f
    push_cast; ring
  have hcorner := G_corner (N := N) (Y := Y) (z := S.zA k) (x1 := x) (d := d) hN' a
  rw [show (((a + 1 : ℤ) : ℝ) / N) = ((a : ℝ) + 1) / N by push_cast; ring] at *
  have e1 : (x - prev) / d = 1 := by rw [← hd]; exact div_self hd0
  rw [hsplit, l1, l2, ← hcorner]
  have hG : ∀ i : ℤ, G N Y (S.zA k) x d i prev = Complex.exp (S.zA k) *
      (S.zA k * ((M N Y i * prev + (Y i - i * (Y (i + 1) - Y i)) : ℝ) : ℂ) +
        (M N Y i : ℂ) * (d : ℂ)) := by
    intro i
    unfold G line
    rw [e1]
    simp
  rw [hG, hG]
  ring


/-- Starting in segment `b` instead of `a` adds the filtered difference of the waveform and the line of
segment `b`, from the beginning of this segment to the start. -/
theorem bwdVal_highs (hY : ∀ i, Y (i + N) = Y i) (T0 : Lines N Y m q md qd ph) {jm jmin a : ℤ}
    (h0 : 0 ≤ jmin) (h1 : jmin ≤ a) {prev x d : ℝ} (hd0 : d ≠ 0) (hx : x ≠ 0) (hjm : jm ≠ 0)
    (hd : d = x - prev) (hu : In N a prev) (hv : In N jmin x) {k : ℕ} (hk : k < S.n) (c : ℕ) (h3 : a + c < N) :
    S.bwdVal m q md qd ph N prev jm jmin (a + c) d x k =
      S.zA k ^ 2 * (response (W N Y) (S.zA k) prev d +
        ∫ s in ((a + c : ℤ) / N : ℝ)..prev, f (fun s => W N Y s - line N Y (a + c) s) (S.zA k) x d s) := by
  have hN : 0 < N := by omega
  have hN' : (0 : ℝ) < N := by exact_mod_cast hN
  have hcont : ∀ b : ℤ, Continuous (f (fun s => W N Y s - line N Y b s) (S.zA k) x d) := fun b => by
    have h1 := W_continuous (Y := Y) hN'
    have h2 := line_continuous (N := N) (Y := Y) b
    unfold f; fun_prop
  have zero : ∀ b : ℤ, ∀ u v : ℝ, In N b u → In N b v →
      ∫ s in u..v, f (fun s => W N Y s - line N Y b s) (S.zA k) x d s = 0 := by
    intro b u v hu hv
    apply intervalIntegral.integral_zero_ae
    filter_upwards with s hs
    have : (b / N : ℝ) ≤ s ∧ s ≤ (b + 1) / N := by
      obtain ⟨u1, u2⟩ := hu
      obtain ⟨v1, v2⟩ := hv
      rcases Set.mem_uIoc.1 hs with h | h
      · exact ⟨u1.trans h.1.le, h.2.trans v2⟩
      · exact ⟨v1.trans h.1.le, h.2.trans u2⟩
    unfold f
    dsimp only
    rw [W_eq hN' this.1 this.2]
    simp
  induction c with
  | zero =>
    have hb1 : bar x = x := by unfold bar; rw [if_neg hx, add_zero]
    simp only [Nat.cast_zero, add_zero] at h3 ⊢
    have e : In N a ((a : ℝ) / N) := by
      constructor
      · exact le_rfl
      · gcongr; linarith
    rw [zero a _ _ e hu, add_zero]
    exact bwdVal_exact hS hY T0 (jm := jm) (jmin := jmin) (jmax := a) (by omega) (by omega) (by omega) (by omega)
      (prev := prev) (x := x) hd0 hu (by rw [hb1]; exact hv) (by constructor <;> intro h <;> contradiction)
      (fun h => absurd h hx)
      (by rw [if_neg (by omega), hb1, sub_zero]; exact hd) hk
  | succ c ih =>
    push_cast at h3 ⊢
    have e : a + ((c : ℤ) + 1) = a + c + 1 := by ring
    rw [e, bwdVal_succ hS T0 (a := a + c) (by omega) (by omega) (by omega) hd0 hx hd hk, ih (by omega), ← mul_add, add_assoc]
    congr 2
    have hb : In N (a + c) (((a + c : ℤ) : ℝ) / N) := by
      constructor
      · exact le_rfl
      · gcongr; linarith
    have hb' : In N (a + c) (((a + c + 1 : ℤ) : ℝ) / N) := by
      constructor
      · apply (div_le_div_iff_of_pos_right hN').2; push_cast; linarith
      · push_cast; exact le_rfl
    have z := zero (a + c) _ _ hb hb'
    have s1 := intervalIntegral.integral_add_adjacent_intervals (μ := volume)
      ((hcont (a + c)).intervalIntegrable (((a + c : ℤ) : ℝ) / N) (((a + c + 1 : ℤ) : ℝ) / N))
      ((hcont (a + c)).intervalIntegrable (((a + c + 1 : ℤ) : ℝ) / N) prev)
    rw [z, zero_add] at s1
    rw [← s1, intervalIntegral.integral_symm (((a + c + 1 : ℤ) : ℝ) / N) prev, ← sub_eq_add_neg, ← intervalIntegral.integral_sub ((hcont _).intervalIntegrable _ _)
      ((by
        have h1 := line_continuous (N := N) (Y := Y) (a + c)
        have h2 := line_continuous (N := N) (Y := Y) (a + c + 1)
        unfold f; fun_prop : Continuous _).intervalIntegrable _ _)]
    push_cast
    rw [show (a : ℝ) + (c + 1) = a + c + 1 by ring]
    congr 1
    funext s
    unfold f
    push_cast
    ring

end Sys
end Adwt
