import Verif.Spec.Stored
import Verif.Spec.Tone
import Verif.Props.Examples

/-!
# Perturbation of the coefficients of a filter
-/

set_option linter.unusedSectionVars false

namespace Adwt.Props

/-- `|re| + |im|` of a literal -/
def litAbs (c : CLit) : ℚ := |c.1| + |c.2|

/-- Sensitivity of a partial fraction to relative changes of its coefficients. -/
def sens (r z : CLit) : ℚ := litAbs r / |z.1| * (1 + litAbs z / |z.1|)

theorem norm_clit (c : CLit) : ‖clit c‖ ≤ (litAbs c : ℝ) := by
  refine (Complex.norm_le_abs_re_add_abs_im _).trans ?_
  unfold litAbs clit
  push_cast
  exact le_rfl

theorem storedAs_dist {δ : ℝ} {c : ℂ} {l : CLit} (h : StoredAs δ c l) :
    ‖c - clit l‖ ≤ δ * (litAbs l : ℝ) := by
  refine (Complex.norm_le_abs_re_add_abs_im _).trans ?_
  unfold litAbs
  push_cast
  have h1 := h.1
  have h2 := h.2
  simp only [Complex.sub_re, Complex.sub_im, clit]
  linarith

/-- The distance of a point of the imaginary axis from a pole. -/
theorem axis_dist (z : ℂ) (ω : ℝ) : |z.re| ≤ ‖Complex.I * ω - z‖ := by
  have h := Complex.abs_re_le_norm (Complex.I * ω - z)
  have e : (Complex.I * ω - z).re = -z.re := by simp
  rwa [e, abs_neg] at h

theorem fraction_near {a x w v : ℂ} {s : ℂ} {A B X Y δ : ℝ} (hX : 0 < X)
    (h1 : X ≤ ‖s - x‖) (h2 : (1 - δ) * X ≤ ‖s - v‖) (hδ0 : 0 ≤ δ) (hδ : δ ≤ 1 / 100)
    (ha : ‖a‖ ≤ A) (hw : ‖w - a‖ ≤ δ * A) (hv : ‖v - x‖ ≤ δ * Y) (hY : 0 ≤ Y) (hB : B = A / X * (1 + Y / X)) :
    ‖w / (s - v) - a / (s - x)‖ ≤ δ * (100 / 99) * B := by
  have hA : 0 ≤ A := (norm_nonneg _).trans ha
  have p1 : 0 < ‖s - x‖ := hX.trans_le h1
  have hm : 0 < (1 - δ) * X := by have : 0 < 1 - δ := by linarith
                                  positivity
  have p2 : 0 < ‖s - v‖ := hm.trans_le h2
  have n1 : s - x ≠ 0 := norm_pos_iff.1 p1
  have n2 : s - v ≠ 0 := norm_pos_iff.1 p2
  have e : w / (s - v) - a / (s - x) = (w - a) / (s - v) + a * (v - x) / ((s - x) * (s - v)) := by
    field_simp
    ring
  rw [e]
  have hc : (99 / 100 : ℝ) * X ≤ ‖s - v‖ := le_trans (by nlinarith) h2
  have t1 : ‖(w - a) / (s - v)‖ ≤ δ * A / (99 / 100 * X) := by
    rw [norm_div]
    exact div_le_div₀ (by positivity) hw (by positivity) hc
  have t2 : ‖a * (v - x) / ((s - x) * (s - v))‖ ≤ A * (δ * Y) / (X * (99 / 100 * X)) := by
    rw [norm_div, norm_mul, norm_mul]
    exact div_le_div₀ (by positivity) (mul_le_mul ha hv (norm_nonneg _) hA) (by positivity)
      (mul_le_mul h1 hc (by positivity) (norm_nonneg _))
  refine (norm_add_le _ _).trans ((add_le_add t1 t2).trans (le_of_eq ?_))
  rw [hB]
  field_simp

theorem term_near {δ : ℝ} (hδ0 : 0 ≤ δ) (hδ : δ ≤ 1 / 100) {w v : ℂ} {r z : CLit}
    (hr : StoredAs δ w r) (hz : StoredAs δ v z) (hz0 : z.1 ≠ 0) (ω : ℝ) :
    ‖(w / (Complex.I * ω - v) + (starRingEnd ℂ) w / (Complex.I * ω - (starRingEnd ℂ) v)) -
      (clit r / (Complex.I * ω - clit z) +
        (starRingEnd ℂ) (clit r) / (Complex.I * ω - (starRingEnd ℂ) (clit z)))‖ ≤
      δ * (100 / 99) * (2 * (sens r z : ℝ)) := by
  have hX : (0 : ℝ) < |(z.1 : ℝ)| := abs_pos.2 (by exact_mod_cast hz0)
  have hv : (1 - δ) * |(z.1 : ℝ)| ≤ |v.re| := by
    have h := hz.1
    have := abs_sub_abs_le_abs_sub (z.1 : ℝ) v.re
    rw [abs_sub_comm] at this
    linarith
  have hY : (0 : ℝ) ≤ (litAbs z : ℝ) := (norm_nonneg _).trans (norm_clit z)
  have hB : (sens r z : ℝ) = (litAbs r : ℝ) / |(z.1 : ℝ)| * (1 + (litAbs z : ℝ) / |(z.1 : ℝ)|) := by
    unfold sens; push_cast; rfl
  have k1 := fraction_near (s := Complex.I * ω) hX (axis_dist (clit z) ω)
    (hv.trans (axis_dist v ω)) hδ0 hδ (norm_clit r) (storedAs_dist hr) (storedAs_dist hz) hY hB
  have c1 : ∀ c : ℂ, ‖(starRingEnd ℂ) c‖ = ‖c‖ := fun c => RCLike.norm_conj c
  have k2 := fraction_near (s := Complex.I * ω) (x := (starRingEnd ℂ) (clit z))
    (v := (starRingEnd ℂ) v) (a := (starRingEnd ℂ) (clit r)) (w := (starRingEnd ℂ) w) hX
    (by simpa [clit] using axis_dist ((starRingEnd ℂ) (clit z)) ω)
    (hv.trans (by simpa using axis_dist ((starRingEnd ℂ) v) ω)) hδ0 hδ
    (by rw [c1]; exact norm_clit r) (by rw [← map_sub, c1]; exact (storedAs_dist hr))
    (by rw [← map_sub, c1]; exact (storedAs_dist hz)) hY hB
  have e : ∀ a b c d : ℂ, (a + b) - (c + d) = (a - c) + (b - d) := fun a b c d => by ring
  rw [e]
  exact (norm_add_le _ _).trans (by linarith)

theorem response_near {δ : ℝ} (hδ0 : 0 ≤ δ) (hδ : δ ≤ 1 / 100) (ω : ℝ) (f : ℂ → ℂ → ℂ)
    (hf : f = fun r z => r / (Complex.I * ω - z) + (starRingEnd ℂ) r / (Complex.I * ω - (starRingEnd ℂ) z))
    {rs zs : List ℂ} {rl zl : List CLit} (hr : List.Forall₂ (StoredAs δ) rs rl)
    (hz : List.Forall₂ (StoredAs δ) zs zl) (hl : rl.length = zl.length) (hz0 : ∀ z ∈ zl, z.1 ≠ 0) :
    ‖∑ k ∈ Finset.range rs.length, f (rs.getD k 0) (zs.getD k 0) -
      ∑ k ∈ Finset.range rl.length, f ((rl.map clit).getD k 0) ((zl.map clit).getD k 0)‖ ≤
      δ * (100 / 99) * (2 * ((List.zipWith sens rl zl).sum : ℝ)) := by
  induction hr generalizing zs zl with
  | nil => simp
  | @cons w r ws rl hw _ ih =>
    cases hz with
    | nil => simp at hl
    | @cons v z vs zl hv hz =>
      have ih := ih hz (by simpa using hl) (fun y hy => hz0 y (List.mem_cons_of_mem _ hy))
      rw [List.length_cons, List.length_cons, Finset.sum_range_succ', Finset.sum_range_succ']
      simp only [List.getD_cons_succ, List.getD_cons_zero, List.map_cons, List.zipWith_cons_cons,
        List.sum_cons]
      have h1 := term_near hδ0 hδ hw hv (hz0 z List.mem_cons_self) ω
      have e : ∀ a b c d : ℂ, (a + b) - (c + d) = (a - c) + (b - d) := fun a b c d => by ring
      rw [e]
      refine (norm_add_le _ _).trans ?_
      push_cast
      have h2 : ‖f w v - f (clit r) (clit z)‖ ≤ δ * (100 / 99) * (2 * (sens r z : ℝ)) := by
        rw [hf]; exact h1
      push_cast at ih
      linarith

theorem sens_small (t : FilterType) : (List.zipWith sens (rLit t) (zLit t)).sum ≤ 110 := by
  cases t <;> norm_num [rLit, zLit, sens, litAbs, abs_of_pos, abs_of_neg]

theorem stored_near {t : FilterType} {flt : Filter ℂ} (h : StoredFilter (1 / 2 ^ 23) t flt) (ω : ℝ) :
    ‖freqResponse flt ω - freqResponse (filterX t) ω‖ ≤ 3e-5 := by
  have hl : (rLit t).length = (zLit t).length := by cases t <;> rfl
  have hz0 : ∀ z ∈ zLit t, z.1 ≠ 0 := by cases t <;> simp [zLit] <;> norm_num
  have := response_near (δ := 1 / 2 ^ 23) (by positivity) (by norm_num) ω _ rfl h.r h.z hl hz0
  have hs : ((List.zipWith sens (rLit t) (zLit t)).sum : ℝ) ≤ 110 := by exact_mod_cast sens_small t
  unfold freqResponse filterX
  rw [List.length_map]
  refine this.trans ?_
  generalize ((List.zipWith sens (rLit t) (zLit t)).sum : ℝ) = x at hs
  norm_num
  linarith

end Adwt.Props
