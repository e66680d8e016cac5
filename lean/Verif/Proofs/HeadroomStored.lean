import Verif.Proofs.HeadroomNum
import Verif.Proofs.Stored

/-!
# The peak gains of the filters as stored
-/

set_option linter.unusedSectionVars false

namespace Adwt.Props
open MeasureTheory

theorem forall₂_getD {α β : Type} {R : α → β → Prop} {l : List α} {l' : List β} (h : List.Forall₂ R l l')
    (a : α) (b : β) {k : ℕ} (hk : k < l.length) : R (l.getD k a) (l'.getD k b) := by
  induction h generalizing k with
  | nil => simp at hk
  | cons h _ ih =>
    cases k with
    | zero => simpa using h
    | succ k => simpa using ih (by simpa using hk)

theorem exp_diff {v x : ℂ} {d s t : ℝ} (ht : 0 ≤ t) (hd : ‖v - x‖ ≤ d) (hs : x.re + d ≤ -s) :
    ‖Complex.exp (v * t) - Complex.exp (x * t)‖ ≤ d * t * Real.exp (-s * t) := by
  have e : Complex.exp (v * t) - Complex.exp (x * t) = (Complex.exp ((v - x) * t) - 1) * Complex.exp (x * t) := by
    rw [sub_mul, ← Complex.exp_add, one_mul]; congr 2; ring
  have hy : ‖(v - x) * (t : ℂ)‖ ≤ d * t := by
    rw [norm_mul, Complex.norm_real, Real.norm_eq_abs, abs_of_nonneg ht]
    exact mul_le_mul_of_nonneg_right hd ht
  have hd0 : 0 ≤ d := (norm_nonneg _).trans hd
  have h1 : ‖Complex.exp ((v - x) * t) - 1‖ ≤ d * t * Real.exp (d * t) := by
    have k := Complex.norm_exp_sub_sum_le_norm_mul_exp ((v - x) * t) 1
    simp only [Finset.sum_range_one, pow_zero, Nat.factorial_zero, Nat.cast_one, div_one, pow_one] at k
    refine k.trans ?_
    exact mul_le_mul hy (Real.exp_le_exp.2 hy) (Real.exp_nonneg _) (by positivity)
  rw [e, norm_mul, Complex.norm_exp]
  have e2 : (x * (t : ℂ)).re = x.re * t := by simp
  rw [e2]
  calc _ ≤ d * t * Real.exp (d * t) * Real.exp (x.re * t) := mul_le_mul_of_nonneg_right h1 (Real.exp_nonneg _)
    _ = d * t * Real.exp ((x.re + d) * t) := by rw [mul_assoc, ← Real.exp_add]; congr 2; ring
    _ ≤ _ := mul_le_mul_of_nonneg_left (Real.exp_le_exp.2 (mul_le_mul_of_nonneg_right hs ht)) (by positivity)

/-- bound of the change of a section -/
noncomputable def sectionErr (δ A Y s t : ℝ) : ℝ :=
  2 * δ * A * Real.exp (-s * t) + 4 * A * δ * Y / s * Real.exp (-(s / 2) * t)

theorem section_near {w v a x : ℂ} {δ A Y s t : ℝ} (ht : 0 ≤ t) (hs : 0 < s) (hδ : 0 ≤ δ) (hY : 0 ≤ Y)
    (hw : ‖w - a‖ ≤ δ * A) (ha : ‖a‖ ≤ A) (hv : ‖v - x‖ ≤ δ * Y) (hx : x.re + δ * Y ≤ -s) :
    ‖2 * w * Complex.exp (v * t) - 2 * a * Complex.exp (x * t)‖ ≤ sectionErr δ A Y s t := by
  have e : 2 * w * Complex.exp (v * t) - 2 * a * Complex.exp (x * t) =
      2 * (w - a) * Complex.exp (v * t) + 2 * a * (Complex.exp (v * t) - Complex.exp (x * t)) := by ring
  have hA : 0 ≤ A := (norm_nonneg _).trans ha
  have hre : v.re ≤ -s := by
    have := (Complex.re_le_norm (v - x)).trans hv
    rw [Complex.sub_re] at this
    linarith
  have h1 : ‖2 * (w - a) * Complex.exp (v * t)‖ ≤ 2 * δ * A * Real.exp (-s * t) := by
    rw [norm_mul, norm_mul, Complex.norm_two, Complex.norm_exp]
    have e2 : (v * (t : ℂ)).re = v.re * t := by simp
    rw [e2]
    refine mul_le_mul (by linarith) (Real.exp_le_exp.2 (mul_le_mul_of_nonneg_right hre ht)) (Real.exp_nonneg _)
      (by positivity)
  have hts : t * Real.exp (-s * t) ≤ 2 / s * Real.exp (-(s / 2) * t) := by
    have k := Real.add_one_le_exp (s / 2 * t)
    have e3 : Real.exp (-(s / 2) * t) = Real.exp (s / 2 * t) * Real.exp (-s * t) := by
      rw [← Real.exp_add]; congr 1; ring
    rw [e3, ← mul_assoc]
    refine mul_le_mul_of_nonneg_right ?_ (Real.exp_nonneg _)
    rw [div_mul_eq_mul_div, le_div_iff₀ hs]
    linarith
  have h2 : ‖2 * a * (Complex.exp (v * t) - Complex.exp (x * t))‖ ≤ 4 * A * δ * Y / s * Real.exp (-(s / 2) * t) := by
    rw [norm_mul, norm_mul, Complex.norm_two]
    calc _ ≤ 2 * A * (δ * Y * t * Real.exp (-s * t)) :=
          mul_le_mul (by linarith) (exp_diff ht hv hx) (norm_nonneg _) (by positivity)
      _ = 2 * A * (δ * Y) * (t * Real.exp (-s * t)) := by ring
      _ ≤ 2 * A * (δ * Y) * (2 / s * Real.exp (-(s / 2) * t)) := mul_le_mul_of_nonneg_left hts (by positivity)
      _ = _ := by ring
  rw [e]
  exact (norm_add_le _ _).trans (add_le_add h1 h2)

theorem sectionErr_integrable {δ A Y s : ℝ} (hs : 0 < s) : IntegrableOn (sectionErr δ A Y s) (Set.Ioi 0) :=
  ((integrableOn_exp_mul_Ioi (by linarith : -s < 0) 0).const_mul _).add
    ((integrableOn_exp_mul_Ioi (by linarith : -(s / 2) < 0) 0).const_mul _)

theorem sectionErr_integral {δ A Y s : ℝ} (hs : 0 < s) :
    ∫ t in Set.Ioi 0, sectionErr δ A Y s t = δ * (2 * A / s + 8 * A * Y / s ^ 2) := by
  unfold sectionErr
  rw [integral_add ((integrableOn_exp_mul_Ioi (by linarith : -s < 0) 0).const_mul _)
    ((integrableOn_exp_mul_Ioi (by linarith : -(s / 2) < 0) 0).const_mul _), integral_const_mul, integral_const_mul,
    integral_exp_mul_Ioi (by linarith : -s < 0), integral_exp_mul_Ioi (by linarith : -(s / 2) < 0)]
  simp only [mul_zero, Real.exp_zero]
  field_simp
  ring

/-- The filters as stored, and the exact ones. -/
theorem stored_area {t : FilterType} {flt : Filter ℂ} (h : StoredFilter (1 / 2 ^ 23) t flt) :
    (∫ s in Set.Ioi 0, |impulse flt s - impulse (filterX t) s| ≤ 1 / 2 ^ 12) ∧
    (∀ k < flt.r.length, (flt.z.getD k 0).re < 0) ∧
    (∀ k < (filterX t).r.length, ((filterX t).z.getD k 0).re < 0) := by
  have hc : clit 0 = 0 := by unfold clit; apply Complex.ext <;> simp
  have hlen : (filterX t).r.length = (rLit t).length := by simp [filterX]
  have hlr : flt.r.length = (rLit t).length := h.r.length_eq
  have hlz : flt.z.length = (zLit t).length := h.z.length_eq
  have e1 : ∀ k, (filterX t).r.getD k 0 = clit ((rLit t).getD k 0) := by
    intro k; rw [← hc]; unfold filterX; rw [List.getD_map]
  have e2 : ∀ k, (filterX t).z.getD k 0 = clit ((zLit t).getD k 0) := by
    intro k; rw [← hc]; unfold filterX; rw [List.getD_map]
  have hbig : ∀ k < (rLit t).length, ((zLit t).getD k 0).1 ≤ -1 / 4 ∧ litAbs ((zLit t).getD k 0) ≤ 8 := by
    cases t <;> decide +kernel
  have hneg : ∀ k < (rLit t).length, ((((zLit t).getD k 0).1 : ℚ) : ℝ) ≤ -1 / 4 ∧
      ((litAbs ((zLit t).getD k 0) : ℚ) : ℝ) ≤ 8 := by
    intro k hk
    refine ⟨?_, by exact_mod_cast (hbig k hk).2⟩
    have := (Rat.cast_le (K := ℝ)).2 (hbig k hk).1
    push_cast at this
    exact this
  have hr : ∀ k < (rLit t).length, ‖flt.r.getD k 0 - clit ((rLit t).getD k 0)‖ ≤
      1 / 2 ^ 23 * (litAbs ((rLit t).getD k 0) : ℝ) := fun k hk =>
    storedAs_dist (forall₂_getD h.r 0 0 (by rw [hlr]; exact hk))
  have hz : ∀ k < (rLit t).length, ‖flt.z.getD k 0 - clit ((zLit t).getD k 0)‖ ≤
      1 / 2 ^ 23 * (litAbs ((zLit t).getD k 0) : ℝ) := fun k hk =>
    storedAs_dist (forall₂_getD h.z 0 0 (by rw [hlz, ← lit_length]; exact hk))
  have hx : ∀ k < (rLit t).length, (clit ((zLit t).getD k 0)).re + 1 / 2 ^ 23 * (litAbs ((zLit t).getD k 0) : ℝ) ≤
      -(-(0.99 * ((((zLit t).getD k 0).1 : ℚ) : ℝ))) := by
    intro k hk
    obtain ⟨a, b⟩ := hneg k hk
    show ((((zLit t).getD k 0).1 : ℚ) : ℝ) + _ ≤ _
    generalize ((((zLit t).getD k 0).1 : ℚ) : ℝ) = X at *
    generalize ((litAbs ((zLit t).getD k 0) : ℚ) : ℝ) = Y at *
    norm_num
    linarith
  have hs : ∀ k < (rLit t).length, (0 : ℝ) < -(0.99 * ((((zLit t).getD k 0).1 : ℚ) : ℝ)) := by
    intro k hk
    have := (hneg k hk).1
    linarith
  have hzneg : ∀ k < flt.r.length, (flt.z.getD k 0).re < 0 := by
    intro k hk
    rw [hlr] at hk
    have a := (Complex.re_le_norm _).trans (hz k hk)
    rw [Complex.sub_re] at a
    have b := hx k hk
    have c := hs k hk
    linarith
  have hzX : ∀ k < (filterX t).r.length, ((filterX t).z.getD k 0).re < 0 := by
    intro k hk
    rw [hlen] at hk
    rw [e2]
    have := (hneg k hk).1
    show ((((zLit t).getD k 0).1 : ℚ) : ℝ) < 0
    linarith
  refine ⟨?_, hzneg, hzX⟩
  have hi : ∀ k ∈ Finset.range (rLit t).length, IntegrableOn (sectionErr (1 / 2 ^ 23)
      ((litAbs ((rLit t).getD k 0) : ℚ) : ℝ) ((litAbs ((zLit t).getD k 0) : ℚ) : ℝ)
      (-(0.99 * ((((zLit t).getD k 0).1 : ℚ) : ℝ)))) (Set.Ioi 0) := fun k hk =>
    sectionErr_integrable (hs k (Finset.mem_range.1 hk))
  have hd : ∀ s ∈ Set.Ioi (0 : ℝ), |impulse flt s - impulse (filterX t) s| ≤
      ∑ k ∈ Finset.range (rLit t).length, sectionErr (1 / 2 ^ 23)
      ((litAbs ((rLit t).getD k 0) : ℚ) : ℝ) ((litAbs ((zLit t).getD k 0) : ℚ) : ℝ)
      (-(0.99 * ((((zLit t).getD k 0).1 : ℚ) : ℝ))) s := by
    intro s hs0
    unfold impulse
    rw [hlr, hlen, ← Complex.sub_re, ← Finset.sum_sub_distrib]
    refine (Complex.abs_re_le_norm _).trans ((norm_sum_le _ _).trans (Finset.sum_le_sum fun k hk => ?_))
    have hk := Finset.mem_range.1 hk
    rw [e1, e2]
    exact section_near (le_of_lt hs0) (hs k hk) (by positivity) ((norm_nonneg _).trans (norm_clit _)) (hr k hk)
      (norm_clit _) (hz k hk) (hx k hk)
  have hm : ∫ s in Set.Ioi 0, |impulse flt s - impulse (filterX t) s| ≤ ∑ k ∈ Finset.range (rLit t).length,
      (1 / 2 ^ 23 : ℝ) * (2 * ((litAbs ((rLit t).getD k 0) : ℚ) : ℝ) / (-(0.99 * ((((zLit t).getD k 0).1 : ℚ) : ℝ))) +
        8 * ((litAbs ((rLit t).getD k 0) : ℚ) : ℝ) * ((litAbs ((zLit t).getD k 0) : ℚ) : ℝ) /
          (-(0.99 * ((((zLit t).getD k 0).1 : ℚ) : ℝ))) ^ 2) := by
    refine (setIntegral_mono_on ((impulse_integrable hzneg 0).sub (impulse_integrable hzX 0)).abs
      (integrable_finset_sum _ hi) measurableSet_Ioi hd).trans (le_of_eq ?_)
    rw [integral_finset_sum _ hi]
    exact Finset.sum_congr rfl fun k hk => sectionErr_integral (hs k (Finset.mem_range.1 hk))
  have hq : ∑ k ∈ Finset.range (rLit t).length,
      (1 / 2 ^ 23 : ℚ) * (2 * litAbs ((rLit t).getD k 0) / (-(0.99 * ((zLit t).getD k 0).1)) +
        8 * litAbs ((rLit t).getD k 0) * litAbs ((zLit t).getD k 0) /
          (-(0.99 * ((zLit t).getD k 0).1)) ^ 2) ≤ 1 / 2 ^ 12 := by
    cases t <;> decide +kernel
  have hq' := (Rat.cast_le (K := ℝ)).2 hq
  push_cast at hq'
  have e99 : (0.99 : ℝ) = ((0.99 : ℚ) : ℝ) := by norm_num
  rw [e99] at hm
  linarith

theorem peak_stored {t : FilterType} {flt : Filter ℂ} (h : StoredFilter (1 / 2 ^ 23) t flt) :
    peakGain flt ≤ headroom t ∧ ∀ k < flt.r.length, (flt.z.getD k 0).re < 0 := by
  obtain ⟨h1, h2, h3⟩ := stored_area h
  refine ⟨?_, h2⟩
  have hm : peakGain flt ≤ peakGain (filterX t) + ∫ s in Set.Ioi 0, |impulse flt s - impulse (filterX t) s| := by
    have hi : IntegrableOn (fun s => |impulse flt s - impulse (filterX t) s|) (Set.Ioi 0) :=
      ((impulse_integrable h2 0).sub (impulse_integrable h3 0)).abs
    unfold peakGain
    rw [← integral_add (impulse_integrable h3 0).abs hi]
    refine setIntegral_mono (impulse_integrable h2 0).abs ((impulse_integrable h3 0).abs.add hi) fun s => ?_
    have := abs_sub_abs_le_abs_sub (impulse flt s) (impulse (filterX t) s)
    show |impulse flt s| ≤ |impulse (filterX t) s| + |impulse flt s - impulse (filterX t) s|
    linarith
  linarith [peak_builtin t]

end Adwt.Props
