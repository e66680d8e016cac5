import Verif.Proofs.Headroom
import Verif.Num.FixedPoint
import Verif.Props.Bounded

/-!
# The peak gains of the built-in filters
-/

set_option linter.unusedSectionVars false

namespace Adwt.Props
open Fixed

/-- the starting values: `2 r` and `e^{z/64}` -/
def lanes : FilterType → List Lane
  | .kType1 => [⟨0, -4396501301443, 1065174960957, 33285850905⟩]
  | .kType2 => [⟨577946236493, -916954500531, 1093220869235, 50385981125⟩, ⟨5149264367204, 2306706873509, 1081722110305, 50452597772⟩, ⟨-5792917682456, 16531057202083, 1066383615820, 49154557097⟩, ⟨-36673512352497, -14870848322299, 1045806789232, 41003753046⟩, ⟨36715695643862, -51702017206187, 1026669526226, 17350618784⟩]
  | .kType3 => [⟨-2872152894248, 1189684687432, 1080178684838, 44112799385⟩, ⟨2872152894248, -6933990453937, 1055386909301, 17844531522⟩]
  | .kType4 => [⟨-9473143739271, 0, 1065174960957, 33285850905⟩, ⟨1269160598462, 2198250652920, 1086021533683, 46372269674⟩, ⟨8203983118819, -14209715586916, 1053509991101, 12046648126⟩]
  | .kType5 => [⟨1318409219606, -3138246495, 1092141173315, 43938257787⟩, ⟨-222655480681, 6327082905247, 1077730396947, 41989575281⟩, ⟨-17017054029925, -3436815842805, 1059992278378, 34546569819⟩, ⟨15905393480359, -25673837081714, 1043923142468, 14534961706⟩]

theorem lanes_ok (t : FilterType) : List.Forall₂ LaneOk (lanes t) ((rLit t).zip (zLit t)) := by
  cases t <;> (unfold lanes rLit zLit
               repeat' first | exact List.Forall₂.nil | refine List.Forall₂.cons (by decide +kernel) ?_)

/-- the sums of 1280 trapezoids of width 1/64 -/
def trapezoids : FilterType → ℚ
  | .kType1 => 1.0902
  | .kType2 => 2.1418
  | .kType3 => 1.299
  | .kType4 => 1.4784
  | .kType5 => 1.883

set_option maxRecDepth 100000 in
theorem loop_value (t : FilterType) : (loopK 1280 (lanes t) 0 : ℚ) ≤ trapezoids t * 64 * 2 ^ 40 := by
  cases t <;> decide +kernel

/-- bounds of the absolute values of the poles -/
def zBound : FilterType → List ℚ
  | .kType1 => [2.83]
  | .kType2 => [2.963, 3.138, 3.502, 4.032, 4.51]
  | .kType3 => [2.828, 2.828]
  | .kType4 => [2.828, 2.828, 2.828]
  | .kType5 => [2.602, 2.781, 3.111, 3.432]

theorem sum_zip {M : Type} [AddCommMonoid M] (f : ℂ → ℂ → M) : ∀ (r z : List ℂ), r.length = z.length →
    ∑ k ∈ Finset.range r.length, f (r.getD k 0) (z.getD k 0) = ((r.zip z).map fun p => f p.1 p.2).sum
  | [], _, _ => by simp
  | a :: r, [], h => by simp at h
  | a :: r, b :: z, h => by
    rw [List.length_cons, Finset.sum_range_succ']
    simp only [List.getD_cons_succ, List.getD_cons_zero, List.zip_cons_cons, List.map_cons, List.sum_cons]
    rw [sum_zip f r z (by simpa using h), add_comm]

theorem lit_length (t : FilterType) : (rLit t).length = (zLit t).length := by cases t <;> rfl

theorem filterX_zip (t : FilterType) (s : ℝ) : impulse (filterX t) s =
    ((((rLit t).zip (zLit t)).map fun p => 2 * clit p.1 * Complex.exp (clit p.2 * s)).sum).re := by
  unfold impulse
  rw [sum_zip (fun r z => 2 * r * Complex.exp (z * s)) _ _ (by simp [filterX, lit_length])]
  show Complex.re (((((rLit t).map clit).zip ((zLit t).map clit)).map _).sum) = _
  rw [List.zip_map, List.map_map]
  rfl

theorem impulse_zero (t : FilterType) : |impulse (filterX t) 0| ≤ 1 / 32 := by
  rw [filterX_zip]
  have : (((((rLit t).zip (zLit t)).map fun p => 2 * clit p.1 * Complex.exp (clit p.2 * (0 : ℝ))).sum).re : ℝ) =
      (((rLit t).map fun r => 2 * r.1).sum : ℚ) := by
    cases t <;> simp [rLit, zLit, clit]
  rw [this]
  have h : |((rLit t).map fun r => 2 * r.1).sum| ≤ 1 / 32 := by
    cases t <;> decide +kernel
  refine cast_le h rfl (by push_cast; rfl)

theorem trapezoids_ok (t : FilterType) :
    ∑ j ∈ Finset.range (1280 + 1), |impulse (filterX t) (j * (1 / 64))| ≤ trapezoids t * 64 + 1 / 16 := by
  have h : List.Forall₂ (Near (1 / 2 ^ 30)) (lanes t) (((rLit t).zip (zLit t)).map fun c =>
      (2 * qc c.1, Complex.exp (qc c.2 * ((1 / 64 : ℝ) : ℂ)))) := by
    rw [List.forall₂_map_right_iff]
    exact (lanes_ok t).imp fun _ _ h => h.near
  have hs := loop_sound 1280 h (by positivity) (by norm_num)
  have hl : ((lanes t).length : ℝ) ≤ 5 := by
    have : (lanes t).length ≤ 5 := by cases t <;> decide
    exact_mod_cast this
  have hv : (loopK 1280 (lanes t) 0 : ℝ) ≤ trapezoids t * 64 * 2 ^ 40 := by
    have := loop_value t
    have h2 : (((loopK 1280 (lanes t) 0 : ℤ) : ℚ) : ℝ) ≤ ((trapezoids t * 64 * 2 ^ 40 : ℚ) : ℝ) := by exact_mod_cast this
    push_cast at h2
    exact h2
  rw [Finset.sum_range_succ']
  have h0 := impulse_zero t
  have e : ∀ j ∈ Finset.range 1280, |impulse (filterX t) (((j + 1 : ℕ) : ℝ) * (1 / 64))| =
      |(((((rLit t).zip (zLit t)).map fun c => (2 * qc c.1, Complex.exp (qc c.2 * ((1 / 64 : ℝ) : ℂ)))).map
        fun p : ℂ × ℂ => p.1 * p.2 ^ (j + 1)).sum).re| := by
    intro j _
    rw [filterX_zip, List.map_map]
    congr 3
    refine List.map_congr_left fun p _ => ?_
    simp only [Function.comp_apply]
    rw [← Complex.exp_nat_mul]
    congr 2
    push_cast
    show clit p.2 * _ = _ * (clit p.2 * _)
    ring
  rw [Finset.sum_congr rfl e]
  have hd : (loopK 1280 (lanes t) 0 : ℝ) / 2 ^ 40 ≤ trapezoids t * 64 := by
    rw [div_le_iff₀ (by positivity)]; exact hv
  have hm : ((1280 : ℕ) : ℝ) * ((lanes t).length * (1 / 2 ^ 30 + (1280 : ℕ) * (1 / 2 ^ 30))) ≤ 1 / 32 := by
    have : (lanes t).length * (1 / 2 ^ 30 + (1280 : ℕ) * (1 / 2 ^ 30)) ≤ (5 * (1 / 2 ^ 30 + (1280 : ℕ) * (1 / 2 ^ 30)) : ℝ) :=
      mul_le_mul_of_nonneg_right hl (by positivity)
    refine (mul_le_mul_of_nonneg_left this (by positivity)).trans ?_
    norm_num
  simp only [Nat.cast_zero, zero_mul]
  linarith

/-- `e^{-16 x}` from above -/
theorem exp16 {x : ℝ} (hx : 0 ≤ x) : Real.exp (-(16 * x)) ≤ (1 / (1 + x + x ^ 2 / 2)) ^ 16 := by
  have h := Real.quadratic_le_exp_of_nonneg hx
  have h0 : 0 < 1 + x + x ^ 2 / 2 := by positivity
  have e : Real.exp (-(16 * x)) = (1 / Real.exp x) ^ 16 := by
    rw [one_div, ← Real.exp_neg, ← Real.exp_nat_mul]
    congr 1; push_cast; ring
  rw [e]
  gcongr

/-- one summand of the error -/
def errTerm (r z σ : ℚ) : ℚ :=
  2 * r / σ * (z ^ 2 * (1 + σ / 64) * (1 / 64) ^ 2 / 12 + (1 / (1 + 5 / 4 * σ + (5 / 4 * σ) ^ 2 / 2)) ^ 16)

theorem err_le {ρ R ζ Z σ e X : ℝ} (h1 : 0 ≤ ρ) (h2 : ρ ≤ R) (h3 : 0 ≤ ζ) (h4 : ζ ≤ Z) (h5 : 0 < σ)
    (h6 : 0 ≤ e) (h7 : e ≤ X) :
    2 * ρ / σ * (ζ ^ 2 * (1 - -σ * (1 / 64)) * ((1 / 64) ^ 2 / 12) + e) ≤
      2 * R / σ * (Z ^ 2 * (1 + σ / 64) * (1 / 64) ^ 2 / 12 + X) := by
  have k1 : 2 * ρ / σ ≤ 2 * R / σ := div_le_div_of_nonneg_right (by linarith) h5.le
  have k2 : ζ ^ 2 ≤ Z ^ 2 := pow_le_pow_left₀ h3 h4 2
  have k3 : ζ ^ 2 * ((1 + σ / 64) * ((1 / 64) ^ 2 / 12)) ≤ Z ^ 2 * ((1 + σ / 64) * ((1 / 64) ^ 2 / 12)) :=
    mul_le_mul_of_nonneg_right k2 (by positivity)
  have e1 : ζ ^ 2 * (1 - -σ * (1 / 64)) * ((1 / 64) ^ 2 / 12) = ζ ^ 2 * ((1 + σ / 64) * ((1 / 64) ^ 2 / 12)) := by ring
  have e2 : Z ^ 2 * (1 + σ / 64) * (1 / 64) ^ 2 / 12 = Z ^ 2 * ((1 + σ / 64) * ((1 / 64) ^ 2 / 12)) := by ring
  rw [e1, e2]
  exact mul_le_mul k1 (add_le_add k3 h7) (by positivity) (by have := h1.trans h2; positivity)

theorem peak_builtin (t : FilterType) : peakGain (filterX t) ≤ headroom t - 1 / 2 ^ 12 := by
  have hc : clit 0 = 0 := by unfold clit; apply Complex.ext <;> simp
  have hlen : (filterX t).r.length = (rLit t).length := by simp [filterX]
  have e1 : ∀ k, (filterX t).r.getD k 0 = clit ((rLit t).getD k 0) := by
    intro k; rw [← hc]; unfold filterX; rw [List.getD_map]
  have e2 : ∀ k, (filterX t).z.getD k 0 = clit ((zLit t).getD k 0) := by
    intro k; rw [← hc]; unfold filterX; rw [List.getD_map]
  have hneg : ∀ k < (rLit t).length, ((zLit t).getD k 0).1 < 0 := by cases t <;> decide +kernel
  have hq : ∀ k < (rLit t).length, 0 ≤ (rBound t).getD k 0 ∧
      ((rLit t).getD k 0).1 * ((rLit t).getD k 0).1 + ((rLit t).getD k 0).2 * ((rLit t).getD k 0).2 ≤
        (rBound t).getD k 0 * (rBound t).getD k 0 := by cases t <;> decide +kernel
  have hq' : ∀ k < (rLit t).length, 0 ≤ (zBound t).getD k 0 ∧
      ((zLit t).getD k 0).1 * ((zLit t).getD k 0).1 + ((zLit t).getD k 0).2 * ((zLit t).getD k 0).2 ≤
        (zBound t).getD k 0 * (zBound t).getD k 0 := by cases t <;> decide +kernel
  have hre : ∀ k, ((filterX t).z.getD k 0).re = ((((zLit t).getD k 0).1 : ℚ) : ℝ) := by
    intro k; rw [e2]; rfl
  have hz : ∀ k < (filterX t).r.length, ((filterX t).z.getD k 0).re < 0 := by
    intro k hk
    rw [hlen] at hk
    rw [hre]
    exact_mod_cast hneg k hk
  have hp := peak_panels hz (by norm_num : (0 : ℝ) < 1 / 64) 1280
  have ht := trapezoids_ok t
  have hs : ∑ k ∈ Finset.range (filterX t).r.length, 2 * ‖(filterX t).r.getD k 0‖ / -((filterX t).z.getD k 0).re *
        (‖(filterX t).z.getD k 0‖ ^ 2 * (1 - ((filterX t).z.getD k 0).re * (1 / 64)) * ((1 / 64) ^ 2 / 12) +
          Real.exp (((filterX t).z.getD k 0).re * ((1280 : ℕ) * (1 / 64)))) ≤
      ((∑ k ∈ Finset.range (rLit t).length, errTerm ((rBound t).getD k 0) ((zBound t).getD k 0)
        (-((zLit t).getD k 0).1) : ℚ) : ℝ) := by
    rw [hlen, Rat.cast_sum]
    refine Finset.sum_le_sum fun k hk => ?_
    have hk := Finset.mem_range.1 hk
    have a1 := clit_norm (hq k hk).1 (hq k hk).2
    have a2 := clit_norm (hq' k hk).1 (hq' k hk).2
    have a3 : (0 : ℝ) < -((((zLit t).getD k 0).1 : ℚ) : ℝ) := by
      have : ((((zLit t).getD k 0).1 : ℚ) : ℝ) < 0 := by exact_mod_cast hneg k hk
      linarith
    rw [hre, e1, e2]
    set σ : ℝ := -((((zLit t).getD k 0).1 : ℚ) : ℝ) with hσ
    have a4 : ((((zLit t).getD k 0).1 : ℚ) : ℝ) = -σ := by rw [hσ, neg_neg]
    have a5 := exp16 (x := 5 / 4 * σ) (by positivity)
    rw [show ((((zLit t).getD k 0).1 : ℚ) : ℝ) * (((1280 : ℕ) : ℝ) * (1 / 64)) = -(16 * (5 / 4 * σ)) by rw [a4]; push_cast; ring]
    unfold errTerm
    push_cast
    simp only [a4, neg_neg]
    exact err_le (norm_nonneg _) a1 (norm_nonneg _) a2 a3 (Real.exp_nonneg _) a5
  have hf : trapezoids t + 1 / 1024 + ∑ k ∈ Finset.range (rLit t).length, errTerm ((rBound t).getD k 0)
      ((zBound t).getD k 0) (-((zLit t).getD k 0).1) ≤ headroom t - 1 / 2 ^ 12 := by
    cases t <;> decide +kernel
  have hf' : (trapezoids t : ℝ) + 1 / 1024 + ((∑ k ∈ Finset.range (rLit t).length, errTerm ((rBound t).getD k 0)
      ((zBound t).getD k 0) (-((zLit t).getD k 0).1) : ℚ) : ℝ) ≤ headroom t - 1 / 2 ^ 12 := by
    have := (Rat.cast_le (K := ℝ)).2 hf
    push_cast at this ⊢
    exact this
  linarith

end Adwt.Props
