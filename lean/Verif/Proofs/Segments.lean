import Verif.Spec.Integral
import Mathlib.MeasureTheory.Integral.IntervalIntegral.FundThmCalculus
import Mathlib.MeasureTheory.Integral.IntervalIntegral.IntegrationByParts
import Mathlib.Analysis.Complex.RealDeriv
import Mathlib.Analysis.SpecialFunctions.ExpDeriv
import Mathlib.Tactic.Ring
import Mathlib.Tactic.FieldSimp
import Mathlib.Tactic.Linarith
import Mathlib.Algebra.Order.Field.Power

/-!
# The integral of an exponential against a piecewise linear function
-/

set_option linter.unusedSectionVars false

open MeasureTheory intervalIntegral

namespace Adwt
namespace Seg

/-- slope of line `i` -/
def M (N : ℝ) (Y : ℤ → ℝ) (i : ℤ) : ℝ := (Y (i + 1) - Y i) * N
/-- line `i` -/
def line (N : ℝ) (Y : ℤ → ℝ) (i : ℤ) (u : ℝ) : ℝ := M N Y i * u + (Y i - i * (Y (i + 1) - Y i))

/-- piecewise linear interpolation of `Y` on the grid `ℤ / N` -/
noncomputable def W (N : ℝ) (Y : ℤ → ℝ) (u : ℝ) : ℝ := line N Y ⌊u * N⌋ u

variable {N : ℝ} {Y : ℤ → ℝ}

theorem line_corner (hN : 0 < N) (i : ℤ) :
    line N Y (i + 1) ((i + 1) / N) = line N Y i ((i + 1) / N) := by
  unfold line M; push_cast; field_simp; ring

theorem W_eq (hN : 0 < N) {i : ℤ} {u : ℝ} (h0 : i / N ≤ u) (h1 : u ≤ (i + 1) / N) :
    W N Y u = line N Y i u := by
  have a : (i : ℝ) ≤ u * N := by rwa [div_le_iff₀ hN] at h0
  have b : u * N ≤ i + 1 := by rwa [le_div_iff₀ hN] at h1
  rcases b.lt_or_eq with b | b
  · unfold W
    rw [(Int.floor_eq_iff (a := u * N) (z := i)).2 ⟨a, b⟩]
  · have e : u = (i + 1) / N := by rw [eq_div_iff hN.ne', b]
    unfold W
    have : ⌊u * N⌋ = i + 1 := by rw [b]; exact_mod_cast Int.floor_intCast (R := ℝ) (i + 1)
    rw [this, e, line_corner hN]

/-- antiderivative, up to `-z^2` -/
noncomputable def G (N : ℝ) (Y : ℤ → ℝ) (z : ℂ) (x1 d : ℝ) (i : ℤ) (u : ℝ) : ℂ :=
  Complex.exp (z * ((x1 - u) / d : ℝ)) * (z * (line N Y i u : ℂ) + (M N Y i : ℂ) * (d : ℂ))

/-- integrand -/
noncomputable def f (Wf : ℝ → ℝ) (z : ℂ) (x1 d u : ℝ) : ℂ :=
  Complex.exp (z * ((x1 - u) / d : ℝ)) * (Wf u : ℂ) / d

theorem hasDerivAt_G {z : ℂ} {x1 d : ℝ} (hd : d ≠ 0) (i : ℤ) (u : ℝ) :
    HasDerivAt (G N Y z x1 d i) (-(z ^ 2 * f (line N Y i) z x1 d u)) u := by
  have hdc : (d : ℂ) ≠ 0 := by exact_mod_cast hd
  have h1 : HasDerivAt (fun u : ℝ => (((x1 - u) / d : ℝ) : ℂ)) (((-1 / d : ℝ)) : ℂ) u := by
    apply HasDerivAt.ofReal_comp
    exact ((hasDerivAt_id u).const_sub x1).div_const d
  have h2 : HasDerivAt (fun u : ℝ => Complex.exp (z * ((x1 - u) / d : ℝ)))
      (Complex.exp (z * ((x1 - u) / d : ℝ)) * (z * ((-1 / d : ℝ) : ℂ))) u :=
    (h1.const_mul z).cexp
  have h3 : HasDerivAt (fun u : ℝ => ((line N Y i u : ℝ) : ℂ)) ((M N Y i : ℝ) : ℂ) u := by
    apply HasDerivAt.ofReal_comp
    unfold line
    simpa using ((hasDerivAt_id u).const_mul (M N Y i)).add_const (Y i - i * (Y (i + 1) - Y i))
  have h4 := h2.mul ((h3.const_mul z).add_const ((M N Y i : ℂ) * (d : ℂ)))
  refine h4.congr_deriv ?_
  unfold f
  push_cast
  field_simp
  ring

theorem f_continuous (z : ℂ) (x1 d : ℝ) (i : ℤ) : Continuous (f (line N Y i) z x1 d) := by
  unfold f line; fun_prop

theorem seg_line {z : ℂ} {x1 d : ℝ} (hd : d ≠ 0) (i : ℤ) (u v : ℝ) :
    z ^ 2 * ∫ s in u..v, f (line N Y i) z x1 d s = G N Y z x1 d i u - G N Y z x1 d i v := by
  have h := integral_eq_sub_of_hasDerivAt (a := u) (b := v) (f := G N Y z x1 d i)
    (f' := fun s => -(z ^ 2 * f (line N Y i) z x1 d s)) (fun s _ => hasDerivAt_G hd i s)
    (by
      apply Continuous.intervalIntegrable
      exact (continuous_const.mul (f_continuous z x1 d i)).neg)
  rw [intervalIntegral.integral_neg, intervalIntegral.integral_const_mul] at h
  linear_combination -h

/-- segment membership -/
def In (N : ℝ) (i : ℤ) (u : ℝ) : Prop := i / N ≤ u ∧ u ≤ (i + 1) / N

theorem In.uIcc {i : ℤ} {u v s : ℝ} (hu : In N i u) (hv : In N i v) (hs : s ∈ Set.uIcc u v) :
    In N i s := by
  rcases Set.mem_uIcc.1 hs with h | h
  · exact ⟨hu.1.trans h.1, h.2.trans hv.2⟩
  · exact ⟨hv.1.trans h.1, h.2.trans hu.2⟩

theorem f_congr (hN : 0 < N) {z : ℂ} {x1 d : ℝ} {i : ℤ} {u v : ℝ} (hu : In N i u) (hv : In N i v) :
    Set.EqOn (f (line N Y i) z x1 d) (f (W N Y) z x1 d) (Set.uIcc u v) := by
  intro s hs
  have := hu.uIcc hv hs
  unfold f
  rw [W_eq hN this.1 this.2]

theorem seg_one (hN : 0 < N) {z : ℂ} {x1 d : ℝ} (hd : d ≠ 0) {i : ℤ} {u v : ℝ} (hu : In N i u)
    (hv : In N i v) : IntervalIntegrable (f (W N Y) z x1 d) volume u v ∧
    z ^ 2 * ∫ s in u..v, f (W N Y) z x1 d s = G N Y z x1 d i u - G N Y z x1 d i v := by
  have hc := f_congr (Y := Y) (z := z) (x1 := x1) (d := d) hN hu hv
  refine ⟨?_, ?_⟩
  · refine ((f_continuous (N := N) (Y := Y) z x1 d i).intervalIntegrable u v).congr ?_
    exact (hc.mono Set.uIoc_subset_uIcc)
  · rw [← integral_congr hc, seg_line hd]

/-- corner term -/
noncomputable def T (N : ℝ) (Y : ℤ → ℝ) (z : ℂ) (x1 d : ℝ) (i : ℤ) : ℂ :=
  Complex.exp (z * ((x1 - (i + 1) / N) / d : ℝ)) *
    (((M N Y (i + 1) - M N Y i : ℝ) : ℂ) * (d : ℂ))

theorem G_corner (hN : 0 < N) {z : ℂ} {x1 d : ℝ} (i : ℤ) :
    G N Y z x1 d (i + 1) ((i + 1) / N) - G N Y z x1 d i ((i + 1) / N) = T N Y z x1 d i := by
  unfold G T
  rw [line_corner hN]
  push_cast
  ring

theorem segs (hN : 0 < N) {z : ℂ} {x1 d : ℝ} (hd : d ≠ 0) {a : ℤ} {u : ℝ} (hu : In N a u) (n : ℕ)
    {v : ℝ} (hv : In N (a + n) v) : IntervalIntegrable (f (W N Y) z x1 d) volume u v ∧
    z ^ 2 * ∫ s in u..v, f (W N Y) z x1 d s = G N Y z x1 d a u - G N Y z x1 d (a + n) v +
      ∑ k ∈ Finset.range n, T N Y z x1 d (a + k) := by
  induction n generalizing v with
  | zero => 
    have hv' : In N a v := by simpa using hv
    obtain ⟨h1, h2⟩ := seg_one (Y := Y) (z := z) (x1 := x1) hN hd hu hv'
    refine ⟨h1, ?_⟩
    rw [h2]; simp
  | succ n ih =>
    have hc : In N (a + n) (((a + n : ℤ) + 1) / N) := by
      refine ⟨?_, le_rfl⟩
      gcongr; linarith
    obtain ⟨i1, e1⟩ := ih hc
    have hc' : In N (a + (n + 1 : ℕ)) (((a + n : ℤ) + 1) / N) := by
      refine ⟨?_, ?_⟩
      · push_cast; apply div_le_div_of_nonneg_right _ hN.le; linarith
      · push_cast; apply div_le_div_of_nonneg_right _ hN.le; linarith
    obtain ⟨i2, e2⟩ := seg_one (Y := Y) (z := z) (x1 := x1) hN hd hc' hv
    refine ⟨i1.trans i2, ?_⟩
    rw [← integral_add_adjacent_intervals i1 i2, mul_add, e1, e2, Finset.sum_range_succ,
      ← G_corner hN]
    have e : a + ((n + 1 : ℕ) : ℤ) = a + (n : ℤ) + 1 := by push_cast; ring
    rw [e]
    push_cast
    ring

theorem response_eq (Wf : ℝ → ℝ) (z : ℂ) {x d : ℝ} (hd : d ≠ 0) :
    response Wf z x d = ∫ s in x..(x + d), f Wf z (x + d) d s := by
  have h := intervalIntegral.integral_comp_add_mul (a := (0 : ℝ)) (b := 1)
    (fun s => f Wf z (x + d) d s) hd x
  have hdc : (d : ℂ) ≠ 0 := by exact_mod_cast hd
  simp only [mul_zero, add_zero, mul_one] at h
  have h2 : (∫ s in x..(x + d), f Wf z (x + d) d s) =
      (d : ℂ) * ∫ t in (0 : ℝ)..1, f Wf z (x + d) d (x + d * t) := by
    rw [h, Complex.real_smul]
    push_cast
    field_simp
  rw [h2, ← intervalIntegral.integral_const_mul]
  unfold response
  congr 1
  funext t
  unfold f
  have e : (x + d - (x + d * t)) / d = 1 - t := by field_simp; ring
  rw [e, mul_comm d t]
  push_cast
  field_simp

end Seg
end Adwt
