import Verif.Spec.Excess
import Verif.Proofs.TurnOnNum

/-!
# The step responses of the built-in filters after up to 16 samples
-/

set_option linter.unusedSectionVars false

namespace Adwt.Props
open Fixed MeasureTheory

/-- the step response after `n + 1` samples in fixed-point arithmetic -/
noncomputable def stepVal (t : FilterType) (n : ℕ) : ℚ :=
  (iterK (64 * (n + 1)) (stepLanes t) (sumX (stepLanes t)) : ℚ) / 2 ^ 40 - stepStart t

theorem step_acc (t : FilterType) {n : ℕ} (hn : n < 16) :
    |stepResponse (filterX t) (n + 1 : ℕ) - stepVal t n| ≤ 5e-6 := by
  have h : List.Forall₂ (Near (1 / 2 ^ 30)) (stepLanes t) (((rLit t).zip (zLit t)).map fun c =>
      (2 * qc (qdiv c.1 c.2), Complex.exp (qc c.2 * ((1 / 64 : ℝ) : ℂ)))) := by
    have := (stepLanes_ok t).imp fun _ _ h => h.near
    rw [List.forall₂_map_right_iff] at this ⊢
    exact this
  have hs := iterK_sound (64 * (n + 1)) h (by positivity) (by
    have : ((64 * (n + 1) : ℕ) : ℝ) ≤ 1024 := by exact_mod_cast (by omega : 64 * (n + 1) ≤ 1024)
    norm_num at this ⊢
    linarith) rfl
  have hl : ((stepLanes t).length : ℝ) ≤ 5 := by
    have : (stepLanes t).length ≤ 5 := by cases t <;> decide
    exact_mod_cast this
  have hm : ((stepLanes t).length : ℝ) * (1 / 2 ^ 30 + ((64 * (n + 1) : ℕ) : ℝ) * (1 / 2 ^ 30)) ≤ 5e-6 := by
    have h1 : ((64 * (n + 1) : ℕ) : ℝ) ≤ 1024 := by exact_mod_cast (by omega : 64 * (n + 1) ≤ 1024)
    have h2 : (1 / 2 ^ 30 + ((64 * (n + 1) : ℕ) : ℝ) * (1 / 2 ^ 30) : ℝ) ≤ 1025 / 2 ^ 30 := by
      rw [div_add' _ _ _ (by positivity)]
      gcongr
      have e : ((64 * (n + 1) : ℕ) : ℝ) * (1 / 2 ^ 30) * 2 ^ 30 = ((64 * (n + 1) : ℕ) : ℝ) := by field_simp
      rw [e]; linarith
    calc _ ≤ 5 * (1025 / 2 ^ 30 : ℝ) := mul_le_mul hl h2 (by positivity) (by norm_num)
      _ ≤ _ := by norm_num
  have e : stepResponse (filterX t) (n + 1 : ℕ) = (((((rLit t).zip (zLit t)).map fun c =>
      (2 * qc (qdiv c.1 c.2), Complex.exp (qc c.2 * ((1 / 64 : ℝ) : ℂ)))).map
        fun p : ℂ × ℂ => p.1 * p.2 ^ (64 * (n + 1))).sum).re - (stepStart t : ℝ) := by
    rw [stepResponse_eq (filterX_ne t), sum_zip (fun r z => 2 * r / z * (Complex.exp (z * ((n + 1 : ℕ) : ℝ)) - 1)) _ _
      (by simp [filterX, lit_length])]
    show Complex.re (((((rLit t).map clit).zip ((zLit t).map clit)).map _).sum) = _
    rw [List.zip_map, List.map_map, List.map_map]
    have e3 : ∀ l : List (CLit × CLit), ((l.map ((fun p => 2 * p.1 / p.2 * (Complex.exp (p.2 * (((n + 1 : ℕ) : ℝ) : ℂ)) - 1)) ∘
        Prod.map clit clit)).sum).re = ((l.map ((fun p : ℂ × ℂ => p.1 * p.2 ^ (64 * (n + 1))) ∘ fun c =>
        (2 * qc (qdiv c.1 c.2), Complex.exp (qc c.2 * ((1 / 64 : ℝ) : ℂ))))).sum).re -
        (((l.map fun c => 2 * (qdiv c.1 c.2).1).sum : ℚ) : ℝ) := by
      intro l
      induction l with
      | nil => simp
      | cons c l ih =>
        simp only [List.map_cons, List.sum_cons, Complex.add_re, ih]
        have e4 : (Complex.exp (qc c.2 * ((1 / 64 : ℝ) : ℂ))) ^ (64 * (n + 1)) = Complex.exp (clit c.2 * (((n + 1 : ℕ) : ℝ) : ℂ)) := by
          rw [← Complex.exp_nat_mul]
          congr 1
          push_cast
          show _ * (clit c.2 * _) = _
          ring
        have e5 : 2 * clit c.1 / clit c.2 = 2 * qc (qdiv c.1 c.2) := by
          rw [qc_div, ← mul_div_assoc]; rfl
        have e6 : ((2 * (qdiv c.1 c.2).1 : ℚ) : ℝ) = (2 * qc (qdiv c.1 c.2)).re := by
          simp [qc]
        simp only [Function.comp_apply, Prod.map_fst, Prod.map_snd, e4, e5]
        rw [mul_sub, mul_one, Complex.sub_re]
        push_cast at e6 ⊢
        rw [e6]
        ring
    exact e3 _
  rw [e]
  have e7 : ((stepVal t n : ℚ) : ℝ) = (iterK (64 * (n + 1)) (stepLanes t) (sumX (stepLanes t)) : ℝ) / 2 ^ 40 -
      (stepStart t : ℝ) := by
    unfold stepVal; push_cast; rfl
  rw [e7, sub_sub_sub_cancel_right, abs_sub_comm]
  exact hs.trans hm

/-- the increments of the step response in fixed-point arithmetic -/
noncomputable def stepInc (t : FilterType) : ℕ → ℚ
  | 0 => stepVal t 0
  | n + 1 => stepVal t (n + 1) - stepVal t n

theorem step_inc (t : FilterType) {n : ℕ} (hn : n < 16) :
    |stepResponse (filterX t) (n + 1 : ℕ) - stepResponse (filterX t) (n : ℕ) - stepInc t n| ≤ 1e-5 := by
  cases n with
  | zero =>
    have h0 : stepResponse (filterX t) ((0 : ℕ) : ℝ) = 0 := by unfold stepResponse; simp
    rw [h0, sub_zero]
    exact (step_acc t hn).trans (by norm_num)
  | succ n =>
    have h1 := abs_le.1 (step_acc t hn)
    have h2 := abs_le.1 (step_acc t (n := n) (by omega))
    show |_ - ((stepVal t (n + 1) - stepVal t n : ℚ) : ℝ)| ≤ _
    push_cast at h1 h2 ⊢
    rw [abs_le]
    constructor <;> linarith

set_option maxRecDepth 100000 in
theorem inc_sum (t : FilterType) : excess t + 0.00017 ≤ ((List.range 16).map fun n => |stepInc t n|).sum := by
  cases t <;> decide +kernel

theorem excess_le (t : FilterType) : (excess t : ℝ) ≤
    ∑ k ∈ Finset.range 16, |stepResponse (filterX t) (k + 1 : ℕ) - stepResponse (filterX t) (k : ℕ)| := by
  have h := (Rat.cast_le (K := ℝ)).2 (inc_sum t)
  have e : ((List.range 16).map fun n => |stepInc t n|).sum = ∑ k ∈ Finset.range 16, |stepInc t k| := by
    rw [Finset.sum_eq_multiset_sum]; rfl
  rw [e] at h
  push_cast at h
  have h1 : ∑ k ∈ Finset.range 16, |((stepInc t k : ℚ) : ℝ)| ≤ ∑ k ∈ Finset.range 16,
      (|stepResponse (filterX t) (k + 1 : ℕ) - stepResponse (filterX t) (k : ℕ)| + 1e-5) := by
    refine Finset.sum_le_sum fun k hk => ?_
    have h2 := step_inc t (Finset.mem_range.1 hk)
    rw [abs_sub_comm] at h2
    have h3 := abs_sub_abs_le_abs_sub ((stepInc t k : ℚ) : ℝ)
      (stepResponse (filterX t) (k + 1 : ℕ) - stepResponse (filterX t) (k : ℕ))
    linarith
  rw [Finset.sum_add_distrib] at h1
  simp only [Finset.sum_const, Finset.card_range, nsmul_eq_mul] at h1
  norm_num at h h1 ⊢
  linarith

end Adwt.Props
