import Verif.Proofs.Lines
import Verif.Spec.Power

/-!
# Mean power of almost periodic sequences
-/

set_option linter.unusedSectionVars false

namespace Adwt
open Classical _root_.Filter

/-- the mean power of a sum of oscillations -/
theorem mean_normSq {a : ℤ → ℂ} (ha : Summable fun k => ‖a k‖) (d : ℝ) {u : ℕ → ℂ}
    (hu : ∀ n : ℕ, u n = ∑' k : ℤ, a k * Complex.exp (2 * Real.pi * Complex.I * k * (n * d : ℝ))) :
    Tendsto (fun N : ℕ => (∑ n ∈ Finset.range N, ((‖u n‖ ^ 2 : ℝ) : ℂ)) / N) atTop
      (nhds (∑' k : ℤ, (starRingEnd ℂ) (a k) * ∑' l : heardAt d (k * d), a l)) := by
  set e : ℤ → ℕ → ℂ := fun k n => Complex.exp (2 * Real.pi * Complex.I * k * (n * d : ℝ)) with he
  have hen : ∀ k n, ‖e k n‖ = 1 := by
    intro k n
    rw [he]; dsimp only
    rw [show (2 * Real.pi * Complex.I * k * (n * d : ℝ) : ℂ) =
      2 * Real.pi * Complex.I * ((k * (n * d) : ℝ) : ℂ) by push_cast; ring, norm_turn]
  have hs : ∀ n : ℕ, Summable fun k => ‖a k * e k n‖ := fun n =>
    ha.congr fun k => by rw [norm_mul, hen, mul_one]
  set C := ∑' k, ‖a k‖ with hC
  have hub : ∀ n, ‖u n‖ ≤ C := by
    intro n
    rw [hu n]
    refine (norm_tsum_le_tsum_norm (hs n)).trans (le_of_eq ?_)
    exact tsum_congr fun k => by rw [norm_mul, hen, mul_one]
  set M : ℕ → ℤ → ℂ := fun N k => (∑ n ∈ Finset.range N, u n * (starRingEnd ℂ) (e k n)) / N with hM
  have hterm : ∀ n : ℕ, ((‖u n‖ ^ 2 : ℝ) : ℂ) = ∑' k, (starRingEnd ℂ) (a k) * (u n * (starRingEnd ℂ) (e k n)) := by
    intro n
    have h1 : (starRingEnd ℂ) (u n) = ∑' k, (starRingEnd ℂ) (a k * e k n) := by
      conv_lhs => rw [hu n]
      exact Complex.conj_tsum _
    rw [Complex.ofReal_pow, ← Complex.mul_conj', h1, ← tsum_mul_left]
    refine tsum_congr fun k => ?_
    rw [map_mul]; ring
  have hsum : ∀ n : ℕ, Summable fun k => (starRingEnd ℂ) (a k) * (u n * (starRingEnd ℂ) (e k n)) := by
    intro n
    refine Summable.of_norm ((ha.mul_right ‖u n‖).congr fun k => ?_)
    rw [norm_mul, norm_mul, RCLike.norm_conj, RCLike.norm_conj, hen, mul_one]
  have key : ∀ N : ℕ, (∑ n ∈ Finset.range N, ((‖u n‖ ^ 2 : ℝ) : ℂ)) / N =
      ∑' k, (starRingEnd ℂ) (a k) * M N k := by
    intro N
    rw [Finset.sum_congr rfl fun n _ => hterm n, ← Summable.tsum_finsetSum fun n _ => hsum n, ← tsum_div_const]
    refine tsum_congr fun k => ?_
    rw [hM]; dsimp only
    rw [← Finset.mul_sum, mul_div_assoc]
  refine Tendsto.congr (fun N => (key N).symm) ?_
  refine tendsto_tsum_of_dominated_convergence (bound := fun k => ‖a k‖ * C) (ha.mul_right C) (fun k => ?_) ?_
  · refine Tendsto.const_mul _ ?_
    have h := mean_tsum ha fun l => l * d - k * d
    have e1 : (∑' l : ℤ, a l * if ∃ m : ℤ, (l : ℝ) * d - k * d = m then 1 else 0) =
        ∑' l : heardAt d (k * d), a l := by
      rw [tsum_subtype (heardAt d (k * d)) a]
      refine tsum_congr fun l => ?_
      unfold Set.indicator heardAt
      simp only [Set.mem_setOf_eq]
      split <;> simp
    rw [e1] at h
    refine Tendsto.congr (fun N => ?_) h
    rw [hM]; dsimp only
    congr 1
    refine Finset.sum_congr rfl fun n _ => ?_
    rw [hu n, ← tsum_mul_right]
    refine tsum_congr fun l => ?_
    rw [mul_assoc (a l)]
    congr 1
    rw [he]; dsimp only
    rw [← Complex.exp_conj, ← Complex.exp_add, ← Complex.exp_nat_mul]
    congr 1
    simp only [map_mul, Complex.conj_ofReal, Complex.conj_I, Complex.conj_ofNat, map_intCast]
    push_cast; ring
  · refine Eventually.of_forall fun N k => ?_
    rw [norm_mul, RCLike.norm_conj]
    refine mul_le_mul_of_nonneg_left ?_ (norm_nonneg _)
    rw [hM]; dsimp only
    rw [norm_div, Complex.norm_natCast]
    have hC0 : 0 ≤ C := tsum_nonneg fun k => norm_nonneg _
    refine div_le_of_le_mul₀ (Nat.cast_nonneg _) hC0 ?_
    refine (norm_sum_le _ _).trans ?_
    calc ∑ n ∈ Finset.range N, ‖u n * (starRingEnd ℂ) (e k n)‖ ≤ ∑ n ∈ Finset.range N, C :=
          Finset.sum_le_sum fun n _ => by
            rw [norm_mul, RCLike.norm_conj, hen, mul_one]; exact hub n
      _ = C * N := by simp [mul_comm]

/-- Minkowski's inequality for the level of `N` samples -/
theorem rms_close (u w : ℕ → ℂ) (ρ : ℝ) (h : ∀ n, ‖u n - w n‖ ≤ ρ) (N : ℕ) :
    |√((∑ n ∈ Finset.range N, ‖u n‖ ^ 2) / N) - √((∑ n ∈ Finset.range N, ‖w n‖ ^ 2) / N)| ≤ ρ := by
  have hρ : 0 ≤ ρ := (norm_nonneg _).trans (h 0)
  rcases N.eq_zero_or_pos with rfl | hN
  · simpa using hρ
  have hN' : (0 : ℝ) < N := by exact_mod_cast hN
  have e : ∀ v : ℕ → ℂ, √((∑ n ∈ Finset.range N, ‖v n‖ ^ 2) / N) =
      ‖WithLp.toLp 2 (fun n : Fin N => v n)‖ / √N := by
    intro v
    rw [EuclideanSpace.norm_eq, Real.sqrt_div (Finset.sum_nonneg fun _ _ => sq_nonneg _), Finset.sum_range]
  rw [e u, e w, ← sub_div, abs_div, abs_of_pos (Real.sqrt_pos.2 hN'), div_le_iff₀ (Real.sqrt_pos.2 hN')]
  refine (abs_norm_sub_norm_le _ _).trans ?_
  rw [EuclideanSpace.norm_eq, ← Real.sqrt_sq hρ, ← Real.sqrt_mul (sq_nonneg ρ)]
  refine Real.sqrt_le_sqrt ?_
  calc (∑ i : Fin N, ‖(WithLp.toLp 2 (fun n : Fin N => u n) - WithLp.toLp 2 (fun n : Fin N => w n)) i‖ ^ 2)
      ≤ ∑ _i : Fin N, ρ ^ 2 := Finset.sum_le_sum fun i _ =>
        pow_le_pow_left₀ (norm_nonneg _) (h i) 2
    _ = ρ ^ 2 * N := by simp [mul_comm]

/-- what tends to zero does not change the power of bounded samples -/
theorem MeanPower.of_tendsto {y z : ℕ → ℝ} {P C : ℝ} (h : MeanPower y P) (hC : ∀ n, |y n| ≤ C)
    (hz : Tendsto (fun n => z n - y n) atTop (nhds 0)) : MeanPower z P := by
  have h0 : Tendsto (fun n : ℕ => z n ^ 2 - y n ^ 2) atTop (nhds 0) := by
    have h1 : Tendsto (fun n => |z n - y n| * (|z n - y n| + 2 * C)) atTop (nhds 0) := by
      have := hz.abs
      rw [abs_zero] at this
      have h2 := this.mul (this.add_const (2 * C))
      simpa using h2
    refine squeeze_zero_norm (fun n => ?_) h1
    rw [Real.norm_eq_abs, show z n ^ 2 - y n ^ 2 = (z n - y n) * ((z n - y n) + 2 * y n) by ring, abs_mul]
    refine mul_le_mul_of_nonneg_left ((abs_add_le _ _).trans ?_) (abs_nonneg _)
    rw [abs_mul, abs_two]
    linarith [hC n]
  have h1 := h0.cesaro.add h
  rw [zero_add] at h1
  refine Tendsto.congr (fun N => ?_) h1
  rw [inv_mul_eq_div, ← add_div, ← Finset.sum_add_distrib]
  congr 1
  exact Finset.sum_congr rfl fun n _ => by ring

/-- the level of an almost periodic sequence of real samples -/
theorem level_sampled {c : ℤ → ℂ} {T : ℝ → ℝ}
    (h : ∀ x : ℝ, HasSum (fun k : ℤ => c k * Complex.exp (2 * Real.pi * Complex.I * k * x)) (T x : ℂ))
    (d x : ℝ) (hd : d ≠ 0) :
    ∃ P, MeanPower (fun n => T (x + n * d)) P ∧
      |√P - √(∑' k : {k : ℤ | |(k : ℝ) * d| < 1 / 2}, ‖c k‖ ^ 2)| ≤
        ∑' k : {k : ℤ | 1 / 2 ≤ |(k : ℝ) * d|}, ‖c k‖ := by
  have hcs : Summable fun k => ‖c k‖ := (component_sampled h d 0 x).1
  have hturn : ∀ (k : ℤ) (x : ℝ), ‖Complex.exp (2 * Real.pi * Complex.I * k * x)‖ = 1 := fun k x => by
    rw [show (2 * Real.pi * Complex.I * k * x : ℂ) = 2 * Real.pi * Complex.I * ((k * x : ℝ) : ℂ) by
      push_cast; ring, norm_turn]
  set a : ℤ → ℂ := fun k => c k * Complex.exp (2 * Real.pi * Complex.I * k * x) with ha'
  have hac : ∀ k, ‖a k‖ = ‖c k‖ := fun k => by rw [ha']; dsimp only; rw [norm_mul, hturn, mul_one]
  have ha : Summable fun k => ‖a k‖ := hcs.congr fun k => (hac k).symm
  set u : ℕ → ℂ := fun n => ((T (x + n * d) : ℝ) : ℂ) with hu
  have hun : ∀ n : ℕ, u n = ∑' k : ℤ, a k * Complex.exp (2 * Real.pi * Complex.I * k * (n * d : ℝ)) := by
    intro n
    rw [hu]; dsimp only
    rw [← (h (x + n * d)).tsum_eq]
    refine tsum_congr fun k => ?_
    rw [ha']; dsimp only
    rw [mul_assoc (c k), ← Complex.exp_add]
    congr 2
    push_cast; ring
  set lo : Set ℤ := {k : ℤ | |(k : ℝ) * d| < 1 / 2} with hlo
  set b : ℤ → ℂ := lo.indicator a with hb
  have hbs : Summable fun k => ‖b k‖ :=
    Summable.of_nonneg_of_le (fun k => norm_nonneg _) (fun k => norm_indicator_le_norm_self a k) ha
  set v : ℕ → ℂ := fun n => ∑' k : ℤ, b k * Complex.exp (2 * Real.pi * Complex.I * k * (n * d : ℝ)) with hv
  set ρ := ∑' k : {k : ℤ | 1 / 2 ≤ |(k : ℝ) * d|}, ‖c k‖ with hρ
  have hclose : ∀ n, ‖u n - v n‖ ≤ ρ := by
    intro n
    have s1 : Summable fun k : ℤ => a k * Complex.exp (2 * Real.pi * Complex.I * k * (n * d : ℝ)) :=
      Summable.of_norm (ha.congr fun k => by rw [norm_mul (a k), hturn, mul_one])
    have s2 : Summable fun k : ℤ => b k * Complex.exp (2 * Real.pi * Complex.I * k * (n * d : ℝ)) :=
      Summable.of_norm (hbs.congr fun k => by rw [norm_mul (b k), hturn, mul_one])
    rw [hun n, hv]
    dsimp only
    rw [← s1.tsum_sub s2, hρ]
    set g : ℤ → ℝ := ({k : ℤ | 1 / 2 ≤ |(k : ℝ) * d|} : Set ℤ).indicator fun k => ‖c k‖ with hg
    have hgs : Summable g := hcs.indicator _
    have eg : (∑' k : {k : ℤ | 1 / 2 ≤ |(k : ℝ) * d|}, ‖c k‖) = ∑' k, g k := tsum_subtype _ fun k => ‖c k‖
    rw [eg]
    refine tsum_of_norm_bounded hgs.hasSum fun k => ?_
    rw [← sub_mul, norm_mul, hturn, mul_one]
    by_cases hk : |(k : ℝ) * d| < 1 / 2
    · rw [hb, Set.indicator_of_mem (show k ∈ lo from hk), sub_self, norm_zero, hg,
        Set.indicator_of_notMem (show k ∉ {k : ℤ | 1 / 2 ≤ |(k : ℝ) * d|} from not_le.2 hk)]
    · rw [hb, Set.indicator_of_notMem (show k ∉ lo from hk), sub_zero, hg,
        Set.indicator_of_mem (show k ∈ {k : ℤ | 1 / 2 ≤ |(k : ℝ) * d|} from not_lt.1 hk), hac]
  have hQ : ∑' k : ℤ, (starRingEnd ℂ) (b k) * ∑' l : heardAt d (k * d), b l =
      ((∑' k : lo, ‖c k‖ ^ 2 : ℝ) : ℂ) := by
    rw [tsum_subtype lo fun k : ℤ => ‖c k‖ ^ 2, Complex.ofReal_tsum]
    refine tsum_congr fun k => ?_
    by_cases hk : k ∈ lo
    · have hs : ∑' l : heardAt d (k * d), b l = b k := by
        rw [tsum_eq_single (⟨k, 0, by simp⟩ : heardAt d (k * d))]
        rintro ⟨l, m, hm⟩ hlk
        rw [hb]
        refine Set.indicator_of_notMem (fun hl => hlk ?_) a
        have hl' : |(l : ℝ) * d| < 1 / 2 := hl
        have hk' : |(k : ℝ) * d| < 1 / 2 := hk
        have hm1 : |(m : ℝ)| < 1 := by
          rw [← hm]
          exact (abs_sub _ _).trans_lt (by linarith)
        have hm0 : m = 0 := Int.abs_lt_one_iff.1 (by exact_mod_cast hm1)
        rw [hm0, Int.cast_zero] at hm
        have : (l : ℝ) = k := mul_right_cancel₀ hd (by linarith)
        exact Subtype.ext (by exact_mod_cast this)
      rw [hs, Set.indicator_of_mem hk, Complex.conj_mul', hb, Set.indicator_of_mem hk, hac]
      push_cast; rfl
    · rw [hb, Set.indicator_of_notMem hk, Set.indicator_of_notMem hk]
      simp
  have hmu := mean_normSq ha d hun
  have hmv := mean_normSq hbs d (u := v) (fun n => rfl)
  rw [hQ] at hmv
  set P : ℝ := (∑' k : ℤ, (starRingEnd ℂ) (a k) * ∑' l : heardAt d (k * d), a l).re with hP
  have ru : Tendsto (fun N : ℕ => (∑ n ∈ Finset.range N, ‖u n‖ ^ 2) / N) atTop (nhds P) := by
    refine ((Complex.continuous_re.tendsto _).comp hmu).congr fun N => ?_
    simp only [Function.comp]
    rw [← Complex.ofReal_sum, ← Complex.ofReal_natCast, ← Complex.ofReal_div, Complex.ofReal_re]
  have rv := ((Complex.continuous_re.tendsto _).comp hmv)
  rw [Complex.ofReal_re] at rv
  have rv' : Tendsto (fun N : ℕ => (∑ n ∈ Finset.range N, ‖v n‖ ^ 2) / N) atTop
      (nhds (∑' k : lo, ‖c k‖ ^ 2)) := by
    refine rv.congr fun N => ?_
    simp only [Function.comp]
    rw [← Complex.ofReal_sum, ← Complex.ofReal_natCast, ← Complex.ofReal_div, Complex.ofReal_re]
  refine ⟨P, ?_, ?_⟩
  · refine ru.congr fun N => ?_
    congr 1
    refine Finset.sum_congr rfl fun n _ => ?_
    rw [hu]; dsimp only
    rw [Complex.norm_real, Real.norm_eq_abs, sq_abs]
  · have l1 := (Real.continuous_sqrt.tendsto _).comp ru
    have l2 := (Real.continuous_sqrt.tendsto _).comp rv'
    exact le_of_tendsto (l1.sub l2).abs (Eventually.of_forall fun N => rms_close u v ρ hclose N)

end Adwt
