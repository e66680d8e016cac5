import Verif.Spec.SumTree
import Verif.Proofs.FloatRun2

/-!
# Sums in any order
-/

set_option linter.unusedSectionVars false

namespace Adwt
namespace SumTree

theorem eval_exact (y : ℕ → ℂ) (t : SumTree) : t.eval y = (t.leaves.map y).sum := by
  induction t with
  | zero => rfl
  | leaf i => simp [eval, leaves]
  | add l r hl hr => simp [eval, leaves, hl, hr]

variable {C : Type} [Zero C] [Add C] [Sub C] [Mul C] [Div C] {S : Sys ℝ C} {val : C → ℂ} {ε : ℝ}

theorem norms_nonneg (v : ℕ → C) (val : C → ℂ) (l : List ℕ) : 0 ≤ (l.map fun i => ‖val (v i)‖).sum := by
  apply List.sum_nonneg
  intro x hx
  obtain ⟨c, -, rfl⟩ := List.mem_map.1 hx
  exact norm_nonneg _

theorem norm_sum (v : ℕ → C) (val : C → ℂ) (l : List ℕ) :
    ‖(l.map fun i => val (v i)).sum‖ ≤ (l.map fun i => ‖val (v i)‖).sum := by
  induction l with
  | nil => simp
  | cons a l ih =>
    simp only [List.map_cons, List.sum_cons]
    exact (norm_add_le _ _).trans (by linarith)

/-- how far off a sum in any order is -/
theorem near (hS : FloatSys S val ε) (v : ℕ → C) {N : ℕ} (hN : ε * N * (1 + ε) ^ N ≤ 1) {t : SumTree}
    (ht : t.adds ≤ N) (hs : (t.leaves.map fun i => ‖val (v i)‖).sum ≤ 2 ^ 107) :
    ‖val (t.eval v) - (t.leaves.map fun i => val (v i)).sum‖ ≤
      ε * t.adds * (1 + ε) ^ t.adds * ((t.leaves.map fun i => ‖val (v i)‖).sum + 1 / 2 ^ 80) := by
  have e0 := hS.ε0
  induction t with
  | zero => simp [eval, leaves, adds, hS.ops.zero]
  | leaf i => simp [eval, leaves, adds]
  | add l r hl hr =>
    simp only [adds, leaves, List.map_append, List.sum_append, eval] at ht hs ⊢
    have l0 := norms_nonneg v val l.leaves
    have r0 := norms_nonneg v val r.leaves
    have hl' := hl (by omega) (by linarith)
    have hr' := hr (by omega) (by linarith)
    have nl := norm_sum v val l.leaves
    have nr := norm_sum v val r.leaves
    set a := val (l.eval v)
    set b := val (r.eval v)
    set x := (l.leaves.map fun i => val (v i)).sum
    set y := (r.leaves.map fun i => val (v i)).sum
    set s := (l.leaves.map fun i => ‖val (v i)‖).sum
    set u := (r.leaves.map fun i => ‖val (v i)‖).sum
    set η : ℝ := 1 / 2 ^ 80 with hη
    have hη0 : 0 ≤ η := by positivity
    set p : ℝ := (1 + ε) ^ (l.adds + r.adds) with hp
    have p1 : 1 ≤ p := one_le_pow₀ (by linarith)
    have pl : (1 + ε) ^ l.adds ≤ p := pow_le_pow_right₀ (by linarith) (by omega)
    have pr : (1 + ε) ^ r.adds ≤ p := pow_le_pow_right₀ (by linarith) (by omega)
    have nl0 : (0 : ℝ) ≤ l.adds := Nat.cast_nonneg _
    have nr0 : (0 : ℝ) ≤ r.adds := Nat.cast_nonneg _
    have hl2 : ‖a - x‖ ≤ ε * l.adds * p * (s + η) := hl'.trans (by gcongr)
    have hr2 : ‖b - y‖ ≤ ε * r.adds * p * (u + η) := hr'.trans (by gcongr)
    have hsum : ‖a - x‖ + ‖b - y‖ ≤ ε * (l.adds + r.adds) * p * (s + u + η) := by
      have q1 : 0 ≤ ε * l.adds * p * u := by positivity
      have q2 : 0 ≤ ε * r.adds * p * s := by positivity
      linarith
    have hle1 : ε * (l.adds + r.adds) * p ≤ 1 := by
      refine le_trans ?_ hN
      have : ((l.adds + r.adds : ℕ) : ℝ) ≤ N := by exact_mod_cast (by omega : l.adds + r.adds ≤ N)
      push_cast at this
      have hpN : p ≤ (1 + ε) ^ N := pow_le_pow_right₀ (by linarith) (by omega)
      exact mul_le_mul (mul_le_mul_of_nonneg_left this e0) hpN (by positivity) (by positivity)
    have hη1 : η ≤ 1 := by rw [hη]; norm_num
    have hsum1 : ‖a - x‖ + ‖b - y‖ ≤ s + u + η :=
      hsum.trans (mul_le_of_le_one_left (by positivity) hle1)
    have na : ‖a‖ ≤ s + ‖a - x‖ := by
      have := norm_add_le (a - x) x
      rw [sub_add_cancel] at this
      linarith
    have nb : ‖b‖ ≤ u + ‖b - y‖ := by
      have := norm_add_le (b - y) y
      rw [sub_add_cancel] at this
      linarith
    have hadd := hS.ops.add (l.eval v) (r.eval v) (by
      show ‖a‖ + ‖b‖ ≤ 2 ^ 110
      norm_num at hs ⊢
      linarith)
    have hre : roundErr ε ‖a + b‖ ≤ ε * (s + u + (‖a - x‖ + ‖b - y‖) + η) := by
      unfold roundErr
      apply mul_le_mul_of_nonneg_left _ e0
      apply max_le
      · have := norm_add_le a b
        linarith
      · rw [← hη]
        have := norm_nonneg (a - x)
        have := norm_nonneg (b - y)
        linarith
    have t1 : ‖val (l.eval v + r.eval v) - (x + y)‖ ≤
        roundErr ε ‖a + b‖ + (‖a - x‖ + ‖b - y‖) := by
      have e : val (l.eval v + r.eval v) - (x + y) =
          (val (l.eval v + r.eval v) - (a + b)) + ((a - x) + (b - y)) := by ring
      rw [e]
      exact (norm_add_le _ _).trans (add_le_add hadd (norm_add_le _ _))
    refine t1.trans ?_
    set q := ‖a - x‖ + ‖b - y‖ with hq
    have h1 : (1 + ε) * q ≤ (1 + ε) * (ε * (l.adds + r.adds) * p * (s + u + η)) :=
      mul_le_mul_of_nonneg_left hsum (by linarith)
    have h2 : ε * (s + u + η) ≤ ε * ((1 + ε) * p) * (s + u + η) := by
      apply mul_le_mul_of_nonneg_right _ (by positivity)
      have : (1 : ℝ) * 1 ≤ (1 + ε) * p := mul_le_mul (by linarith) p1 zero_le_one (by linarith)
      nlinarith
    have e2 : ε * ((l.adds + r.adds + 1 : ℕ) : ℝ) * (1 + ε) ^ (l.adds + r.adds + 1) * (s + u + η) =
        (1 + ε) * (ε * (l.adds + r.adds) * p * (s + u + η)) + ε * ((1 + ε) * p) * (s + u + η) := by
      rw [pow_succ, hp]; push_cast; ring
    rw [e2]
    linarith

/-- `std::accumulate`'s own order -/
def code : ℕ → SumTree
  | 0 => zero
  | n + 1 => add (code n) (leaf n)

theorem code_sums (n : ℕ) : (code n).Sums n := by
  induction n with
  | zero => exact ⟨List.Perm.refl _, le_rfl⟩
  | succ n ih =>
    refine ⟨?_, ?_⟩
    · show ((code n).leaves ++ [n]).Perm _
      rw [List.range_succ]
      exact ih.1.append_right _
    · show (code n).adds + 0 + 1 ≤ n + 1
      have := ih.2
      omega

theorem code_eval (l : List C) : (code l.length).eval (fun i => l.getD i 0) = l.foldl (· + ·) 0 := by
  have aux : ∀ n ≤ l.length, (code n).eval (fun i => l.getD i 0) = (l.take n).foldl (· + ·) 0 := by
    intro n
    induction n with
    | zero => intro _; rfl
    | succ n ih =>
      intro hn
      show (code n).eval _ + l.getD n 0 = _
      rw [ih (by omega), List.take_succ, List.foldl_append, List.getElem?_eq_getElem (by omega)]
      simp only [Option.toList_some, List.foldl_cons, List.foldl_nil]
      rw [List.getD_eq_getElem?_getD, List.getElem?_eq_getElem (by omega), Option.getD_some]
  have := aux l.length le_rfl
  rwa [List.take_length] at this

end SumTree

variable {C : Type} [Zero C] [Add C] [Sub C] [Mul C] [Div C] {S : Sys ℝ C} {val : C → ℂ} {ε : ℝ}

theorem tree_output (hS : FloatSys S val ε) {l : List C} (hl : l.length = S.n)
    (hb : ∀ k < S.n, ‖val (l.getD k 0)‖ ≤ 2 ^ 95) {t : SumTree} (ht : t.Sums S.n) :
    |S.ops.re (t.eval fun i => l.getD i 0) - output (l.map val)| ≤
      2 * S.n * ε * (∑ k ∈ Finset.range S.n, ‖val (l.getD k 0)‖ + 1 / 2 ^ 80) := by
  have e0 := hS.ε0
  obtain ⟨hp, ha⟩ := ht
  have hn : (S.n : ℝ) ≤ 2 ^ 10 := by exact_mod_cast hS.few
  have hsum : ((t.leaves.map fun i => ‖val (l.getD i 0)‖)).sum =
      ∑ k ∈ Finset.range S.n, ‖val (l.getD k 0)‖ := by
    rw [(hp.map _).sum_eq]; rfl
  have hsum2 : ((t.leaves.map fun i => val (l.getD i 0))).sum = ∑ k ∈ Finset.range S.n, val (l.getD k 0) := by
    rw [(hp.map _).sum_eq]; rfl
  have hpow : (1 + ε) ^ S.n ≤ 2 := by
    have h1 : (1 + ε) ^ S.n ≤ (1 + 1 / 2 ^ 21) ^ (2 ^ 10) := by
      refine le_trans (pow_le_pow_left₀ (by linarith) (show (1 + ε) ≤ 1 + 1 / 2 ^ 21 by linarith [hS.ε1]) _) ?_
      exact pow_le_pow_right₀ (by norm_num) hS.few
    refine h1.trans ?_
    have h3 : (1 + 1 / 2 ^ 21 : ℝ) * (1 - 1 / 2 ^ 21) ≤ 1 := by norm_num
    have h4 : (1 - 2 ^ 10 * (1 / 2 ^ 21) : ℝ) ≤ (1 - 1 / 2 ^ 21) ^ (2 ^ 10) := by
      have h6 := one_add_mul_le_pow (a := -(1 / 2 ^ 21 : ℝ)) (by norm_num) (2 ^ 10)
      rw [← sub_eq_add_neg] at h6
      refine le_trans (le_of_eq ?_) h6
      norm_num
    have h5 : ((1 + 1 / 2 ^ 21 : ℝ) * (1 - 1 / 2 ^ 21)) ^ (2 ^ 10) ≤ 1 := pow_le_one₀ (by norm_num) h3
    rw [mul_pow] at h5
    generalize ((1 + 1 / 2 ^ 21 : ℝ)) ^ (2 ^ 10) = X at h5 ⊢
    generalize ((1 - 1 / 2 ^ 21 : ℝ)) ^ (2 ^ 10) = Y at h4 h5
    by_contra hc
    rw [not_le] at hc
    have : (1 / 2 : ℝ) ≤ Y := by norm_num at h4; linarith
    nlinarith
  have hε : ε * S.n ≤ 1 / 2 ^ 11 := by
    have := mul_le_mul hS.ε1 hn (Nat.cast_nonneg _) (by positivity)
    refine this.trans (by norm_num)
  have key := SumTree.near hS (fun i => l.getD i 0) (N := S.n) (by
      have := mul_le_mul hε hpow (by positivity) (by positivity)
      refine this.trans (by norm_num)) ha (by
    rw [hsum]
    have h1 := Finset.sum_le_card_nsmul (Finset.range S.n) (fun k => ‖val (l.getD k 0)‖) (2 ^ 95)
      (fun k hk => hb k (Finset.mem_range.1 hk))
    rw [Finset.card_range, nsmul_eq_mul] at h1
    refine h1.trans ?_
    calc (S.n : ℝ) * 2 ^ 95 ≤ 2 ^ 10 * 2 ^ 95 := by gcongr
      _ ≤ 2 ^ 107 := by norm_num)
  rw [hsum, hsum2] at key
  have hout : output (l.map val) = (∑ k ∈ Finset.range S.n, val (l.getD k 0)).re := by
    unfold output
    rw [Sys.csum_getD, hl]
  rw [hout, hS.ops.re, ← Complex.sub_re]
  refine (Complex.abs_re_le_norm _).trans (key.trans ?_)
  have s0 : 0 ≤ ∑ k ∈ Finset.range S.n, ‖val (l.getD k 0)‖ + 1 / 2 ^ 80 := by positivity
  apply mul_le_mul_of_nonneg_right _ s0
  have h1 : ε * (t.adds : ℝ) * (1 + ε) ^ t.adds ≤ ε * S.n * (1 + ε) ^ S.n := by
    have : (t.adds : ℝ) ≤ S.n := by exact_mod_cast ha
    have h2 : (1 + ε) ^ t.adds ≤ (1 + ε) ^ S.n := pow_le_pow_right₀ (by linarith) ha
    exact mul_le_mul (mul_le_mul_of_nonneg_left this e0) h2 (by positivity) (by positivity)
  refine h1.trans ?_
  have : ε * (S.n : ℝ) * (1 + ε) ^ S.n ≤ ε * S.n * 2 := mul_le_mul_of_nonneg_left hpow (by positivity)
  linarith

end Adwt
