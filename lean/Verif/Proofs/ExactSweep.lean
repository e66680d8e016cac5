import Verif.Proofs.RealSweep

/-!
# The exact float values of the sweep of the benchmarks

The sum of the 204799 frequencies, each the float sum of the previous one and the increment. Between two
powers of two every addition adds the same multiple of the float spacing.
-/

set_option linter.unusedSectionVars false

namespace Adwt.Drivers
variable {K : Type} [Field K] [LinearOrder K] [IsStrictOrderedRing K] [FloorRing K]

/-- the rounded value, from the nearest multiple of the spacing -/
theorem fl_nearest {z y : K} (e : ℕ) (he : e ≤ 22) (h1 : 2 ^ e ≤ z) (h2 : z < 2 ^ (e + 1)) (m : ℤ)
    (hy : y = m * (1 / 2 ^ (23 - e))) (h : |z - y| < 1 / 2 ^ (23 - e) / 2) : ieee32 z = y := by
  obtain ⟨k, hk, hle⟩ := binade e he h1 h2
  have herr := ieee32_err_below (x := z) (e + 1 : ℕ) (by
    have : (1 : K) / 2 ^ 126 ≤ 1 := by norm_num
    have h1' : (1 : K) ≤ 2 ^ e := one_le_pow₀ (by norm_num)
    linarith) (by rw [zpow_natCast]; linarith) (by omega)
  have e1 : (2 : K) ^ (((e + 1 : ℕ) : ℤ) - 25) = 1 / 2 ^ (23 - e) / 2 := by
    rw [show ((e + 1 : ℕ) : ℤ) - 25 = -((23 - e + 1 : ℕ) : ℤ) by omega, zpow_neg, zpow_natCast, pow_succ,
      ← one_div, div_div]
  rw [e1] at herr
  obtain ⟨u, hu⟩ : ∃ u : K, u = 1 / 2 ^ (23 - e) := ⟨_, rfl⟩
  have hup : 0 < u := by rw [hu]; positivity
  rw [← hu] at hk hy h herr
  have ha := abs_lt.1 h
  have hb := abs_le.1 herr
  rw [hk] at hb ⊢
  rw [hy] at ha ⊢
  have l1 : (k : K) < (m + 1 : ℤ) := lt_of_mul_lt_mul_right (a := u) (by push_cast; linarith) hup.le
  have l2 : (m : K) < (k + 1 : ℤ) := lt_of_mul_lt_mul_right (a := u) (by push_cast; linarith) hup.le
  have l1 : k < m + 1 := by exact_mod_cast l1
  have l2 : m < k + 1 := by exact_mod_cast l2
  rw [show k = m by omega]

/-- `N` values from `x` on, then `y` -/
def Leg (step x : K) (N : ℕ) (y S : K) : Prop :=
  (fun y => ieee32 (y + step))^[N] x = y ∧ (ramp ieee32 step x N).sum = S

theorem ramp_append {fl : K → K} {step : K} (a b : ℕ) : ∀ x : K, ramp fl step x (a + b) =
    ramp fl step x a ++ ramp fl step ((fun y => fl (y + step))^[a] x) b := by
  induction a with
  | zero => intro x; simp [ramp]
  | succ a ih =>
    intro x
    rw [show a + 1 + b = (a + b) + 1 by omega, ramp, ramp, ih, Function.iterate_succ_apply]
    rfl

theorem Leg.trans {step x y z S T : K} {a b : ℕ} (h1 : Leg step x a y S) (h2 : Leg step y b z T) :
    Leg step x (a + b) z (S + T) := by
  constructor
  · rw [add_comm, Function.iterate_add_apply, h1.1, h2.1]
  · rw [ramp_append, List.sum_append, h1.1, h1.2, h2.2]

theorem leg_one {step x y : K} (h : ieee32 (x + step) = y) : Leg step x 1 y x :=
  ⟨h, by simp [ramp]⟩

/-- additions between two powers of two -/
theorem flat {step x inc : K} (e : ℕ) (he : e ≤ 22) (m j : ℤ) (hx : x = m * (1 / 2 ^ (23 - e)))
    (hi : inc = j * (1 / 2 ^ (23 - e))) (hi0 : 0 ≤ inc) (hs0 : 0 ≤ step) (hs : |step - inc| < 1 / 2 ^ (23 - e) / 2)
    (h1 : 2 ^ e ≤ x) (N : ℕ) (h2 : x + N * inc - inc + step < 2 ^ (e + 1)) :
    ∀ k ≤ N, Leg step x k (x + k * inc) (k * x + inc * (k * (k - 1) / 2)) := by
  intro k
  induction k with
  | zero => intro _; constructor <;> simp [ramp]
  | succ k ih =>
    intro hk
    have hkN : ((k : K) + 1) * inc ≤ N * inc := mul_le_mul_of_nonneg_right (by exact_mod_cast hk) hi0
    have hk0 : 0 ≤ (k : K) * inc := mul_nonneg (by positivity) hi0
    have hv : ieee32 (x + k * inc + step) = x + k * inc + inc := fl_nearest e he (by linarith) (by linarith)
      (m + k * j + j) (by rw [hx, hi]; push_cast; ring)
      (by rw [show x + k * inc + step - (x + k * inc + inc) = step - inc by ring]; exact hs)
    have := (ih (by omega)).trans (leg_one hv)
    convert this using 1 <;> push_cast <;> ring

/-- the additions between two powers of two and the one that leaves -/
theorem leg {step : K} (hs : |step - 22030 / 204800| ≤ 1 / 10 ^ 8) (e : ℕ) (he : e ≤ 21) (N : ℕ) {x inc y : K}
    (m j m' : ℤ) (hx : x = m * (1 / 2 ^ (23 - e))) (hi : inc = j * (1 / 2 ^ (23 - e)))
    (hy : y = m' * (1 / 2 ^ (23 - (e + 1)))) (hi0 : 0 ≤ inc)
    (hd : |22030 / 204800 - inc| + 1 / 10 ^ 8 < 1 / 2 ^ (23 - e) / 2) (h1 : 2 ^ e ≤ x)
    (h2 : x + N * inc - inc + 22030 / 204800 + 1 / 10 ^ 8 < 2 ^ (e + 1))
    (h3 : 2 ^ (e + 1) ≤ x + N * inc + 22030 / 204800 - 1 / 10 ^ 8)
    (h4 : x + N * inc + 22030 / 204800 + 1 / 10 ^ 8 < 2 ^ (e + 1 + 1))
    (h5 : |x + N * inc + 22030 / 204800 - y| + 1 / 10 ^ 8 < 1 / 2 ^ (23 - (e + 1)) / 2)
    {S : K} (hS : N * x + inc * (N * (N - 1) / 2) + (x + N * inc) = S) :
    Leg step x (N + 1) y S := by
  have ha := abs_le.1 hs
  have hstep : 0 ≤ step := by
    have : (1 : K) / 10 ^ 8 ≤ 22030 / 204800 := by norm_num
    linarith
  have f := flat e (by omega) m j hx hi hi0 hstep (by
    have := abs_add_le (step - 22030 / 204800) (22030 / 204800 - inc)
    rw [sub_add_sub_cancel] at this
    linarith) h1 N (by linarith) N le_rfl
  have g : ieee32 (x + N * inc + step) = y := fl_nearest (e + 1) (by omega) (by linarith) (by linarith) m' hy (by
    have := abs_add_le (step - 22030 / 204800) (x + N * inc + 22030 / 204800 - y)
    rw [show step - 22030 / 204800 + (x + N * inc + 22030 / 204800 - y) = x + N * inc + step - y by ring] at this
    linarith)
  have := f.trans (leg_one g)
  rwa [hS] at this

theorem last_leg {step : K} (hs : |step - 22030 / 204800| ≤ 1 / 10 ^ 8) (e : ℕ) (he : e ≤ 21) (N : ℕ) {x inc : K}
    (m j : ℤ) (hx : x = m * (1 / 2 ^ (23 - e))) (hi : inc = j * (1 / 2 ^ (23 - e))) (hi0 : 0 ≤ inc)
    (hd : |22030 / 204800 - inc| + 1 / 10 ^ 8 < 1 / 2 ^ (23 - e) / 2) (h1 : 2 ^ e ≤ x)
    (h2 : x + N * inc - inc + 22030 / 204800 + 1 / 10 ^ 8 < 2 ^ (e + 1)) :
    Leg step x N (x + N * inc) (N * x + inc * (N * (N - 1) / 2)) := by
  have ha := abs_le.1 hs
  have hstep : 0 ≤ step := by
    have : (1 : K) / 10 ^ 8 ≤ 22030 / 204800 := by norm_num
    linarith
  exact flat e (by omega) m j hx hi hi0 hstep (by
    have := abs_add_le (step - 22030 / 204800) (22030 / 204800 - inc)
    rw [sub_add_sub_cancel] at this
    linarith) h1 N (by linarith) N le_rfl

/-- the sum of all the frequencies of the sweep -/
theorem sweep_sum {step : K} (hs : |step - 22030 / 204800| ≤ 1 / 10 ^ 8) :
    (ramp ieee32 step (20 : K) 204799).sum = 73995347211505 / 32768 := by
  have r0 := leg hs 4 (by norm_num) 111 (x := 20) (inc := 56397 / 524288) (y := 1050139 / 32768) 10485760 56397 8401112
    (by norm_num) (by norm_num) (by norm_num) (by norm_num) (by norm_num [abs_of_nonneg, abs_of_neg]) (by norm_num) (by norm_num)
    (by norm_num) (by norm_num) (by norm_num [abs_of_nonneg, abs_of_neg]) (S := 190621109 / 65536) (by norm_num)
  have r1 := leg hs 5 (by norm_num) 297 (x := 1050139 / 32768) (inc := 14099 / 131072) (y := 4201029 / 65536) 8401112 28198 8402058
    (by norm_num) (by norm_num) (by norm_num) (by norm_num) (by norm_num [abs_of_nonneg, abs_of_neg]) (by norm_num) (by norm_num)
    (by norm_num) (by norm_num) (by norm_num [abs_of_nonneg, abs_of_neg]) (S := 1875688735 / 131072) (by norm_num)
  have r2 := leg hs 6 (by norm_num) 594 (x := 4201029 / 65536) (inc := 14099 / 131072) (y := 4197741 / 32768) 8402058 14099 8395482
    (by norm_num) (by norm_num) (by norm_num) (by norm_num) (by norm_num [abs_of_nonneg, abs_of_neg]) (by norm_num) (by norm_num)
    (by norm_num) (by norm_num) (by norm_num [abs_of_nonneg, abs_of_neg]) (S := 7490729295 / 131072) (by norm_num)
  have r3 := leg hs 7 (by norm_num) 1188 (x := 4197741 / 32768) (inc := 3525 / 32768) (y := 4194483 / 16384) 8395482 7050 8388966
    (by norm_num) (by norm_num) (by norm_num) (by norm_num) (by norm_num [abs_of_nonneg, abs_of_neg]) (by norm_num) (by norm_num)
    (by norm_num) (by norm_num) (by norm_num [abs_of_nonneg, abs_of_neg]) (S := 7480701699 / 32768) (by norm_num)
  have r4 := leg hs 8 (by norm_num) 2379 (x := 4194483 / 16384) (inc := 3525 / 32768) (y := 8389233 / 16384) 8388966 3525 8389233
    (by norm_num) (by norm_num) (by norm_num) (by norm_num) (by norm_num [abs_of_nonneg, abs_of_neg]) (by norm_num) (by norm_num)
    (by norm_num) (by norm_num) (by norm_num [abs_of_nonneg, abs_of_neg]) (S := 14972524665 / 16384) (by norm_num)
  have r5 := leg hs 9 (by norm_num) 4760 (x := 8389233 / 16384) (inc := 881 / 8192) (y := 4194529 / 4096) 8389233 1762 8389058
    (by norm_num) (by norm_num) (by norm_num) (by norm_num) (by norm_num [abs_of_nonneg, abs_of_neg]) (by norm_num) (by norm_num)
    (by norm_num) (by norm_num) (by norm_num [abs_of_nonneg, abs_of_neg]) (S := 59906677473 / 16384) (by norm_num)
  have r6 := leg hs 10 (by norm_num) 9521 (x := 4194529 / 4096) (inc := 881 / 8192) (y := 4194485 / 2048) 8389058 881 8388970
    (by norm_num) (by norm_num) (by norm_num) (by norm_num) (by norm_num [abs_of_nonneg, abs_of_neg]) (by norm_num) (by norm_num)
    (by norm_num) (by norm_num) (by norm_num [abs_of_nonneg, abs_of_neg]) (S := 119815883037 / 8192) (by norm_num)
  have r7 := leg hs 11 (by norm_num) 19020 (x := 4194485 / 2048) (inc := 441 / 4096) (y := 8388615 / 2048) 8388970 441 8388615
    (by norm_num) (by norm_num) (by norm_num) (by norm_num) (by norm_num [abs_of_nonneg, abs_of_neg]) (by norm_num) (by norm_num)
    (by norm_num) (by norm_num) (by norm_num [abs_of_nonneg, abs_of_neg]) (S := 7479342515 / 128) (by norm_num)
  have r8 := leg hs 12 (by norm_num) 38130 (x := 8388615 / 2048) (inc := 55 / 512) (y := 4194359 / 512) 8388615 220 8388718
    (by norm_num) (by norm_num) (by norm_num) (by norm_num) (by norm_num [abs_of_nonneg, abs_of_neg]) (by norm_num) (by norm_num)
    (by norm_num) (by norm_num) (by norm_num [abs_of_nonneg, abs_of_neg]) (S := 479799131865 / 2048) (by norm_num)
  have r9 := leg hs 13 (by norm_num) 76259 (x := 4194359 / 512) (inc := 55 / 512) (y := 8388659 / 512) 8388718 110 8388659
    (by norm_num) (by norm_num) (by norm_num) (by norm_num) (by norm_num [abs_of_nonneg, abs_of_neg]) (by norm_num) (by norm_num)
    (by norm_num) (by norm_num) (by norm_num [abs_of_nonneg, abs_of_neg]) (S := 239894189595 / 256) (by norm_num)
  have r10 := last_leg hs 14 (by norm_num) 52530 (x := 8388659 / 512) (inc := 55 / 512) 8388659 55
    (by norm_num) (by norm_num) (by norm_num) (by norm_num [abs_of_nonneg, abs_of_neg]) (by norm_num) (by norm_num)
  have h := r0.trans (r1.trans (r2.trans (r3.trans (r4.trans (r5.trans (r6.trans (r7.trans (r8.trans (r9.trans r10)))))))))
  have := h.2
  norm_num at this
  exact this

end Adwt.Drivers
