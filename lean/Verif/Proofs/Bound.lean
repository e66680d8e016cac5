import Verif.Proofs.LinearRun

/-!
# Bounds on the computed sums, whatever the segment indices
-/

set_option linter.unusedSectionVars false

namespace Adwt
open Seg

namespace Sys

variable {N : ℕ} {Y : ℤ → ℝ} {A : ℝ}

theorem M_bound (hY : ∀ i, |Y i| ≤ A) (i : ℤ) : |M N Y i| ≤ 2 * A * N := by
  unfold M
  rw [abs_mul, abs_of_nonneg (show (0 : ℝ) ≤ N by positivity)]
  apply mul_le_mul_of_nonneg_right _ (by positivity)
  have := abs_sub (Y (i + 1)) (Y i)
  linarith [hY i, hY (i + 1)]

theorem line_bound (hY : ∀ i, |Y i| ≤ A) {i : ℤ} (h0 : 0 ≤ i) (h1 : i < N) {u : ℝ} (hu0 : 0 ≤ u)
    (hu : u ≤ 1) : |line N Y i u| ≤ (4 * N + 1) * A := by
  have hA : 0 ≤ A := (abs_nonneg _).trans (hY 0)
  have hN : (0 : ℝ) ≤ N := by positivity
  unfold line
  have e1 : |M N Y i * u| ≤ 2 * A * N := by
    rw [abs_mul, abs_of_nonneg hu0]
    have := M_bound (N := N) hY i
    nlinarith [abs_nonneg (M N Y i)]
  have hi0 : (0 : ℝ) ≤ i := by exact_mod_cast h0
  have hi1 : (i : ℝ) ≤ N := by exact_mod_cast h1.le
  have e2 : |(i : ℝ) * (Y (i + 1) - Y i)| ≤ N * (2 * A) := by
    rw [abs_mul, abs_of_nonneg hi0]
    have := abs_sub (Y (i + 1)) (Y i)
    have h3 : |Y (i + 1) - Y i| ≤ 2 * A := by linarith [hY i, hY (i + 1)]
    exact mul_le_mul hi1 h3 (abs_nonneg _) hN
  calc |M N Y i * u + (Y i - i * (Y (i + 1) - Y i))|
      ≤ |M N Y i * u| + |Y i - i * (Y (i + 1) - Y i)| := abs_add_le _ _
    _ ≤ |M N Y i * u| + (|Y i| + |(i : ℝ) * (Y (i + 1) - Y i)|) := by
        have := abs_sub (Y i) ((i : ℝ) * (Y (i + 1) - Y i)); linarith
    _ ≤ (4 * N + 1) * A := by linarith [hY i]

theorem exp_bound {z : ℂ} (hz : z.re ≤ 0) {u : ℝ} (hu : 0 ≤ u) :
    ‖Complex.exp (z * (u : ℝ))‖ ≤ 1 := by
  rw [Complex.norm_exp]
  have : (z * (u : ℂ)).re = z.re * u := by simp
  rw [this]
  exact Real.exp_le_one_iff.2 (mul_nonpos_of_nonpos_of_nonneg hz hu)

/-- the bound -/
noncomputable def sumBound (N : ℕ) (zn : ℝ) : ℝ := 2 * (zn * (4 * N + 1) + N) + 2 * N * N

theorem term_bound (hY : ∀ i, |Y i| ≤ A) {i : ℤ} (h0 : 0 ≤ i) (h1 : i < N) {u d : ℝ} (hu0 : 0 ≤ u)
    (hu : u ≤ 1) (hd : |d| ≤ 1 / 2) (z : ℂ) :
    ‖z * (line N Y i u : ℂ) + (M N Y i : ℂ) * (d : ℂ)‖ ≤ (‖z‖ * (4 * N + 1) + N) * A := by
  have e1 := line_bound hY h0 h1 hu0 hu
  have e2 := M_bound (N := N) hY i
  refine (norm_add_le _ _).trans ?_
  rw [norm_mul, norm_mul, Complex.norm_real, Complex.norm_real, Complex.norm_real]
  simp only [Real.norm_eq_abs]
  have e3 : |M N Y i| * |d| ≤ 2 * A * N * (1 / 2) :=
    mul_le_mul e2 hd (abs_nonneg _) ((abs_nonneg _).trans e2)
  have e4 : ‖z‖ * |line N Y i u| ≤ ‖z‖ * ((4 * N + 1) * A) :=
    mul_le_mul_of_nonneg_left e1 (norm_nonneg _)
  nlinarith

theorem corner_bound (hY : ∀ i, |Y i| ≤ A) {d : ℝ} (hd : |d| ≤ 1 / 2) {z : ℂ} (hz : z.re ≤ 0)
    {u : ℝ} (hu : 0 ≤ u) (i : ℤ) :
    ‖Complex.exp (z * (u : ℝ)) * (((M N Y (i + 1) - M N Y i : ℝ) : ℂ) * (d : ℂ))‖ ≤ 2 * A * N := by
  rw [norm_mul, norm_mul, Complex.norm_real, Complex.norm_real]
  simp only [Real.norm_eq_abs]
  have e1 := exp_bound hz hu
  have e2 := abs_sub (M N Y (i + 1)) (M N Y i)
  have e3 := M_bound (N := N) hY i
  have e4 := M_bound (N := N) hY (i + 1)
  have e5 : |M N Y (i + 1) - M N Y i| * |d| ≤ 4 * A * N * (1 / 2) :=
    mul_le_mul (by linarith) hd (abs_nonneg _) (by linarith [abs_nonneg (M N Y i)])
  have e6 : 0 ≤ |M N Y (i + 1) - M N Y i| * |d| := by positivity
  nlinarith [norm_nonneg (Complex.exp (z * (u : ℝ)))]

theorem bar_range {x : ℝ} (h0 : 0 ≤ x) (h1 : x < 1) : 0 ≤ bar x ∧ bar x ≤ 1 := by
  unfold bar
  split_ifs with h
  · subst h; norm_num
  · constructor <;> linarith

theorem fwdF_bound (hY : ∀ i, |Y i| ≤ A) {z : ℂ} (hz : z.re ≤ 0) {jmin jmax : ℤ}
    (h0 : 0 ≤ jmin) (h1 : jmin < N) (h2 : 0 ≤ jmax) (h3 : jmax < N) {prev x d : ℝ}
    (hp0 : 0 ≤ prev) (hp1 : prev < 1) (hx0 : 0 ≤ x) (hx1 : x < 1) (hj : (jmax : ℝ) ≤ x * N)
    (hd0 : 0 < d) (hd : d ≤ 1 / 2) :
    ‖fwdF z N Y prev jmin jmax d x‖ ≤ sumBound N ‖z‖ * A := by
  have hA : 0 ≤ A := (abs_nonneg _).trans (hY 0)
  have hN : 0 < N := by omega
  have hN' : (0 : ℝ) < N := by exact_mod_cast hN
  have hdd : |d| ≤ 1 / 2 := by rw [abs_of_pos hd0]; exact hd
  unfold fwdF
  refine (norm_add_le _ _).trans ?_
  have hb := bar_range hp0 hp1
  have t1 := term_bound hY h0 h1 hb.1 hb.2 hdd z
  have t2 := term_bound hY h2 h3 hx0 hx1.le hdd z
  have t3 : ‖Complex.exp z‖ ≤ 1 := by
    have := exp_bound hz zero_le_one; simpa using this
  have t4 : ‖Complex.exp z * (z * (line N Y jmin (bar prev) : ℂ) + (M N Y jmin : ℂ) * (d : ℂ)) -
      (z * (line N Y jmax x : ℂ) + (M N Y jmax : ℂ) * (d : ℂ))‖ ≤
      2 * ((‖z‖ * (4 * N + 1) + N) * A) := by
    refine (norm_sub_le _ _).trans ?_
    rw [norm_mul]
    nlinarith [norm_nonneg (z * (line N Y jmin (bar prev) : ℂ) + (M N Y jmin : ℂ) * (d : ℂ)),
      norm_nonneg (Complex.exp z)]
  have t5 : ∀ k ∈ Finset.range (bornSup jmin jmax N - jmin).toNat,
      ‖Complex.exp (z * ((x + ofBool (decide (red (jmin + (k : ℤ)) N > jmax)) -
        (red (jmin + (k : ℤ)) N + 1) / N) / d : ℝ)) *
        (((M N Y (red (jmin + (k : ℤ)) N + 1) - M N Y (red (jmin + (k : ℤ)) N) : ℝ) : ℂ) *
          (d : ℂ))‖ ≤ 2 * A * N := by
    intro k hk
    apply corner_bound hY hdd hz
    apply div_nonneg _ hd0.le
    have hk := Finset.mem_range.1 hk
    set i : ℤ := jmin + (k : ℤ) with hi
    have hib : i < bornSup jmin jmax N := by omega
    unfold bornSup at hib
    rw [sub_nonneg, div_le_iff₀ hN']
    unfold ofBool
    by_cases hw : red i N > jmax
    · rw [if_pos (by simpa using hw)]
      have : (red i N : ℝ) + 1 ≤ N := by
        have : red i N + 1 ≤ N := by unfold red; split_ifs at hib ⊢ <;> omega
        exact_mod_cast this
      nlinarith
    · rw [if_neg (by simpa using hw)]
      have : red i N + 1 ≤ jmax := by
        unfold red at hw ⊢
        split_ifs at hib hw ⊢ <;> omega
      have : (red i N : ℝ) + 1 ≤ jmax := by exact_mod_cast this
      linarith
  have t6 := norm_sum_le_of_le _ t5
  rw [Finset.sum_const, Finset.card_range, nsmul_eq_mul] at t6
  have t7 : (((bornSup jmin jmax N - jmin).toNat : ℕ) : ℝ) ≤ N := by
    have : (bornSup jmin jmax N - jmin).toNat ≤ N := by unfold bornSup; split_ifs <;> omega
    exact_mod_cast this
  have t8 := t6.trans (mul_le_mul_of_nonneg_right t7 (by positivity))
  unfold sumBound
  calc _ ≤ 2 * ((‖z‖ * (4 * N + 1) + N) * A) + N * (2 * A * N) := add_le_add t4 t8
    _ = _ := by ring

theorem bwdF_bound (hY : ∀ i, |Y i| ≤ A) {z : ℂ} (hz : z.re ≤ 0) {jm jmin jmax : ℤ}
    (h0 : 0 ≤ jmin) (h1 : jmin < N) (h2 : 0 ≤ jmax) (h3 : jmax < N) {prev x d : ℝ}
    (hp0 : 0 ≤ prev) (hp1 : prev < 1) (hx0 : 0 ≤ x) (hx1 : x < 1)
    (hj : bar x * N ≤ jmin + 1) (hjm : jm = 0 ↔ x = 0)
    (hd0 : d < 0) (hd : -(1 / 2) ≤ d) :
    ‖bwdF z N Y prev jm jmin jmax d x‖ ≤ sumBound N ‖z‖ * A := by
  have hA : 0 ≤ A := (abs_nonneg _).trans (hY 0)
  have hN : 0 < N := by omega
  have hN' : (0 : ℝ) < N := by exact_mod_cast hN
  have hdd : |d| ≤ 1 / 2 := by rw [abs_of_neg hd0]; linarith
  unfold bwdF
  refine (norm_add_le _ _).trans ?_
  have hb := bar_range hx0 hx1
  have t1 := term_bound hY h2 h3 hp0 hp1.le hdd z
  have t2 := term_bound hY h0 h1 hb.1 hb.2 hdd z
  have t3 : ‖Complex.exp z‖ ≤ 1 := by
    have := exp_bound hz zero_le_one; simpa using this
  have t4 : ‖Complex.exp z * (z * (line N Y jmax prev : ℂ) + (M N Y jmax : ℂ) * (d : ℂ)) -
      (z * (line N Y jmin (bar x) : ℂ) + (M N Y jmin : ℂ) * (d : ℂ))‖ ≤
      2 * ((‖z‖ * (4 * N + 1) + N) * A) := by
    refine (norm_sub_le _ _).trans ?_
    rw [norm_mul]
    nlinarith [norm_nonneg (z * (line N Y jmax prev : ℂ) + (M N Y jmax : ℂ) * (d : ℂ)),
      norm_nonneg (Complex.exp z)]
  have hx0N : x = 0 → jmin + 1 = N := by
    intro h
    unfold bar at hj
    rw [if_pos h, h, zero_add, one_mul] at hj
    have : (N : ℤ) ≤ jmin + 1 := by exact_mod_cast hj
    omega
  have hxj : x * N ≤ jmin + 1 := by
    unfold bar at hj
    split_ifs at hj with h
    · rw [h]; nlinarith [show (0 : ℝ) ≤ jmin by exact_mod_cast h0]
    · simpa using hj
  have t5 : ∀ k ∈ Finset.range (bornSup jmin jmax N - jmin).toNat,
      ‖-(Complex.exp (z * ((x + cycleOffset jm jmin jmax +
        ofBool (decide (red (jmin + (k : ℤ)) N > jmax)) -
        (red (jmin + (k : ℤ)) N + 1) / N) / d : ℝ)) *
        (((M N Y (red (jmin + (k : ℤ)) N + 1) - M N Y (red (jmin + (k : ℤ)) N) : ℝ) : ℂ) *
          (d : ℂ)))‖ ≤ 2 * A * N := by
    intro k hk
    rw [norm_neg]
    apply corner_bound hY hdd hz
    apply div_nonneg_of_nonpos _ hd0.le
    have hk := Finset.mem_range.1 hk
    set i : ℤ := jmin + (k : ℤ) with hi
    have hib : i < bornSup jmin jmax N := by omega
    have hi0 : jmin ≤ i := by omega
    unfold bornSup at hib
    rw [sub_nonpos, le_div_iff₀ hN']
    have hr0 : 0 ≤ red i N := by unfold red; split_ifs <;> omega
    have hr0' : (0 : ℝ) ≤ red i N := by exact_mod_cast hr0
    unfold ofBool cycleOffset
    by_cases hw : jmin > jmax
    · rw [if_pos hw] at hib
      by_cases hx : x = 0
      · rw [if_neg (by rw [hjm.2 hx]; simp)]
        have := hx0N hx
        by_cases hr : red i N > jmax
        · rw [if_pos (by simpa using hr), hx]
          have : (N : ℤ) ≤ red i N + 1 := by
            unfold red at hr ⊢
            split_ifs at hr ⊢ <;> omega
          have : (N : ℝ) ≤ red i N + 1 := by exact_mod_cast this
          linarith
        · rw [if_neg (by simpa using hr), hx]
          linarith
      · rw [if_pos ⟨fun h => hx (hjm.1 h), hw⟩]
        by_cases hr : red i N > jmax
        · rw [if_pos (by simpa using hr)]
          have : jmin ≤ red i N := by
            unfold red at hr ⊢
            split_ifs at hr ⊢ <;> omega
          have : (jmin : ℝ) ≤ red i N := by exact_mod_cast this
          linarith
        · rw [if_neg (by simpa using hr)]
          nlinarith
    · rw [if_neg hw] at hib
      rw [if_neg (fun h => hw h.2)]
      have e : red i N = i := by unfold red; rw [if_neg (by omega)]
      rw [e, if_neg (by simp; omega)]
      have : (jmin : ℝ) ≤ i := by exact_mod_cast hi0
      linarith
  have t6 := norm_sum_le_of_le _ t5
  rw [Finset.sum_const, Finset.card_range, nsmul_eq_mul] at t6
  have t7 : (((bornSup jmin jmax N - jmin).toNat : ℕ) : ℝ) ≤ N := by
    have : (bornSup jmin jmax N - jmin).toNat ≤ N := by unfold bornSup; split_ifs <;> omega
    exact_mod_cast this
  have t8 := t6.trans (mul_le_mul_of_nonneg_right t7 (by positivity))
  unfold sumBound
  calc _ ≤ 2 * ((‖z‖ * (4 * N + 1) + N) * A) + N * (2 * A * N) := add_le_add t4 t8
    _ = _ := by ring

theorem sumBound_mono {a b : ℕ} (h : a ≤ b) {zn : ℝ} (hz : 0 ≤ zn) : sumBound a zn ≤ sumBound b zn := by
  unfold sumBound
  have h1 : (a : ℝ) ≤ b := by exact_mod_cast h
  have h2 : (0 : ℝ) ≤ a := by positivity
  nlinarith [mul_nonneg hz (sub_nonneg.2 h1), mul_le_mul h1 h1 h2 (by linarith)]

variable {S : Sys ℝ ℂ} {nw L : ℕ} {o o' : Osc ℝ ℂ} {ws : List ℝ}

theorem mixV_bound {t : MipMapIndices ℝ} (h : t.weight + t.weightUp = 1) (h0 : 0 ≤ t.weight)
    (h1 : 0 ≤ t.weightUp) {lo up : ℂ} {B : ℝ} (hlo : ‖lo‖ ≤ B) (hup : t.weightUp ≠ 0 → ‖up‖ ≤ B) :
    ‖mixV t lo up‖ ≤ B := by
  unfold mixV
  split_ifs with hw
  · refine (norm_add_le _ _).trans ?_
    rw [norm_mul, norm_mul, Complex.norm_real, Complex.norm_real, Real.norm_of_nonneg h0,
      Real.norm_of_nonneg h1]
    calc _ ≤ t.weight * B + t.weightUp * B :=
          add_le_add (mul_le_mul_of_nonneg_left hlo h0) (mul_le_mul_of_nonneg_left (hup hw) h1)
      _ = B := by rw [← add_mul, h, one_mul]
  · rw [not_not] at hw
    rw [hw, add_zero] at h
    rw [h]; simpa using hlo

/-- The sums of any sample, from any state. -/
theorem accV_bound (ho : OscPlay S nw L o) {Y : ℤ → ℤ → ℝ} {p d : ℝ} (hp0 : 0 ≤ p) (hp1 : p < 1)
    {t : MipMapIndices ℝ} (ht0 : 0 ≤ t.idx) (ht1 : t.idx < (L : ℤ) - 1)
    (hY : ∀ j, |Y t.idx j| ≤ A) (hY2 : t.weightUp ≠ 0 → ∀ j, |Y t.idxUp j| ≤ A)
    (h : t.weight + t.weightUp = 1) (h0 : 0 ≤ t.weight)
    (h1 : 0 ≤ t.weightUp) (hd : d ≠ 0) (hd0 : -(1 / 2) ≤ d) (hd1 : d ≤ 1 / 2) {k : ℕ}
    (hz : (S.zA k).re ≤ 0) :
    ‖S.accV L Y o t p d k‖ ≤ sumBound (2 ^ L) ‖S.zA k‖ * A := by
  have hA : 0 ≤ A := (abs_nonneg _).trans (hY 0)
  set n := L - t.idx.toNat with hn
  have hn2 : 2 ≤ n := by omega
  have hpos : (0 : ℤ) < 2 ^ n := by positivity
  have hmod : ∀ a : ℤ, 0 ≤ a % 2 ^ n ∧ a % 2 ^ n < 2 ^ n := fun a =>
    ⟨Int.emod_nonneg _ hpos.ne', Int.emod_lt_of_pos _ hpos⟩
  have hfl : 0 ≤ ⌊p * 2 ^ n⌋ ∧ ⌊p * 2 ^ n⌋ < 2 ^ n := by
    constructor
    · exact Int.floor_nonneg.2 (mul_nonneg hp0 (by positivity))
    · rw [Int.floor_lt]; push_cast
      have : (0 : ℝ) < 2 ^ n := by positivity
      nlinarith
  have m1 : sumBound (2 ^ n) ‖S.zA k‖ * A ≤ sumBound (2 ^ L) ‖S.zA k‖ * A :=
    mul_le_mul_of_nonneg_right (sumBound_mono (Nat.pow_le_pow_right (by norm_num) (by omega))
      (norm_nonneg _)) hA
  have m2 : sumBound (2 ^ (n - 1)) ‖S.zA k‖ * A ≤ sumBound (2 ^ L) ‖S.zA k‖ * A :=
    mul_le_mul_of_nonneg_right (sumBound_mono (Nat.pow_le_pow_right (by norm_num) (by omega))
      (norm_nonneg _)) hA
  have q0 : 0 ≤ o.prevPhase := ho.p0
  have q1 : o.prevPhase < 1 := ho.p1
  have cast1 : ((2 ^ n : ℕ) : ℤ) = 2 ^ n := by push_cast; rfl
  have cast2 : ((2 ^ (n - 1) : ℕ) : ℤ) = 2 ^ (n - 1) := by push_cast; rfl
  unfold accV
  dsimp only
  rw [← hn]
  by_cases hd' : 0 < d
  · rw [if_pos hd']
    obtain ⟨a1, a2⟩ := hmod (S.prevJF o n t.idx - 1)
    have hfi := (floor_in (n := n) p).1
    apply mixV_bound h h0 h1
    · exact (fwdF_bound hY hz a1 (by rw [cast1]; exact a2) hfl.1 (by rw [cast1]; exact hfl.2) q0 q1
        hp0 hp1 hfi hd' hd1).trans m1
    · intro hw
      obtain ⟨-, e2, e3⟩ := half_range (n := n) (by omega) a1 a2
      obtain ⟨-, e5, e6⟩ := half_range (n := n) (by omega) hfl.1 hfl.2
      exact (fwdF_bound (hY2 hw) hz e2 (by rw [cast2]; exact e3) e5 (by rw [cast2]; exact e6) q0 q1
        hp0 hp1 (half_le (by omega) hfi) hd' hd1).trans m2
  · rw [if_neg hd']
    have hd' : d < 0 := lt_of_le_of_ne (not_lt.1 hd') hd
    obtain ⟨a1, a2⟩ := hmod (⌈p * 2 ^ n⌉ - 1)
    obtain ⟨b1, b2⟩ := hmod (S.prevJB o n t.idx)
    have hce := (ceil_in (n := n) hp0 hp1).2
    have hjm : ⌈p * 2 ^ n⌉ = 0 ↔ p = 0 := by
      constructor
      · intro h
        have := Int.le_ceil (p * 2 ^ n)
        rw [h] at this
        have h2 : (0 : ℝ) < 2 ^ n := by positivity
        push_cast at this
        nlinarith
      · rintro rfl; simp
    apply mixV_bound h h0 h1
    · exact (bwdF_bound hY hz a1 (by rw [cast1]; exact a2) b1 (by rw [cast1]; exact b2) q0 q1
        hp0 hp1 hce hjm hd' hd0).trans m1
    · intro hw
      obtain ⟨-, e2, e3⟩ := half_range (n := n) (by omega) a1 a2
      obtain ⟨-, e5, e6⟩ := half_range (n := n) (by omega) b1 b2
      exact (bwdF_bound (hY2 hw) hz e2 (by rw [cast2]; exact e3) e5 (by rw [cast2]; exact e6) q0 q1
        hp0 hp1 (half_ge (by omega) hce) hjm hd' hd0).trans m2

end Sys
end Adwt
