import Verif.Proofs.Sweep

/-!
# The sweeps of the benchmarks with their actual numbers

`freq += f_step` in IEEE floats, 204799 times from 20 Hz: where does it end?
-/

set_option linter.unusedSectionVars false

namespace Adwt.Drivers
variable {K : Type} [Field K] [LinearOrder K] [IsStrictOrderedRing K] [FloorRing K]

/-- the last value of a ramp -/
theorem ramp_last {fl : K → K} {step : K} (n : ℕ) : ∀ {x z : K}, z ∈ (ramp fl step x (n + 1)).getLast? →
    z = (fun y => fl (y + step))^[n] x := by
  induction n with
  | zero => intro x z hz; simp [ramp] at hz; rw [← hz]; rfl
  | succ n ih =>
    intro x z hz
    rw [ramp, List.getLast?_cons] at hz
    rw [Function.iterate_succ_apply]
    cases hl : (ramp fl step (fl (x + step)) (n + 1)).getLast? with
    | none => rw [List.getLast?_eq_none_iff] at hl; simp [ramp] at hl
    | some w =>
      rw [hl] at hz
      simp at hz
      rw [← hz]
      exact ih (by rw [hl]; rfl)

/-- rounding error of values between 1 and `M` -/
theorem err_upto {z M : K} (h1 : 1 ≤ z) (h2 : z ≤ M) (hM : M ≤ 2 ^ 24) :
    |ieee32 z - z| ≤ 1 / 2 ^ 24 * M := by
  have hz : 0 ≤ z := by linarith
  have h24 : (2 : K) ^ 24 ≤ 2 ^ 127 := by norm_num
  refine (ieee32_err (by rw [abs_of_nonneg hz]; linarith)).trans ?_
  apply mul_le_mul_of_nonneg_left _ (by positivity)
  rw [abs_of_nonneg hz]
  exact max_le h2 (by linarith [show (1 : K) / 2 ^ 126 ≤ 1 by norm_num])

/-- crude bounds on a rising ramp -/
theorem ramp_crude {step x M : K} (hs : 0 ≤ step) (hx : 1 ≤ x) (hM0 : 0 ≤ M) (hM : M ≤ 2 ^ 24) (N : ℕ)
    (hN : x + N * (step + 1 / 2 ^ 24 * M) ≤ M) (hlow : 1 / 2 ^ 24 * M ≤ step) (k : ℕ) (hk : k ≤ N) :
    x + k * (step - 1 / 2 ^ 24 * M) ≤ (fun y => ieee32 (y + step))^[k] x ∧
      (fun y => ieee32 (y + step))^[k] x ≤ x + k * (step + 1 / 2 ^ 24 * M) := by
  have hε : 0 ≤ 1 / 2 ^ 24 * M := mul_nonneg (by positivity) hM0
  obtain ⟨ε, hεe⟩ : ∃ ε, ε = 1 / 2 ^ 24 * M := ⟨_, rfl⟩
  induction k with
  | zero => simp
  | succ k ih =>
    obtain ⟨a, b⟩ := ih (by omega)
    rw [Function.iterate_succ_apply']
    generalize (fun y => ieee32 (y + step))^[k] x = y at a b
    have h1 : (1 : K) ≤ y + step := by
      have : 0 ≤ (k : K) * (step - 1 / 2 ^ 24 * M) := mul_nonneg (by positivity) (by linarith)
      linarith
    have hkN : ((k : K) + 1) * (step + 1 / 2 ^ 24 * M) ≤ N * (step + 1 / 2 ^ 24 * M) :=
      mul_le_mul_of_nonneg_right (by exact_mod_cast hk) (by linarith)
    have h2 : y + step ≤ M := by
      rw [add_mul, one_mul] at hkN
      linarith
    have he := abs_le.1 (err_upto h1 h2 hM)
    push_cast
    rw [← hεe] at *
    constructor <;> linarith

/-- floats between two powers of two are multiples of the spacing, and so are rounded values -/
theorem binade {z : K} (e : ℕ) (he : e ≤ 22) (h1 : 2 ^ e ≤ z) (h2 : z < 2 ^ (e + 1)) :
    ∃ k : ℤ, ieee32 z = k * (1 / 2 ^ (23 - e)) ∧ ieee32 z ≤ z + 1 / 2 ^ (23 - e) / 2 := by
  have hz : 0 < z := lt_of_lt_of_le (by positivity) h1
  have h1' : (1 : K) ≤ 2 ^ e := one_le_pow₀ (by norm_num)
  have hlog : Int.log 2 z = e := by
    have hb := log_bounds hz
    have a : (2 : K) ^ (Int.log 2 z) < 2 ^ ((e + 1 : ℕ) : ℤ) := by
      rw [zpow_natCast]; exact lt_of_le_of_lt hb.1 h2
    have b : (2 : K) ^ ((e : ℕ) : ℤ) < 2 ^ (Int.log 2 z + 1) := by
      rw [zpow_natCast]; exact lt_of_le_of_lt h1 hb.2
    have := (zpow_lt_zpow_iff_right₀ (by norm_num : (1 : K) < 2)).1 a
    have := (zpow_lt_zpow_iff_right₀ (by norm_num : (1 : K) < 2)).1 b
    omega
  have hu : ulpExp z = -((23 - e : ℕ) : ℤ) := by
    unfold ulpExp; rw [abs_of_pos hz, hlog]; omega
  have h127 : z ≤ 2 ^ 127 := by
    have : (2 : K) ^ (e + 1) ≤ 2 ^ 127 := pow_le_pow_right₀ (by norm_num) (by omega)
    linarith
  have hn : ieee32 z = rne24 z := ieee32_normal (Or.inr (by
    rw [abs_of_pos hz]
    linarith [show (1 : K) / 2 ^ 126 ≤ 1 by norm_num])) (by rwa [abs_of_pos hz])
  have hp : (2 : K) ^ ulpExp z = 1 / 2 ^ (23 - e) := by
    rw [hu, zpow_neg, zpow_natCast, one_div]
  rw [hn]
  refine ⟨roundEven (z / 2 ^ ulpExp z), ?_, ?_⟩
  · rw [← hp]; rfl
  · have := (abs_le.1 (rne24_err z)).2
    rw [hp] at this
    linarith

/-- a step inside one power of two rounds down to 55/512 -/
theorem step_inside {x step : K} (e : ℕ) (he0 : 12 ≤ e) (he : e ≤ 14) (hx : ieee32 x = x) (h1 : 2 ^ e ≤ x)
    (hs0 : 0 ≤ step) (hs : step < 55 / 512 + 1 / 2 ^ 12) (h2 : x + step < 2 ^ (e + 1)) :
    ieee32 (x + step) ≤ x + 55 / 512 := by
  obtain ⟨k, hk, -⟩ := binade e (by omega) h1 (by linarith)
  obtain ⟨j, hj, hle⟩ := binade e (by omega) (show 2 ^ e ≤ x + step by linarith) h2
  rw [hx] at hk
  obtain ⟨d, hd⟩ : ∃ d : ℕ, 23 - e = 9 + d := ⟨14 - e, by omega⟩
  have hd2 : d ≤ 2 := by omega
  rw [hd] at hk hj hle
  have hp : (0 : K) < 2 ^ (9 + d) := by positivity
  have h55 : (55 : K) / 512 = ((55 * 2 ^ d : ℤ) : K) * (1 / 2 ^ (9 + d)) := by
    push_cast
    rw [pow_add]
    field_simp
    norm_num
  have hu : (1 : K) / 2 ^ 12 ≤ 1 / 2 ^ (9 + d) / 2 := by
    rw [div_div, ← pow_succ]
    exact one_div_le_one_div_of_le (by positivity) (pow_le_pow_right₀ (by norm_num) (by omega))
  rw [hj, h55]
  have key : (j : K) * (1 / 2 ^ (9 + d)) < ((k + 55 * 2 ^ d + 1 : ℤ) : K) * (1 / 2 ^ (9 + d)) := by
    have e3 : ((k + 55 * 2 ^ d + 1 : ℤ) : K) * (1 / 2 ^ (9 + d)) = x + 55 / 512 + 1 / 2 ^ (9 + d) := by
      rw [h55, hk]; push_cast; ring
    rw [e3, ← hj]
    linarith
  have hlt : j < k + 55 * 2 ^ d + 1 := by
    have := lt_of_mul_lt_mul_right key (by positivity)
    exact_mod_cast this
  have hjk : (j : K) ≤ ((k + 55 * 2 ^ d : ℤ) : K) := by exact_mod_cast (by omega : j ≤ k + 55 * 2 ^ d)
  have := mul_le_mul_of_nonneg_right hjk (show (0 : K) ≤ 1 / 2 ^ (9 + d) by positivity)
  have e4 : ((k + 55 * 2 ^ d : ℤ) : K) * (1 / 2 ^ (9 + d)) = x + ((55 * 2 ^ d : ℤ) : K) * (1 / 2 ^ (9 + d)) := by
    rw [hk]; push_cast; ring
  rw [e4] at this
  exact this

/-- allowance for the two powers of two ahead -/
def ahead (x : K) : K := (if x < 8192 then 1 / 500 else 0) + (if x < 16384 then 1 / 500 else 0)

theorem ahead_range (x : K) : 0 ≤ ahead x ∧ ahead x ≤ 1 / 250 := by
  unfold ahead
  split_ifs <;> norm_num

theorem step_high {x step : K} (hx : ieee32 x = x) (h1 : 4096 ≤ x) (h2 : x ≤ 22050)
    (hs0 : 0 ≤ step) (hs : step < 10757 / 100000) :
    x ≤ ieee32 (x + step) ∧
      ieee32 (x + step) + ahead (ieee32 (x + step)) ≤ x + ahead x + 55 / 512 := by
  have hf := rounding_ieee32 (K := K)
  have hge : x ≤ ieee32 (x + step) := hf.ge_of_ge hx (by linarith)
  refine ⟨hge, ?_⟩
  have hs' : step < 55 / 512 + 1 / 2 ^ 12 := lt_of_lt_of_le hs (by norm_num)
  have hstep1 : step < 1 := lt_of_lt_of_le hs (by norm_num)
  have he := (abs_le.1 (err_upto (z := x + step) (M := 22051) (by linarith) (by linarith) (by norm_num))).2
  have hcross : ieee32 (x + step) ≤ x + 55 / 512 + 1 / 500 := by
    norm_num at he ⊢
    linarith
  have hmono : ahead (ieee32 (x + step)) ≤ ahead x := by
    unfold ahead
    split_ifs <;> first | linarith | norm_num
  have p12 : (2 : K) ^ 12 = 4096 := by norm_num
  have p13 : (2 : K) ^ (12 + 1) = 8192 := by norm_num
  have q13 : (2 : K) ^ 13 = 8192 := by norm_num
  have p14 : (2 : K) ^ (13 + 1) = 16384 := by norm_num
  have q14 : (2 : K) ^ 14 = 16384 := by norm_num
  have p15 : (2 : K) ^ (14 + 1) = 32768 := by norm_num
  rcases lt_or_ge x 8192 with a | a
  · rcases lt_or_ge (x + step) 8192 with b | b
    · have := step_inside 12 (by norm_num) (by norm_num) hx (by rw [p12]; exact h1) hs0 hs' (by rw [p13]; exact b)
      linarith
    · have hb : (8192 : K) ≤ ieee32 (x + step) := hf.ge_of_ge (by
        have := hf.natCast 8192 (by norm_num); exact_mod_cast this) b
      have : ahead (ieee32 (x + step)) + 1 / 500 ≤ ahead x := by
        unfold ahead
        rw [if_neg (by linarith), if_pos a, if_pos (show x < 16384 by linarith)]
        split_ifs <;> norm_num
      linarith
  · rcases lt_or_ge x 16384 with a2 | a2
    · rcases lt_or_ge (x + step) 16384 with b | b
      · have := step_inside 13 (by norm_num) (by norm_num) hx (by rw [q13]; exact a) hs0 hs' (by rw [p14]; exact b)
        linarith
      · have hb : (16384 : K) ≤ ieee32 (x + step) := hf.ge_of_ge (by
          have := hf.natCast 16384 (by norm_num); exact_mod_cast this) b
        have : ahead (ieee32 (x + step)) + 1 / 500 ≤ ahead x := by
          unfold ahead
          rw [if_neg (by linarith), if_neg (by linarith), if_neg (by linarith), if_pos a2]
          norm_num
        linarith
    · have := step_inside 14 (by norm_num) (by norm_num) hx (by rw [q14]; exact a2) hs0 hs' (by rw [p15]; linarith)
      linarith

theorem iter_high {x step : K} (hx : ieee32 x = x) (h1 : 4096 ≤ x) (hs0 : 0 ≤ step)
    (hs : step < 10757 / 100000) (N : ℕ) (hN : x + 1 / 250 + N * (55 / 512) ≤ 22050) (k : ℕ) (hk : k ≤ N) :
    ieee32 ((fun y => ieee32 (y + step))^[k] x) = (fun y => ieee32 (y + step))^[k] x ∧
    4096 ≤ (fun y => ieee32 (y + step))^[k] x ∧
    (fun y => ieee32 (y + step))^[k] x + ahead ((fun y => ieee32 (y + step))^[k] x) ≤
      x + ahead x + k * (55 / 512) := by
  induction k with
  | zero => simp [hx, h1]
  | succ k ih =>
    obtain ⟨a, b, c⟩ := ih (by omega)
    rw [Function.iterate_succ_apply']
    generalize (fun y => ieee32 (y + step))^[k] x = y at a b c
    have hkN : (k : K) * (55 / 512) ≤ N * (55 / 512) :=
      mul_le_mul_of_nonneg_right (by exact_mod_cast (by omega : k ≤ N)) (by norm_num)
    obtain ⟨d, e⟩ := step_high a b (by linarith [(ahead_range y).1, (ahead_range x).2]) hs0 hs
    refine ⟨(rounding_ieee32 (K := K)).idem _, b.trans d, ?_⟩
    push_cast
    linarith

/-- the sweep of the benchmarks ends below 22045 Hz -/
theorem sweep_end {step : K} (hs0 : 10756 / 100000 < step) (hs : step < 10757 / 100000) :
    (fun y => ieee32 (y + step))^[204798] 20 ≤ 22045 := by
  have hf := rounding_ieee32 (K := K)
  have hc := ramp_crude (x := 20) (M := 8192) (step := step) (by linarith [show (0 : K) < 10756 / 100000 by norm_num])
    (by norm_num) (by norm_num) (by norm_num) 38100 (by norm_num; norm_num at hs; linarith)
    (by norm_num; norm_num at hs0; linarith) 38100 le_rfl
  have hfl : ieee32 ((fun y => ieee32 (y + step))^[38100] (20 : K)) =
      (fun y => ieee32 (y + step))^[38100] (20 : K) := by
    rw [show 38100 = 38099 + 1 from rfl, Function.iterate_succ_apply']
    exact hf.idem _
  rw [show 204798 = 166698 + 38100 from rfl, Function.iterate_add_apply]
  generalize (fun y => ieee32 (y + step))^[38100] (20 : K) = x at hc hfl
  norm_num at hc hs hs0
  have hi := (iter_high hfl (by linarith) (by linarith) (by norm_num; exact hs) 166698 (by norm_num; linarith)
    166698 le_rfl).2.2
  have a := (ahead_range ((fun y => ieee32 (y + step))^[166698] x)).1
  have b := (ahead_range x).2
  generalize (fun y => ieee32 (y + step))^[166698] x = y at a hi ⊢
  norm_num at hi b
  linarith

end Adwt.Drivers
