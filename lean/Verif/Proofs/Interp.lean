import Verif.Proofs.Exact

/-!
# The interpolated waveform: continuity, linearity of the response
-/

set_option linter.unusedSectionVars false

open MeasureTheory

namespace Adwt
open Seg

namespace Seg
variable {N : ℝ} {Y : ℤ → ℝ}

theorem line_continuous (i : ℤ) : Continuous (line N Y i) := by unfold line; fun_prop

theorem W_continuous (hN : 0 < N) : Continuous (W N Y) := by
  rw [continuous_iff_continuousAt]
  intro u
  rw [continuousAt_iff_continuous_left_right]
  constructor
  · set k := ⌈u * N⌉ - 1 with hk
    have h1 : (k : ℝ) < u * N := by
      have := Int.ceil_lt_add_one (u * N); rw [hk]; push_cast; linarith
    have h2 : u * N ≤ k + 1 := by
      have := Int.le_ceil (u * N); rw [hk]; push_cast; linarith
    have hu1 : k / N < u := by rwa [div_lt_iff₀ hN]
    have hu2 : u ≤ (k + 1) / N := by rwa [le_div_iff₀ hN]
    have heq : ∀ s ∈ Set.Ioc ((k : ℝ) / N) u, W N Y s = line N Y k s := fun s hs =>
      W_eq hN hs.1.le (hs.2.trans hu2)
    have hc : ContinuousWithinAt (line N Y k) (Set.Iic u) u :=
      (line_continuous k).continuousWithinAt
    refine hc.congr_of_eventuallyEq ?_ (heq u ⟨hu1, le_rfl⟩)
    filter_upwards [Ioc_mem_nhdsLE hu1] with s hs using heq s hs
  · set k := ⌊u * N⌋ with hk
    have h1 : (k : ℝ) ≤ u * N := Int.floor_le _
    have h2 : u * N < k + 1 := Int.lt_floor_add_one _
    have hu1 : k / N ≤ u := by rwa [div_le_iff₀ hN]
    have hu2 : u < (k + 1) / N := by rwa [lt_div_iff₀ hN]
    have heq : ∀ s ∈ Set.Ico u (((k : ℝ) + 1) / N), W N Y s = line N Y k s := fun s hs =>
      W_eq hN (hu1.trans hs.1) hs.2.le
    have hc : ContinuousWithinAt (line N Y k) (Set.Ici u) u :=
      (line_continuous k).continuousWithinAt
    refine hc.congr_of_eventuallyEq ?_ (heq u ⟨le_rfl, hu2⟩)
    filter_upwards [Ico_mem_nhdsGE hu2] with s hs using heq s hs

end Seg

theorem interp_eq (y : List ℝ) : interp y = W y.length (cyc y) := by
  funext u
  unfold interp W line M
  ring

theorem cyc_period (y : List ℝ) (i : ℤ) : cyc y (i + y.length) = cyc y i := by
  unfold cyc; rw [Int.add_emod_right]

theorem interp_continuous (y : List ℝ) : Continuous (interp y) := by
  by_cases h : y.length = 0
  · unfold interp cyc
    have : y = [] := List.length_eq_zero_iff.1 h
    subst this
    simp only [List.getD_nil, sub_zero, mul_zero, add_zero]
    exact continuous_const
  · rw [interp_eq]; exact W_continuous (by positivity)

theorem interp_period (y : List ℝ) (u : ℝ) : interp y (u + 1) = interp y u := by
  rw [interp_eq]; exact W_period (cyc_period y) u

theorem integrand_continuous {W : ℝ → ℝ} (hW : Continuous W) (z : ℂ) (x d : ℝ) :
    Continuous fun t : ℝ => Complex.exp (z * (1 - t)) * (W (x + t * d) : ℂ) := by
  fun_prop

theorem response_add {W V : ℝ → ℝ} (hW : Continuous W) (hV : Continuous V) (a b : ℝ) (z : ℂ)
    (x d : ℝ) : response (fun u => a * W u + b * V u) z x d =
      a * response W z x d + b * response V z x d := by
  unfold response
  rw [← intervalIntegral.integral_const_mul, ← intervalIntegral.integral_const_mul,
    ← intervalIntegral.integral_add]
  · congr 1; funext t; push_cast; ring
  · exact ((integrand_continuous hW z x d).const_mul _).intervalIntegrable _ _
  · exact ((integrand_continuous hV z x d).const_mul _).intervalIntegrable _ _

/-! ### the tables of a built wavetable -/

open WavetableData

theorem cyc_nat (y : List ℝ) {k : ℕ} (h : k < y.length) : cyc y k = y.getD k 0 := by
  unfold cyc
  rw [Int.emod_eq_of_lt (by positivity) (by exact_mod_cast h)]
  simp

theorem cyc_mod (y : List ℝ) (k : ℕ) : cyc y k = y.getD (k % y.length) 0 := by
  unfold cyc
  congr 1

theorem tab_lines {E : Env ℝ} (he : E.fl = id) {L i : ℕ} {w : List ℝ}
    (hlen : (mipSamples E w i).length = 2 ^ (L - i)) :
    Lines (2 ^ (L - i)) (cyc (mipSamples E w i)) (tabOf E L w i).m (tabOf E L w i).q
      (tabOf E L w i).mDiff (tabOf E L w i).qDiff (grid ℝ (L - i)) := by
  set n := L - i with hn
  set y := mipSamples E w i with hy
  have hp : (0 : ℝ) < 2 ^ n := by positivity
  have hm : ∀ k : ℕ, k < 2 ^ n → mF E (fun k => (k : ℝ) / 2 ^ n) (y.getD · 0) (2 ^ n) k =
      M ((2 ^ n : ℕ) : ℝ) (cyc y) k := by
    intro k hk
    rw [mF_id he]
    unfold M
    rw [cyc_nat y (by rw [hlen]; exact hk)]
    have := cyc_mod y (k + 1)
    push_cast at this
    rw [this, hlen]
    push_cast; rfl
  have hq : ∀ k : ℕ, k < 2 ^ n → qF E (fun k => (k : ℝ) / 2 ^ n) (y.getD · 0) (2 ^ n) k =
      cyc y k - k * (cyc y (k + 1) - cyc y k) := by
    intro k hk
    rw [qF_id he]
    rw [cyc_nat y (by rw [hlen]; exact hk)]
    have := cyc_mod y (k + 1)
    push_cast at this
    rw [this, hlen]
  have hM : ∀ k : ℕ, M ((2 ^ n : ℕ) : ℝ) (cyc y) ((k % 2 ^ n : ℕ) : ℤ) =
      M ((2 ^ n : ℕ) : ℝ) (cyc y) k := by
    intro k
    unfold M cyc
    rw [hlen]
    push_cast
    rw [Int.emod_emod_of_dvd _ dvd_rfl, ← Int.emod_add_cancel_right 1 |>.mpr (Int.emod_emod_of_dvd (k : ℤ) (dvd_refl ((2 : ℤ) ^ n)))]
  have hmd : ∀ k : ℕ, k < 2 ^ n → mdF E (fun k => (k : ℝ) / 2 ^ n) (y.getD · 0) (2 ^ n) k =
      M ((2 ^ n : ℕ) : ℝ) (cyc y) (k + 1) - M ((2 ^ n : ℕ) : ℝ) (cyc y) k := by
    intro k hk
    unfold mdF
    rw [hm _ (Nat.mod_lt _ (by positivity)), hm k hk, hM, he]
    push_cast; rfl
  refine ⟨?_, ?_, ?_, ?_, ?_⟩
  · intro j h0 h1
    obtain ⟨k, rfl⟩ := Int.eq_ofNat_of_zero_le h0
    have hk : k < 2 ^ n := by exact_mod_cast h1
    unfold tabOf mqOf
    rw [Int.toNat_natCast, getD_map_range hk, hm k hk]
  · intro j h0 h1
    obtain ⟨k, rfl⟩ := Int.eq_ofNat_of_zero_le h0
    have hk : k < 2 ^ n := by exact_mod_cast h1
    unfold tabOf mqOf
    rw [Int.toNat_natCast, getD_map_range hk, hq k hk]
    push_cast; rfl
  · intro j h0 h1
    obtain ⟨k, rfl⟩ := Int.eq_ofNat_of_zero_le h0
    have hk : k < 2 ^ n := by exact_mod_cast h1
    unfold tabOf mqOf
    rw [Int.toNat_natCast, getD_map_range hk, hmd k hk]
  · intro j h0 h1
    obtain ⟨k, rfl⟩ := Int.eq_ofNat_of_zero_le h0
    have hk : k < 2 ^ n := by exact_mod_cast h1
    have : ((k : ℤ) + 1).toNat = k + 1 := by omega
    rw [this]
    unfold grid
    rw [getD_map_range (by omega)]
    push_cast; rfl
  · intro j h0 h1
    obtain ⟨k, rfl⟩ := Int.eq_ofNat_of_zero_le h0
    have hk : k < 2 ^ n := by exact_mod_cast h1
    have : ((k : ℤ) + 1).toNat = k + 1 := by omega
    rw [this]
    have eg : (grid ℝ n).getD (k + 1) 0 = ((k + 1 : ℕ) : ℝ) / 2 ^ n := by
      unfold grid
      rw [getD_map_range (by omega)]
    unfold tabOf mqOf
    dsimp only
    rw [← hn, ← hy, eg, Int.toNat_natCast, getD_map_range hk, getD_map_range hk, hmd k hk]
    unfold qdF
    have h0' : 0 < 2 ^ n := by positivity
    rw [he, hq _ (Nat.mod_lt _ h0'), hq k hk, hm 0 h0']
    by_cases hl : k = 2 ^ n - 1
    · rw [if_pos hl]
      have hk1 : k + 1 = 2 ^ n := by omega
      have hkr : (k : ℝ) + 1 = 2 ^ n := by exact_mod_cast hk1
      have e1 : cyc y ((k : ℤ) + 1) = cyc y 0 := by
        have := cyc_mod y (k + 1)
        push_cast at this
        rw [this, hlen, hk1, Nat.mod_self]
        have := cyc_mod y 0
        simp at this; simp [this]
      have e2 : cyc y ((k : ℤ) + 1 + 1) = cyc y (0 + 1) := by
        have := cyc_period y 1
        rw [hlen, ← hk1] at this
        rw [zero_add, ← this]
        congr 1; push_cast; ring
      rw [hk1, Nat.mod_self]
      unfold M
      rw [e1, e2]
      simp only [id]
      push_cast
      have : (k : ℝ) = 2 ^ n - 1 := by linarith
      rw [this]
      field_simp
      ring
    · rw [if_neg hl, Nat.mod_eq_of_lt (by omega)]
      unfold M
      simp only [id]
      push_cast
      field_simp
      ring

end Adwt
