import Verif.Props.Jump
import Verif.Props.Bounded
import Verif.Proofs.FloatRun
import Mathlib.Analysis.Real.Pi.Bounds

/-!
# C101: how loud a jump down can be
-/

set_option linter.unusedSectionVars false

namespace Adwt.Props
open Seg MeasureTheory

/-- what a ramp of `kType1` leaves, one sample after its end -/
theorem tail1 : 1 / 16 ≤ Real.exp (-poleA) * (Real.cos poleA + Real.sin poleA) ∧ Real.cos poleA ≤ 0 := by
  have p1 := Real.pi_gt_d4
  have p2 := Real.pi_lt_d4
  set δ := poleA - Real.pi / 2 with hδ
  have ea : poleA = δ + Real.pi / 2 := by rw [hδ]; ring
  have hp : poleA = 1.99929732 := rfl
  have d0 : 0 < δ := by rw [hδ, hp]; linarith
  have d1 : δ < 0.4286 := by rw [hδ, hp]; linarith
  have e1 : Real.cos poleA = -Real.sin δ := by rw [ea, Real.cos_add_pi_div_two]
  have e2 : Real.sin poleA = Real.cos δ := by rw [ea, Real.sin_add_pi_div_two]
  have s1 : Real.sin δ < δ := Real.sin_lt d0
  have s0 : 0 ≤ Real.sin δ := Real.sin_nonneg_of_nonneg_of_le_pi d0.le (by linarith)
  have c1 : 1 - δ ^ 2 / 2 ≤ Real.cos δ := Real.one_sub_sq_div_two_le_cos
  have q : δ ^ 2 ≤ 0.4286 ^ 2 := by gcongr
  refine ⟨?_, by rw [e1]; linarith⟩
  have h1 : 0.477 ≤ Real.cos poleA + Real.sin poleA := by
    rw [e1, e2]; norm_num at q; linarith
  have h2 : 0.135 ≤ Real.exp (-poleA) := by
    have := Real.exp_neg_one_gt_d9
    have e : Real.exp (-poleA) ≥ Real.exp (-1) * Real.exp (-1) := by
      rw [← Real.exp_add]
      apply Real.exp_le_exp.2
      rw [hp]; norm_num
    have := mul_le_mul this.le this.le (by norm_num) (Real.exp_pos _).le
    norm_num at this
    linarith
  have := mul_le_mul h2 h1 (by norm_num) (Real.exp_pos _).le
  norm_num at this
  linarith

theorem impulse_one (u : ℝ) : impulse (filterX .kType1) u =
    2 * poleA * Real.exp (-(poleA * u)) * Real.sin (poleA * u) := by
  rw [← impulse1]
  unfold impulse
  rw [show filterX .kType1 = ⟨[r1], [z1]⟩ from filter1]
  simp

/-- the answer of `kType1` to a ramp that ended one sample ago -/
theorem ramp1 (U : ℝ) : (∫ u in (1 : ℝ)..U, impulse (filterX .kType1) u * (U - u)) =
    (U - 1) * (Real.exp (-poleA) * (Real.cos poleA + Real.sin poleA)) +
      (Real.exp (-(poleA * U)) * Real.cos (poleA * U) - Real.exp (-poleA) * Real.cos poleA) / poleA := by
  have ha := poleA_pos
  have key : ∀ u ∈ Set.uIcc 1 U, HasDerivAt (fun u : ℝ =>
      -(Real.exp (-(poleA * u)) * (Real.cos (poleA * u) + Real.sin (poleA * u))) * (U - u) +
      Real.exp (-(poleA * u)) * Real.cos (poleA * u) / poleA) (impulse (filterX .kType1) u * (U - u)) u := by
    intro u _
    have h0 : HasDerivAt (fun u : ℝ => poleA * u) poleA u := by
      simpa using (hasDerivAt_id u).const_mul poleA
    have he := h0.neg.exp
    have hc := h0.cos
    have hs := h0.sin
    have hU := (hasDerivAt_id u).const_sub U
    have h := ((he.mul (hc.add hs)).neg.mul hU).add ((he.mul hc).div_const poleA)
    refine h.congr_deriv ?_
    rw [impulse_one]
    simp only [id, Pi.neg_apply, Pi.add_apply, Pi.mul_apply]
    field_simp
    ring
  rw [intervalIntegral.integral_eq_sub_of_hasDerivAt key]
  · simp only [mul_one]
    ring
  · apply Continuous.intervalIntegrable
    simp only [impulse_one]
    fun_prop

theorem ramp1_ge {U : ℝ} (hU : 1 ≤ U) : (U - 1) / 16 - 1 ≤
    ∫ u in (1 : ℝ)..U, impulse (filterX .kType1) u * (U - u) := by
  obtain ⟨h1, h2⟩ := tail1
  have ha := poleA_pos
  rw [ramp1]
  have a1 : (U - 1) / 16 ≤ (U - 1) * (Real.exp (-poleA) * (Real.cos poleA + Real.sin poleA)) := by
    have := mul_le_mul_of_nonneg_left h1 (show 0 ≤ U - 1 by linarith)
    linarith
  have a2 : -1 ≤ (Real.exp (-(poleA * U)) * Real.cos (poleA * U) - Real.exp (-poleA) * Real.cos poleA) / poleA := by
    rw [le_div_iff₀ ha]
    have b1 : Real.exp (-(poleA * U)) ≤ 1 := by
      apply Real.exp_le_one_iff.2
      have := mul_nonneg ha.le (show 0 ≤ U by linarith)
      linarith
    have b2 := Real.neg_one_le_cos (poleA * U)
    have b3 := Real.exp_pos (-(poleA * U))
    have b4 : -Real.exp (-(poleA * U)) ≤ Real.exp (-(poleA * U)) * Real.cos (poleA * U) := by
      have := mul_le_mul_of_nonneg_left b2 b3.le
      linarith
    have b5 : Real.exp (-poleA) * Real.cos poleA ≤ 0 :=
      mul_nonpos_of_nonneg_of_nonpos (Real.exp_pos _).le h2
    have b6 : 1 ≤ poleA := by unfold poleA; norm_num
    linarith
  linarith

/-- one step of the filter memory of `kType1` -/
theorem next1 {y : List ℂ} {B : ℝ} (hy : ‖y.getD 0 0‖ ≤ B) {V : ℝ → ℝ} (hV : ∀ u, |V u| ≤ 1) (x d : ℝ) :
    ‖(nextMemory (filterX .kType1) y V x d).getD 0 0‖ ≤ B + 4 ∧
      |output (nextMemory (filterX .kType1) y V x d)| ≤ B + 4 := by
  have e : nextMemory (filterX .kType1) y V x d =
      [Complex.exp z1 * y.getD 0 0 + 2 * r1 * response V z1 x d] := by
    unfold nextMemory
    rw [show filterX .kType1 = ⟨[r1], [z1]⟩ from filter1]
    simp
  have hz : z1.re ≤ 0 := by unfold z1; have := poleA_pos; simp; linarith
  have h1 : ‖Complex.exp z1‖ ≤ 1 := by rw [Complex.norm_exp]; exact Real.exp_le_one_iff.2 hz
  have h2 := response_le hV hz x d
  have hr : ‖r1‖ ≤ 2 := by
    have : r1 = ((-poleA : ℝ) : ℂ) * Complex.I := by apply Complex.ext <;> simp [r1]
    rw [this, norm_mul, Complex.norm_I, mul_one, Complex.norm_real, Real.norm_eq_abs, abs_neg,
      abs_of_pos poleA_pos]
    unfold poleA; norm_num
  have h3 : ‖Complex.exp z1 * y.getD 0 0 + 2 * r1 * response V z1 x d‖ ≤ B + 4 := by
    refine (norm_add_le _ _).trans (add_le_add ?_ ?_)
    · rw [norm_mul]
      calc _ ≤ 1 * B := mul_le_mul h1 hy (norm_nonneg _) zero_le_one
        _ = B := one_mul B
    · rw [norm_mul, norm_mul]
      have : ‖(2 : ℂ)‖ = 2 := by simp
      rw [this]
      calc (2 : ℝ) * ‖r1‖ * ‖response V z1 x d‖ ≤ 2 * 2 * 1 := by gcongr
        _ = 4 := by norm_num
  rw [e]
  refine ⟨by simpa using h3, ?_⟩
  unfold output
  simp only [List.sum_cons, List.sum_nil, add_zero]
  exact (Complex.abs_re_le_norm _).trans h3

/-- a constant wavetable with one sample of the opposite sign -/
noncomputable def spike (q : ℕ) : List ℝ := (List.range (8 * q)).map fun i => if i = 2 * q then -1 else 1

theorem spike_mip {L q : ℕ} (hq : 2 ^ L = 8 * q) :
    mipSamples envX (waveformOf (spike q) (2 ^ L) 0) 1 =
      (List.range (4 * q)).map fun i => if i = q then -1 else 1 := by
  rw [mip_one _ L (4 * q) (by omega) (by simp [spike, hq])]
  apply List.map_congr_left
  intro i hi
  have hi := List.mem_range.1 hi
  unfold spike
  rw [List.getD_eq_getElem?_getD, List.getElem?_map, List.getElem?_range (by omega)]
  simp only [Option.map_some, Option.getD_some]
  by_cases h : i = q
  · rw [if_pos (by omega), if_pos h]
  · rw [if_neg (by omega), if_neg h]

theorem spike_cyc {q : ℕ} (k : ℤ) (h0 : 0 ≤ k) (h1 : k < 4 * q) :
    cyc ((List.range (4 * q)).map fun i => if i = q then (-1 : ℝ) else 1) k = if k = q then -1 else 1 := by
  unfold cyc
  rw [List.length_map, List.length_range, Int.emod_eq_of_lt h0 (by push_cast; exact h1),
    List.getD_eq_getElem?_getD, List.getElem?_map, List.getElem?_range (by omega)]
  simp only [Option.map_some, Option.getD_some]
  by_cases h : k = q
  · rw [if_pos (by omega), if_pos h]
  · rw [if_neg (by omega), if_neg h]

theorem spike_wave {L q : ℕ} (hq : 2 ^ L = 8 * q) (hq2 : 2 ≤ q) :
    waveAt envX (spike q) L 0 1 (1 / 4) = -1 ∧
    ∀ s : ℝ, 1 / 4 + 1 / (4 * q) ≤ s → s ≤ 3 / 8 → waveAt envX (spike q) L 0 1 s = 1 := by
  have hqr : (0 : ℝ) < q := by exact_mod_cast (by omega : 0 < q)
  have hq2r : (2 : ℝ) ≤ q := by exact_mod_cast hq2
  have e : waveAt envX (spike q) L 0 1 =
      interp ((List.range (4 * q)).map fun i => if i = q then (-1 : ℝ) else 1) := by
    unfold waveAt
    rw [show (1 : ℤ).toNat = 1 from rfl, show (0 : ℤ).toNat = 0 from rfl, spike_mip hq]
  rw [e]
  have hlen : ((List.range (4 * q)).map fun i => if i = q then (-1 : ℝ) else 1).length = 4 * q := by simp
  constructor
  · unfold interp
    rw [hlen]
    have f1 : (1 / 4 : ℝ) * ((4 * q : ℕ) : ℝ) = ((q : ℤ) : ℝ) := by push_cast; ring
    rw [f1, Int.floor_intCast, spike_cyc _ (by omega) (by omega), if_pos rfl]
    ring
  · intro s h0 h1
    unfold interp
    rw [hlen]
    have g0 : ((q + 1 : ℤ) : ℝ) ≤ s * ((4 * q : ℕ) : ℝ) := by
      push_cast
      have := mul_le_mul_of_nonneg_right h0 (show (0 : ℝ) ≤ 4 * q by positivity)
      rw [add_mul, div_mul_cancel₀ _ (by positivity)] at this
      linarith
    have g1 : s * ((4 * q : ℕ) : ℝ) < ((2 * q : ℤ) : ℝ) := by
      push_cast
      have := mul_le_mul_of_nonneg_right h1 (show (0 : ℝ) ≤ 4 * q by positivity)
      linarith
    have k0 := Int.le_floor.2 g0
    have k1 := Int.floor_lt.2 g1
    rw [spike_cyc _ (by omega) (by omega), spike_cyc _ (by omega) (by omega), if_neg (by omega), if_neg (by omega)]
    ring

/-- two samples after `init`: the second is the first of a jump down by `L - 2` octaves -/
theorem jump_down (ws : List ℝ) (L : ℕ) (h4 : 4 ≤ L) (h18 : L ≤ 18) (hlen : ws.length = 2 ^ L)
    (dir : Sys.Direction) :
    ∃ (o0 o1 o2 : Osc ℝ ℂ) (y1 y2 : ℝ) (c0 c1 c2 : CrossFader ℝ),
      (sysOf envX .kType1).init (sysOf envX .kType1).fresh (some (WavetableData.wtOf envX ws 1 L 1)) 0 (3 / 8) = .ok (o0, 0) ∧
      At (sysOf envX .kType1) ws L o0 c0 ((L : ℤ) - 2 - 1) (3 / 8) 0 ∧
      o0.prevY = List.replicate (sysOf envX .kType1).n 0 ∧
      StepOk dir (0 : ℝ) (3 / 8) ∧
      (sysOf envX .kType1).process dir o0 [3 / 8] [0] = .ok (o1, [y1]) ∧
      NextIndices (sysOf envX .kType1) o0 (3 / 8) ⟨(L : ℤ) - 2, 1, (L : ℤ) - 2, 0⟩ ∧
      At (sysOf envX .kType1) ws L o1 c1 ((L : ℤ) - 2) (3 / 8) (3 / 8) ∧
      (sysOf envX .kType1).process dir o1 [3 / 8 + 1 / 2 ^ L] [0] = .ok (o2, [y2]) ∧
      NextIndices (sysOf envX .kType1) o1 (1 / 2 ^ L) ⟨0, 0, 0 + 1, 1⟩ ∧
      At (sysOf envX .kType1) ws L o2 c2 0 (1 / 2 ^ L) (3 / 8 + 1 / 2 ^ L) := by
  have e38 : |(3 / 8 : ℝ)| = 3 / 8 := abs_of_pos (by norm_num)
  have octHi : IsOctave L ((L : ℤ) - 2) (3 / 8 : ℝ) := by
    refine ⟨by omega, le_rfl, Or.inr ?_, Or.inl rfl⟩
    rw [show ((L : ℤ) - 2).toNat = L - 2 by omega, div_le_iff₀ (by positivity)]
    have : (2 : ℝ) ^ L = 4 * 2 ^ (L - 2) := by
      rw [show (4 : ℝ) = 2 ^ 2 by norm_num, ← pow_add]; congr 1; omega
    rw [this]
    have : (0 : ℝ) < 2 ^ (L - 2) := by positivity
    linarith
  have octMid : IsOctave L ((L : ℤ) - 4) (1 / 10 : ℝ) := by
    have e4 : (2 : ℝ) ^ L = 16 * 2 ^ (L - 4) := by
      rw [show (16 : ℝ) = 2 ^ 4 by norm_num, ← pow_add]; congr 1; omega
    have h4p : (0 : ℝ) < 2 ^ (L - 4) := by positivity
    refine ⟨by omega, by omega, Or.inr ?_, Or.inr ?_⟩
    · rw [show ((L : ℤ) - 4).toNat = L - 4 by omega, div_le_iff₀ (by positivity), e4]
      linarith
    · rw [show ((L : ℤ) - 4).toNat = L - 4 by omega, lt_div_iff₀ (by positivity), e4, pow_succ]
      linarith
  have octLo : IsOctave L 0 (1 / 2 ^ L : ℝ) := by
    refine ⟨le_rfl, by omega, Or.inl rfl, Or.inr ?_⟩
    have : (0 : ℝ) < 2 ^ L := by positivity
    apply (div_lt_div_iff_of_pos_right this).2
    norm_num
  have hd0 : (0 : ℝ) < 1 / 2 ^ L := by positivity
  have hd2 : (1 : ℝ) / 2 ^ L ≤ 1 / 16 := by
    apply one_div_le_one_div_of_le (by norm_num)
    calc (16 : ℝ) = 2 ^ 4 := by norm_num
      _ ≤ 2 ^ L := pow_le_pow_right₀ (by norm_num) h4
  obtain ⟨o0, hi0, h0, hy0⟩ := at_init' .kType1 (ws) L (by omega) h18 hlen 1 le_rfl (by norm_num)
    (p := 0) (d := 3 / 8) (by norm_num) (by norm_num) octMid
    (cf_up (by omega) (by norm_num) (by norm_num) (k := (L : ℤ) - 2) (by rw [e38]; exact octHi) (by omega))
  have hs1 : StepOk dir (0 : ℝ) (3 / 8) := by
    cases dir
    · show Forward (0 : ℝ) (3 / 8)
      unfold Forward
      norm_num
    · exact (by norm_num : (3 / 8 : ℝ) ≠ 0)
  have hs2 : StepOk dir (3 / 8 : ℝ) (3 / 8 + 1 / 2 ^ L) := by
    cases dir
    · show Forward (3 / 8 : ℝ) (3 / 8 + 1 / 2 ^ L)
      unfold Forward
      left
      constructor <;> linarith
    · exact (by linarith : (3 / 8 + 1 / 2 ^ L : ℝ) ≠ 3 / 8)
  obtain ⟨⟨o1, y1, hp1, h1⟩, hn1⟩ := h0.step (dir := dir) (p' := 3 / 8) (d' := 3 / 8)
    (by norm_num) hs1 (Or.inr (by norm_num))
    (by cases dir
        · unfold Sys.dirDiff Sys.fwdDiff; norm_num
        · unfold Sys.dirDiff Sys.biDiff; norm_num)
    (cf_last (n := 1) (i := (L : ℤ) - 2 - 1) (by omega) (by norm_num) (by norm_num) (k := (L : ℤ) - 2)
      (by omega) (by rw [e38]; exact octHi))
  have ed : (3 / 8 + 1 / 2 ^ L : ℝ) - 3 / 8 = 1 / 2 ^ L := by ring
  have eabs : |(1 / 2 ^ L : ℝ)| = 1 / 2 ^ L := abs_of_pos hd0
  obtain ⟨⟨o2, y2, hp2, h2⟩, hn2⟩ := h1.step (dir := dir) (p' := 3 / 8 + 1 / 2 ^ L) (d' := 1 / 2 ^ L)
    ⟨by linarith, by linarith⟩ hs2 (Or.inr (by norm_num))
    (by cases dir
        · unfold Sys.dirDiff Sys.fwdDiff
          simp only [id]
          rw [ed, if_neg (by linarith)]
        · unfold Sys.dirDiff Sys.biDiff
          simp only [id]
          rw [ed, if_neg (by linarith), if_neg (by linarith)])
    (cf_down (n := 1) (i := (L : ℤ) - 2) (k := 0) (by omega) (by norm_num) (by rw [eabs]; exact hd0)
      (by rw [eabs]; exact octLo) (by omega))
  exact ⟨o0, o1, o2, y1, y2, _, _, _, hi0, h0, hy0, hs1, hp1, hn1, h1, hp2, hn2, h2⟩

/-- C101: the error is not bounded by the level of the wavetable. For every length `2^L` from 16 samples
there is a wavetable with samples in [-1, 1] and a legal note jump (two samples after `init`) whose
first sample after the jump is at most `10 - 2^L / 128`. -/
theorem C101_loud (L : ℕ) (h4 : 4 ≤ L) (h18 : L ≤ 18) (dir : Sys.Direction) :
    ∃ (ws : List ℝ) (sr dur : ℝ) (wt : WavetableData ℝ) (o0 o1 o2 : Osc ℝ ℂ) (y1 y2 : ℝ),
      (∀ s ∈ ws, |s| ≤ 1) ∧ Built envX ws 1 L sr dur wt ∧
      (sysOf envX .kType1).init (sysOf envX .kType1).fresh (some wt) 0 (3 / 8) = .ok (o0, 0) ∧
      (sysOf envX .kType1).process dir o0 [3 / 8] [0] = .ok (o1, [y1]) ∧
      (sysOf envX .kType1).process dir o1 [3 / 8 + 1 / 2 ^ L] [0] = .ok (o2, [y2]) ∧
      y2 ≤ 10 - 2 ^ L / 128 := by
  obtain ⟨q, hq, hq2⟩ : ∃ q : ℕ, 2 ^ L = 8 * q ∧ 2 ≤ q := by
    refine ⟨2 ^ (L - 3), ?_, ?_⟩
    · rw [show (8 : ℕ) = 2 ^ 3 by norm_num, ← pow_add]; congr 1; omega
    · calc 2 = 2 ^ 1 := by norm_num
        _ ≤ 2 ^ (L - 3) := Nat.pow_le_pow_right (by norm_num) (by omega)
  have hqr : (0 : ℝ) < q := by exact_mod_cast (by omega : 0 < q)
  have hq2r : (2 : ℝ) ≤ q := by exact_mod_cast hq2
  have hLr : (2 : ℝ) ^ L = 8 * q := by exact_mod_cast hq
  have hws1 : ∀ s ∈ spike q, |s| ≤ 1 := by
    intro s hs
    unfold spike at hs
    obtain ⟨i, -, rfl⟩ := List.mem_map.1 hs
    split_ifs <;> norm_num
  have hlen : (spike q).length = 2 ^ L := by simp [spike, hq]
  have hd1 : (1 : ℝ) / 2 ^ L = 1 / (8 * q) := by rw [hLr]
  have hd0 : (0 : ℝ) < 1 / 2 ^ L := by positivity
  have hd2 : (1 : ℝ) / 2 ^ L ≤ 1 / 16 := by
    rw [hd1]
    apply one_div_le_one_div_of_le (by norm_num)
    linarith
  have ed : (3 / 8 + 1 / 2 ^ L : ℝ) - 3 / 8 = 1 / 2 ^ L := by ring
  obtain ⟨o0, o1, o2, y1, y2, c0, c1, c2, hi0, h0, hy0, hs1, hp1, hn1, h1, hp2, hn2, h2⟩ :=
    jump_down (spike q) L h4 h18 hlen dir
  have hS := exactSys .kType1
  have hf := envX_ok.1
  -- tables are within the level
  have wave1 : ∀ i : ℤ, 0 ≤ i → i < (L : ℤ) - 1 → ∀ u, |waveAt envX (spike q) L 0 i u| ≤ 1 := by
    intro i a1 a2 u
    obtain ⟨wt, hwt, hlin⟩ := h0.plays.lines hS.fl log2X
    apply interp_bound (tablesWithinX zero_le_one hws1 1 L 0 (by norm_num) i.toNat (by omega))
    have := hlin.len 0 i le_rfl (by norm_num) a1 a2
    rw [show (0 : ℤ).toNat = 0 from rfl] at this
    change (mipSamples envX (waveformOf (spike q) (2 ^ L) 0) i.toNat).length = _ at this
    rw [this]; positivity
  have mixI : ∀ (i j : ℤ), mixture envX (spike q) L 0 (⟨i, 1, j, 0⟩ : MipMapIndices ℝ) = waveAt envX (spike q) L 0 i := by
    intro i j; funext u; unfold mixture; simp
  have mixU : ∀ (i j : ℤ), mixture envX (spike q) L 0 (⟨i, 0, j, 1⟩ : MipMapIndices ℝ) = waveAt envX (spike q) L 0 j := by
    intro i j; funext u; unfold mixture; simp
  -- the memory after the first sample
  have key1 := C35_mixture (sysOf envX .kType1) hS log2X (spike q) 1 L o0 h0.plays dir (3 / 8) 0 (by norm_num)
    (by rw [h0.phase]; exact hs1) o1 [y1] hp1 ⟨(L : ℤ) - 2, 1, (L : ℤ) - 2, 0⟩ (by rw [h1.diff]; exact hn1)
    (Or.inr (Or.inl ⟨by rw [h0.diff]; norm_num, by rw [h0.mip]; dsimp only; omega⟩))
    (by rw [h0.phase]
        have := offDenormal_dyadic 0 (L - ((L : ℤ) - 2).toNat) (L - ((L : ℤ) - 2).toNat) (by omega) le_rfl
        simpa using this)
  have m1 : ‖o1.prevY.getD 0 0‖ ≤ 0 + 4 := by
    rw [key1.1]
    refine (next1 (V := mixture envX (spike q) L o0.crt ⟨(L : ℤ) - 2, 1, (L : ℤ) - 2, 0⟩) (B := 0) ?_ ?_ _ _).1
    · rw [hy0, List.getD_replicate _ (show 0 < (sysOf envX .kType1).n from Nat.one_pos)]
      simp
    · intro u
      rw [h0.crt, mixI]
      exact wave1 _ (by omega) (by omega) u
  have hm4 : L - o1.prevMip.toNat = 2 := by rw [h1.mip]; omega
  have key2 := C101_error (sysOf envX .kType1) hS log2X (spike q) 1 L o1 h1.plays (by rw [h1.diff]; norm_num) dir
    (3 / 8 + 1 / 2 ^ L) 0 (by rw [h1.phase]; linarith) (by linarith) (by rw [h1.phase, ed]; linarith) o2 [y2] hp2
    ⟨0, 0, 0 + 1, 1⟩ (by rw [h1.phase, ed]; exact hn2) (by rw [h1.mip]; dsimp only; omega) (2 ^ L) 4
    (by simp) (by rw [hm4]; norm_num)
    (by rw [h1.phase]
        have e : (3 / 8 : ℝ) = ((3 * 2 ^ (L - 3) : ℤ) : ℝ) / 2 ^ L := by
          have : (2 : ℝ) ^ L = 8 * 2 ^ (L - 3) := by
            rw [show (8 : ℝ) = 2 ^ 3 by norm_num, ← pow_add]; congr 1; omega
          rw [this]; push_cast; field_simp
        rw [e]
        exact offDenormal_dyadic _ L L (by omega) le_rfl)
    (1 / 4)
    (by rw [h1.phase]
        have : ⌊(3 / 8 : ℝ) * ((4 : ℕ) : ℝ)⌋ = 1 := by rw [Int.floor_eq_iff]; norm_num
        rw [this]; norm_num)
    (by rw [h1.phase]; push_cast; linarith)
  have key2 := List.head_eq_of_cons_eq key2
  rw [h1.crt, h1.phase, ed] at key2
  dsimp only at key2
  rw [show (0 : ℤ) + 1 = 1 from rfl] at key2
  change y2 = output (nextMemory (filterX .kType1) _ (mixture envX (spike q) L 0 ⟨0, 0, 1, 1⟩) _ _) +
    (0 * missed (filterX .kType1) (waveAt envX (spike q) L 0 0) _ _ _ _ +
     1 * missed (filterX .kType1) (waveAt envX (spike q) L 0 1) _ _ _ _) at key2
  rw [zero_mul, zero_add, one_mul, mixU] at key2
  have m2 := (next1 m1 (V := waveAt envX (spike q) L 0 1) (wave1 1 (by norm_num) (by omega)) (3 / 8) (1 / 2 ^ L)).2
  obtain ⟨w0, w1⟩ := spike_wave hq hq2
  have m3 : missed (filterX .kType1) (waveAt envX (spike q) L 0 1) (1 / 4) (2 / ((2 ^ L : ℕ) : ℝ))
      (3 / 8 + 1 / 2 ^ L) (1 / 2 ^ L) =
      -∫ u in (1 : ℝ)..((q : ℝ) - 1), impulse (filterX .kType1) u * ((q : ℝ) - 1 - u) := by
    unfold missed
    push_cast
    rw [hLr]
    have eU : (3 / 8 + 1 / (8 * q) - (1 / 4 + 2 / (8 * q)) : ℝ) / (1 / (8 * q)) = q - 1 := by
      field_simp; ring
    rw [eU, ← intervalIntegral.integral_neg]
    apply intervalIntegral.integral_congr
    intro u hu
    rw [Set.uIcc_of_le (by linarith)] at hu
    dsimp only
    have hu1 : u * (1 / (8 * q)) = u / (8 * q) := by ring
    have b1 : 1 / (8 * (q : ℝ)) ≤ u / (8 * q) := by gcongr; exact hu.1
    have b2 : u / (8 * (q : ℝ)) ≤ (q - 1) / (8 * q) := by gcongr; exact hu.2
    have b3 : ((q : ℝ) - 1) / (8 * q) = 1 / 8 - 1 / (8 * q) := by field_simp
    have b4 : 1 / (4 * (q : ℝ)) = 2 * (1 / (8 * q)) := by field_simp; ring
    have e2 : (1 / 4 + 2 / (8 * q) : ℝ) = 1 / 4 + 1 / (4 * q) := by congr 1; field_simp; ring
    have b5 : (0 : ℝ) < 1 / (8 * q) := by positivity
    rw [w0, w1 (3 / 8 + 1 / (8 * q) - u * (1 / (8 * q))) (by rw [hu1]; linarith) (by rw [hu1]; linarith),
      w1 (1 / 4 + 2 / (8 * q)) e2.ge (by rw [e2, b4]; rw [hd1] at hd2; linarith)]
    field_simp
    ring
  rw [m3] at key2
  have m4 := ramp1_ge (U := (q : ℝ) - 1) (by linarith)
  refine ⟨spike q, 44100, ((1 : ℕ) : ℝ) / 44100, _, o0, o1, o2, y1, y2, hws1,
    builtX (spike q) L (by omega) h18 hlen 1 le_rfl (by norm_num), hi0, hp1, hp2, ?_⟩
  rw [hLr]
  have := (abs_le.1 m2).2
  linarith

end Adwt.Props
