import Verif.Spec.Excess
import Verif.Proofs.Excess
import Verif.Props.Levels

/-!
# C87, C90: sequences of constant waveforms in exact arithmetic, and outputs above the peak
-/

set_option linter.unusedSectionVars false

namespace Adwt.Props
open WavetableData CrossFader

/-- C90, exact arithmetic: constant waveforms chosen anew before each sample, with any phases. The output is the
response of the filter to the sequence of levels. -/
theorem C90_sequence (S : Sys ℝ ℂ) (hS : ExactSys S) (hl : Log2Spec S.env.log2f)
    (hz : ∀ k < S.flt.r.length, (S.flt.z.getD k 0).re < 0) (ws : List ℝ) (nw L : ℕ) (c : ℕ → ℝ)
    (hc : NearLevels S.env ws nw L c 0) (m : ℕ) (st sw : ℕ → Osc ℝ ℂ) (w : ℕ → ℤ) (dir : ℕ → Sys.Direction)
    (p y : ℕ → ℝ) (t : ℕ → MipMapIndices ℝ) (h : SwitchedRun S ws nw L m st sw w dir p y t) (n : ℕ)
    (hn : n < m) : y n = levelResponse S.flt (fun i => c (w i).toNat) n := by
  have hf := Sys.exact_rounding hS
  have hid : ∀ i, i < m → IsPhase S.env.fl (p i) := fun i _ => by
    rw [hS.fl]; exact isPhase_id _
  have hws := plays_length h.plays
  have hsel : ∀ i < m, Sel L 1 (t i) ∧ (t i).weight + (t i).weightUp = 1 := by
    intro i hi
    have h1 := run_sel hf hl hS.B h hid (κ := 1)
      (fun hc _ hd _ e => (Sys.weight_one hS.fl hc hd e).1.le) hi
    obtain ⟨wt, c, -, hwt, hd, hni, -⟩ := run_fader hf hl hS.B h hid hi
    exact ⟨h1, (Sys.weight_one hS.fl hwt.inv hd hni).1⟩
  rw [C72_switch S hS hl ws nw L m st sw w dir p y t h n hn]
  set x0 := (st 0).prevPhase
  set d := stepOf dir x0 p
  have b1 := filtered_near_peak hz (m := n + 1) (V := playedW S.env ws L w t (unwrapped x0 d))
    (V' := fun u => c (w ⌊u⌋₊).toNat)
    (g := fun i τ => mixture S.env ws L (w i) (t i) (x0 + ∑ l ∈ Finset.range i, d l + τ * d i))
    (g' := fun i _ => c (w i).toNat) (η := 0)
    (fun i _ => mixture_continuous.comp (by fun_prop)) (fun _ _ => continuous_const) (fun i _ u h0 h1 => by
      unfold playedW
      rw [floor_mid h0 h1]
      unfold unwrapped
      rw [floor_mid h0 h1]) (fun i _ u h0 h1 => by rw [floor_mid h0 h1]) (fun i hi u h0 h1 => by
      unfold playedW
      rw [floor_mid h0 h1]
      have hw := h.wave i (by omega)
      have hs := hsel i (by omega)
      have := mixture_level hws hc hw.1 hw.2 hs.1 (ε := 0) (by rw [hs.2]; simp)
        (unwrapped x0 d u)
      simpa using this) le_rfl
  rw [filtered_levels S.flt (fun i => c (w i).toNat), mul_zero, abs_nonpos_iff, sub_eq_zero] at b1
  push_cast at b1 ⊢
  rw [b1]
  unfold levelResponse
  refine Finset.sum_congr rfl fun i _ => ?_
  rw [show (n : ℝ) + 1 - (i + 1) = n - i by ring]

/-- The level of a waveform: `+1` for 0, `-1` for 1. -/
def plusMinus (w : ℕ) : ℝ := if w = 0 then 1 else -1

theorem worst_level (flt : Filter ℂ) (n : ℕ) :
    levelResponse flt (fun i => plusMinus (worstChoice flt n i).toNat) n =
      ∑ k ∈ Finset.range (n + 1), |stepResponse flt (k + 1 : ℕ) - stepResponse flt (k : ℕ)| := by
  unfold levelResponse
  rw [← Finset.sum_range_reflect]
  refine Finset.sum_congr rfl fun k hk => ?_
  have hk := Finset.mem_range.1 hk
  have e : ((n + 1 - 1 - k : ℕ) : ℝ) = n - k := by
    rw [Nat.add_sub_cancel, Nat.cast_sub (by omega)]
  unfold worstChoice
  beta_reduce
  rw [e, show (n : ℝ) - (n - k) = k by ring, show (n : ℝ) + 1 - (n - k) = k + 1 by ring]
  push_cast
  split_ifs with h
  · rw [abs_of_nonneg (by linarith)]; simp [plusMinus]
  · rw [abs_of_neg (by linarith)]; simp [plusMinus]

/-- C87, conversely: with two constant waveforms of levels `+1` and `-1`, chosen anew before each of 16 samples, and
with any phases, the 16th output is `excess` or more. -/
theorem C87_needed (ft : FilterType) (S : Sys ℝ ℂ) (hflt : S.flt = filterX ft) (hS : ExactSys S)
    (hl : Log2Spec S.env.log2f) (ws : List ℝ) (L : ℕ) (hc : NearLevels S.env ws 2 L plusMinus 0)
    (m : ℕ) (hm : 15 < m) (st sw : ℕ → Osc ℝ ℂ) (w : ℕ → ℤ) (dir : ℕ → Sys.Direction)
    (p y : ℕ → ℝ) (t : ℕ → MipMapIndices ℝ) (h : SwitchedRun S ws 2 L m st sw w dir p y t)
    (hw : ∀ i < 16, w i = worstChoice (filterX ft) 15 i) : (excess ft : ℝ) ≤ y 15 := by
  rw [C90_sequence S hS hl (by rw [hflt]; exact filterX_re ft) ws 2 L plusMinus hc m st sw w dir p y t h 15 hm, hflt]
  have e : levelResponse (filterX ft) (fun i => plusMinus (w i).toNat) 15 =
      levelResponse (filterX ft) (fun i => plusMinus (worstChoice (filterX ft) 15 i).toNat) 15 := by
    unfold levelResponse
    refine Finset.sum_congr rfl fun i hi => ?_
    beta_reduce
    rw [hw i (Finset.mem_range.1 hi)]
  rw [e, worst_level]
  exact excess_le ft

/-! ### the hypotheses are met -/

/-- A wavetable of peak 1: two constant waveforms of 8 samples. -/
def plusMinusWs : List ℝ := List.replicate 8 1 ++ List.replicate 8 (-1)

theorem plusMinusWs_levels : NearLevels envX plusMinusWs 2 3 plusMinus 0 := by
  intro w hw i hi x hx
  have e : waveformOf plusMinusWs (2 ^ 3) w = List.replicate 8 (plusMinus w) := by
    interval_cases w <;> simp [waveformOf, plusMinusWs, plusMinus]
  rw [e] at hx
  obtain ⟨m, hm⟩ := mip_const keepsX (plusMinus w) 8 i
  rw [hm] at hx
  rw [(List.mem_replicate.1 hx).2]
  simp

/-- A program of legal calls with a wavetable of peak 1 whose 16th output exceeds the peak by this factor: built,
initialised, played forwards by 1/8 and 1/4 of a cycle in turn. -/
example (ft : FilterType) :
    ∃ (wt : WavetableData ℝ) (st : ℕ → Osc ℝ ℂ) (r : ℤ) (sw : ℕ → Osc ℝ ℂ) (y : ℕ → ℝ),
      Built envX plusMinusWs 2 3 44100 (220 / 44100) wt ∧
      (sysOf envX ft).init (sysOf envX ft).fresh (some wt) 0 (1 / 8) = .ok (st 0, r) ∧
      (∀ n, (sysOf envX ft).setWaveform (st n) (worstChoice (filterX ft) 15 n) = .ok (sw n)) ∧
      (∀ n, (sysOf envX ft).process .kForward (sw n) [(zigzag (n + 1) : ℝ) / 8] [0] = .ok (st (n + 1), [y n])) ∧
      (excess ft : ℝ) ≤ y 15 := by
  have hz : ∀ n, zigzag n < 8 := fun n => by unfold zigzag; omega
  have hph : ∀ n, PhaseOk envX.fl ((zigzag n : ℝ) / 8) := by
    intro n
    have h8 : (zigzag n : ℝ) < 8 := by exact_mod_cast hz n
    exact ⟨by positivity, by linarith, isPhase_id _⟩
  have hz0 : ((zigzag 0 : ℕ) : ℝ) / 8 = 0 := by simp [zigzag]
  have hws : plusMinusWs.length = 2 * 2 ^ 3 := by simp [plusMinusWs]
  obtain ⟨wt, hb⟩ : ∃ wt, Built envX plusMinusWs 2 3 44100 (220 / 44100) wt := by
    have hr : IsRate envX.fl (44100 : ℝ) := isRate_id _
    have e2 : envX.fl (220 / 44100 * 44100) = 220 := by
      show (220 / 44100 * 44100 : ℝ) = 220
      norm_num
    obtain ⟨wt, h⟩ := C02_succeeds envX envX_ok.1 envX_ok.2.1 envX_ok.2.2 3 (by norm_num) (by norm_num) 2
      (by norm_num) _ hws 44100 (220 / 44100) (by norm_num) hr (by rw [e2]; norm_num)
    exact ⟨wt, hr, by rw [e2]; norm_num, by simpa using hws, h⟩
  obtain ⟨o, r, ho⟩ : ∃ o r, (sysOf envX ft).init (sysOf envX ft).fresh (some wt) ((fun n : ℕ => (zigzag n : ℝ) / 8) 0) (1 / 8) =
      .ok (o, r) := by
    have hw := hb.ok envX_ok.1 envX_ok.2.1
    obtain ⟨t, e, -⟩ := newIndices_eq (E := envX) envX_ok.1 hw.inv (abs_pos.2 (show (1 / 8 : ℝ) ≠ 0 by norm_num))
    have e1 := Sys.reset_ok (S := sysOf envX ft) (o := { (sysOf envX ft).fresh with wt := some wt }) envX_ok.1 rfl hw
      (hph 0) (by norm_num) e
    unfold Sys.init
    dsimp only
    rw [e1, R.ok_bind]
    exact ⟨_, _, rfl⟩
  have hdd : ∀ n, 0 < stepsAlong id (1 / 8) (fun _ => .kForward) (fun n => (zigzag n : ℝ) / 8) n ∧
      TwoOctaves 3 0 |stepsAlong id (1 / 8) (fun _ => .kForward) (fun n => (zigzag n : ℝ) / 8) n| := by
    intro n
    cases n with
    | zero =>
      unfold stepsAlong
      exact ⟨by norm_num, by rw [abs_of_pos (by norm_num)]; exact zigzag_oct 0⟩
    | succ n =>
      unfold stepsAlong
      dsimp only
      rw [(zigzag_step n).2]
      refine ⟨by split_ifs <;> norm_num, ?_⟩
      rw [abs_of_pos (by split_ifs <;> norm_num)]
      exact zigzag_oct n
  have hS := exactSys ft
  obtain ⟨st, sw, y, t, a1, a2, a3, a4, a5, a6⟩ := scratch_run (S := sysOf envX ft) (w := worstChoice (filterX ft) 15)
    (dir := fun _ => .kForward)
    (x := fun n => (zigzag n : ℝ) / 8) (d := stepsAlong id (1 / 8) (fun _ => .kForward) (fun n => (zigzag n : ℝ) / 8))
    (Sys.exact_rounding hS) hS.B log2X hb hph (by norm_num) ho (fun n => by unfold worstChoice; split_ifs <;> norm_num)
    (fun n => (zigzag_step n).1) rfl (fun n => rfl)
    (pair_falls fun n => (hdd n).2)
    ⟨fun n hn => absurd (hdd n).1 (by linarith), fun n hn => absurd (hdd n).1 (by linarith)⟩
    (fun n => by
      have := offDenormal_dyadic (zigzag n) 3 3 (by norm_num) (by norm_num)
      norm_num at this ⊢
      exact this)
  exact ⟨wt, st, r, sw, y, hb, by rw [a1, ← hz0]; exact ho, a3, a4,
    C87_needed ft (sysOf envX ft) rfl hS log2X plusMinusWs 3 plusMinusWs_levels 16 (by norm_num) st sw _ _ _ y t
      (a6 16) (fun _ _ => rfl)⟩

end Adwt.Props
