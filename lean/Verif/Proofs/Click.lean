import Verif.Spec.Click
import Verif.Proofs.Latency
import Verif.Props.Headroom
import Verif.Props.FadeFloat

/-!
# How much the signal and the filter's output change from one sample to the next
-/

set_option linter.unusedSectionVars false

namespace Adwt
open MeasureTheory CrossFader

/-- the output of a filter changes little if the signal changes little within a sample -/
theorem filtered_succ {flt : Filter ℂ} (hz : ∀ k < flt.r.length, (flt.z.getD k 0).re < 0)
    {V : ℝ → ℝ} {g : ℕ → ℝ → ℝ} {m : ℕ} (hg : ∀ n < m + 1, Continuous (g n))
    (hV : ∀ n < m + 1, ∀ u : ℝ, (n : ℝ) ≤ u → u < n + 1 → V u = g n (u - n)) {B η : ℝ} (hη : 0 ≤ η)
    (hB : ∀ u : ℝ, 0 ≤ u → u < 1 → |V u| ≤ B) (hB0 : 0 ≤ B)
    (h : ∀ u : ℝ, 0 ≤ u → u < m → |V (u + 1) - V u| ≤ η) :
    |filtered flt V (m + 1 : ℕ) - filtered flt V m| ≤
      peakGain flt * η + B * ∫ s in (m : ℝ)..m + 1, |impulse flt s| := by
  have hc := impulse_continuous flt
  have hm : (0 : ℝ) ≤ m := Nat.cast_nonneg m
  have hVi := signal_integrable hg hV
  have hVm : IntervalIntegrable V volume (0 : ℝ) m :=
    signal_integrable (fun n hn => hg n (by omega)) (fun n hn => hV n (by omega))
  push_cast at hVi
  have hV01 : IntervalIntegrable V volume (0 : ℝ) 1 := hVi.mono_set (by
    rw [Set.uIcc_of_le zero_le_one, Set.uIcc_of_le (by linarith)]
    exact Set.Icc_subset_Icc_right (by linarith))
  have hV1m : IntervalIntegrable V volume (1 : ℝ) (m + 1) := hVi.mono_set (by
    rw [Set.uIcc_of_le (by linarith), Set.uIcc_of_le (by linarith)]
    exact Set.Icc_subset_Icc_left (by linarith))
  have hVs : IntervalIntegrable (fun u => V (u + 1)) volume (0 : ℝ) m := by
    have := hV1m.comp_add_right 1
    simpa using this
  have i1 : IntervalIntegrable (fun u => impulse flt (m + 1 - u) * V u) volume (0 : ℝ) 1 :=
    hV01.continuousOn_mul (Continuous.continuousOn (by fun_prop))
  have i2 : IntervalIntegrable (fun u => impulse flt (m + 1 - u) * V u) volume (1 : ℝ) (m + 1) :=
    hV1m.continuousOn_mul (Continuous.continuousOn (by fun_prop))
  have i3 : IntervalIntegrable (fun u => impulse flt (m - u) * V (u + 1)) volume (0 : ℝ) m :=
    hVs.continuousOn_mul (Continuous.continuousOn (by fun_prop))
  have i4 : IntervalIntegrable (fun u => impulse flt (m - u) * V u) volume (0 : ℝ) m :=
    hVm.continuousOn_mul (Continuous.continuousOn (by fun_prop))
  rw [filtered_impulse hg hV, filtered_impulse (fun n hn => hg n (by omega)) (fun n hn => hV n (by omega))]
  push_cast
  rw [← intervalIntegral.integral_add_adjacent_intervals i1 i2]
  have e1 : ∫ u in (1 : ℝ)..m + 1, impulse flt (m + 1 - u) * V u = ∫ u in (0 : ℝ)..m, impulse flt (m - u) * V (u + 1) := by
    have := intervalIntegral.integral_comp_add_right (a := (0 : ℝ)) (b := m)
      (fun u => impulse flt (m + 1 - u) * V u) 1
    rw [zero_add] at this
    rw [← this]
    refine intervalIntegral.integral_congr fun u _ => ?_
    show impulse flt (m + 1 - (u + 1)) * V (u + 1) = impulse flt (m - u) * V (u + 1)
    rw [show (m : ℝ) + 1 - (u + 1) = m - u by ring]
  rw [e1, add_sub_assoc, ← intervalIntegral.integral_sub i3 i4]
  have k1 : ‖∫ u in (0 : ℝ)..1, impulse flt (m + 1 - u) * V u‖ ≤ ∫ u in (0 : ℝ)..1, |impulse flt (m + 1 - u)| * B := by
    apply intervalIntegral.norm_integral_le_of_norm_le zero_le_one
    · have hne : ∀ᵐ u : ℝ, u ≠ 1 := by
        rw [ae_iff]; simp
      filter_upwards [hne] with u hu' hu
      have hlt : u < 1 := lt_of_le_of_ne hu.2 hu'
      rw [Real.norm_eq_abs, abs_mul]
      exact mul_le_mul_of_nonneg_left (hB u hu.1.le hlt) (abs_nonneg _)
    · exact Continuous.intervalIntegrable (by fun_prop) _ _
  rw [intervalIntegral.integral_mul_const,
    intervalIntegral.integral_comp_sub_left (fun u => |impulse flt u|) ((m : ℝ) + 1), sub_zero, add_sub_cancel_right,
    Real.norm_eq_abs] at k1
  have k2 : ‖∫ u in (0 : ℝ)..m, (impulse flt (m - u) * V (u + 1) - impulse flt (m - u) * V u)‖ ≤
      ∫ u in (0 : ℝ)..m, |impulse flt (m - u)| * η := by
    apply intervalIntegral.norm_integral_le_of_norm_le hm
    · have hne : ∀ᵐ u : ℝ, u ≠ m := by
        rw [ae_iff]; simp
      filter_upwards [hne] with u hu' hu
      have hlt : u < m := lt_of_le_of_ne hu.2 hu'
      rw [Real.norm_eq_abs, ← mul_sub, abs_mul]
      exact mul_le_mul_of_nonneg_left (h u hu.1.le hlt) (abs_nonneg _)
    · exact Continuous.intervalIntegrable (by fun_prop) _ _
  rw [intervalIntegral.integral_mul_const,
    intervalIntegral.integral_comp_sub_left (fun u => |impulse flt u|) (m : ℝ), sub_self, sub_zero,
    Real.norm_eq_abs] at k2
  have k3 := mul_le_mul_of_nonneg_right (impulse_area hz hm) hη
  refine (abs_add_le _ _).trans ?_
  linarith

theorem mixture_sum {E : Env ℝ} {ws : List ℝ} {L : ℕ} {w : ℤ} {t : MipMapIndices ℝ} {F : Finset ℤ}
    (h1 : t.idx ∈ F) (h2 : t.weightUp ≠ 0 → t.idxUp ∈ F) (u : ℝ) :
    mixture E ws L w t u = ∑ k ∈ F, t.weightOf k * waveAt E ws L w k u := by
  unfold mixture MipMapIndices.weightOf
  simp only [add_mul, Finset.sum_add_distrib, ite_mul, zero_mul]
  rw [Finset.sum_ite_eq, if_pos h1, Finset.sum_ite_eq]
  by_cases hz : t.weightUp = 0
  · rw [hz]; simp
  · rw [if_pos (h2 hz)]

/-- two mixtures of tables with nearly the same weights -/
theorem mixture_weights {E : Env ℝ} {ws : List ℝ} {nw L : ℕ} {A κ ω : ℝ} (hws : ws.length = nw * 2 ^ L)
    (hA : TablesWithin E ws nw L A) {w : ℤ} (w0 : 0 ≤ w) (w1 : w < nw) {t t' : MipMapIndices ℝ}
    (ht : Sel L κ t) (ht' : Sel L κ t') (hω : ∀ k, |t'.weightOf k - t.weightOf k| ≤ ω) (u : ℝ) :
    |mixture E ws L w t' u - mixture E ws L w t u| ≤ 4 * ω * A := by
  have hA0 : 0 ≤ A := (abs_nonneg _).trans (Props.waveAt_le hws hA w0 w1 ht.i0 ht.i1 u)
  have hω0 : 0 ≤ ω := (abs_nonneg _).trans (hω 0)
  set F : Finset ℤ := (({t.idx, t.idxUp, t'.idx, t'.idxUp} : Finset ℤ)).filter fun k => 0 ≤ k ∧ k < (L : ℤ) - 1 with hF
  have hcard : F.card ≤ 4 := (Finset.card_filter_le _ _).trans Finset.card_le_four
  have key : ∀ s : MipMapIndices ℝ, Sel L κ s → s.idx ∈ ({t.idx, t.idxUp, t'.idx, t'.idxUp} : Finset ℤ) →
      s.idxUp ∈ ({t.idx, t.idxUp, t'.idx, t'.idxUp} : Finset ℤ) →
      mixture E ws L w s u = ∑ k ∈ F, s.weightOf k * waveAt E ws L w k u := by
    intro s hs m1 m2
    refine mixture_sum (Finset.mem_filter.2 ⟨m1, hs.i0, hs.i1⟩) (fun hz => Finset.mem_filter.2 ⟨m2, ?_⟩) u
    obtain ⟨a, b⟩ := hs.up hz
    exact ⟨by have := hs.i0; omega, b⟩
  rw [key t ht (by simp) (by simp), key t' ht' (by simp) (by simp), ← Finset.sum_sub_distrib]
  refine (Finset.abs_sum_le_sum_abs _ _).trans ?_
  have : ∀ k ∈ F, |t'.weightOf k * waveAt E ws L w k u - t.weightOf k * waveAt E ws L w k u| ≤ ω * A := by
    intro k hk
    obtain ⟨-, h0, h1⟩ := Finset.mem_filter.1 hk
    rw [← sub_mul, abs_mul]
    exact mul_le_mul (hω k) (Props.waveAt_le hws hA w0 w1 h0 h1 u) (abs_nonneg _) hω0
  refine (Finset.sum_le_sum this).trans ?_
  rw [Finset.sum_const, nsmul_eq_mul]
  have h4 : (F.card : ℝ) ≤ 4 := by exact_mod_cast hcard
  have := mul_le_mul_of_nonneg_right h4 (mul_nonneg hω0 hA0)
  linarith

theorem unwrapped_step {x : ℝ} {d : ℕ → ℝ} {u D : ℝ} (h0 : 0 ≤ u) (hd : ∀ i ≤ ⌊u⌋₊ + 1, |d i| ≤ D) :
    |unwrapped x d (u + 1) - unwrapped x d u| ≤ D := by
  unfold unwrapped
  rw [Nat.floor_add_one h0, Finset.sum_range_succ]
  set τ := u - (⌊u⌋₊ : ℝ) with hτ
  have t0 : 0 ≤ τ := by have := Nat.floor_le h0; linarith
  have t1 : τ ≤ 1 := by have := Nat.lt_floor_add_one u; linarith
  have e : x + (∑ i ∈ Finset.range ⌊u⌋₊, d i + d ⌊u⌋₊) + (u + 1 - ((⌊u⌋₊ + 1 : ℕ) : ℝ)) * d (⌊u⌋₊ + 1) -
      (x + ∑ i ∈ Finset.range ⌊u⌋₊, d i + τ * d ⌊u⌋₊) = (1 - τ) * d ⌊u⌋₊ + τ * d (⌊u⌋₊ + 1) := by
    rw [hτ]; push_cast; ring
  rw [e]
  have a := mul_le_mul_of_nonneg_left (hd ⌊u⌋₊ (by omega)) (by linarith : 0 ≤ 1 - τ)
  have b := mul_le_mul_of_nonneg_left (hd (⌊u⌋₊ + 1) le_rfl) t0
  refine (abs_add_le _ _).trans ?_
  rw [abs_mul, abs_mul, abs_of_nonneg t0, abs_of_nonneg (by linarith : 0 ≤ 1 - τ)]
  linarith

/-- one sample of the signal against the next -/
theorem signal_succ {E : Env ℝ} {ws : List ℝ} {nw L m : ℕ} {flt : Filter ℂ}
    (hz : ∀ k < flt.r.length, (flt.z.getD k 0).re < 0) {A Λ κ ω D : ℝ} (hκ : 0 ≤ κ)
    (hws : ws.length = nw * 2 ^ L) (hA : TablesWithin E ws nw L A) (hΛ : SlopesWithin E ws nw L Λ) {w : ℕ → ℤ} {v : ℤ}
    (hw : ∀ i < m + 1, w i = v) (hv : 0 ≤ v ∧ v < nw) {t : ℕ → MipMapIndices ℝ} (ht : ∀ i < m + 1, Sel L κ (t i))
    {x : ℝ} {d : ℕ → ℝ} (hd : ∀ i < m + 1, |d i| ≤ D)
    (hω : ∀ i < m, ∀ k, |(t (i + 1)).weightOf k - (t i).weightOf k| ≤ ω) (hω0 : 0 ≤ ω) :
    |filtered flt (playedW E ws L w t (unwrapped x d)) (m + 1 : ℕ) - filtered flt (playedW E ws L w t (unwrapped x d)) m| ≤
      peakGain flt * (κ * (Λ * D) + 4 * ω * A) + κ * A * ∫ s in (m : ℝ)..m + 1, |impulse flt s| := by
  have hA0 : 0 ≤ A := (abs_nonneg _).trans
    (Props.waveAt_le hws hA hv.1 hv.2 (ht 0 (by omega)).i0 (ht 0 (by omega)).i1 0)
  have hΛ0 : 0 ≤ Λ := le_trans (by positivity) (hΛ v.toNat (by omega) (t 0).idx.toNat
    (by have := (ht 0 (by omega)).i0; have := (ht 0 (by omega)).i1; omega) 0)
  have hD0 : 0 ≤ D := (abs_nonneg _).trans (hd 0 (by omega))
  refine filtered_succ hz
    (g := fun i τ => mixture E ws L (w i) (t i) (x + ∑ l ∈ Finset.range i, d l + τ * d i))
    (fun i _ => mixture_continuous.comp (by fun_prop)) (fun i _ u h0 h1 => by
      unfold playedW
      rw [floor_mid h0 h1]
      unfold unwrapped
      rw [floor_mid h0 h1]) (by positivity) (fun u h0 h1 => ?_) (by positivity) (fun u h0 h1 => ?_)
  · have hfl : ⌊u⌋₊ < m + 1 := by
      rw [Nat.floor_eq_zero.2 h1]; omega
    unfold playedW
    rw [hw _ hfl]
    exact Props.mixture_le hws hA hv.1 hv.2 (ht _ hfl) _
  · have hfl : ⌊u⌋₊ < m := (Nat.floor_lt h0).2 h1
    unfold playedW
    rw [Nat.floor_add_one h0, hw _ (by omega), hw _ (by omega)]
    have a := mixture_near (δ := 0) hws hws (fun w _ i _ k => by simp) hΛ hv.1 hv.2 (ht (⌊u⌋₊ + 1) (by omega))
      (unwrapped x d (u + 1)) (unwrapped x d u) (unwrapped_step h0 fun i hi => hd i (by omega))
    have b := mixture_weights hws hA hv.1 hv.2 (ht ⌊u⌋₊ (by omega)) (ht (⌊u⌋₊ + 1) (by omega)) (hω _ hfl)
      (unwrapped x d u)
    have c := abs_sub_le (mixture E ws L v (t (⌊u⌋₊ + 1)) (unwrapped x d (u + 1)))
      (mixture E ws L v (t (⌊u⌋₊ + 1)) (unwrapped x d u)) (mixture E ws L v (t ⌊u⌋₊) (unwrapped x d u))
    rw [zero_add] at a
    linarith

/-! ### the crossfader along a run -/

variable {C : Type} [Zero C] [Add C] [Sub C] [Mul C] [Div C] {S : Sys ℝ C} {ws : List ℝ} {nw L m : ℕ}
  {st sw : ℕ → Osc ℝ C} {w : ℕ → ℤ} {dir : ℕ → Sys.Direction} {p y : ℕ → ℝ} {t : ℕ → MipMapIndices ℝ}

/-- the state of the crossfader before each sample -/
theorem run_fader (hf : Rounding S.env.fl) (hl : Log2Spec S.env.log2f) (hB : 0 < S.B)
    (h : SwitchedRun S ws nw L m st sw w dir p y t) (hp : ∀ i < m, IsPhase S.env.fl (p i)) {n : ℕ} (hn : n < m) :
    ∃ wt c, (st n).wt = some wt ∧ WtOk nw L wt ∧ 0 < |(st (n + 1)).prevPhaseDiff| ∧
      wt.cf.newIndices S.env |(st (n + 1)).prevPhaseDiff| = .ok (c, t n) ∧ (st (n + 1)).wt = some { wt with cf := c } := by
  obtain ⟨h0, h1⟩ := run_stages hf hl hB h hp hn.le
  obtain ⟨i1, hd⟩ := h1 hn
  have ho := Sys.reached_play hf hl hB i1.1
  obtain ⟨wt, wt', hwt, hfi⟩ := h.next n hn
  have hw : WtOk nw L wt := by
    obtain ⟨wt', e', h⟩ := ho.wt
    rw [hwt] at e'; cases e'; exact h
  have hst : (st n).wt = some wt := by
    have := h.set n hn
    unfold Sys.setWaveform at this
    obtain ⟨_, _, this⟩ := bind_ok this
    have e := Except.ok.inj this
    rw [← e] at hwt
    exact hwt
  have hp' : PhaseOk S.env.fl (p n) := ⟨(h.phase n hn).1, (h.phase n hn).2, hp n hn⟩
  obtain ⟨v, e, -⟩ := Props.process_one (by rw [hwt]; rfl) (h.call n hn)
  rcases Sys.step_cases hf hB ho hp' (h.step n hn) with ⟨⟨⟨o', y'⟩, e', hr⟩, -⟩ | ⟨e', -⟩
  · rw [e] at e'; cases e'
    obtain ⟨wt1, c, t1, f1, -, f3, -, f5, -⟩ := hr.find
    rw [hwt] at f1; cases f1
    obtain ⟨c', t', hni, hfind, -⟩ := Sys.find_spec hf hw (abs_pos.2 hd)
    rw [hfi] at hfind; cases hfind
    have hdiff := hr.diff
    dsimp only at hdiff f5
    rw [hdiff] at hni ⊢
    rw [f3] at hni; cases hni
    exact ⟨wt, c, hst, hw, abs_pos.2 (by rw [← hdiff]; exact hd), f3, f5⟩
  · rw [e] at e'; cases e'

/-- both tables of the crossfader are table `i` or table `i + 1` -/
def InPair (i : ℤ) (c : CrossFader ℝ) : Prop :=
  (c.prevIdx = i ∨ c.prevIdx = i + 1) ∧ (c.nextIdx = i ∨ c.nextIdx = i + 1)

theorem inPair_step {i j : ℤ} {c : CrossFader ℝ} (hc : c.Inv) (h : InPair i c) (hj : j = i ∨ j = i + 1) :
    InPair i (c.nextState j) := by
  obtain ⟨h1, h2⟩ := h
  have h3 := hc.idle
  have h4 := hc.fading
  unfold nextState continueFade updateIndices
  dsimp only
  split_ifs <;> constructor <;> (try dsimp only at *) <;> omega

theorem pair_octave {i : ℤ} {d : ℝ} (hL : 2 ≤ L) (h : TwoOctaves L i d) :
    (findLoop d (octaveScale ℝ L) : ℤ) = i ∨ (findLoop d (octaveScale ℝ L) : ℤ) = i + 1 := by
  rcases h with h | h
  · exact Or.inl (findLoop_of_octave hL h)
  · exact Or.inr (findLoop_of_octave hL h)

/-- the crossfader stays between two tables if all steps are in their two octaves -/
theorem run_pair (hf : Rounding S.env.fl) (hl : Log2Spec S.env.log2f) (hB : 0 < S.B)
    (h : SwitchedRun S ws nw L m st sw w dir p y t) (hp : ∀ i < m, IsPhase S.env.fl (p i)) {i num : ℤ}
    (h0 : ∀ wt, (st 0).wt = some wt → InPair i wt.cf ∧ wt.cf.numSamples = num)
    (ho : ∀ n < m, TwoOctaves L i |(st (n + 1)).prevPhaseDiff|) {n : ℕ} (hn : n ≤ m) :
    ∀ wt, (st n).wt = some wt → InPair i wt.cf ∧ wt.cf.numSamples = num := by
  induction n with
  | zero => exact h0
  | succ n ih =>
    intro wt' e'
    obtain ⟨wt, c, e, hw, hd, hni, e1⟩ := run_fader hf hl hB h hp (n := n) hn
    obtain ⟨i1, i2⟩ := ih (by omega) wt e
    rw [e1] at e'; cases e'
    have hc := newIndices_stepD hf hw.inv hd hni
    unfold stepD at hc
    rw [hw.scale] at hc
    rw [hc]
    exact ⟨inPair_step hw.inv i1 (pair_octave hw.L2 (ho n hn)), (nextState_const _ _).2.trans i2⟩

/-- and then the weights change slowly -/
theorem run_weights (hf : Rounding S.env.fl) (hl : Log2Spec S.env.log2f) (hB : 0 < S.B)
    (h : SwitchedRun S ws nw L m st sw w dir p y t) (hp : ∀ i < m, IsPhase S.env.fl (p i)) {i num : ℤ}
    (h0 : ∀ wt, (st 0).wt = some wt → InPair i wt.cf ∧ wt.cf.numSamples = num)
    (ho : ∀ n < m, TwoOctaves L i |(st (n + 1)).prevPhaseDiff|) {e : ℝ}
    (he : ∀ {c c' : CrossFader ℝ}, c.Inv → c.numSamples = num → ∀ {d : ℝ}, 0 < d → ∀ {t : MipMapIndices ℝ},
      c.newIndices S.env d = .ok (c', t) → ∀ k, |t.weightOf k - Props.stateWeight c' k| ≤ e)
    {n : ℕ} (hn : n + 1 < m) (k : ℤ) :
    |(t (n + 1)).weightOf k - (t n).weightOf k| ≤ 1 / num + 2 * e := by
  obtain ⟨wt, c, e0, hw, hd, hni, e1⟩ := run_fader hf hl hB h hp (n := n) (by omega)
  obtain ⟨wt', c', e0', hw', hd', hni', e1'⟩ := run_fader hf hl hB h hp (n := n + 1) hn
  obtain ⟨i1, i2⟩ := run_pair hf hl hB h hp h0 ho (n := n) (by omega) wt e0
  rw [e1] at e0'; cases e0'
  obtain ⟨i1', i2'⟩ := run_pair hf hl hB h hp h0 ho (n := n + 1) (by omega) _ e1
  dsimp only at hni' i1' i2'
  have hcinv : c.Inv := hw'.inv
  have hcs : c.scale = octaveScale ℝ L := hw'.scale
  have hnum : 1 ≤ num := by rw [← i2']; exact hcinv.num
  obtain ⟨i', hi', hii⟩ : ∃ i', IsOctave L i' |(st (n + 1 + 1)).prevPhaseDiff| ∧ (i' = i ∨ i' = i + 1) := by
    rcases ho (n + 1) hn with h | h
    · exact ⟨_, h, Or.inl rfl⟩
    · exact ⟨_, h, Or.inr rfl⟩
  have a := Props.stateWeight_step hf hw.L2 hnum hcinv ⟨hcs, i2'⟩ hd' hni' hi'
    (fun hs => by
      have := hcinv.fading hs
      obtain ⟨a1, a2⟩ := i1'
      omega) (fun hs => by
      obtain ⟨a1, a2⟩ := i1'
      rw [abs_le]; omega) k
  have b1 := he hw.inv i2 hd hni k
  have b2 := he hcinv i2' hd' hni' k
  have e : (t (n + 1)).weightOf k - (t n).weightOf k = (Props.stateWeight c' k - Props.stateWeight c k) +
      (((t (n + 1)).weightOf k - Props.stateWeight c' k) - ((t n).weightOf k - Props.stateWeight c k)) := by ring
  rw [e]
  have h1 := abs_add_le (Props.stateWeight c' k - Props.stateWeight c k)
    (((t (n + 1)).weightOf k - Props.stateWeight c' k) - ((t n).weightOf k - Props.stateWeight c k))
  have h2 := abs_sub ((t (n + 1)).weightOf k - Props.stateWeight c' k) ((t n).weightOf k - Props.stateWeight c k)
  linarith

theorem built_start {E : Env ℝ} (hf : Rounding E.fl) (hl : Log2Spec E.log2f) {sr dur : ℝ}
    {wt : WavetableData ℝ} (hb : Built E ws nw L sr dur wt) :
    wt.cf.nextIdx = (findLoop (E.fl (1 / 10)) (octaveScale ℝ L) : ℤ) := by
  have hw := hb.ok hf hl
  obtain ⟨hs, hx, hlen, h⟩ := hb
  obtain ⟨L', xf, h2, h18, hn, hs0, hlen', hxf, rfl⟩ := WavetableData.build_some hf hl hs h
  have e := hw.scale
  change octaveScale ℝ L' = octaveScale ℝ L at e
  rw [← e]
  rfl

theorem tenth_octave {fl : ℝ → ℝ} (hf : Rounding fl) (hL : 2 ≤ L) (hL' : L ≤ 24) {i : ℤ} {d : ℝ} (hio : IsOctave L i d)
    (hi : i = 0 ∨ 2 ^ i.toNat / 2 ^ L ≤ (1 / 10 : ℝ)) : i ≤ (findLoop (fl (1 / 10)) (octaveScale ℝ L) : ℤ) := by
  obtain ⟨a0, a1, a2, a3⟩ := findLoop_octave hL (fl (1 / 10))
  rcases hi with hi | hi
  · omega
  by_contra hc
  rw [not_le] at hc
  obtain ⟨-, i1, -⟩ := hio
  rcases a3 with a3 | a3
  · omega
  have h1 : fl ((2 : ℝ) ^ i.toNat / 2 ^ L) ≤ fl (1 / 10) := hf.mono hi
  have hle : i.toNat ≤ L := by omega
  have h2 : fl ((2 : ℝ) ^ i.toNat / 2 ^ L) = 2 ^ i.toNat / 2 ^ L := by
    generalize i.toNat = m at hle
    have := hf.range 1 ((m : ℤ) - L) (by norm_num) (by omega) (by omega)
    rw [zpow_sub₀ (by norm_num)] at this
    simpa using this
  have h3 : (2 : ℝ) ^ ((findLoop (fl (1 / 10)) (octaveScale ℝ L) : ℤ).toNat + 1) / 2 ^ L ≤ 2 ^ i.toNat / 2 ^ L :=
    div_le_div_of_nonneg_right (pow_le_pow_right₀ (by norm_num) (by omega)) (by positivity)
  linarith

/-- the state after `init` -/
theorem init_pair (hf : Rounding S.env.fl) (hl : Log2Spec S.env.log2f)
    {sr dur : ℝ} {wt : WavetableData ℝ} (hb : Built S.env ws nw L sr dur wt) {o0 o : Osc ℝ C} {x0 D : ℝ} {r : ℤ}
    (hp : PhaseOk S.env.fl x0) (hD : D ≠ 0) (hi : S.init o0 (some wt) x0 D = .ok (o, r)) {i : ℤ}
    (hio : IsOctave L i |D|) (h10 : i = 0 ∨ 2 ^ i.toNat / 2 ^ L ≤ (1 / 10 : ℝ)) :
    ∀ wt', o.wt = some wt' → InPair i wt'.cf ∧ wt'.cf.numSamples = ⌊S.env.fl (dur * sr)⌋ := by
  have hw := hb.ok hf hl
  obtain ⟨c1, c2⟩ := hb.cf hf hl
  obtain ⟨t, e, -⟩ := newIndices_eq (E := S.env) hf hw.inv (abs_pos.2 hD)
  have e1 := Sys.reset_ok (S := S) (o := { o0 with wt := some wt }) hf rfl hw hp hD e
  unfold Sys.init at hi
  dsimp only at hi
  rw [e1, R.ok_bind] at hi
  cases hi
  intro wt' e'
  cases e'
  refine ⟨?_, (nextState_const _ _).2.trans c2⟩
  have hloop : (findLoop |D| wt.cf.scale : ℤ) = i := by
    rw [hw.scale]; exact findLoop_of_octave hw.L2 hio
  have hidle := hw.inv.idle c1
  have hge : i ≤ wt.cf.nextIdx := by
    rw [built_start hf hl hb]
    exact tenth_octave hf hw.L2 (by have := hw.L18; omega) hio h10
  dsimp only
  rw [hloop]
  unfold InPair nextState updateIndices
  rw [if_neg (by simpa using c1)]
  dsimp only
  split_ifs <;> constructor <;> (try dsimp only at *) <;> omega

end Adwt
