import Verif.Spec.Levels
import Verif.Proofs.Levels
import Verif.Props.Click

/-!
# C88 and C90 in float arithmetic: waveforms that are nearly constant
-/

set_option linter.unusedSectionVars false

namespace Adwt.Props
open WavetableData CrossFader
variable {C : Type} [Zero C] [Add C] [Sub C] [Mul C] [Div C]

/-- the two weights of a sample add up to 1 within a rounding error -/
theorem run_sum {S : Sys ℝ C} {val : C → ℂ} {ε : ℝ} (hS : FloatSys S val ε) (hl : Log2Spec S.env.log2f)
    {ws : List ℝ} {nw L m : ℕ} {st sw : ℕ → Osc ℝ C} {w : ℕ → ℤ} {dir : ℕ → Sys.Direction} {p y : ℕ → ℝ}
    {t : ℕ → MipMapIndices ℝ}
    (h : SwitchedRun S ws nw L m st sw w dir p y t) (hp : ∀ i < m, IsPhase S.env.fl (p i)) {n : ℕ} (hn : n < m) :
    |(t n).weight + (t n).weightUp - 1| ≤ ε := by
  obtain ⟨i1, hd⟩ := (run_stages hS.fl hl hS.B h hp hn.le).2 hn
  have ho := Sys.reached_play hS.fl hl hS.B i1.1
  obtain ⟨wt, wt', hwt, hfi⟩ := h.next n hn
  have hw : WtOk nw L wt := by
    obtain ⟨wt', e', h⟩ := ho.wt
    rw [hwt] at e'; cases e'; exact h
  obtain ⟨c, t', hni, hfind, -, -, b0, b1, b2⟩ := Sys.find_spec hS.fl hw (abs_pos.2 hd)
  rw [hfi] at hfind
  cases hfind
  obtain ⟨-, -, -, -, -, -, -, f, -, f2, f3, hfw⟩ := CrossFader.tuple_facts hS.fl hw.inv (abs_pos.2 hd) hni
  have hb : |1 - f| ≤ 1 := abs_le.2 ⟨by linarith, by linarith⟩
  have key := (hS.rel (1 - f) (hb.trans (by norm_num))).trans (roundErr_le hS.ε0 hb (by norm_num))
  rw [mul_one] at key
  rcases hfw with ⟨a, b⟩ | ⟨a, b⟩ <;> rw [a, b]
  · rw [show f + S.env.fl (1 - f) - 1 = S.env.fl (1 - f) - (1 - f) by ring]; exact key
  · rw [show S.env.fl (1 - f) + f - 1 = S.env.fl (1 - f) - (1 - f) by ring]; exact key

theorem waveAt_level {E : Env ℝ} {ws : List ℝ} {nw L : ℕ} (hws : ws.length = nw * 2 ^ L) {c : ℕ → ℝ} {δ : ℝ}
    (h : NearLevels E ws nw L c δ) {w i : ℤ} (w0 : 0 ≤ w) (w1 : w < nw) (i0 : 0 ≤ i) (i1 : i < (L : ℤ) - 1)
    (u : ℝ) : |waveAt E ws L w i u - c w.toNat| ≤ δ := by
  have hlen := mipSamples_length E (waveformOf_length hws (by omega : w.toNat < nw)) i.toNat (by omega)
  have hpos : 0 < (mipSamples E (waveformOf ws (2 ^ L) w.toNat) i.toNat).length := by rw [hlen]; positivity
  have hh := h w.toNat (by omega) i.toNat (by omega)
  have hc : ∀ k : ℤ, |cyc (mipSamples E (waveformOf ws (2 ^ L) w.toNat) i.toNat) k - c w.toNat| ≤ δ := by
    intro k
    refine hh _ ?_
    unfold cyc
    have hlt : (k % (mipSamples E (waveformOf ws (2 ^ L) w.toNat) i.toNat).length).toNat <
        (mipSamples E (waveformOf ws (2 ^ L) w.toNat) i.toNat).length := by
      have h1 := Int.emod_lt_of_pos k (by exact_mod_cast hpos :
        (0 : ℤ) < ((mipSamples E (waveformOf ws (2 ^ L) w.toNat) i.toNat).length : ℤ))
      have h2 := Int.emod_nonneg k (by exact_mod_cast hpos.ne' :
        ((mipSamples E (waveformOf ws (2 ^ L) w.toNat) i.toNat).length : ℤ) ≠ 0)
      omega
    rw [List.getD_eq_getElem _ _ hlt]
    exact List.getElem_mem _
  unfold waveAt interp
  set yy := mipSamples E (waveformOf ws (2 ^ L) w.toNat) i.toNat
  have a0 := Int.fract_nonneg (u * yy.length)
  have a1 := (Int.fract_lt_one (u * yy.length)).le
  rw [← Int.self_sub_floor] at a0 a1
  set θ := u * (yy.length : ℝ) - ⌊u * yy.length⌋
  have b0 := hc ⌊u * yy.length⌋
  have b1 := hc (⌊u * yy.length⌋ + 1)
  set x0 := cyc yy ⌊u * yy.length⌋
  set x1 := cyc yy (⌊u * yy.length⌋ + 1)
  rw [show x0 + θ * (x1 - x0) - c w.toNat = (1 - θ) * (x0 - c w.toNat) + θ * (x1 - c w.toNat) by ring]
  refine (abs_add_le _ _).trans ?_
  rw [abs_mul, abs_mul, abs_of_nonneg a0, abs_of_nonneg (by linarith : 0 ≤ 1 - θ)]
  have := mul_le_mul_of_nonneg_left b0 (by linarith : 0 ≤ 1 - θ)
  have := mul_le_mul_of_nonneg_left b1 a0
  linarith

theorem mixture_level {E : Env ℝ} {ws : List ℝ} {nw L : ℕ} (hws : ws.length = nw * 2 ^ L) {c : ℕ → ℝ} {δ κ ε : ℝ}
    (h : NearLevels E ws nw L c δ) {w : ℤ} (w0 : 0 ≤ w) (w1 : w < nw) {t : MipMapIndices ℝ} (ht : Sel L κ t)
    (hs : |t.weight + t.weightUp - 1| ≤ ε) (u : ℝ) :
    |mixture E ws L w t u - c w.toNat| ≤ κ * δ + ε * |c w.toNat| := by
  have hδ0 : 0 ≤ δ := (abs_nonneg _).trans (waveAt_level hws h w0 w1 ht.i0 ht.i1 u)
  have a1 := mul_le_mul_of_nonneg_left (waveAt_level hws h w0 w1 ht.i0 ht.i1 u) ht.w0
  have a2 : t.weightUp * |waveAt E ws L w t.idxUp u - c w.toNat| ≤ t.weightUp * δ := by
    by_cases hz : t.weightUp = 0
    · rw [hz]; simp
    · obtain ⟨b1, b2⟩ := ht.up hz
      exact mul_le_mul_of_nonneg_left (waveAt_level hws h w0 w1 (by have := ht.i0; omega) b2 u) ht.w1
  have a3 := mul_le_mul_of_nonneg_right hs (abs_nonneg (c w.toNat))
  have a4 := mul_le_mul_of_nonneg_right ht.sum hδ0
  unfold mixture
  set x := waveAt E ws L w t.idx u
  set x' := waveAt E ws L w t.idxUp u
  rw [show t.weight * x + t.weightUp * x' - c w.toNat = t.weight * (x - c w.toNat) +
    t.weightUp * (x' - c w.toNat) + (t.weight + t.weightUp - 1) * c w.toNat by ring]
  refine (abs_add_le _ _).trans ((add_le_add (abs_add_le _ _) le_rfl).trans ?_)
  rw [abs_mul, abs_mul, abs_mul, abs_of_nonneg ht.w0, abs_of_nonneg ht.w1]
  linarith

theorem levelResponse_const (flt : Filter ℂ) (c : ℝ) (n : ℕ) :
    levelResponse flt (fun _ => c) n = c * stepResponse flt (n + 1 : ℕ) := by
  unfold levelResponse
  rw [← Finset.mul_sum]
  congr 1
  have key := Finset.sum_range_sub' (fun i : ℕ => stepResponse flt ((n : ℝ) + 1 - i)) (n + 1)
  have h0 : stepResponse flt ((n : ℝ) + 1 - (n + 1 : ℕ)) = 0 := by
    rw [show (n : ℝ) + 1 - (n + 1 : ℕ) = 0 by push_cast; ring]
    unfold stepResponse
    simp
  rw [h0, sub_zero] at key
  rw [show ((n + 1 : ℕ) : ℝ) = (n : ℝ) + 1 - (0 : ℕ) by push_cast; ring, ← key]
  refine Finset.sum_congr rfl fun i _ => ?_
  congr 2
  push_cast
  ring

/-- C90 in float arithmetic, built-in filters stored in binary32: waveforms that are nearly constant (after
the resampler, within `δ` of the level `c w`), chosen anew before each sample, with any phases. The output is the
response of the filter to the sequence of levels, apart from `δ`, a 4000th of the peak of the tables, and the
rounding error of the run. -/
theorem C90_levels (S : Sys ℝ C) (val : C → ℂ) (ε : ℝ) (hS : FloatSys S val ε) (hl : Log2Spec S.env.log2f)
    (ft : FilterType) (hst : StoredFilter (1 / 2 ^ 23) ft (valFilter val S.flt))
    (ws : List ℝ) (nw L : ℕ) (A Λ : ℝ)
    (hA : TablesWithin S.env ws nw L A) (hΛ : SlopesWithin S.env ws nw L Λ)
    (M0 : 1 / 2 ^ 40 ≤ A + Λ) (M1 : A + Λ ≤ 2 ^ 24) (c : ℕ → ℝ) (δ : ℝ) (hc : NearLevels S.env ws nw L c δ)
    (hcA : ∀ w < nw, |c w| ≤ A)
    (m : ℕ) (st sw : ℕ → Osc ℝ C) (w : ℕ → ℤ) (dir : ℕ → Sys.Direction) (p y : ℕ → ℝ)
    (t : ℕ → MipMapIndices ℝ)
    (h : SwitchedRun S ws nw L m st sw w dir p y t) (hp : ∀ i < m, IsPhase S.env.fl (p i))
    (hd : ∀ i < m, 1 / 2 ^ 100 ≤ |(st (i + 1)).prevPhaseDiff|) (n : ℕ) (hn : n < m) :
    |y n - levelResponse (filterX ft) (fun i => c (w i).toNat) n| ≤
      headroom ft * (1.001 * δ + ε * A) + 1 / 2 ^ 12 * (1.001 * A) +
      ε * (A + Λ) * roundoffGain (valFilter val S.flt) 6.4 := by
  have hws := plays_length h.plays
  have hsel : ∀ i < n + 1, Sel L 1.001 (t i) := fun i hi => run_sel hS.fl hl hS.B h hp
      (fun hc _ hd _ e => (Sys.weight_facts hS hc hd e).2.2.1) (by omega)
  have hδ0 : 0 ≤ δ := by
    have := hsel 0 (Nat.succ_pos n)
    have hw := h.wave 0 (by omega)
    exact (abs_nonneg _).trans (waveAt_level hws hc hw.1 hw.2 this.i0 this.i1 0)
  have hA0 : 0 ≤ A := by
    have := hsel 0 (Nat.succ_pos n)
    have hw := h.wave 0 (by omega)
    exact (abs_nonneg _).trans (waveAt_le hws hA hw.1 hw.2 this.i0 this.i1 0)
  have hε := hS.ε0
  set x0 := (st 0).prevPhase
  set d := trueStepOf S.env.fl dir (st 0).prevPhase p
  have b1 := filtered_near_peak (filterX_re ft) (m := n + 1) (V := playedW S.env ws L w t (unwrapped x0 d))
    (V' := fun u => c (w ⌊u⌋₊).toNat)
    (g := fun i τ => mixture S.env ws L (w i) (t i) (x0 + ∑ l ∈ Finset.range i, d l + τ * d i))
    (g' := fun i _ => c (w i).toNat) (η := 1.001 * δ + ε * A)
    (fun i _ => mixture_continuous.comp (by fun_prop)) (fun _ _ => continuous_const) (fun i _ u h0 h1 => by
      unfold playedW
      rw [floor_mid h0 h1]
      unfold unwrapped
      rw [floor_mid h0 h1]) (fun i _ u h0 h1 => by rw [floor_mid h0 h1]) (fun i hi u h0 h1 => by
      unfold playedW
      rw [floor_mid h0 h1]
      have hw := h.wave i (by omega)
      refine (mixture_level hws hc hw.1 hw.2 (hsel i hi) (run_sum hS hl h hp (by omega)) _).trans ?_
      have := mul_le_mul_of_nonneg_left (hcA (w i).toNat (by omega)) hε
      linarith) (by positivity)
  rw [filtered_levels (filterX ft) (fun i => c (w i).toNat)] at b1
  have b2 := stored_signal (m := n + 1) hst (κ := 1.001) (by norm_num) hws hA (w := w)
    (fun i hi => h.wave i (by omega)) (t := t) hsel (x := x0) (d := d) (Nat.succ_pos n)
  have b3 := C72_float S val ε hS hl ws nw L A Λ hA hΛ M0 M1 m st sw w dir p y t h hp hd n hn
  have c1 := mul_le_mul_of_nonneg_right (C87_gain ft) (by positivity : 0 ≤ 1.001 * δ + ε * A)
  have e : ∑ i ∈ Finset.range (n + 1), c (w i).toNat * (stepResponse (filterX ft) ((n + 1 : ℕ) - i) -
      stepResponse (filterX ft) ((n + 1 : ℕ) - (i + 1))) = levelResponse (filterX ft) (fun i => c (w i).toNat) n := by
    unfold levelResponse
    refine Finset.sum_congr rfl fun i _ => ?_
    push_cast
    rw [show (n : ℝ) + 1 - (i + 1) = n - i by ring]
  rw [e] at b1
  have en : ((n + 1 : ℕ) : ℝ) = n + 1 := by push_cast; rfl
  rw [en] at b1 b2
  have t1 := abs_sub_le (y n) (filtered (valFilter val S.flt) (playedW S.env ws L w t (unwrapped x0 d)) (n + 1))
    (levelResponse (filterX ft) (fun i => c (w i).toNat) n)
  have t2 := abs_sub_le (filtered (valFilter val S.flt) (playedW S.env ws L w t (unwrapped x0 d)) (n + 1))
    (filtered (filterX ft) (playedW S.env ws L w t (unwrapped x0 d)) (n + 1))
    (levelResponse (filterX ft) (fun i => c (w i).toNat) n)
  linarith

/-- C88 in float arithmetic: the same with one level `c`: the output is `c` times the step response. -/
theorem C88_float (S : Sys ℝ C) (val : C → ℂ) (ε : ℝ) (hS : FloatSys S val ε) (hl : Log2Spec S.env.log2f)
    (ft : FilterType) (hst : StoredFilter (1 / 2 ^ 23) ft (valFilter val S.flt))
    (ws : List ℝ) (nw L : ℕ) (A Λ : ℝ)
    (hA : TablesWithin S.env ws nw L A) (hΛ : SlopesWithin S.env ws nw L Λ)
    (M0 : 1 / 2 ^ 40 ≤ A + Λ) (M1 : A + Λ ≤ 2 ^ 24) (c δ : ℝ) (hc : NearLevels S.env ws nw L (fun _ => c) δ)
    (hcA : |c| ≤ A)
    (m : ℕ) (st sw : ℕ → Osc ℝ C) (w : ℕ → ℤ) (dir : ℕ → Sys.Direction) (p y : ℕ → ℝ)
    (t : ℕ → MipMapIndices ℝ)
    (h : SwitchedRun S ws nw L m st sw w dir p y t) (hp : ∀ i < m, IsPhase S.env.fl (p i))
    (hd : ∀ i < m, 1 / 2 ^ 100 ≤ |(st (i + 1)).prevPhaseDiff|) (n : ℕ) (hn : n < m) :
    |y n - c * stepResponse (filterX ft) (n + 1 : ℕ)| ≤
      headroom ft * (1.001 * δ + ε * A) + 1 / 2 ^ 12 * (1.001 * A) +
      ε * (A + Λ) * roundoffGain (valFilter val S.flt) 6.4 := by
  rw [← levelResponse_const]
  exact C90_levels S val ε hS hl ft hst ws nw L A Λ hA hΛ M0 M1 (fun _ => c) δ hc (fun _ _ => hcA) m st sw w dir p
    y t h hp hd n hn

/-- C88 and C90 for the library's oscillators on any machine with IEEE binary32 arithmetic, debug or release
build, any resampler: float phases that are zero or not subnormal, forwards or to and fro, any waveform
chosen before each sample. -/
theorem C90_levels_builtin (E : Env ℝ) (hE : IeeeHost E) (ft : FilterType) (ws : List ℝ) (nw L : ℕ) (A Λ : ℝ)
    (hA : TablesWithin E ws nw L A) (hΛ : SlopesWithin E ws nw L Λ)
    (M0 : 1 / 2 ^ 40 ≤ A + Λ) (M1 : A + Λ ≤ 2 ^ 24) (c : ℕ → ℝ) (δ : ℝ) (hc : NearLevels E ws nw L c δ)
    (hcA : ∀ w < nw, |c w| ≤ A)
    (sr dur : ℝ) (wt : WavetableData ℝ) (hb : Built E ws nw L sr dur wt)
    (o0 : Osc ℝ CFloat) (D : ℝ) (r : ℤ) (x : ℕ → ℝ)
    (hx : ∀ n, 0 ≤ x n ∧ x n < 1 ∧ ieee32 (x n) = x n ∧ (x n = 0 ∨ 1 / 2 ^ 126 ≤ x n)) (hD : D ≠ 0)
    (w : ℕ → ℤ) (hw : ∀ n, 0 ≤ w n ∧ w n < nw) (dir : ℕ → Sys.Direction)
    (hstep : ∀ n, StepOk (dir n) (x n) (x (n + 1)))
    (hmin : ∀ n, 1 / 2 ^ 100 ≤ |Sys.dirDiff ieee32 (dir n) (x (n + 1)) (x n)|)
    (hslow : FallsSlowly L ⌊ieee32 (dur * sr)⌋ (stepsAlong ieee32 D dir x))
    (hclear : ClearOfChanges ieee32 L ⌊ieee32 (dur * sr)⌋ (stepsAlong ieee32 D dir x) x)
    (st sw : ℕ → Osc ℝ CFloat) (y : ℕ → ℝ)
    (hi : (sysRnd ieee32 E ft).init o0 (some wt) (x 0) D = .ok (st 0, r))
    (hset : ∀ n, (sysRnd ieee32 E ft).setWaveform (st n) (w n) = .ok (sw n))
    (hcall : ∀ n, (sysRnd ieee32 E ft).process (dir n) (sw n) [x (n + 1)] [0] = .ok (st (n + 1), [y n])) (n : ℕ) :
    |y n - levelResponse (filterX ft) (fun i => c (w i).toNat) n| ≤
      headroom ft * (1.001 * δ + 1 / 2 ^ 21 * A) + 1 / 2 ^ 12 * (1.001 * A) +
      1 / 2 ^ 21 * (A + Λ) * roundoffGain (valFilter CFloat.val (sysRnd ieee32 E ft).flt) 6.4 := by
  have hS : FloatSys (sysRnd ieee32 E ft) CFloat.val (1 / 2 ^ 21) :=
    floatSysRnd (E := E) (by rw [hE.fl]; exact rounding_ieee32) hE.fl hE.dbl ft
  have hfl : (sysRnd ieee32 E ft).env.fl = ieee32 := hE.fl
  obtain ⟨s1, w1, y1, t, a1, a2, a3, a4, a5, a6⟩ := scratch_run (S := sysRnd ieee32 E ft) (w := w) (dir := dir)
    (x := x) (d := stepsAlong ieee32 D dir x) hS.fl hS.B hE.log2 hb
    (fun n => by rw [hfl]; exact ⟨(hx n).1, (hx n).2.1, isPhase_ieee32 (hx n).2.2.1⟩) hD hi hw hstep rfl
    (fun n => by rw [hfl]; rfl)
    (by rw [hfl]; exact hslow) (by rw [hfl]; exact hclear)
    (fun n => normal_offDenormal (hx n).2.2.1 (hx n).1 (hx n).2.2.2 (hE.L100 hb))
  have a5' : ∀ n, (s1 (n + 1)).prevPhaseDiff = Sys.dirDiff ieee32 (dir n) (x (n + 1)) (x n) := a5
  have u1 : ∀ n, sw n = w1 n ∧ y n = y1 n := fun n =>
    (calls_unique (m := n + 1) a1.symm (fun i _ => hset i) (fun i _ => hcall i)
      (fun i _ => a3 i) (fun i _ => a4 i) (Nat.le_succ n)).2 (Nat.lt_succ_self n)
  rw [(u1 n).2]
  exact C90_levels _ _ _ hS hE.log2 ft (C68_stored ft) ws nw L A Λ hA hΛ M0 M1 c δ hc hcA (n + 1) s1 w1 w dir _ y1 t
      (a6 (n + 1)) (fun i _ => by rw [hfl]; exact isPhase_ieee32 (hx _).2.2.1)
      (fun i _ => by rw [a5']; exact hmin i) n (Nat.lt_succ_self n)

/-! ### the hypotheses are met -/

/-- A wavetable of two constant waveforms of 8 samples: off and on. -/
def gateWs : List ℝ := List.replicate 8 0 ++ List.replicate 8 1

theorem gateWs_length : gateWs.length = 2 * 2 ^ 3 := by simp [gateWs]

theorem gateWs_le : ∀ x ∈ gateWs, |x| ≤ 1 := by
  intro x hx
  rcases List.mem_append.1 hx with h | h <;> rw [(List.mem_replicate.1 h).2] <;> norm_num

theorem keepsI : KeepsConstants envI := by
  intro c n r
  exact keepsX c n r

theorem gateWs_levels : NearLevels envI gateWs 2 3 (fun w => w) 0 := by
  intro w hw i hi x hx
  have e : waveformOf gateWs (2 ^ 3) w = List.replicate 8 (w : ℝ) := by
    interval_cases w <;> simp [waveformOf, gateWs]
  rw [e] at hx
  obtain ⟨m, hm⟩ := mip_const keepsI (w : ℝ) 8 i
  rw [hm] at hx
  rw [(List.mem_replicate.1 hx).2]
  simp

/-- Two constant waveforms, switched on and off at will (`w`) while the phase moves on by 1/8 and 1/4 in turn, in
binary32 arithmetic: the output is the response of the filter to the gate signal `w`. -/
example (ft : FilterType) (w : ℕ → ℤ) (hw : ∀ n, 0 ≤ w n ∧ w n < (2 : ℕ)) :
    ∃ (wt : WavetableData ℝ) (st : ℕ → Osc ℝ CFloat) (r : ℤ) (sw : ℕ → Osc ℝ CFloat) (y : ℕ → ℝ),
      Built envI gateWs 2 3 44100 (1 / 256) wt ∧
      (sysF ft).init (sysF ft).fresh (some wt) 0 (1 / 8) = .ok (st 0, r) ∧
      (∀ n, (sysF ft).setWaveform (st n) (w n) = .ok (sw n)) ∧
      (∀ n, (sysF ft).process .kForward (sw n) [(zigzag (n + 1) : ℝ) / 8] [0] = .ok (st (n + 1), [y n])) ∧
      ∀ n, |y n - levelResponse (filterX ft) (fun i => ((w i).toNat : ℝ)) n| ≤
        headroom ft * (1.001 * 0 + 1 / 2 ^ 21 * 1) + 1 / 2 ^ 12 * (1.001 * 1) +
        1 / 2 ^ 21 * (1 + 16) * roundoffGain (valFilter CFloat.val (sysF ft).flt) 6.4 := by
  have hz : ∀ n, zigzag n < 8 := fun n => by unfold zigzag; omega
  have hph : ∀ n, PhaseOk envI.fl ((zigzag n : ℝ) / 8) := by
    intro n
    have := phaseOk_dyadic envI_ok.1 (k := zigzag n) (n := 3) (hz n) (by norm_num)
    norm_num at this ⊢
    exact this
  have hz0 : ((zigzag 0 : ℕ) : ℝ) / 8 = 0 := by simp [zigzag]
  have e2 : envI.fl (1 / 256 * 44100) = 1 / 256 * 44100 := by
    have e : (1 / 256 * 44100 : ℝ) = ((44100 : ℤ) : ℝ) / 2 ^ 8 := by norm_num
    rw [e, envI_ok.1.dyadic 44100 8 (by norm_num)]
  obtain ⟨wt, hb⟩ : ∃ wt, Built envI gateWs 2 3 44100 (1 / 256) wt := by
    have hr : IsRate envI.fl (44100 : ℝ) := by
      have := envI_ok.1.isRate 44100 (by norm_num); simpa using this
    obtain ⟨wt, h⟩ := C02_succeeds envI envI_ok.1 envI_ok.2.1 envI_ok.2.2 3 (by norm_num) (by norm_num) 2
      (by norm_num) gateWs gateWs_length 44100 (1 / 256) (by norm_num) hr (by rw [e2]; norm_num)
    exact ⟨wt, hr, by rw [e2]; norm_num, gateWs_length, h⟩
  obtain ⟨o, r, ho⟩ : ∃ o r, (sysF ft).init (sysF ft).fresh (some wt) 0 (1 / 8) = .ok (o, r) := by
    have hw := hb.ok envI_ok.1 envI_ok.2.1
    obtain ⟨t, e, -⟩ := newIndices_eq (E := envI) envI_ok.1 hw.inv (abs_pos.2 (show (1 / 8 : ℝ) ≠ 0 by norm_num))
    have e1 := Sys.reset_ok (S := sysF ft) (o := { (sysF ft).fresh with wt := some wt }) envI_ok.1 rfl hw
      (by have := hph 0; rw [hz0] at this; exact this) (by norm_num) e
    unfold Sys.init
    dsimp only
    rw [e1, R.ok_bind]
    exact ⟨_, _, rfl⟩
  have hd : ∀ n, Sys.dirDiff ieee32 .kForward ((zigzag (n + 1) : ℝ) / 8) ((zigzag n : ℝ) / 8) =
      (if n % 2 = 0 then 1 / 8 else 1 / 4) := zigzag_float
  have hx : ∀ n, 0 ≤ (zigzag n : ℝ) / 8 ∧ (zigzag n : ℝ) / 8 < 1 ∧ ieee32 ((zigzag n : ℝ) / 8) = (zigzag n : ℝ) / 8 ∧
      ((zigzag n : ℝ) / 8 = 0 ∨ 1 / 2 ^ 126 ≤ (zigzag n : ℝ) / 8) := fun n => ⟨(hph n).1, (hph n).2.1, (hph n).2.2.1, by
      rcases Nat.eq_zero_or_pos (zigzag n) with h | h
      · left; rw [h]; norm_num
      · right
        have : (1 : ℝ) ≤ zigzag n := by exact_mod_cast h
        have h8 : (1 : ℝ) / 8 ≤ (zigzag n : ℝ) / 8 := by gcongr
        refine le_trans ?_ h8
        norm_num⟩
  have hpos : ∀ n, 1 / 2 ^ 100 ≤ Sys.dirDiff ieee32 .kForward ((zigzag (n + 1) : ℝ) / 8) ((zigzag n : ℝ) / 8) :=
    fun n => by rw [hd]; split_ifs <;> norm_num
  have hdd : ∀ n, 0 < stepsAlong ieee32 (1 / 8) (fun _ => .kForward) (fun n => (zigzag n : ℝ) / 8) n ∧
      TwoOctaves 3 0 |stepsAlong ieee32 (1 / 8) (fun _ => .kForward) (fun n => (zigzag n : ℝ) / 8) n| := by
    intro n
    cases n with
    | zero =>
      unfold stepsAlong
      exact ⟨by norm_num, by rw [abs_of_pos (by norm_num)]; exact zigzag_oct 0⟩
    | succ n =>
      unfold stepsAlong
      dsimp only
      rw [hd n]
      refine ⟨by split_ifs <;> norm_num, ?_⟩
      rw [abs_of_pos (by split_ifs <;> norm_num)]
      exact zigzag_oct n
  have hS : FloatSys (sysF ft) CFloat.val (1 / 2 ^ 21) :=
    floatSysRnd (rnd := ieee32) (E := envI) rounding_ieee32 rfl ieeeHostI.dbl ft
  have ho' : (sysF ft).init (sysF ft).fresh (some wt) ((fun n : ℕ => (zigzag n : ℝ) / 8) 0) (1 / 8) = .ok (o, r) := by
    dsimp only
    rw [hz0]; exact ho
  obtain ⟨st, sw, y, t, a1, a2, a3, a4, a5, a6⟩ := scratch_run (S := sysF ft) (w := w) (dir := fun _ => .kForward)
    (x := fun n => (zigzag n : ℝ) / 8) (d := stepsAlong ieee32 (1 / 8) (fun _ => .kForward) (fun n => (zigzag n : ℝ) / 8))
    hS.fl hS.B ieeeHostI.log2 hb hph (by norm_num) ho' hw
    (fun n => (zigzag_step n).1) rfl (fun n => rfl)
    (pair_falls fun n => (hdd n).2)
    ⟨fun n hn => absurd (hdd n).1 (by linarith), fun n hn => absurd (hdd n).1 (by linarith)⟩
    (fun n => normal_offDenormal (hx n).2.2.1 (hx n).1 (hx n).2.2.2 (ieeeHostI.L100 hb))
  refine ⟨wt, st, r, sw, y, hb, by rw [a1]; exact ho, a3, a4, fun n => ?_⟩
  exact C90_levels_builtin envI ieeeHostI ft gateWs 2 3 1 16 (tablesWithinI zero_le_one gateWs_le 2 3)
    (by have := slopesWithinI zero_le_one gateWs_le 2 3; norm_num at this; exact this)
    (by norm_num) (by norm_num) (fun w => w) 0 gateWs_levels
    (fun w hw => by interval_cases w <;> norm_num) _ _ _ hb _ (1 / 8) r (fun n => (zigzag n : ℝ) / 8) hx (by norm_num)
    w hw (fun _ => .kForward) (fun n => (zigzag_step n).1)
    (fun n => (hpos n).trans (le_abs_self _)) (pair_falls fun n => (hdd n).2)
    ⟨fun n hn => absurd (hdd n).1 (by linarith), fun n hn => absurd (hdd n).1 (by linarith)⟩
    st sw y (by rw [a1]; exact ho') a3 a4 n

end Adwt.Props
