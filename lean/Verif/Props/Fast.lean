import Verif.Proofs.Fast
import Verif.Props.HoldExact
import Verif.Props.Decay

/-!
# C75: forward mode and phases that do not advance by half a cycle or less
-/

set_option linter.unusedSectionVars false

namespace Adwt.Props
open WavetableData Seg

section
variable {K C : Type} [Field K] [LinearOrder K] [IsStrictOrderedRing K] [FloorRing K]
variable [Zero C] [Add C] [Sub C] [Mul C] [Div C]

/-- C75, safety: in a release build a forward block may move the phase by any amount in either
direction, as long as it changes with every sample. Every history of such blocks, mixed with legal
bidirectional blocks, waveform changes and resets, is processed without a fault. -/
theorem C75_release_safe (S : Sys K C) (hf : Rounding S.env.fl) (hl : Log2Spec S.env.log2f)
    (hB : 0 < S.B) (hdbg : S.env.dbg = false) (nw L : ℕ) (o : Osc K C) (ho : Reached S nw L o)
    (hz : ¬ AtZeroBackward o) (ops : List (Op K)) (hops : HistoryAny S.env.fl nw o.prevPhase ops) :
    ∃ o' ys, runOps S o ops = .ok (o', ys) := by
  obtain ⟨⟨o', ys⟩, e', -⟩ := Sys.historyAny_ok hf hB hdbg (Sys.reached_safe hf hl hB ho hz) hops
  exact ⟨o', ys, e'⟩

/-- C75, the step: the sample is processed as a forward step, of the difference of the phases if it
is positive and of that difference plus one if it is negative: a move back by `b` is a step of
`1 - b` forward. -/
theorem C75_step (S : Sys K C) (hf : Rounding S.env.fl) (hl : Log2Spec S.env.log2f)
    (hB : 0 < S.B) (hdbg : S.env.dbg = false) (nw L : ℕ) (o : Osc K C) (ho : Reached S nw L o)
    (hz : ¬ AtZeroBackward o) (p b : K) (hp : PhaseOk S.env.fl p) (hne : p ≠ o.prevPhase) :
    ∃ o' y, S.process .kForward o [p] [b] = .ok (o', [y]) ∧ o'.prevPhase = p ∧
      (o.prevPhase < p → o'.prevPhaseDiff = S.env.fl (p - o.prevPhase)) ∧
      (p < o.prevPhase → o'.prevPhaseDiff = S.env.fl (S.env.fl (p - o.prevPhase) + 1)) ∧
      0 < o'.prevPhaseDiff ∧ o'.prevPhaseDiff ≤ 1 := by
  have hs := Sys.reached_safe hf hl hB ho hz
  obtain ⟨wt, hwt, -⟩ := hs.wt
  obtain ⟨⟨o1, y1⟩, e, hr⟩ := Sys.stepAny_ok hf hB hdbg hs hp hne
  dsimp only at hr
  refine ⟨o1, y1, ?_, hr.phase, fun h => ?_, fun h => ?_, ?_⟩
  · rw [Sys.process_runDir S _ (by rw [hwt]; rfl) (show [p].length = [b].length from rfl)]
    unfold Sys.runDir
    rw [e]
    rfl
  · rw [hr.diff]
    have := hf.sub_pos hp.2.2 hs.phase.2.2 (by linarith) hne
    unfold Sys.fwdDiff
    dsimp only
    rw [if_neg (by linarith)]
  · rw [hr.diff]
    have := hf.sub_neg hp.2.2 hs.phase.2.2 (by linarith) hne
    unfold Sys.fwdDiff
    dsimp only
    rw [if_pos this]
  · rw [hr.diff]
    exact Sys.fwdDiff_any hf hs.phase hp hne

/-- C75, debug builds: a forward sample which advances by more than half a cycle (by `2^-24` at
least), directly or through the wrap, aborts; a move back by less than half a cycle is such a
sample. -/
theorem C75_debug_aborts (S : Sys K C) (hf : Rounding S.env.fl) (hl : Log2Spec S.env.log2f)
    (hB : 0 < S.B) (hdbg : S.env.dbg = true) (nw L : ℕ) (o : Osc K C) (ho : Reached S nw L o)
    (p : K) (hp : PhaseOk S.env.fl p)
    (hne : (o.prevPhase < p ∧ 1 / 2 + 1 / 2 ^ 24 ≤ p - o.prevPhase) ∨
      (p < o.prevPhase ∧ 1 / 2 + 1 / 2 ^ 24 ≤ p - o.prevPhase + 1))
    (ps out : List K) (hlen : ps.length + 1 = out.length) :
    S.process .kForward o (p :: ps) out = .error .assertFail := by
  have hs := Sys.reached_play hf hl hB ho
  obtain ⟨wt, hwt, -⟩ := hs.wt
  have hlo : (0 : K) < 1 / 2 ^ 24 := by positivity
  have hdy : S.env.fl (1 / 2 + 1 / 2 ^ 24) = 1 / 2 + 1 / 2 ^ 24 := by
    have := hf.dyadic (2 ^ 23 + 1) 24 (by norm_num)
    have e : (((2 ^ 23 + 1 : ℤ) : K)) / 2 ^ 24 = 1 / 2 + 1 / 2 ^ 24 := by push_cast; norm_num
    rwa [e] at this
  have hdy2 : S.env.fl (-(1 / 2) + 1 / 2 ^ 24) = -(1 / 2) + 1 / 2 ^ 24 := by
    have := hf.dyadic (-2 ^ 23 + 1) 24 (by norm_num)
    have e : (((-2 ^ 23 + 1 : ℤ) : K)) / 2 ^ 24 = -(1 / 2) + 1 / 2 ^ 24 := by push_cast; norm_num
    rwa [e] at this
  rw [Sys.process_runDir S _ (by rw [hwt]; rfl) (by simpa using hlen)]
  unfold Sys.runDir
  have hc : ∀ p : Prop, ∀ [Decidable p], ¬ p → chk S.env.dbg p = .error .assertFail := by
    intro p _ hp; unfold chk; rw [if_pos ⟨hdbg, hp⟩]
  show (S.stepFwd o p >>= _) = _
  unfold Sys.stepFwd
  dsimp only
  rw [hc]
  · rfl
  rintro ⟨-, h⟩
  rcases hne with ⟨h1, h2⟩ | ⟨h1, h2⟩
  · have h3 := hf.ge_of_ge hdy h2
    rw [if_neg (by linarith)] at h
    linarith
  · have h3 := hf.sub_neg hp.2.2 hs.phase.2.2 (by linarith) h1.ne
    rw [if_pos h3] at h
    have h4 := hf.ge_of_ge hdy2 (x := p - o.prevPhase) (by linarith)
    have h5 := hf.ge_of_ge hdy (x := S.env.fl (p - o.prevPhase) + 1) (by linarith)
    linarith

end

variable {S : Sys ℝ ℂ} {ws : List ℝ} {nw L : ℕ} {o o' : Osc ℝ ℂ}

/-- C75, the value: in exact arithmetic a release build still gives the formula of the method for
forward steps up to three quarters of a cycle. -/
theorem C75_value (S : Sys ℝ ℂ) (hS : ExactSys S) (hl : Log2Spec S.env.log2f)
    (hdbg : S.env.dbg = false) (ws : List ℝ) (nw L : ℕ) (o : Osc ℝ ℂ) (ho : Plays S ws nw L o)
    (hz : ¬ AtZeroBackward o) (p d b : ℝ) (hp : 0 ≤ p ∧ p < 1) (hd0 : 0 < d) (hd1 : d < 3 / 4)
    (hd : d = p - o.prevPhase ∨ d = p - o.prevPhase + 1) (t : MipMapIndices ℝ)
    (ht : NextIndices S o d t) (hm : TableMove o t.idx)
    (hx : OffDenormal (2 ^ (L - t.idx.toNat)) o.prevPhase) :
    ∃ o', S.process .kForward o [p] [b] = .ok (o', [output o'.prevY]) ∧ o'.prevPhaseDiff = d ∧
      o'.prevY = nextMemory S.flt o.prevY (mixture S.env ws L o.crt t) o.prevPhase d := by
  have hf := Sys.exact_rounding hS
  have hs := Sys.reached_play hf hl hS.B ho.1
  obtain ⟨wt, hwt, hlin⟩ := ho.lines hS.fl hl
  have hp' : PhaseOk S.env.fl p := ⟨hp.1, hp.2, by rw [hS.fl]; exact isPhase_id _⟩
  have hph := hs.phase
  have hne : p ≠ o.prevPhase := by
    rintro rfl
    rcases hd with hd | hd <;> linarith
  have hdd : Sys.fwdDiff S.env.fl p o.prevPhase = d := by
    unfold Sys.fwdDiff
    dsimp only
    rw [hS.fl]
    dsimp only [id]
    rcases hd with hd | hd
    · rw [if_neg (by linarith), hd]
    · rw [if_pos (by have := hph.1; have := hp.2; have := hph.2.1; have := hp.1; linarith), hd]
  rw [← hdd] at ht
  obtain ⟨h0, h1, h2, h3, o', e, -, e2, -, e4⟩ := Sys.stepAny_eq hS hdbg hs hz hwt hp' hne ht
  rw [hdd] at e2 e4
  refine ⟨o', ?_, e2, ?_⟩
  · rw [Sys.process_runDir S _ (by rw [hwt]; rfl) (show [p].length = [b].length from rfl)]
    unfold Sys.runDir
    rw [e]
    rfl
  · rw [e4]
    exact Sys.cpxY_exact hS _ fun k hk => Sys.accF_exact hS hs hlin hp' hd0 hd1 hd h0 h1 h2 h3 hm
      (fun h1 _ h => hz ⟨h, h1⟩) hx hk

/-- A history with a jump of 5/8, a move back, a jump in the wrap and a bidirectional block. -/
example : HistoryAny envIR.fl 2 (1 / 8)
    [.process .kForward [3 / 4, 1 / 2, 3 / 8], .setWaveform 1,
      .process .kBidirectionnal [1 / 4, 3 / 4], .reset (3 / 8) (-(1 / 100)),
      .process .kForward [1 / 4]] := by
  have key : ∀ k : ℕ, k < 8 → PhaseOk envIR.fl ((k : ℝ) / 2 ^ 3) := fun k hk =>
    phaseOk_dyadic envI_ok.1 (by norm_num; exact hk) (by norm_num)
  have k2 := key 2 (by norm_num); have k3 := key 3 (by norm_num)
  have k4 := key 4 (by norm_num); have k6 := key 6 (by norm_num)
  norm_num at k2 k3 k4 k6
  refine ⟨⟨k6, by norm_num, k4, by norm_num, k3, by norm_num, trivial⟩, by norm_num, by norm_num,
    ⟨k2, ⟨by norm_num, by norm_num⟩, k6, ⟨by norm_num, by norm_num⟩, trivial⟩,
    k3, by norm_num, by norm_num, ⟨k2, by norm_num, trivial⟩, trivial⟩

/-- The hypotheses of `C75_release_safe`, `C75_step` and `C75_value` can be met: eight samples,
phase 1/16, a step of 5/8 in exact arithmetic. -/
example (ft : FilterType) (ws : List ℝ) (h : ws.length = 8) : ∃ o t,
    Plays (sysOf envXR ft) ws 1 3 o ∧ ¬ AtZeroBackward o ∧
      (5 / 8 : ℝ) = 11 / 16 - o.prevPhase ∧
      NextIndices (sysOf envXR ft) o (5 / 8) t ∧ TableMove o t.idx ∧
      OffDenormal (2 ^ (3 - t.idx.toNat)) o.prevPhase := by
  have hE : Rounding envXR.fl ∧ Log2Spec envXR.log2f ∧ SrcContract envXR.src := envX_ok
  obtain ⟨o, ho, h1, h2, wt1, wt0, hw1, hb, ht⟩ := exampleRelease envXR hE ft ws h 1 (by norm_num)
  have h1 : o.prevPhase = 1 / 16 := by rw [h1]; norm_num
  have hs := Sys.reached_play (S := sysOf envXR ft) hE.1 hE.2.1 (by norm_num [sysOf]) ho
  obtain ⟨wt, hwt, hw⟩ := hs.wt
  obtain ⟨c, t, hn, hfind, hw', -, ht0, ht1, -⟩ := Sys.find_spec (S := sysOf envXR ft) hE.1 hw
    (show (0 : ℝ) < |5 / 8| by norm_num)
  have h0 := hs.mip0
  have h3 := hs.mip1
  have hk : t.idx = 0 ∨ t.idx = 1 := by push_cast at ht1; omega
  refine ⟨o, t, ⟨ho, _, _, _, _, hb, hw1, ht⟩, fun h => ?_, by rw [h1]; norm_num,
    ⟨wt, _, hwt, hfind⟩, ?_, ?_⟩
  · have := h.2; rw [h2] at this; norm_num at this
  · unfold TableMove
    rw [h2]
    push_cast at h3
    rcases hk with hk | hk
    · omega
    · by_cases ho : o.prevMip = 1
      · left; omega
      · right; left; exact ⟨by norm_num, by omega⟩
  · rw [h1]
    rcases hk with hk | hk
    · rw [hk]
      have := offDenormal_dyadic 1 4 3 (by norm_num) (by norm_num)
      norm_num at this ⊢
      exact this
    · rw [hk]
      have := offDenormal_dyadic 1 4 2 (by norm_num) (by norm_num)
      norm_num at this ⊢
      exact this

/-! ### a turn that gets lost -/

/-- C75, a lost turn: when the phase moves back within one segment of the table, i.e. forward by
nearly a whole turn, a release build does not see the turn. If the two samples at the ends of this
segment are zero, the sample is computed as if the whole waveform were silent. -/
theorem C75_lost_turn (S : Sys ℝ ℂ) (hS : ExactSys S) (hl : Log2Spec S.env.log2f)
    (hdbg : S.env.dbg = false) (ws : List ℝ) (nw L : ℕ) (o : Osc ℝ ℂ) (ho : Plays S ws nw L o)
    (p b : ℝ) (j : ℤ) (hj0 : 0 ≤ j) (hp : p < o.prevPhase) (t : MipMapIndices ℝ)
    (ht : NextIndices S o (p - o.prevPhase + 1) t) (h0 : t.weightUp = 0) (hm : TableMove o t.idx)
    (hx : OffDenormal (2 ^ (L - t.idx.toNat)) o.prevPhase)
    (hlo : (j : ℝ) < p * 2 ^ (L - t.idx.toNat))
    (hhi : o.prevPhase * 2 ^ (L - t.idx.toNat) < j + 1)
    (hs0 : cyc (mipSamples S.env (waveformOf ws (2 ^ L) o.crt.toNat) t.idx.toNat) j = 0)
    (hs1 : cyc (mipSamples S.env (waveformOf ws (2 ^ L) o.crt.toNat) t.idx.toNat) (j + 1) = 0) :
    ∃ o', S.process .kForward o [p] [b] = .ok (o', [output o'.prevY]) ∧
      o'.prevPhaseDiff = p - o.prevPhase + 1 ∧
      o'.prevY = nextMemory S.flt o.prevY (fun _ => 0) o.prevPhase (p - o.prevPhase + 1) := by
  have hf := Sys.exact_rounding hS
  have hs := Sys.reached_play hf hl hS.B ho.1
  obtain ⟨wt, hwt, hlin⟩ := ho.lines hS.fl hl
  have hph := hs.phase
  have hN : (0 : ℝ) < 2 ^ (L - t.idx.toNat) := by positivity
  have hj0' : (0 : ℝ) ≤ j := by exact_mod_cast hj0
  have hp0 : 0 < p := by
    by_contra h
    have := mul_nonpos_of_nonpos_of_nonneg (not_lt.1 h) hN.le
    linarith
  have hp' : PhaseOk S.env.fl p := ⟨hp0.le, by linarith [hph.2.1], by rw [hS.fl]; exact isPhase_id _⟩
  have hne : p ≠ o.prevPhase := hp.ne
  have hz : ¬ AtZeroBackward o := fun h => by have := h.1; linarith
  have hdd : Sys.fwdDiff S.env.fl p o.prevPhase = p - o.prevPhase + 1 := by
    unfold Sys.fwdDiff
    dsimp only
    rw [hS.fl]
    dsimp only [id]
    rw [if_pos (by linarith)]
  rw [← hdd] at ht
  obtain ⟨t0, t1, t2, t3, o', e, -, e2, -, e4⟩ := Sys.stepAny_eq hS hdbg hs hz hwt hp' hne ht
  rw [hdd] at e2 e4
  have hpN : p * 2 ^ (L - t.idx.toNat) < o.prevPhase * 2 ^ (L - t.idx.toNat) :=
    mul_lt_mul_of_pos_right hp hN
  refine ⟨o', ?_, e2, ?_⟩
  · rw [Sys.process_runDir S _ (by rw [hwt]; rfl) (show [p].length = [b].length from rfl)]
    unfold Sys.runDir
    rw [e]
    rfl
  rw [e4]
  refine Sys.cpxY_exact hS _ fun k hk => ?_
  have hr : response (fun _ => 0) (S.zA k) o.prevPhase (p - o.prevPhase + 1) = 0 := by
    unfold response; simp
  rw [hr, mul_zero]
  -- both positions are in segment `j`
  have f1 : ⌊p * 2 ^ (L - t.idx.toNat)⌋ = j := Int.floor_eq_iff.2 ⟨hlo.le, by linarith⟩
  have f2 : ⌊o.prevPhase * 2 ^ (L - t.idx.toNat)⌋ = j := Int.floor_eq_iff.2 ⟨by linarith, hhi⟩
  have hoff : ∀ k : ℤ, o.prevPhase ≠ k / 2 ^ (L - t.idx.toNat) := by
    intro k h
    rw [eq_div_iff hN.ne'] at h
    rw [h] at hhi hpN
    have a : (j : ℝ) < k := by linarith
    have a' : j < k := by exact_mod_cast a
    have b' : k < j + 1 := by exact_mod_cast hhi
    omega
  have hseg := Sys.hold_segment hf hs t0 t1 hm hx hoff
  rw [f2] at hseg
  have hn18 : L - t.idx.toNat ≤ 18 := by
    obtain ⟨wt, -, h⟩ := hs.wt
    have := h.L18; omega
  obtain ⟨-, hj1⟩ := Sys.floor_range hn18 hp'.1 hp'.2.1
  rw [f1] at hj1
  have hl := hlin.lines o.crt t.idx hs.crt0 hs.crt1 t0 t1
  have hl' := hlin.len o.crt t.idx hs.crt0 hs.crt1 t0 t1
  unfold Sys.accF Sys.mix
  rw [f1, hseg, if_neg (not_not.2 h0)]
  unfold Sys.fwdAt Sys.fwdVal
  have hb : Sys.bornSup j j (2 ^ (L - t.idx.toNat)) = j := by
    unfold Sys.bornSup; rw [if_neg (lt_irrefl _), add_zero]
  rw [hb, Sys.irange_self, List.foldl_nil, Sys.i0Val_exact hS hk,
    hl.m _ hj0 (by push_cast; exact hj1), hl.q _ hj0 (by push_cast; exact hj1)]
  unfold M
  rw [hs0, hs1]
  simp

/-- the response of a stable pole to a single peak between the two ends of the turn is not zero -/
theorem peak_response {z : ℂ} (hz : z.re < 0) :
    response (interp [0, 0, 1, 0]) z (3 / 16) (7 / 8) ≠ 0 := by
  intro h
  have hN : (0 : ℝ) < 4 := by norm_num
  have key := (segs (N := 4) (Y := cyc [0, 0, 1, 0]) (z := z) (x1 := 3 / 16 + 7 / 8) (d := 7 / 8)
    hN (by norm_num) (a := 0) (u := 3 / 16) ⟨by norm_num, by norm_num⟩ 4
    (v := 3 / 16 + 7 / 8) ⟨by norm_num, by norm_num⟩).2
  rw [response_eq _ _ (by norm_num), interp_eq] at h
  have hlen : (([0, 0, 1, 0] : List ℝ).length : ℝ) = 4 := by norm_num
  rw [hlen] at h
  rw [h, mul_zero] at key
  have c0 : cyc [0, 0, 1, 0] 0 = 0 := rfl
  have c1 : cyc [0, 0, 1, 0] 1 = 0 := rfl
  have c2 : cyc [0, 0, 1, 0] 2 = 1 := rfl
  have c3 : cyc [0, 0, 1, 0] 3 = 0 := rfl
  have c4 : cyc [0, 0, 1, 0] 4 = 0 := rfl
  have c5 : cyc [0, 0, 1, 0] 5 = 0 := rfl
  simp only [Finset.sum_range_succ, Finset.sum_range_zero, G, T, line, M] at key
  norm_num [c0, c1, c2, c3, c4, c5] at key
  have e1 : Complex.exp (z * (13 / 14)) =
      Complex.exp (z * (5 / 14)) * Complex.exp (z * (2 / 7)) ^ 2 := by
    rw [← Complex.exp_nat_mul, ← Complex.exp_add]
    congr 1; push_cast; ring
  have e2 : Complex.exp (z * (9 / 14)) =
      Complex.exp (z * (5 / 14)) * Complex.exp (z * (2 / 7)) := by
    rw [← Complex.exp_add]
    congr 1; ring
  rw [e1, e2] at key
  have key2 : Complex.exp (z * (5 / 14)) * (Complex.exp (z * (2 / 7)) - 1) ^ 2 = 0 := by
    linear_combination -(2 / 7) * key
  rcases mul_eq_zero.1 key2 with h | h
  · exact Complex.exp_ne_zero _ h
  · have h1 := sub_eq_zero.1 (pow_eq_zero_iff (by norm_num) |>.1 h)
    have h2 : ‖Complex.exp (z * (2 / 7))‖ = 1 := by rw [h1]; simp
    rw [Complex.norm_exp, Real.exp_eq_one_iff] at h2
    have e : (z * (2 / 7)).re = z.re * (2 / 7) := by
      have : (2 / 7 : ℂ) = ((2 / 7 : ℝ) : ℂ) := by push_cast; rfl
      rw [this, Complex.re_mul_ofReal]
    rw [e] at h2
    linarith

/-- C75, the loss is real: the shipped filters, a waveform of four samples with one peak, the phase
moving from 3/16 back to 1/16 in a release build. The memory after this sample is not what the
formula of the method gives for a step of 7/8 through the peak. -/
theorem C75_lost_turn_false (ft : FilterType) :
    ∃ o : Osc ℝ ℂ, Plays (sysOf envXR ft) [0, 0, 1, 0] 1 2 o ∧ o.prevPhase = 3 / 16 ∧
      ∃ o', (sysOf envXR ft).process .kForward o [1 / 16] [0] = .ok (o', [output o'.prevY]) ∧
        o'.prevPhaseDiff = 7 / 8 ∧
        o'.prevY ≠ nextMemory (filterX ft) o.prevY (interp [0, 0, 1, 0]) (3 / 16) (7 / 8) := by
  have hE : Rounding envXR.fl ∧ Log2Spec envXR.log2f ∧ SrcContract envXR.src := envX_ok
  have hS := exactSysR ft
  have h44 : IsRate envXR.fl 44100 := by
    have := hE.1.isRate 44100 (by norm_num); simpa using this
  obtain ⟨wt0, hw⟩ := C02_succeeds envXR hE.1 hE.2.1 hE.2.2 2 (by norm_num) (by norm_num) 1
    (by norm_num) [0, 0, 1, 0] rfl 44100 (1 / 256) (by norm_num) h44
    (by show (-2 ^ 31 : ℝ) ≤ 1 / 256 * 44100 ∧ (1 / 256 * 44100 : ℝ) < 2 ^ 31; norm_num)
  have hb : Built envXR [0, 0, 1, 0] 1 2 44100 (1 / 256) wt0 :=
    ⟨h44, by show (1 : ℝ) ≤ 1 / 256 * 44100; norm_num, rfl, hw⟩
  have hi : InitOk envXR.fl (3 / 16) (1 / 16) := ⟨⟨by norm_num, by norm_num, isPhase_id _⟩, by norm_num⟩
  obtain ⟨⟨o, r⟩, e, -, h1, h2, hc, -⟩ := Sys.init_play (S := sysOf envXR ft) hE.1
    (sysOf envXR ft).fresh (hb.ok hE.1 hE.2.1) hi.1 hi.2
  dsimp only at h1 h2 hc e
  obtain ⟨wt1, e1, e2⟩ := Sys.init_tables e
  have hpl : Plays (sysOf envXR ft) [0, 0, 1, 0] 1 2 o :=
    ⟨Reached.init hb hi e, _, _, _, _, hb, e1, e2⟩
  have hs := Sys.reached_play (S := sysOf envXR ft) hE.1 hE.2.1 hS.B hpl.1
  obtain ⟨wt, hwt, hwo⟩ := hs.wt
  obtain ⟨c, t, hn, hfind, hw', -, ht0, ht1, htu⟩ := Sys.find_spec (S := sysOf envXR ft) hE.1 hwo
    (show (0 : ℝ) < |1 / 16 - o.prevPhase + 1| by rw [h1]; norm_num)
  have hidx : t.idx = 0 := by push_cast at ht1; omega
  have hup : t.weightUp = 0 := by
    by_contra h
    have := htu h
    push_cast at this; omega
  have hcrt : o.crt = 0 := by have := hs.crt0; have := hs.crt1; push_cast at this; omega
  have hmip : o.prevMip = 0 := by have := hs.mip0; have := hs.mip1; push_cast at this; omega
  have hmi : mipSamples envXR (waveformOf [0, 0, 1, 0] (2 ^ 2) o.crt.toNat) t.idx.toNat =
      [0, 0, 1, 0] := by
    rw [hidx, hcrt]; unfold mipSamples; rfl
  obtain ⟨o', p1, p2, p3⟩ := C75_lost_turn (sysOf envXR ft) hS hE.2.1 rfl [0, 0, 1, 0] 1 2 o hpl
    (1 / 16) 0 0 le_rfl (by rw [h1]; norm_num) t ⟨wt, _, hwt, hfind⟩ hup
    (Or.inl (by rw [hidx, hmip]))
    (by
      rw [h1, hidx]
      have := offDenormal_dyadic 3 4 2 (by norm_num) (by norm_num)
      norm_num at this ⊢
      exact this) (by rw [hidx]; norm_num) (by rw [h1, hidx]; norm_num)
    (by erw [hmi]; rfl) (by erw [hmi]; rfl)
  rw [h1] at p2 p3
  norm_num at p2
  refine ⟨o, hpl, h1, o', p1, by rw [p2], fun h => ?_⟩
  rw [p3] at h
  have h := congrArg (fun l => l.getD 0 0) h
  unfold nextMemory at h
  have e0 : (1 / 16 - 3 / 16 + 1 : ℝ) = 7 / 8 := by norm_num
  have hr0 : (sysOf envXR ft).flt.r = (filterX ft).r := rfl
  have hz0 : (sysOf envXR ft).flt.z = (filterX ft).z := rfl
  have hlen : 0 < (filterX ft).r.length := by cases ft <;> simp [filterX, rLit]
  have hrs : response (fun _ => 0) ((filterX ft).z.getD 0 0) (3 / 16) (7 / 8) = 0 := by
    unfold response; simp
  rw [e0, hr0, hz0] at h
  simp only [List.getD_eq_getElem?_getD, List.getElem?_map, List.getElem?_range hlen,
    Option.map_some, Option.getD_some] at h
  simp only [← List.getD_eq_getElem?_getD] at h
  rw [hrs, mul_zero, add_zero] at h
  have h2 := left_eq_add.1 h
  have hz : ((filterX ft).z.getD 0 0).re < 0 := by
    have := C39_poles ft ((filterX ft).z.getD 0 0) (by
      have hl : 0 < (filterX ft).z.length := by cases ft <;> simp [filterX, zLit]
      rw [List.getD_eq_getElem _ _ hl]; exact List.getElem_mem hl)
    norm_num at this ⊢
    linarith
  have hr : (filterX ft).r.getD 0 0 ≠ 0 := by
    have e1 : (filterX ft).r.getD 0 0 = clit ((rLit ft).getD 0 0) := by
      have hc : clit 0 = 0 := by apply Complex.ext <;> simp [clit]
      rw [← hc]; unfold filterX; rw [List.getD_map]
    rw [e1]
    intro h
    have h := congrArg Complex.im h
    have hre : (((rLit ft).getD 0 0).2 : ℝ) = 0 := h
    have hre' : ((rLit ft).getD 0 0).2 = 0 := by exact_mod_cast hre
    cases ft <;> norm_num [rLit] at hre'
  rcases mul_eq_zero.1 h2 with h3 | h3
  · rcases mul_eq_zero.1 h3 with h4 | h4
    · norm_num at h4
    · exact hr h4
  · exact peak_response hz h3

end Adwt.Props
