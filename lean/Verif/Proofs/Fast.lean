import Verif.Proofs.Sample
import Verif.Spec.Release

/-!
# Forward mode with steps of any size, in release builds
-/

set_option linter.unusedSectionVars false

namespace Adwt
open Seg WavetableData

namespace Sys
section
variable {K C : Type} [Field K] [LinearOrder K] [IsStrictOrderedRing K] [FloorRing K]
variable [Zero C] [Add C] [Sub C] [Mul C] [Div C]
variable {S : Sys K C} {nw L : ℕ} {o : Osc K C}

theorem chk_release (hdbg : S.env.dbg = false) (p : Prop) [Decidable p] :
    chk S.env.dbg p = .ok () := by
  unfold chk; rw [hdbg]; simp

/-- the step forward mode computes for any change of the phase is in `(0, 1]` -/
theorem fwdDiff_any {fl : K → K} (hf : Rounding fl) {prev p : K} (h1 : PhaseOk fl prev)
    (h2 : PhaseOk fl p) (h : p ≠ prev) : 0 < fwdDiff fl p prev ∧ fwdDiff fl p prev ≤ 1 := by
  obtain ⟨r0, r1⟩ := raw_range hf h1 h2
  unfold fwdDiff
  dsimp only
  rcases lt_or_gt_of_ne h with ha | ha
  · rw [if_pos (hf.sub_neg h2.2.2 h1.2.2 (by linarith) ha.ne)]
    have hn := hf.sub_neg h2.2.2 h1.2.2 (by linarith) ha.ne
    exact ⟨hf.add_one_pos (hf.idem _) r0, hf.le_of_le hf.one (by linarith)⟩
  · have hp : 0 < fl (p - prev) := hf.sub_pos h2.2.2 h1.2.2 (by linarith) ha.ne'
    rw [if_neg (by linarith)]
    exact ⟨hp, hf.le_of_le hf.one (by have := h1.1; have := h2.2.1; linarith)⟩

theorem stepFwd_any (hdbg : S.env.dbg = false) {p : K} :
    S.stepFwd o p = S.processSampleFwd o p (fwdDiff S.env.fl p o.prevPhase) := by
  unfold stepFwd
  dsimp only
  rw [chk_release hdbg, R.ok_bind]
  rfl

theorem stepAny_ok (hf : Rounding S.env.fl) (hB : 0 < S.B) (hdbg : S.env.dbg = false)
    (ho : OscSafe S nw L o) {p : K} (hp : PhaseOk S.env.fl p) (h : p ≠ o.prevPhase) :
    Ok (S.stepDir .kForward o p) fun r =>
      StepPost S nw L o p (fwdDiff S.env.fl p o.prevPhase) r.1 := by
  show Ok (S.stepFwd o p) _
  rw [stepFwd_any hdbg]
  rcases sampleFwd_cases' hf hB ho.toOscPlay hp (fwdDiff_any hf ho.phase hp h).1
    (chk_release hdbg _) with h | ⟨-, h, -⟩
  · exact h.1
  · exact absurd h.1 (ho.back h.2)

theorem runAny_ok (hf : Rounding S.env.fl) (hB : 0 < S.B) (hdbg : S.env.dbg = false)
    {ps : List K} (ho : OscSafe S nw L o) (h : BlockAny S.env.fl o.prevPhase ps) :
    Ok (S.runDir .kForward o ps) fun r => OscSafe S nw L r.1 ∧
      r.1.prevPhase = ps.getLastD o.prevPhase ∧ r.1.crt = o.crt ∧ r.2.length = ps.length := by
  induction ps generalizing o with
  | nil => exact Ok.ok ⟨ho, rfl, rfl, rfl⟩
  | cons p ps ih =>
    obtain ⟨hp, hs, hr⟩ := h
    unfold runDir
    refine Ok.bind (stepAny_ok hf hB hdbg ho hp hs) fun r hr1 => ?_
    obtain ⟨o1, y⟩ := r
    dsimp only at hr1 ⊢
    have hr1s := hr1.safe (fun hd => absurd (fwdDiff_any hf ho.phase hp hs).1 (not_lt.2 hd.le))
    refine Ok.bind (ih hr1s (by rw [hr1.phase]; exact hr)) fun r2 hr2 => ?_
    obtain ⟨o2, ys⟩ := r2
    obtain ⟨c1, c2, c3, c4⟩ := hr2
    dsimp only at c1 c2 c3 c4
    refine Ok.pure ⟨c1, ?_, by rw [c3, hr1.crt], by simp [c4]⟩
    dsimp only
    rw [c2, hr1.phase, List.getLastD_cons]

theorem historyAny_ok (hf : Rounding S.env.fl) (hB : 0 < S.B) (hdbg : S.env.dbg = false)
    {ops : List (Op K)}
    (ho : OscSafe S nw L o) (h : HistoryAny S.env.fl nw o.prevPhase ops) :
    Ok (runOps S o ops) fun r => OscSafe S nw L r.1 := by
  induction ops generalizing o with
  | nil => exact Ok.ok ho
  | cons op ops ih =>
    unfold runOps
    refine Ok.bind (P := fun r => OscSafe S nw L r.1 ∧ HistoryAny S.env.fl nw r.1.prevPhase ops) ?_
      fun r hr => ?_
    · obtain ⟨wt, hwt, hw⟩ := ho.wt
      cases op with
      | process dir ps =>
        cases dir with
        | kForward =>
          obtain ⟨h1, h2⟩ := h
          obtain ⟨⟨o', ys⟩, e, a, b, -, d⟩ := runAny_ok hf hB hdbg ho h1
          exact ⟨_, process_eq hwt _ (by simp) e d, a, by rw [b]; exact h2⟩
        | kBidirectionnal =>
          obtain ⟨h1, h2⟩ := h
          obtain ⟨⟨o', ys⟩, e, a, b, -, d⟩ := run_ok hf hB ho h1
          exact ⟨_, process_eq hwt _ (by simp) e d, a, by rw [b]; exact h2⟩
      | setWaveform i =>
        obtain ⟨h0, h1, h2⟩ := h
        unfold runOp setWaveform
        rw [chk_true (by rw [hwt]; rfl)]
        simp only [R.pure_eq, R.ok_bind]
        refine Ok.ok ⟨⟨⟨⟨ho.wt, ho.mip0, ho.mip1, ho.j0, ho.j1, ho.jf, ho.jb, ho.p0, ho.p1, ho.red,
          ho.fl, ho.diff, ho.posF, ho.posB⟩, h0, h1⟩, ho.back⟩, h2⟩
      | reset p d =>
        obtain ⟨h1, h2, h3, h4⟩ := h
        unfold runOp
        refine Ok.bind (reset_play hf hwt hw h1 h2 ho.crt0 ho.crt1) fun o1 h => ?_
        refine Ok.pure ⟨⟨h.1, by rw [h.2.1, h.2.2.1]; exact h3⟩, ?_⟩
        dsimp only
        rw [h.2.1]; exact h4
    · obtain ⟨o1, y1⟩ := r
      dsimp only at hr ⊢
      refine Ok.bind (ih hr.1 hr.2) fun r2 h2 => ?_
      exact Ok.pure h2

end

variable {S : Sys ℝ ℂ} {nw L : ℕ} {o : Osc ℝ ℂ} {ws : List ℝ}

/-- what a forward sample of a release build computes, before its value is worked out -/
theorem stepAny_eq (hS : ExactSys S) (hdbg : S.env.dbg = false) (ho : OscPlay S nw L o)
    (hz0 : ¬ AtZeroBackward o)
    {wt : WavetableData ℝ} (hwt : o.wt = some wt) {p : ℝ} (hp : PhaseOk S.env.fl p)
    (hne : p ≠ o.prevPhase) {t : MipMapIndices ℝ}
    (ht : NextIndices S o (fwdDiff S.env.fl p o.prevPhase) t) :
    0 ≤ t.idx ∧ t.idx < (L : ℤ) - 1 ∧
      (t.weightUp ≠ 0 → t.idxUp = t.idx + 1 ∧ t.idxUp < (L : ℤ) - 1) ∧
      (t.weightUp = 0 → t.weight = 1) ∧
      ∃ o', S.stepDir .kForward o p = .ok (o', output o'.prevY) ∧ o'.prevMip = t.idx ∧
        o'.prevPhaseDiff = fwdDiff S.env.fl p o.prevPhase ∧ o'.prevPhase = p ∧
        o'.prevY = S.cpxY o.prevY (S.accF wt L o t p (fwdDiff S.env.fl p o.prevPhase)) := by
  have hf := exact_rounding hS
  obtain ⟨wt1, wt2, hw1, hft⟩ := ht
  rw [hwt] at hw1; cases hw1
  have hw : WtOk nw L wt := by
    obtain ⟨wt', e', h⟩ := ho.wt
    rw [hwt] at e'; cases e'; exact h
  have hd0 := (fwdDiff_any hf ho.toOscOk.phase hp hne).1
  obtain ⟨d, hd⟩ : ∃ d, d = fwdDiff S.env.fl p o.prevPhase := ⟨_, rfl⟩
  rw [← hd] at hft hd0 ⊢
  obtain ⟨c, t', hn, hfind, hw', hcs, ht0, ht1, htu⟩ := find_spec hf hw (abs_pos.2 hd0.ne')
  rw [hft] at hfind
  simp only [Except.ok.injEq, Prod.mk.injEq] at hfind
  obtain ⟨-, rfl⟩ := hfind
  have hw1 := weight_one hS.fl hw.inv (abs_pos.2 hd0.ne') hn
  refine ⟨ht0, ht1, htu, fun h => by have := hw1.1; rw [h, add_zero] at this; exact this, ?_⟩
  have hsafe : o.prevPhaseDiff < 0 → t.idx < o.prevMip → 1 ≤ o.jRed :=
    fun h1 _ => ho.jb h1 (fun h => hz0 ⟨h, h1⟩)
  rw [abs_of_pos hd0] at hn
  have := fwd_eq' hf hS.B hwt ho.toOscOk hw ho.crt0 ho.crt1 hp.1 hp.2.1 hp.2.2.1 hd0
    (chk_release hdbg _) hn hsafe
  rw [outReal_eq hS] at this
  have e : S.stepDir .kForward o p = S.processSampleFwd o p d := by
    show S.stepFwd o p = _
    rw [stepFwd_any hdbg, ← hd]
  exact ⟨_, e.trans this, rfl, rfl, rfl, rfl⟩

end Sys
end Adwt
