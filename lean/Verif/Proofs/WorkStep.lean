import Verif.Proofs.Work
import Verif.Proofs.StepForm

/-!
# The counts of a legal sample
-/

set_option linter.unusedSectionVars false

namespace Adwt
variable {K C : Type} [Field K] [LinearOrder K] [IsStrictOrderedRing K] [FloorRing K]
variable [Zero C] [Add C] [Sub C] [Mul C] [Div C]

namespace Sys
variable {S : Sys K C} {nw L : ℕ} {o o' : Osc K C}

theorem stepDir_count {wt0 : WavetableData K} (hwt : o.wt = some wt0) (dir : Direction) (p : K)
    (hd : dir = .kForward → 0 ≤ fwdDiff S.env.fl p o.prevPhase) :
    Sim (fun r s => SampleCount wt0 (dirDiff S.env.fl dir p o.prevPhase)
      (decide (0 ≤ dirDiff S.env.fl dir p o.prevPhase)) r s S) (S.stepDir dir o p)
      (S.stepDirW dir o p) := by
  cases dir
  · show Sim _ (S.stepFwd o p) (S.stepFwdW o p)
    unfold stepFwd stepFwdW
    refine Sim.bind_same _ fun _ => ?_
    have h : 0 ≤ dirDiff S.env.fl .kForward p o.prevPhase := hd rfl
    rw [decide_eq_true h]
    exact sampleFwd_count hwt _ _ h
  · show Sim _ (S.stepBi o p) (S.stepBiW o p)
    unfold stepBi stepBiW
    dsimp only
    by_cases h : biDiff S.env.fl p o.prevPhase ≥ 0
    · rw [if_pos h, if_pos h]
      have h' : 0 ≤ dirDiff S.env.fl .kBidirectionnal p o.prevPhase := h
      rw [decide_eq_true h']
      exact sampleFwd_count hwt _ _ h
    · rw [if_neg h, if_neg h]
      have h' : ¬ 0 ≤ dirDiff S.env.fl .kBidirectionnal p o.prevPhase := h
      rw [decide_eq_false h']
      exact sampleBwd_count hwt _ _

theorem corners_lt {a b N : ℤ} (ha0 : 0 ≤ a) (hb0 : 0 ≤ b) (hb1 : b < N) :
    (corners a b N : ℤ) < N := by
  unfold corners bornSup
  split <;> omega

/-- first segment of a sample with step `d` -/
def firstSeg (S : Sys K C) (o : Osc K C) (n : ℕ) (mip : ℤ) (p d : K) : ℤ :=
  if 0 < d then (S.prevJF o n mip - 1) % 2 ^ n else (⌈p * 2 ^ n⌉ - 1) % 2 ^ n

/-- last segment of a sample with step `d` -/
def lastSeg (S : Sys K C) (o : Osc K C) (n : ℕ) (mip : ℤ) (p d : K) : ℤ :=
  if 0 < d then ⌊p * 2 ^ n⌋ else S.prevJB o n mip % 2 ^ n

theorem step_count (hf : Rounding S.env.fl) (hB : 0 < S.B) (ho : OscPlay S nw L o)
    {wt : WavetableData K} (hwt : o.wt = some wt) {dir : Direction} {p y : K}
    (hp : PhaseOk S.env.fl p) (hs : StepOk dir o.prevPhase p) {w : ℕ × ℕ}
    (h : S.stepDirW dir o p = .ok ((o', y), w)) :
    S.stepDir dir o p = .ok (o', y) ∧
    ∃ c t, wt.cf.newIndices S.env |dirDiff S.env.fl dir p o.prevPhase| = .ok (c, t) ∧
      ¬ (AtZeroBackward o ∧ t.idx < o.prevMip) ∧
      wt.findMipMapIndices S.env |dirDiff S.env.fl dir p o.prevPhase| =
        .ok ({ wt with cf := c }, t) ∧
      0 ≤ t.idx ∧ t.idx < (L : ℤ) - 1 ∧
      (t.weightUp ≠ 0 → t.idxUp = t.idx + 1 ∧ t.idxUp < (L : ℤ) - 1) ∧
      ∃ jmin jmax, jmin = S.firstSeg o (L - t.idx.toNat) t.idx p (dirDiff S.env.fl dir p o.prevPhase) ∧
        jmax = S.lastSeg o (L - t.idx.toNat) t.idx p (dirDiff S.env.fl dir p o.prevPhase) ∧
        0 ≤ jmin ∧ jmin < 2 ^ (L - t.idx.toNat) ∧ 0 ≤ jmax ∧ jmax < 2 ^ (L - t.idx.toNat) ∧
        w.1 = corners jmin jmax (2 ^ (L - t.idx.toNat)) ∧
        (t.weightUp = 0 ∧ w.2 = 0 ∨ t.weightUp ≠ 0 ∧
          w.2 = corners (jmin / 2) (jmax / 2) (2 ^ (L - t.idx.toNat - 1))) := by
  have hw : WtOk nw L wt := by
    obtain ⟨wt', e', h⟩ := ho.wt
    rw [hwt] at e'; cases e'; exact h
  have hsim := stepDir_count (S := S) hwt dir p (fun e => by
    subst e
    exact (fwdDiff_range hf ho.toOscOk.phase hp hs).1.le)
  cases hr : S.stepDir dir o p with
  | error e => rw [hr, h] at hsim; exact hsim.elim
  | ok r =>
  rw [hr, h] at hsim
  obtain ⟨h1, wt2, t, N, jmin, jmax, hfind, hmip, hN, hmin, hmax, hcount⟩ := hsim
  dsimp only at h1 hcount
  subst h1
  refine ⟨rfl, ?_⟩
  obtain ⟨c, t', hn, hno, hnext, -, hok', b0, b1, b2⟩ := step_form' hf hB ho hwt hp hs hr
  obtain ⟨r0, r1, r2⟩ := dirDiff_range hf ho.toOscOk hp hs
  obtain ⟨c', t'', hn', hfind', hw', -⟩ := find_spec hf hw (abs_pos.2 r0)
  rw [hn] at hn'; cases hn'
  rw [hfind] at hfind'; cases hfind'
  refine ⟨c, t, hn, hno, hfind, b0, b1, b2, ?_⟩
  have hpost : StepPost S nw L o p (dirDiff S.env.fl dir p o.prevPhase) o' := by
    rcases step_cases hf hB ho hp hs with ⟨a, -⟩ | ⟨a, -⟩
    · exact a.elim hr
    · rw [hr] at a; cases a
  have hL := hw.L18
  set n := L - t.idx.toNat with hnn
  rw [hw'.waveformLen b0 b1, ← hnn] at hN
  cases hN
  dsimp only at hmin hmax hmip
  have q0 := hpost.pj0
  have q1 := hpost.pj1
  rw [hmip, ← hnn] at q1
  have hn2 : 2 ≤ n := by omega
  have h4 : (4 : ℤ) ≤ 2 ^ n := by
    calc (4 : ℤ) = 2 ^ 2 := by norm_num
      _ ≤ 2 ^ n := pow_le_pow_right₀ (by norm_num) hn2
  have j0 := hok'.j0
  have j1 := hok'.j1
  rw [hmip, ← hnn] at j1
  set d := dirDiff S.env.fl dir p o.prevPhase with hd
  -- the recorded indices
  have e1 : o'.jRed = if 0 < d then ⌊p * 2 ^ n⌋ else ⌈p * 2 ^ n⌉ := by rw [hnext]; rfl
  have e2 : o'.prevJRed = if 0 < d then S.prevJF o n t.idx else S.prevJB o n t.idx := by
    rw [hnext]; rfl
  have emin : jmin = S.firstSeg o n t.idx p d := by
    by_cases hpos : 0 < d
    · rw [decide_eq_true hpos.le, if_pos rfl,
        Maths.reduceI_eq (by omega) (by omega) (by omega)] at hmin
      cases hmin
      unfold firstSeg
      rw [if_pos hpos, e2, if_pos hpos]
    · have hneg : ¬ 0 ≤ d := fun h => hpos (lt_of_le_of_ne h (Ne.symm r0))
      rw [decide_eq_false hneg, if_neg (by decide),
        Maths.reduceI_eq (by omega) (by omega) (by omega)] at hmin
      cases hmin
      unfold firstSeg
      rw [if_neg hpos, e1, if_neg hpos]
  have emax : jmax = S.lastSeg o n t.idx p d := by
    by_cases hpos : 0 < d
    · rw [decide_eq_true hpos.le, if_pos rfl,
        Maths.reduceI_eq (by omega) (by omega) (by omega)] at hmax
      cases hmax
      unfold lastSeg
      rw [if_pos hpos, e1, if_pos hpos]
      obtain ⟨f0, f1⟩ := floor_range (n := n) (by omega) hp.1 hp.2.1
      exact Int.emod_eq_of_lt f0 f1
    · have hneg : ¬ 0 ≤ d := fun h => hpos (lt_of_le_of_ne h (Ne.symm r0))
      rw [decide_eq_false hneg, if_neg (by decide),
        Maths.reduceI_eq (by omega) (by omega) (by omega)] at hmax
      cases hmax
      unfold lastSeg
      rw [if_neg hpos, e2, if_neg hpos]
  have rmin : 0 ≤ jmin ∧ jmin < 2 ^ n := by
    rw [emin]
    unfold firstSeg
    split
    · exact ⟨Int.emod_nonneg _ (by omega), Int.emod_lt_of_pos _ (by omega)⟩
    · exact ⟨Int.emod_nonneg _ (by omega), Int.emod_lt_of_pos _ (by omega)⟩
  have rmax : 0 ≤ jmax ∧ jmax < 2 ^ n := by
    rw [emax]
    unfold lastSeg
    split
    · exact floor_range (n := n) (by omega) hp.1 hp.2.1
    · exact ⟨Int.emod_nonneg _ (by omega), Int.emod_lt_of_pos _ (by omega)⟩
  obtain ⟨⟨N, hN, hc1⟩, hc2⟩ := hcount
  rw [hw'.waveformLen b0 b1, ← hnn] at hN
  cases hN
  refine ⟨jmin, jmax, emin, emax, rmin.1, rmin.2, rmax.1, rmax.2, hc1, ?_⟩
  rcases hc2 with hc2 | ⟨hu, N, hN, hc2⟩
  · exact Or.inl hc2
  · right
    refine ⟨hu, ?_⟩
    obtain ⟨u1, u2⟩ := b2 hu
    rw [hw'.waveformLen (by omega) u2] at hN
    have : L - t.idxUp.toNat = n - 1 := by omega
    rw [this] at hN
    cases hN
    rw [hc2, (half_range (by omega) rmin.1 rmin.2).1, (half_range (by omega) rmax.1 rmax.2).1]

end Sys
end Adwt
