import Verif.Proofs.Step
import Verif.Spec.Reached

/-!
# Histories of calls keep the oscillator in a good state
-/

set_option linter.unusedSectionVars false

namespace Adwt
variable {K C : Type} [Field K] [LinearOrder K] [IsStrictOrderedRing K] [FloorRing K]
variable [Zero C] [Add C] [Sub C] [Mul C] [Div C]

namespace Sys
variable {S : Sys K C} {nw L : ℕ} {o : Osc K C}

theorem raw_range {fl : K → K} (hf : Rounding fl) {prev p : K} (h1 : PhaseOk fl prev)
    (h2 : PhaseOk fl p) : -1 < fl (p - prev) ∧ fl (p - prev) < 1 := by
  obtain ⟨a0, a1, a2⟩ := h1
  obtain ⟨b0, b1, b2⟩ := h2
  constructor
  · have := hf.mono (show -prev ≤ p - prev by linarith)
    rw [hf.symm _ a2.1] at this
    linarith
  · have := hf.mono (show p - prev ≤ p by linarith)
    rw [b2.1] at this
    linarith

/-- In forward mode the computed step is in `(0, 1/2]`. -/
theorem fwdDiff_range {fl : K → K} (hf : Rounding fl) {prev p : K} (h1 : PhaseOk fl prev)
    (h2 : PhaseOk fl p) (h : Forward prev p) :
    0 < fwdDiff fl p prev ∧ fwdDiff fl p prev ≤ 1 / 2 := by
  obtain ⟨r0, r1⟩ := raw_range hf h1 h2
  unfold fwdDiff
  dsimp only
  rcases h with ⟨ha, hb⟩ | ⟨ha, hb⟩
  · have hp : 0 < fl (p - prev) := hf.sub_pos h2.2.2 h1.2.2 (by linarith) ha.ne'
    rw [if_neg (by linarith)]
    exact ⟨hp, hf.le_of_le hf.half hb⟩
  · rw [if_pos (hf.sub_neg h2.2.2 h1.2.2 (by linarith) ha.ne)]
    have : fl (p - prev) ≤ -(1 / 2) := hf.le_of_le hf.neg_half (by linarith)
    refine ⟨?_, ?_⟩
    · exact hf.add_one_pos (hf.idem _) r0
    exact hf.le_of_le hf.half (by linarith)

/-- In bidirectional mode the computed step is in `[-1/2, 1/2]`, and zero only if the phase is
held. -/
theorem biDiff_range {fl : K → K} (hf : Rounding fl) {prev p : K} (h1 : PhaseOk fl prev)
    (h2 : PhaseOk fl p) :
    -(1 / 2) ≤ biDiff fl p prev ∧ biDiff fl p prev ≤ 1 / 2 ∧
      (biDiff fl p prev = 0 ↔ p = prev) := by
  obtain ⟨r0, r1⟩ := raw_range hf h1 h2
  unfold biDiff
  dsimp only
  have hz : fl (p - prev) = 0 ↔ p = prev := by
    rw [hf.sub_eq_zero_iff h2.2.2 h1.2.2]
  split
  · rename_i h
    have hp : 0 < fl (fl (p - prev) + 1) := hf.add_one_pos (hf.idem _) r0
    have hle : fl (fl (p - prev) + 1) ≤ 1 / 2 := hf.le_of_le hf.half (by linarith)
    refine ⟨by linarith, hle, ⟨fun e => absurd e hp.ne', fun e => ?_⟩⟩
    rw [hz.2 e] at h; linarith
  · split
    · rename_i h' h
      have hp : fl (fl (p - prev) - 1) < 0 :=
        hf.sub_one_neg (hf.idem _) r1
      have hle : -(1 / 2) ≤ fl (fl (p - prev) - 1) := hf.ge_of_ge hf.neg_half (by linarith)
      refine ⟨hle, by linarith, ⟨fun e => absurd e hp.ne, fun e => ?_⟩⟩
      rw [hz.2 e] at h; linarith
    · exact ⟨by linarith, by linarith, hz⟩

/-- phase 0 is reached backwards only from `(0, 1/2]` -/
theorem biDiff_zero {fl : K → K} (hf : Rounding fl) {prev : K} (h1 : PhaseOk fl prev) :
    biDiff fl 0 prev < 0 ↔ 0 < prev ∧ prev ≤ 1 / 2 := by
  obtain ⟨a0, a1, a2⟩ := h1
  unfold biDiff
  dsimp only
  rw [zero_sub, hf.symm _ a2.1]
  constructor
  · intro h
    split at h
    · have := hf.nonneg (show 0 ≤ -prev + 1 by linarith); linarith
    · split at h
      · linarith
      · constructor <;> linarith
  · rintro ⟨h, h'⟩
    rw [if_neg (by linarith), if_neg (by linarith)]
    linarith

/-- The state between two calls of a history. -/
structure _root_.Adwt.OscPlay (S : Sys K C) (nw L : ℕ) (o : Osc K C) : Prop
    extends OscOk S nw L o where
  crt0 : 0 ≤ o.crt
  crt1 : o.crt < nw

/-- The state between two calls of a safe history. -/
structure _root_.Adwt.OscSafe (S : Sys K C) (nw L : ℕ) (o : Osc K C) : Prop
    extends OscPlay S nw L o where
  back : o.prevPhaseDiff < 0 → o.prevPhase ≠ 0

theorem _root_.Adwt.OscOk.phase (ho : OscOk S nw L o) : PhaseOk S.env.fl o.prevPhase := ⟨ho.p0, ho.p1, ho.fl⟩

/-- what a sample leaves behind -/
structure StepPost (S : Sys K C) (nw L : ℕ) (o : Osc K C) (p d : K) (o' : Osc K C) : Prop where
  ok : OscPlay S nw L o'
  phase : o'.prevPhase = p
  diff : o'.prevPhaseDiff = d
  crt : o'.crt = o.crt
  ylen : o'.prevY.length = S.n
  pj0 : -1 ≤ o'.prevJRed
  pj1 : o'.prevJRed ≤ 2 ^ (L - o'.prevMip.toNat) + 1
  find : ∃ wt c t, o.wt = some wt ∧ WtOk nw L wt ∧ wt.cf.newIndices S.env |d| = .ok (c, t) ∧
    c = wt.cf.stepD |d| ∧ o'.wt = some { wt with cf := c } ∧ o'.prevMip = t.idx

theorem StepPost.safe {p d : K} {o' : Osc K C} (h : StepPost S nw L o p d o')
    (hd : d < 0 → p ≠ 0) : OscSafe S nw L o' :=
  ⟨h.ok, by rw [h.phase, h.diff]; exact hd⟩

/-- the only way in which a sample can fail -/
theorem adjustJ_oob {phs : List K} {mip prevMip j : ℤ} {pd pr : K} (h : mip < prevMip)
    (hd : pd < 0) (hj : j = 0) : adjustJ phs mip prevMip j pd pr = .error .outOfBounds := by
  subst hj
  unfold adjustJ
  rw [if_neg (by omega), if_pos h]
  simp only [zero_mul, if_neg (not_lt.2 hd.le), zero_sub]
  rw [rd_neg (by norm_num)]; rfl

theorem prevJF_bounds {n : ℕ} {mip : ℤ} (S : Sys K C) (o : Osc K C)
    (h0 : 0 ≤ adj n mip o.prevMip o.jRed o.prevPhaseDiff o.prevPhaseRed)
    (h1 : adj n mip o.prevMip o.jRed o.prevPhaseDiff o.prevPhaseRed ≤ 2 ^ n) :
    -1 ≤ S.prevJF o n mip ∧ S.prevJF o n mip ≤ 2 ^ n + 1 := by
  unfold prevJF
  dsimp only
  split
  · exact prevJ_bounds h0 h1 (sign_cases _)
  · omega

theorem prevJB_bounds {n : ℕ} {mip : ℤ} (S : Sys K C) (o : Osc K C)
    (h0 : 0 ≤ adj n mip o.prevMip o.jRed o.prevPhaseDiff o.prevPhaseRed)
    (h1 : adj n mip o.prevMip o.jRed o.prevPhaseDiff o.prevPhaseRed ≤ 2 ^ n) :
    -1 ≤ S.prevJB o n mip ∧ S.prevJB o n mip ≤ 2 ^ n + 1 := by
  unfold prevJB
  dsimp only
  split
  · exact prevJ_bounds h0 h1 (sign_cases _)
  · omega

theorem jRed_zero (ho : OscOk S nw L o) (h : AtZeroBackward o) : o.jRed = 0 := by
  rw [ho.posB h.2, h.1, zero_mul, Int.ceil_zero]

theorem safe_of (ho : OscOk S nw L o) {t : MipMapIndices K} (h : ¬ (AtZeroBackward o ∧ t.idx < o.prevMip)) :
    o.prevPhaseDiff < 0 → t.idx < o.prevMip → 1 ≤ o.jRed :=
  fun h1 h2 => ho.jb h1 fun h0 => h ⟨⟨h0, h1⟩, h2⟩

/-- one forward sample: it succeeds, except after a backward step that ended at phase 0 if the table
index drops -/
theorem sampleFwd_cases' (hf : Rounding S.env.fl) (hB : 0 < S.B) (ho : OscPlay S nw L o) {p d : K}
    (hp : PhaseOk S.env.fl p) (hd0 : 0 < d)
    (hchk : chk S.env.dbg (d > 0 ∧ d ≤ 1 / 2) = .ok ()) :
    (Ok (S.processSampleFwd o p d) (fun r => StepPost S nw L o p d r.1) ∧
      ¬ (AtZeroBackward o ∧ DropsTable S o d)) ∨
    (S.processSampleFwd o p d = .error .outOfBounds ∧ AtZeroBackward o ∧ DropsTable S o d) := by
  obtain ⟨wt, hwt, hw⟩ := ho.wt
  obtain ⟨c, t, hn, hfind, hw', hcs, ht0, ht1, htu⟩ := find_spec hf hw hd0
  have hdrop : DropsTable S o d ↔ t.idx < o.prevMip := by
    unfold DropsTable
    rw [abs_of_pos hd0]
    constructor
    · rintro ⟨wt', _, t', e, e', h⟩
      rw [hwt] at e; cases e
      rw [hfind] at e'; cases e'
      exact h
    · exact fun h => ⟨_, _, _, hwt, hfind, h⟩
  rw [hdrop]
  by_cases hs : AtZeroBackward o ∧ t.idx < o.prevMip
  · right
    refine ⟨?_, hs⟩
    unfold processSampleFwd
    dsimp only
    rw [hchk, R.ok_bind, hwt]
    dsimp only
    rw [hfind, R.ok_bind]
    dsimp only
    rw [hw'.phaseSpan ht0 ht1, R.ok_bind, Maths.reduceF_unit hf hp.1 hp.2.1, R.ok_bind,
      hw'.waveformLen ht0 ht1, R.ok_bind, adjustJ_oob hs.2 hs.1.2 (jRed_zero ho.toOscOk hs.1)]
    rfl
  left
  refine ⟨?_, hs⟩
  have hs := safe_of ho.toOscOk hs
  refine ⟨_, fwd_eq' hf hB hwt ho.toOscOk hw ho.crt0 ho.crt1 hp.1 hp.2.1 hp.2.2.1 hd0 hchk hn hs, ?_⟩
  have hL := hw.L18
  obtain ⟨f0, f1⟩ := floor_range (n := L - t.idx.toNat) (by omega) hp.1 hp.2.1
  obtain ⟨-, hadj0, hadj1, -⟩ := adjustJ_spec (K := K) (pd := o.prevPhaseDiff)
    (pr := o.prevPhaseRed) ht0 ht1 ho.mip0 ho.mip1 ho.j0 ho.j1 ho.jf
    (fun h => hs (lt_of_le_of_ne h ho.diff))
  obtain ⟨b0, b1⟩ := prevJF_bounds S o hadj0 hadj1
  refine ⟨⟨⟨⟨_, rfl, hw'⟩, ht0, ht1, f0, f1.le, fun _ => f1, fun h => absurd h (not_lt.2 hd0.le),
    hp.1, hp.2.1, rfl, hp.2.2, hd0.ne', fun _ => rfl, fun h => absurd h (not_lt.2 hd0.le)⟩,
    ho.crt0, ho.crt1⟩, rfl, rfl, rfl, by simp [cpxY], b0, b1, ⟨_, _, _, hwt, hw, by rw [abs_of_pos hd0]; exact hn,
      by rw [abs_of_pos hd0]; exact hcs, rfl, rfl⟩⟩

theorem sampleFwd_cases (hf : Rounding S.env.fl) (hB : 0 < S.B) (ho : OscPlay S nw L o) {p d : K}
    (hp : PhaseOk S.env.fl p) (hd0 : 0 < d) (hd1 : d ≤ 1 / 2) :
    (Ok (S.processSampleFwd o p d) (fun r => StepPost S nw L o p d r.1) ∧
      ¬ (AtZeroBackward o ∧ DropsTable S o d)) ∨
    (S.processSampleFwd o p d = .error .outOfBounds ∧ AtZeroBackward o ∧ DropsTable S o d) :=
  sampleFwd_cases' hf hB ho hp hd0 (chk_true ⟨hd0, hd1⟩)

/-- one backward sample -/
theorem sampleBwd_cases (hf : Rounding S.env.fl) (hB : 0 < S.B) (ho : OscPlay S nw L o) {p d : K}
    (hp : PhaseOk S.env.fl p) (hd0 : d < 0) (hd1 : -(1 / 2) ≤ d) :
    (Ok (S.processSampleBwd o p d) (fun r => StepPost S nw L o p d r.1) ∧
      ¬ (AtZeroBackward o ∧ DropsTable S o d)) ∨
    (S.processSampleBwd o p d = .error .outOfBounds ∧ AtZeroBackward o ∧ DropsTable S o d) := by
  obtain ⟨wt, hwt, hw⟩ := ho.wt
  obtain ⟨c, t, hn, hfind, hw', hcs, ht0, ht1, htu⟩ := find_spec hf hw (abs_pos.2 hd0.ne)
  have hdrop : DropsTable S o d ↔ t.idx < o.prevMip := by
    unfold DropsTable
    constructor
    · rintro ⟨wt', _, t', e, e', h⟩
      rw [hwt] at e; cases e
      rw [hfind] at e'; cases e'
      exact h
    · exact fun h => ⟨_, _, _, hwt, hfind, h⟩
  rw [hdrop]
  by_cases hs : AtZeroBackward o ∧ t.idx < o.prevMip
  · right
    refine ⟨?_, hs⟩
    unfold processSampleBwd
    dsimp only
    rw [chk_true ⟨hd0, hd1⟩, R.ok_bind, hwt]
    dsimp only
    rw [hfind, R.ok_bind]
    dsimp only
    rw [hw'.phaseSpan ht0 ht1, R.ok_bind, Maths.reduceF_unit hf hp.1 hp.2.1, R.ok_bind,
      hw'.waveformLen ht0 ht1, R.ok_bind, adjustJ_oob hs.2 hs.1.2 (jRed_zero ho.toOscOk hs.1)]
    rfl
  left
  refine ⟨?_, hs⟩
  have hs := safe_of ho.toOscOk hs
  refine ⟨_, bwd_eq hf hB hwt ho.toOscOk hw ho.crt0 ho.crt1 hp.1 hp.2.1 hp.2.2.1 hd0 hd1 hn hs, ?_⟩
  have hL := hw.L18
  obtain ⟨f0, f1, f2⟩ := ceil_range (n := L - t.idx.toNat) (by omega) hp.1 hp.2.1
  obtain ⟨-, hadj0, hadj1, -⟩ := adjustJ_spec (K := K) (pd := o.prevPhaseDiff)
    (pr := o.prevPhaseRed) ht0 ht1 ho.mip0 ho.mip1 ho.j0 ho.j1 ho.jf
    (fun h => hs (lt_of_le_of_ne h ho.diff))
  obtain ⟨b0, b1⟩ := prevJB_bounds S o hadj0 hadj1
  exact ⟨⟨⟨⟨_, rfl, hw'⟩, ht0, ht1, f0, f1, fun h => absurd h (not_lt.2 hd0.le), fun _ h => f2 h,
    hp.1, hp.2.1, rfl, hp.2.2, hd0.ne, fun h => absurd h (not_lt.2 hd0.le), fun _ => rfl⟩,
    ho.crt0, ho.crt1⟩, rfl, rfl, rfl, by simp [cpxY], b0, b1, ⟨_, _, _, hwt, hw, hn, hcs, rfl, rfl⟩⟩

theorem stepFwd_eq (hf : Rounding S.env.fl) (ho : OscOk S nw L o) {p : K}
    (hp : PhaseOk S.env.fl p) (h : Forward o.prevPhase p) :
    S.stepFwd o p = S.processSampleFwd o p (fwdDiff S.env.fl p o.prevPhase) := by
  have := fwdDiff_range hf ho.phase hp h
  unfold stepFwd
  dsimp only
  unfold fwdDiff at this ⊢
  dsimp only at this ⊢
  rw [chk_true ⟨this.1, this.2⟩, R.ok_bind]

/-- one sample in either mode -/
theorem step_cases (hf : Rounding S.env.fl) (hB : 0 < S.B) (ho : OscPlay S nw L o) {p : K}
    {dir : Direction} (hp : PhaseOk S.env.fl p) (h : StepOk dir o.prevPhase p) :
    (Ok (S.stepDir dir o p) (fun r =>
      StepPost S nw L o p (dirDiff S.env.fl dir p o.prevPhase) r.1) ∧
      ¬ (AtZeroBackward o ∧ DropsTable S o (dirDiff S.env.fl dir p o.prevPhase))) ∨
    (S.stepDir dir o p = .error .outOfBounds ∧
      AtZeroBackward o ∧ DropsTable S o (dirDiff S.env.fl dir p o.prevPhase)) := by
  cases dir with
  | kForward =>
    obtain ⟨a, b⟩ := fwdDiff_range hf ho.phase hp h
    show (Ok (S.stepFwd o p) _ ∧ _) ∨ (S.stepFwd o p = _ ∧ _)
    rw [stepFwd_eq hf ho.toOscOk hp h]
    exact sampleFwd_cases hf hB ho hp a b
  | kBidirectionnal =>
    obtain ⟨a, b, c⟩ := biDiff_range hf ho.phase hp
    show (Ok (S.stepBi o p) _ ∧ _) ∨ (S.stepBi o p = _ ∧ _)
    unfold stepBi
    dsimp only
    have hne : biDiff S.env.fl p o.prevPhase ≠ 0 := fun e => h (c.1 e)
    split
    · rename_i hg
      exact sampleFwd_cases hf hB ho hp (lt_of_le_of_ne hg (Ne.symm hne)) b
    · rename_i hg
      rw [not_le] at hg
      exact sampleBwd_cases hf hB ho hp hg a

theorem stepSafe_ok {dir : Direction} {prev p : K} (h : StepSafe dir prev p) : StepOk dir prev p := by
  cases dir
  · exact h
  · exact h.1

theorem blockSafe_ok {fl : K → K} {dir : Direction} {prev : K} {ps : List K}
    (h : BlockSafe fl dir prev ps) : BlockOk fl dir prev ps := by
  induction ps generalizing prev with
  | nil => trivial
  | cons p ps ih => exact ⟨h.1, stepSafe_ok h.2.1, ih h.2.2⟩

theorem blockOk_safe {fl : K → K} {prev : K} {ps : List K}
    (h : BlockOk fl .kForward prev ps) : BlockSafe fl .kForward prev ps := by
  induction ps generalizing prev with
  | nil => trivial
  | cons p ps ih => exact ⟨h.1, h.2.1, ih h.2.2⟩

theorem dirDiff_safe {fl : K → K} (hf : Rounding fl) {dir : Direction} {prev p : K}
    (h0 : PhaseOk fl prev) (hp : PhaseOk fl p) (h : StepSafe dir prev p)
    (hd : dirDiff fl dir p prev < 0) : p ≠ 0 := by
  cases dir with
  | kForward => exact absurd (fwdDiff_range hf h0 hp h).1 (not_lt.2 hd.le)
  | kBidirectionnal =>
    rintro rfl
    have := (biDiff_zero hf h0).1 hd
    have := h.2 rfl
    linarith

/-- one sample that does not leave the safe states -/
theorem step_ok (hf : Rounding S.env.fl) (hB : 0 < S.B) (ho : OscSafe S nw L o) {p : K}
    {dir : Direction} (hp : PhaseOk S.env.fl p) (h : StepOk dir o.prevPhase p) :
    Ok (S.stepDir dir o p) fun r =>
      StepPost S nw L o p (dirDiff S.env.fl dir p o.prevPhase) r.1 := by
  rcases step_cases hf hB ho.toOscPlay hp h with h | ⟨-, h, -⟩
  · exact h.1
  · exact absurd h.1 (ho.back h.2)

/-- a block of samples -/
theorem run_ok (hf : Rounding S.env.fl) (hB : 0 < S.B) {dir : Direction} {ps : List K}
    (ho : OscSafe S nw L o) (h : BlockSafe S.env.fl dir o.prevPhase ps) :
    Ok (S.runDir dir o ps) fun r => OscSafe S nw L r.1 ∧ r.1.prevPhase = ps.getLastD o.prevPhase ∧
      r.1.crt = o.crt ∧ r.2.length = ps.length := by
  induction ps generalizing o with
  | nil => exact Ok.ok ⟨ho, rfl, rfl, rfl⟩
  | cons p ps ih =>
    obtain ⟨hp, hs, hr⟩ := h
    unfold runDir
    refine Ok.bind (step_ok hf hB ho hp (stepSafe_ok hs)) fun r hr1 => ?_
    obtain ⟨o1, y⟩ := r
    dsimp only at hr1 ⊢
    have hr1s := hr1.safe (dirDiff_safe hf ho.phase hp hs)
    refine Ok.bind (ih hr1s (by rw [hr1.phase]; exact hr)) fun r2 hr2 => ?_
    obtain ⟨o2, ys⟩ := r2
    obtain ⟨c1, c2, c3, c4⟩ := hr2
    dsimp only at c1 c2 c3 c4
    refine Ok.pure ⟨c1, ?_, by rw [c3, hr1.crt], by simp [c4]⟩
    dsimp only
    rw [c2, hr1.phase, List.getLastD_cons]

/-- a block of samples, possibly reaching phase 0 backwards -/
theorem run_cases (hf : Rounding S.env.fl) (hB : 0 < S.B) {dir : Direction} {ps : List K}
    (ho : OscPlay S nw L o) (h : BlockOk S.env.fl dir o.prevPhase ps) :
    Ok (S.runDir dir o ps) (fun r => OscPlay S nw L r.1 ∧ r.1.prevPhase = ps.getLastD o.prevPhase ∧
      r.1.crt = o.crt ∧ r.2.length = ps.length) ∨ S.runDir dir o ps = .error .outOfBounds := by
  induction ps generalizing o with
  | nil => exact Or.inl (Ok.ok ⟨ho, rfl, rfl, rfl⟩)
  | cons p ps ih =>
    obtain ⟨hp, hs, hr⟩ := h
    unfold runDir
    rcases step_cases hf hB ho hp hs with ⟨⟨⟨o1, y⟩, e1, hr1⟩, -⟩ | ⟨e1, -⟩
    · rw [e1, R.ok_bind]
      dsimp only at hr1 ⊢
      rcases ih hr1.ok (by rw [hr1.phase]; exact hr) with ⟨⟨o2, ys⟩, e2, c1, c2, c3, c4⟩ | e2
      · left
        rw [e2, R.ok_bind]
        dsimp only at c1 c2 c3 c4
        refine Ok.pure ⟨c1, ?_, by rw [c3, hr1.crt], by simp [c4]⟩
        dsimp only
        rw [c2, hr1.phase, List.getLastD_cons]
      · right; rw [e2]; rfl
    · right; rw [e1]; rfl

theorem process_eq {dir : Direction} {ps : List K} {wt : WavetableData K}
    (hwt : o.wt = some wt) (out : List K) (hl : ps.length = out.length) {o' : Osc K C} {ys : List K}
    (h : S.runDir dir o ps = .ok (o', ys)) (hy : ys.length = ps.length) :
    S.process dir o ps out = .ok (o', ys) := by
  unfold process
  rw [hwt]
  simp only [Option.isNone_some, Bool.false_eq_true, if_false]
  rw [chk_true hl]
  simp only [R.pure_eq, R.ok_bind]
  rw [← hl, List.take_length, h]
  simp only [R.ok_bind, hy, hl, List.drop_length, List.append_nil]

/-- closed form of `resetInternals` -/
theorem reset_ok (hf : Rounding S.env.fl) {wt : WavetableData K} (hwt : o.wt = some wt)
    (hw : WtOk nw L wt) {p d : K} (hp : PhaseOk S.env.fl p) (hd : d ≠ 0) {c : CrossFader K}
    {t : MipMapIndices K} (hn : wt.cf.newIndices S.env |d| = .ok (c, t)) :
    S.resetInternals o p d = .ok { o with
      wt := some { wt with cf := c }, prevY := List.replicate S.n 0, prevPhase := p,
      prevPhaseRed := p, prevPhaseDiff := d, prevMip := t.idx,
      jRed := if d ≥ 0 then ⌊p * 2 ^ (L - t.idx.toNat)⌋ else ⌈p * 2 ^ (L - t.idx.toNat)⌉ } := by
  obtain ⟨c', t', hn', hfind, hw', hcs, ht0, ht1, htu⟩ := find_spec hf hw (abs_pos.2 hd)
  rw [hn] at hn'; cases hn'
  have hL := hw.L18
  obtain ⟨hr0, hr1, hr2⟩ := pos_range (n := L - t.idx.toNat) (by omega) hp.1 hp.2.1
  unfold resetInternals
  rw [hwt]
  dsimp only
  rw [Maths.reduceF_unit hf hp.1 hp.2.1, R.ok_bind, hfind, R.ok_bind]
  dsimp only
  rw [hw'.waveformLen ht0 ht1, R.ok_bind, pos_exact hf (by omega) hp.2.2.1 hp.1 hp.2.1.le]
  unfold segIndex
  by_cases h : d ≥ 0
  · rw [if_pos h, Maths.floor_small hf (by linarith) (by linarith), R.ok_bind, if_pos h]
    rfl
  · rw [if_neg h, Maths.ceil_small hf (by linarith) (by linarith), R.ok_bind, if_neg h]
    rfl

/-- `resetInternals` on any oscillator with a good wavetable -/
theorem reset_play (hf : Rounding S.env.fl) {wt : WavetableData K} (hwt : o.wt = some wt)
    (hw : WtOk nw L wt) {p d : K} (hp : PhaseOk S.env.fl p) (hd : d ≠ 0)
    (hc0 : 0 ≤ o.crt) (hc1 : o.crt < nw) :
    Ok (S.resetInternals o p d) fun o' => OscPlay S nw L o' ∧ o'.prevPhase = p ∧
      o'.prevPhaseDiff = d ∧ o'.crt = o.crt ∧ o'.prevY = List.replicate S.n 0 := by
  obtain ⟨c, t, hn, hfind, hw', hcs, ht0, ht1, htu⟩ := find_spec hf hw (abs_pos.2 hd)
  refine ⟨_, reset_ok hf hwt hw hp hd hn, ⟨⟨?_, hc0, hc1⟩, rfl, rfl, rfl, rfl⟩⟩
  have hL := hw.L18
  obtain ⟨f0, f1⟩ := floor_range (n := L - t.idx.toNat) (by omega) hp.1 hp.2.1
  obtain ⟨e0, e1, e2⟩ := ceil_range (n := L - t.idx.toNat) (by omega) hp.1 hp.2.1
  refine ⟨⟨_, rfl, hw'⟩, ht0, ht1, ?_, ?_, fun h => ?_, fun h h' => ?_, hp.1, hp.2.1, rfl, hp.2.2,
    hd, fun h => if_pos h.le, fun h => if_neg (not_le.2 h)⟩
  · dsimp only; split <;> assumption
  · dsimp only; split <;> [exact f1.le; exact e1]
  · dsimp only at h ⊢; rw [if_pos h.le]; exact f1
  · dsimp only at h ⊢; rw [if_neg (not_le.2 h)]; exact e2 h'

/-- a history -/
theorem history_ok (hf : Rounding S.env.fl) (hB : 0 < S.B) {ops : List (Op K)}
    (ho : OscSafe S nw L o) (h : HistorySafe S.env.fl nw o.prevPhase ops) :
    Ok (runOps S o ops) fun r => OscSafe S nw L r.1 := by
  induction ops generalizing o with
  | nil => exact Ok.ok ho
  | cons op ops ih =>
    unfold runOps
    refine Ok.bind (P := fun r => OscSafe S nw L r.1 ∧ HistorySafe S.env.fl nw r.1.prevPhase ops) ?_
      fun r hr => ?_
    · obtain ⟨wt, hwt, hw⟩ := ho.wt
      cases op with
      | process dir ps =>
        obtain ⟨h1, h2⟩ := h
        obtain ⟨⟨o', ys⟩, e, a, b, -, d⟩ := run_ok hf hB ho h1
        exact ⟨_, process_eq hwt _ (by simp) e d, a, by rw [b]; exact h2⟩
      | setWaveform i =>
        obtain ⟨h0, h1, h2⟩ := h
        unfold runOp setWaveform
        rw [chk_true (by rw [hwt]; rfl)]
        simp only [R.pure_eq, R.ok_bind]
        refine Ok.ok ⟨⟨⟨⟨ho.wt, ho.mip0, ho.mip1, ho.j0, ho.j1, ho.jf, ho.jb, ho.p0, ho.p1, ho.red,
          ho.fl, ho.diff, ho.posF, ho.posB⟩, h0, h1⟩, ho.back⟩, h2⟩
      | reset p d =>
        obtain ⟨h1, h2, h3, h4⟩ := h
        unfold runOp
        refine Ok.bind (reset_play hf hwt hw h1 h2 ho.crt0 ho.crt1) fun o1 h => ?_
        refine Ok.pure ⟨⟨h.1, by rw [h.2.1, h.2.2.1]; exact h3⟩, ?_⟩
        dsimp only
        rw [h.2.1]; exact h4
    · obtain ⟨o1, y1⟩ := r
      dsimp only at hr ⊢
      refine Ok.bind (ih hr.1 hr.2) fun r2 h2 => ?_
      exact Ok.pure h2

theorem ForwardHistory.ok {fl : K → K} {nw : ℕ} {prev : K} {ops : List (Op K)}
    (h : ForwardHistory fl nw prev ops) : HistorySafe fl nw prev ops := by
  induction ops generalizing prev with
  | nil => trivial
  | cons op ops ih =>
    cases op with
    | process dir ps =>
      obtain ⟨rfl, h1, h2⟩ := h
      exact ⟨blockOk_safe h1, ih h2⟩
    | setWaveform i =>
      obtain ⟨h0, h1, h2⟩ := h
      exact ⟨h0, h1, ih h2⟩
    | reset p d =>
      obtain ⟨h1, h2, h3⟩ := h
      exact ⟨h1, h2.ne', fun h => absurd h (not_lt.2 h2.le), ih h3⟩

/-- after `init` with a built wavetable -/
theorem init_play (hf : Rounding S.env.fl) (o : Osc K C) {wt : WavetableData K}
    (hw : WtOk nw L wt) {p d : K} (hp : PhaseOk S.env.fl p) (hd : d ≠ 0) :
    Ok (S.init o (some wt) p d) fun r => OscPlay S nw L r.1 ∧ r.1.prevPhase = p ∧
      r.1.prevPhaseDiff = d ∧ r.1.crt = 0 ∧ r.2 = 0 ∧ r.1.prevY = List.replicate S.n 0 := by
  have := hw.nw0
  unfold init
  dsimp only
  obtain ⟨c, t, hn, hfind, hw', hcs, ht0, ht1, htu⟩ := find_spec hf hw (abs_pos.2 hd)
  -- `resetInternals` keeps the selected waveform; it is valid only afterwards
  have e := reset_ok (o := { o with wt := some wt }) hf rfl hw hp hd hn
  have e' := reset_play (o := { o with wt := some wt, crt := 0 }) hf rfl hw hp hd le_rfl
    (by show (0 : ℤ) < nw; exact_mod_cast hw.nw0)
  rw [reset_ok (o := { o with wt := some wt, crt := 0 }) hf rfl hw hp hd hn] at e'
  obtain ⟨x, hx, h1, h2, h3, h4, h5⟩ := e'
  cases hx
  rw [e, R.ok_bind]
  exact Ok.pure ⟨h1, rfl, rfl, rfl, rfl, rfl⟩

end Sys
end Adwt
