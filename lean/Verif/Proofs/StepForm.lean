import Verif.Proofs.Reached

/-!
# Closed form of a sample in either direction
-/

set_option linter.unusedSectionVars false

namespace Adwt
variable {K C : Type} [Field K] [LinearOrder K] [IsStrictOrderedRing K] [FloorRing K]
variable [Zero C] [Add C] [Sub C] [Mul C] [Div C]

namespace Sys
variable {S : Sys K C} {nw L : ℕ} {o o' : Osc K C}

/-- the complex sums of a sample -/
def acc (S : Sys K C) (wt : WavetableData K) (L : ℕ) (o : Osc K C) (t : MipMapIndices K)
    (p d : K) : ℕ → C :=
  if 0 < d then S.accF wt L o t p d else S.accB wt L o t p d

/-- the state after a sample -/
def nextOsc (S : Sys K C) (wt : WavetableData K) (L : ℕ) (o : Osc K C) (c : CrossFader K)
    (t : MipMapIndices K) (p d : K) : Osc K C :=
  { wt := some { wt with cf := c }, prevY := S.cpxY o.prevY (S.acc wt L o t p d), prevPhase := p,
    prevPhaseRed := p, prevPhaseDiff := d, prevMip := t.idx,
    jRed := if 0 < d then ⌊p * 2 ^ (L - t.idx.toNat)⌋ else ⌈p * 2 ^ (L - t.idx.toNat)⌉,
    prevJRed := if 0 < d then S.prevJF o (L - t.idx.toNat) t.idx
      else S.prevJB o (L - t.idx.toNat) t.idx, crt := o.crt }

/-- the step of a legal sample -/
theorem dirDiff_range (hf : Rounding S.env.fl) (ho : OscOk S nw L o) {dir : Direction} {p : K}
    (hp : PhaseOk S.env.fl p) (hs : StepOk dir o.prevPhase p) :
    dirDiff S.env.fl dir p o.prevPhase ≠ 0 ∧ -(1 / 2) ≤ dirDiff S.env.fl dir p o.prevPhase ∧
      dirDiff S.env.fl dir p o.prevPhase ≤ 1 / 2 := by
  cases dir with
  | kForward =>
    obtain ⟨a, b⟩ := fwdDiff_range hf ho.phase hp hs
    exact ⟨a.ne', by show _ ≤ fwdDiff _ _ _; linarith, b⟩
  | kBidirectionnal =>
    obtain ⟨a, b, c⟩ := biDiff_range hf ho.phase hp
    exact ⟨fun h => hs (c.1 h), a, b⟩

/-- Closed form of a legal sample. -/
theorem step_form (hf : Rounding S.env.fl) (hB : 0 < S.B) (ho : OscPlay S nw L o)
    {wt : WavetableData K} (hwt : o.wt = some wt) {dir : Direction} {p : K}
    (hp : PhaseOk S.env.fl p) (hs : StepOk dir o.prevPhase p) {c : CrossFader K}
    {t : MipMapIndices K}
    (hn : wt.cf.newIndices S.env |dirDiff S.env.fl dir p o.prevPhase| = .ok (c, t))
    (hno : ¬ (AtZeroBackward o ∧ t.idx < o.prevMip)) :
    S.stepDir dir o p = .ok (S.nextOsc wt L o c t p (dirDiff S.env.fl dir p o.prevPhase),
      S.outReal (S.cpxY o.prevY (S.acc wt L o t p (dirDiff S.env.fl dir p o.prevPhase)))) := by
  have hw : WtOk nw L wt := by
    obtain ⟨wt', e', h⟩ := ho.wt
    rw [hwt] at e'; cases e'; exact h
  have hsafe := safe_of ho.toOscOk hno
  obtain ⟨r0, r1, r2⟩ := dirDiff_range hf ho.toOscOk hp hs
  have fwd : ∀ d, 0 < d → d ≤ 1 / 2 → wt.cf.newIndices S.env |d| = .ok (c, t) →
      S.processSampleFwd o p d = .ok (S.nextOsc wt L o c t p d,
        S.outReal (S.cpxY o.prevY (S.acc wt L o t p d))) := by
    intro d d0 d1 hn
    rw [abs_of_pos d0] at hn
    rw [fwd_eq hf hB hwt ho.toOscOk hw ho.crt0 ho.crt1 hp.1 hp.2.1 hp.2.2.1 d0 d1 hn hsafe]
    unfold nextOsc acc
    simp only [if_pos d0]
  cases dir with
  | kForward =>
    obtain ⟨a, b⟩ := fwdDiff_range hf ho.toOscOk.phase hp hs
    show S.stepFwd o p = _
    rw [stepFwd_eq hf ho.toOscOk hp hs]
    exact fwd _ a b hn
  | kBidirectionnal =>
    show S.stepBi o p = _
    unfold stepBi
    dsimp only
    by_cases h : biDiff S.env.fl p o.prevPhase ≥ 0
    · rw [if_pos h]
      exact fwd _ (lt_of_le_of_ne h (Ne.symm r0)) r2 hn
    · rw [if_neg h]
      have h' : biDiff S.env.fl p o.prevPhase < 0 := not_le.1 h
      have r1 : -(1 / 2) ≤ biDiff S.env.fl p o.prevPhase := r1
      rw [bwd_eq hf hB hwt ho.toOscOk hw ho.crt0 ho.crt1 hp.1 hp.2.1 hp.2.2.1 h' r1 hn hsafe]
      unfold nextOsc acc dirDiff
      simp only [if_neg (not_lt.2 h'.le)]

/-- A sample that succeeds has this form. -/
theorem step_form' (hf : Rounding S.env.fl) (hB : 0 < S.B) (ho : OscPlay S nw L o)
    {wt : WavetableData K} (hwt : o.wt = some wt) {dir : Direction} {p y : K}
    (hp : PhaseOk S.env.fl p) (hs : StepOk dir o.prevPhase p)
    (h : S.stepDir dir o p = .ok (o', y)) :
    ∃ c t, wt.cf.newIndices S.env |dirDiff S.env.fl dir p o.prevPhase| = .ok (c, t) ∧
      ¬ (AtZeroBackward o ∧ t.idx < o.prevMip) ∧
      o' = S.nextOsc wt L o c t p (dirDiff S.env.fl dir p o.prevPhase) ∧
      y = S.outReal (S.cpxY o.prevY (S.acc wt L o t p (dirDiff S.env.fl dir p o.prevPhase))) ∧
      OscPlay S nw L o' ∧ 0 ≤ t.idx ∧ t.idx < (L : ℤ) - 1 ∧
      (t.weightUp ≠ 0 → t.idxUp = t.idx + 1 ∧ t.idxUp < (L : ℤ) - 1) := by
  have hw : WtOk nw L wt := by
    obtain ⟨wt', e', h⟩ := ho.wt
    rw [hwt] at e'; cases e'; exact h
  obtain ⟨r0, -⟩ := dirDiff_range hf ho.toOscOk hp hs
  obtain ⟨c, t, hn, hfind, -, -, b0, b1, b2⟩ := find_spec hf hw (abs_pos.2 r0)
  rcases step_cases hf hB ho hp hs with ⟨a, b⟩ | ⟨a, -⟩
  swap
  · rw [h] at a; cases a
  have hno : ¬ (AtZeroBackward o ∧ t.idx < o.prevMip) := fun hh =>
    b ⟨hh.1, wt, _, t, hwt, hfind, hh.2⟩
  have := step_form hf hB ho hwt hp hs hn hno
  rw [h] at this
  cases this
  exact ⟨c, t, hn, hno, rfl, rfl, (a.elim h).ok, b0, b1, b2⟩

/-! ### two oscillators with the same control state -/

/-- equal except for the filter memory, the contents of the tables and `prev_j_red_` (which is
written, never read) -/
structure Ctl (o1 o2 : Osc K C) : Prop where
  cf : ∃ wt1 wt2, o1.wt = some wt1 ∧ o2.wt = some wt2 ∧ wt1.cf = wt2.cf
  phase : o1.prevPhase = o2.prevPhase
  red : o1.prevPhaseRed = o2.prevPhaseRed
  diff : o1.prevPhaseDiff = o2.prevPhaseDiff
  mip : o1.prevMip = o2.prevMip
  j : o1.jRed = o2.jRed
  crt : o1.crt = o2.crt

theorem Ctl.symm {o1 o2 : Osc K C} (h : Ctl o1 o2) : Ctl o2 o1 := by
  obtain ⟨⟨w1, w2, a, b, c⟩, h1, h2, h3, h4, h5, h7⟩ := h
  exact ⟨⟨w2, w1, b, a, c.symm⟩, h1.symm, h2.symm, h3.symm, h4.symm, h5.symm, h7.symm⟩

theorem Ctl.prevJF {o1 o2 : Osc K C} (h : Ctl o1 o2) (n : ℕ) (i : ℤ) :
    S.prevJF o1 n i = S.prevJF o2 n i := by
  unfold Sys.prevJF; rw [h.mip, h.j, h.diff, h.red]

theorem Ctl.prevJB {o1 o2 : Osc K C} (h : Ctl o1 o2) (n : ℕ) (i : ℤ) :
    S.prevJB o1 n i = S.prevJB o2 n i := by
  unfold Sys.prevJB; rw [h.mip, h.j, h.diff, h.red]

/-- Both succeed if one does, and the control states stay the same. -/
theorem ctl_step (hf : Rounding S.env.fl) (hB : 0 < S.B) {o1 o2 o1' : Osc K C}
    (h1 : OscPlay S nw L o1) (h2 : OscPlay S nw L o2) (hc : Ctl o1 o2) {wt1 wt2 : WavetableData K}
    (e1 : o1.wt = some wt1) (e2 : o2.wt = some wt2) {dir : Direction} {p y1 : K}
    (hp : PhaseOk S.env.fl p) (hs : StepOk dir o1.prevPhase p)
    (h : S.stepDir dir o1 p = .ok (o1', y1)) :
    ∃ c t o2' y2, S.stepDir dir o2 p = .ok (o2', y2) ∧ Ctl o1' o2' ∧
      OscPlay S nw L o1' ∧ OscPlay S nw L o2' ∧
      o1'.wt = some { wt1 with cf := c } ∧ o2'.wt = some { wt2 with cf := c } ∧
      o1'.prevY = S.cpxY o1.prevY (S.acc wt1 L o1 t p (dirDiff S.env.fl dir p o1.prevPhase)) ∧
      o2'.prevY = S.cpxY o2.prevY (S.acc wt2 L o2 t p (dirDiff S.env.fl dir p o1.prevPhase)) ∧
      y1 = S.outReal o1'.prevY ∧ y2 = S.outReal o2'.prevY ∧
      wt1.cf.newIndices S.env |dirDiff S.env.fl dir p o1.prevPhase| = .ok (c, t) ∧
      0 ≤ t.idx ∧ t.idx < (L : ℤ) - 1 ∧
      (t.weightUp ≠ 0 → t.idxUp = t.idx + 1 ∧ t.idxUp < (L : ℤ) - 1) := by
  obtain ⟨c, t, hn, hno, rfl, rfl, hok, b0, b1, b2⟩ := step_form' hf hB h1 e1 hp hs h
  obtain ⟨w1, w2, f1, f2, f3⟩ := hc.cf
  rw [e1] at f1; cases f1
  rw [e2] at f2; cases f2
  have hs2 : StepOk dir o2.prevPhase p := by rw [← hc.phase]; exact hs
  have hno2 : ¬ (AtZeroBackward o2 ∧ t.idx < o2.prevMip) := by
    unfold AtZeroBackward at hno ⊢
    rw [← hc.phase, ← hc.diff, ← hc.mip]; exact hno
  have hn2 := hn
  rw [f3, hc.phase] at hn2
  have := step_form hf hB h2 e2 hp hs2 hn2 hno2
  obtain ⟨_, _, _, _, _, _, hok2, _⟩ := step_form' hf hB h2 e2 hp hs2 this
  rw [← hc.phase] at this hok2
  refine ⟨c, t, _, _, this, ?_, hok, hok2, rfl, rfl, rfl, rfl, rfl, rfl, hn, b0, b1, b2⟩
  exact ⟨⟨_, _, rfl, rfl, rfl⟩, rfl, rfl, rfl, rfl, rfl, hc.crt⟩

end Sys
end Adwt
