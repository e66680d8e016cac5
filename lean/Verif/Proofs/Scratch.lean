import Verif.Spec.Scratch
import Verif.Proofs.SlowRun

/-!
# The crossfader under changes of pitch and direction
-/

set_option linter.unusedSectionVars false

namespace Adwt
open CrossFader

namespace CrossFader
variable {K : Type} [Field K] [LinearOrder K] [IsStrictOrderedRing K] [FloorRing K]

/-- While a higher table is faded in, a lower one had been asked for not long before it (times are those
of the requests `o`). -/
def Climb (o : ℕ → ℤ) (c : CrossFader K) (t : ℕ) : Prop :=
  c.prevIdx < c.nextIdx → ∃ j k : ℕ, j < k ∧ k ≤ t ∧ o j < o k ∧ o k = c.nextIdx ∧
    (t : ℤ) - j ≤ 2 * c.numSamples + 1 - c.samplesLeft

theorem climb_step {c : CrossFader K} (h : c.Inv) {o : ℕ → ℤ} {t : ℕ} (hr : Recent o c t)
    (hc : Climb o c t) : Climb o (c.nextState (o (t + 1))) (t + 1) := by
  obtain ⟨k, k1, k2, k3⟩ := hr
  obtain ⟨a1, a2, a3, a4, a5, a6, a7, a8, a9, a10⟩ := h
  intro hlt
  by_cases hk : c.prevIdx < c.nextIdx
  · obtain ⟨j, k', j1, j2, j3, j4, j5⟩ := hc hk
    by_cases hn : (c.nextState (o (t + 1))).nextIdx = c.nextIdx
    · refine ⟨j, k', j1, by omega, j3, by omega, ?_⟩
      unfold nextState continueFade updateIndices at hlt hn ⊢
      dsimp only at hlt hn ⊢
      split_ifs at hlt hn ⊢ <;> (try dsimp only at *) <;> push_cast <;> omega
    · refine ⟨k, t + 1, by omega, le_rfl, ?_, ?_, ?_⟩ <;>
      · unfold nextState continueFade updateIndices at hlt hn
        try unfold nextState continueFade updateIndices
        dsimp only at hlt hn ⊢
        split_ifs at hlt hn ⊢ <;> (try dsimp only at *) <;> push_cast <;> omega
  · refine ⟨k, t + 1, by omega, le_rfl, ?_, ?_, ?_⟩ <;>
    · unfold nextState continueFade updateIndices at hlt
      try unfold nextState continueFade updateIndices
      dsimp only at hlt ⊢
      split_ifs at hlt ⊢ <;> (try dsimp only at *) <;> push_cast <;> omega

/-- The lower table rises only if a higher octave was asked for after a lower one. -/
theorem climb_rise {c : CrossFader K} (h : c.Inv) {o : ℕ → ℤ} {t : ℕ} (hr : Recent o c t)
    (hc : Climb o c t) (hlt : min c.prevIdx c.nextIdx <
      min (c.nextState (o (t + 1))).prevIdx (c.nextState (o (t + 1))).nextIdx) :
    ∃ j k : ℕ, j < k ∧ k ≤ t + 1 ∧ o j < o k ∧ (t : ℤ) - j ≤ 2 * c.numSamples := by
  obtain ⟨k, k1, k2, k3⟩ := hr
  obtain ⟨a1, a2, a3, a4, a5, a6, a7, a8, a9, a10⟩ := h
  by_cases hn : c.nextIdx < o (t + 1)
  · exact ⟨k, t + 1, by omega, le_rfl, by omega, by omega⟩
  · by_cases hk : c.prevIdx < c.nextIdx
    · obtain ⟨j, k', j1, j2, j3, j4, j5⟩ := hc hk
      refine ⟨j, k', j1, by omega, j3, ?_⟩
      have : c.samplesLeft ≠ 0 := fun h0 => by have := a9 h0; omega
      omega
    · exfalso
      unfold nextState continueFade updateIndices at hlt
      dsimp only at hlt
      split_ifs at hlt <;> (try dsimp only at *) <;> omega

/-- The lower table falls only if a lower octave is asked for than recently. -/
theorem recent_fall {c : CrossFader K} (h : c.Inv) {o : ℕ → ℤ} {t : ℕ} (hr : Recent o c t)
    (hlt : min (c.nextState (o (t + 1))).prevIdx (c.nextState (o (t + 1))).nextIdx <
      min c.prevIdx c.nextIdx) :
    ∃ k : ℕ, k ≤ t ∧ o (t + 1) < o k ∧ (t : ℤ) - k ≤ c.numSamples := by
  obtain ⟨k, k1, k2, k3⟩ := hr
  obtain ⟨a1, a2, a3, a4, a5, a6, a7, a8, a9, a10⟩ := h
  refine ⟨k, k1, ?_, by omega⟩
  rw [k2]
  unfold nextState continueFade updateIndices at hlt
  dsimp only at hlt
  split_ifs at hlt <;> (try dsimp only at *) <;> omega

end CrossFader

variable {C : Type} [Zero C] [Add C] [Sub C] [Mul C] [Div C] {S : Sys ℝ C} {ws : List ℝ} {nw L : ℕ}

/-- Octaves asked for: `n`-th step (0 is the one of `init`). -/
noncomputable def octs (L : ℕ) (d : ℕ → ℝ) (k : ℕ) : ℤ := (findLoop |d k| (octaveScale ℝ L) : ℤ)

/-- Octaves asked for: the constructor's, then those of `octs`. -/
noncomputable def octs1 (fl : ℝ → ℝ) (L : ℕ) (d : ℕ → ℝ) (k : ℕ) : ℤ :=
  (findLoop (askedFor fl d k) (octaveScale ℝ L) : ℤ)

theorem NotHigher.octs {L : ℕ} (hL : 2 ≤ L) {a b : ℝ} (h : NotHigher L a b) :
    (findLoop b (octaveScale ℝ L) : ℤ) ≤ findLoop a (octaveScale ℝ L) :=
  h _ _ (findLoop_octave hL a) (findLoop_octave hL b)

/-- What is known before each sample of a run in both directions. -/
structure ScratchAt (S : Sys ℝ C) (ws : List ℝ) (nw L : ℕ) (num : ℤ) (d : ℕ → ℝ) (x : ℝ) (n : ℕ)
    (o : Osc ℝ C) : Prop where
  plays : Plays S ws nw L o
  phase : o.prevPhase = x
  diff : o.prevPhaseDiff = d n
  wt : ∃ wt, o.wt = some wt ∧ wt.cf.numSamples = num ∧
    o.prevMip = min wt.cf.prevIdx wt.cf.nextIdx ∧ Recent (octs L d) wt.cf n ∧
    Climb (octs1 S.env.fl L d) wt.cf (n + 1)

theorem Recent.shift {K : Type} [Field K] [LinearOrder K] [IsStrictOrderedRing K] [FloorRing K]
    {fl : ℝ → ℝ} {L : ℕ} {d : ℕ → ℝ} {c : CrossFader K} {n : ℕ}
    (h : Recent (octs L d) c n) : Recent (octs1 fl L d) c (n + 1) := by
  obtain ⟨k, k1, k2, k3⟩ := h
  exact ⟨k + 1, by omega, k2, by push_cast; omega⟩

theorem Built.cf' {E : Env ℝ} (hf : Rounding E.fl) (hl : Log2Spec E.log2f)
    {ws : List ℝ} {nw L : ℕ} {sr dur : ℝ} {wt : WavetableData ℝ} (h : Built E ws nw L sr dur wt) :
    wt.cf.nextIdx = findLoop (E.fl (1 / 10)) (octaveScale ℝ L) := by
  have hw := (h.ok hf hl).scale
  obtain ⟨hs, hx, hlen, h⟩ := h
  obtain ⟨L', xf, h2, h18, hn, hs0, hlen', hxf, rfl⟩ := WavetableData.build_some hf hl hs h
  rw [← hw]
  rfl

/-- `init` -/
theorem scratch_init (hf : Rounding S.env.fl) (hl : Log2Spec S.env.log2f) {sr dur : ℝ} {wt : WavetableData ℝ}
    (hb : Built S.env ws nw L sr dur wt) {o0 o : Osc ℝ C} {x0 : ℝ} {r : ℤ}
    (hp : PhaseOk S.env.fl x0) {d : ℕ → ℝ} (hd : d 0 ≠ 0)
    (hi : S.init o0 (some wt) x0 (d 0) = .ok (o, r)) :
    ScratchAt S ws nw L ⌊S.env.fl (dur * sr)⌋ d x0 0 o ∧ ∀ y ∈ o.prevY, y = 0 := by
  have hw := hb.ok hf hl
  obtain ⟨c1, c2⟩ := hb.cf hf hl
  have c3 := hb.cf' hf hl
  obtain ⟨t, e, -⟩ := newIndices_eq (E := S.env) hf hw.inv (abs_pos.2 hd)
  have e1 := Sys.reset_ok (S := S) (o := { o0 with wt := some wt }) hf rfl hw hp hd e
  have hi' := hi
  unfold Sys.init at hi'
  dsimp only at hi'
  rw [e1, R.ok_bind] at hi'
  cases hi'
  refine ⟨⟨⟨Reached.init hb ⟨hp, hd⟩ hi, _, _, _, _, hb, rfl, rfl⟩, rfl, rfl, _, rfl, ?_, ?_, ?_, ?_⟩, ?_⟩
  · exact (nextState_const _ _).2.trans c2
  · exact tuple_low hf hw.inv (abs_pos.2 hd) e
  · refine ⟨0, le_rfl, ?_, ?_⟩
    · rw [hw.scale]
      unfold octs
      dsimp only
      unfold nextState updateIndices
      rw [if_neg (by simpa using c1)]
      dsimp only
      split_ifs with h1 <;> first | exact h1 | rfl
    · have := hw.inv.num
      have := hw.inv.left1
      unfold nextState continueFade updateIndices
      dsimp only
      split_ifs <;> (try dsimp only at *) <;> push_cast <;> omega
  · have hr0 : Recent (octs1 S.env.fl L d) wt.cf 0 := ⟨0, le_rfl, c3.symm, by
      have := hw.inv.num; push_cast; omega⟩
    have hc0 : Climb (octs1 S.env.fl L d) wt.cf 0 := fun h => by
      have := hw.inv.idle c1; omega
    have := climb_step hw.inv hr0 hc0
    dsimp only
    rw [hw.scale]
    exact this
  · intro y hy
    exact (List.mem_replicate.1 hy).2

/-- one sample -/
theorem scratch_step (hf : Rounding S.env.fl) (hB : 0 < S.B) (hl : Log2Spec S.env.log2f) {num : ℤ} {d : ℕ → ℝ}
    {x : ℕ → ℝ} {n : ℕ} {o : Osc ℝ C} (h : ScratchAt S ws nw L num d (x n) n o)
    (hslow : FallsSlowly L num d) (hclear : ClearOfChanges S.env.fl L num d x)
    {dir : Sys.Direction} (hp' : PhaseOk S.env.fl (x (n + 1))) (hstep : StepOk dir (x n) (x (n + 1)))
    (hd : Sys.dirDiff S.env.fl dir (x (n + 1)) (x n) = d (n + 1)) :
    ∃ o' y t, S.process dir o [x (n + 1)] [0] = .ok (o', [y]) ∧
      ScratchAt S ws nw L num d (x (n + 1)) (n + 1) o' ∧
      NextIndices S o o'.prevPhaseDiff t ∧ TableMove o t.idx ∧ t.idx.toNat ≤ L := by
  have hpl := Sys.reached_play hf hl hB h.plays.1
  obtain ⟨wt, hwt, hnum, hmip, hrec, hclimb⟩ := h.wt
  obtain ⟨wt', hwt', hok⟩ := hpl.wt
  rw [hwt] at hwt'; cases hwt'
  have hs' : StepOk dir o.prevPhase (x (n + 1)) := by rw [h.phase]; exact hstep
  have hdd : Sys.dirDiff S.env.fl dir (x (n + 1)) o.prevPhase = d (n + 1) := by rw [h.phase]; exact hd
  have hd0 : d (n + 1) ≠ 0 := by
    rw [← hdd]
    exact (Sys.dirDiff_range hf hpl.toOscOk hp' hs').1
  have hL2 := hok.L2
  -- the crossfader's next state
  have key : ∀ {c : CrossFader ℝ} {t : MipMapIndices ℝ},
      wt.cf.newIndices S.env |d (n + 1)| = .ok (c, t) →
      c = wt.cf.nextState (octs L d (n + 1)) ∧ t.idx = min c.prevIdx c.nextIdx ∧
      (t.idx < o.prevMip → ¬ AtZeroBackward o) ∧ TableMove o t.idx := by
    intro c t e
    have hlow := tuple_low hf hok.inv (abs_pos.2 hd0) e
    obtain ⟨t', e', -⟩ := newIndices_eq (E := S.env) hf hok.inv (abs_pos.2 hd0)
    rw [e] at e'
    have hc : c = wt.cf.nextState (octs L d (n + 1)) := by
      cases e'
      unfold octs
      rw [hok.scale]
    refine ⟨hc, hlow, ?_, ?_⟩
    · rintro hlt ⟨z1, z2⟩
      rw [hlow, hmip, hc] at hlt
      obtain ⟨k, k1, k2, k3⟩ := recent_fall hok.inv hrec hlt
      have := (hclear.fall n (by rw [← h.diff]; exact z2) (by rw [← h.phase]; exact z1) k k1
        (by omega)).octs hL2
      unfold octs at k2
      omega
    · have hdrop := recent_drop hok.inv hrec (fun k hk hk2 => by
        have := hslow k (n + 1) (by omega) (by push_cast; omega) _ _ (findLoop_octave hL2 _)
          (findLoop_octave hL2 _)
        unfold octs
        omega)
      rw [← hc] at hdrop
      unfold TableMove
      rcases lt_trichotomy t.idx o.prevMip with h1 | h1 | h1
      · right; right; omega
      · exact Or.inl h1
      · refine Or.inr (Or.inl ⟨?_, h1⟩)
        by_contra hneg
        have hdn : o.prevPhaseDiff < 0 := lt_of_le_of_ne (not_lt.1 hneg) hpl.diff
        rw [hlow, hmip, hc] at h1
        obtain ⟨j, k, j1, j2, j3, j4⟩ := climb_rise (o := octs1 S.env.fl L d) hok.inv
          (Recent.shift hrec) hclimb h1
        have := (hclear.rise n (by rw [← h.diff]; exact hdn) j k j1 (by omega)
          (by rw [← hnum]; push_cast at j4; omega)).octs hL2
        unfold octs1 at j3
        omega
  rcases Sys.step_cases hf hB hpl hp' hs' with ⟨⟨⟨o', y⟩, e, hr⟩, -⟩ | ⟨-, hz, hdr⟩
  swap
  · exfalso
    rw [hdd] at hdr
    obtain ⟨wt1, wt2, t, f1, f2, f3⟩ := hdr
    rw [hwt] at f1; cases f1
    obtain ⟨t', e', -⟩ := newIndices_eq (E := S.env) hf hok.inv (abs_pos.2 hd0)
    have f2' := f2
    unfold WavetableData.findMipMapIndices at f2'
    rw [e'] at f2'
    cases f2'
    exact (key e').2.2.1 f3 hz
  rw [hdd] at hr
  dsimp only at hr
  have hproc : S.process dir o [x (n + 1)] [0] = .ok (o', [y]) := by
    rw [Sys.process_runDir _ _ (by rw [hwt]; rfl) (show [x (n + 1)].length = [(0 : ℝ)].length from rfl)]
    unfold Sys.runDir Sys.runDir
    rw [e]; rfl
  obtain ⟨wt1, c, t, f1, -, f3, f4, f5, f6⟩ := hr.find
  rw [hwt] at f1; cases f1
  obtain ⟨hc, hlow, -, hmove⟩ := key f3
  obtain ⟨t0, t1, -⟩ := tuple_facts hf hok.inv (abs_pos.2 hd0) f3
  refine ⟨o', y, t, hproc, ?_, ⟨wt, { wt with cf := c }, hwt, ?_⟩, hmove, ?_⟩
  · refine ⟨Props.Plays.process (dir := dir) (ps := [x (n + 1)]) (out := [0]) h.plays ⟨hp', hs', trivial⟩
      rfl hproc, hr.phase, hr.diff, _, f5, ?_, ?_, ?_, ?_⟩
    · show c.numSamples = _
      rw [hc]; exact (nextState_const _ _).2.trans hnum
    · rw [f6]; exact hlow
    · show Recent _ c (n + 1)
      rw [hc]; exact recent_step hok.inv hrec
    · show Climb _ c (n + 1 + 1)
      rw [hc]; exact climb_step (o := octs1 S.env.fl L d) hok.inv (Recent.shift hrec) hclimb
  · unfold WavetableData.findMipMapIndices
    rw [hr.diff, f3]; rfl
  · have := hok.scale_len
    omega

theorem ScratchAt.switch {num : ℤ}
    {d : ℕ → ℝ} {x : ℝ} {n : ℕ} {o : Osc ℝ C} (h : ScratchAt S ws nw L num d x n o) {i : ℤ} (h0 : 0 ≤ i)
    (h1 : i < nw) : ∃ o', S.setWaveform o i = .ok o' ∧ ScratchAt S ws nw L num d x n o' ∧
      o' = { o with crt := i } := by
  obtain ⟨wt, hwt, -⟩ := h.wt
  have e : S.setWaveform o i = .ok { o with crt := i } := by
    unfold Sys.setWaveform
    rw [chk_true (by rw [hwt]; rfl)]
    rfl
  exact ⟨_, e, ⟨(setWaveform_plays h.plays h0 h1 e).1, h.phase, h.diff, h.wt⟩, rfl⟩

/-- If backward steps stay clear of table changes, every call succeeds and the position is never lost,
whatever waveforms are chosen. -/
theorem scratch_run (hf : Rounding S.env.fl) (hB : 0 < S.B) (hl : Log2Spec S.env.log2f)
    {sr dur : ℝ} {wt : WavetableData ℝ} (hb : Built S.env ws nw L sr dur wt)
    {o0 o : Osc ℝ C} {D : ℝ} {r : ℤ} {x : ℕ → ℝ} (hp : ∀ n, PhaseOk S.env.fl (x n)) (hD : D ≠ 0)
    (hi : S.init o0 (some wt) (x 0) D = .ok (o, r)) {w : ℕ → ℤ} (hw : ∀ n, 0 ≤ w n ∧ w n < nw)
    {dir : ℕ → Sys.Direction}
    (hstep : ∀ n, StepOk (dir n) (x n) (x (n + 1))) {d : ℕ → ℝ} (hd0 : d 0 = D)
    (hd : ∀ n, d (n + 1) = Sys.dirDiff S.env.fl (dir n) (x (n + 1)) (x n))
    (hslow : FallsSlowly L ⌊S.env.fl (dur * sr)⌋ d)
    (hclear : ClearOfChanges S.env.fl L ⌊S.env.fl (dur * sr)⌋ d x)
    (hoff : ∀ n, OffDenormal (2 ^ L) (x n)) :
    ∃ (st sw : ℕ → Osc ℝ C) (y : ℕ → ℝ) (t : ℕ → MipMapIndices ℝ), st 0 = o ∧
      (st 0).prevPhase = x 0 ∧
      (∀ n, S.setWaveform (st n) (w n) = .ok (sw n)) ∧
      (∀ n, S.process (dir n) (sw n) [x (n + 1)] [0] = .ok (st (n + 1), [y n])) ∧
      (∀ n, (st (n + 1)).prevPhaseDiff = d (n + 1)) ∧
      ∀ m, SwitchedRun S ws nw L m st sw w dir (fun n => x (n + 1)) y t := by
  classical
  obtain ⟨h0, hy0⟩ := scratch_init hf hl hb (d := d) (hp 0) (by rw [hd0]; exact hD)
    (by rw [hd0]; exact hi)
  obtain ⟨num, hnum⟩ : ∃ num, num = ⌊S.env.fl (dur * sr)⌋ := ⟨_, rfl⟩
  rw [← hnum] at h0 hslow hclear
  have ex : ∀ (n : ℕ) (o : Osc ℝ C), ∃ (r : Osc ℝ C × Osc ℝ C × ℝ × MipMapIndices ℝ),
      ScratchAt S ws nw L num d (x n) n o →
      S.setWaveform o (w n) = .ok r.2.1 ∧ r.2.1 = { o with crt := w n } ∧
      S.process (dir n) r.2.1 [x (n + 1)] [0] = .ok (r.1, [r.2.2.1]) ∧
      ScratchAt S ws nw L num d (x (n + 1)) (n + 1) r.1 ∧
      NextIndices S r.2.1 r.1.prevPhaseDiff r.2.2.2 ∧ TableMove r.2.1 r.2.2.2.idx ∧
      r.2.2.2.idx.toNat ≤ L := by
    intro n o
    by_cases h : ScratchAt S ws nw L num d (x n) n o
    · obtain ⟨o1, e1, h1, e2⟩ := h.switch (hw n).1 (hw n).2
      obtain ⟨o', y, t, a⟩ := scratch_step hf hB hl h1 hslow hclear (dir := dir n) (hp _) (hstep n)
        (hd n).symm
      exact ⟨(o', o1, y, t), fun _ => ⟨e1, e2, a⟩⟩
    · exact ⟨(o, o, 0, ⟨0, 0, 0, 0⟩), fun h' => absurd h' h⟩
  choose f hf' using ex
  let st : ℕ → Osc ℝ C := fun k => Nat.rec o (fun k o => (f k o).1) k
  have hst : ∀ n, ScratchAt S ws nw L num d (x n) n (st n) := by
    intro n
    induction n with
    | zero => exact h0
    | succ n ih => exact (hf' n (st n) ih).2.2.2.1
  have hsw : ∀ n, (f n (st n)).2.1.prevPhase = x n := by
    intro n
    rw [(hf' n (st n) (hst n)).2.1]
    exact (hst n).phase
  refine ⟨st, fun n => (f n (st n)).2.1, fun n => (f n (st n)).2.2.1, fun n => (f n (st n)).2.2.2, rfl,
    h0.phase, fun n => (hf' n (st n) (hst n)).1, fun n => (hf' n (st n) (hst n)).2.2.1,
    fun n => (hst (n + 1)).diff, ?_⟩
  intro m
  refine ⟨h0.plays, hy0, fun i _ => hw i, fun i _ => (hf' i (st i) (hst i)).1,
    fun i _ => ⟨(hp _).1, (hp _).2.1⟩, ?_, ?_, ?_, ?_, ?_⟩
  · intro i _; rw [hsw]; exact hstep i
  · intro i _; exact (hf' i (st i) (hst i)).2.2.1
  · intro i _; exact (hf' i (st i) (hst i)).2.2.2.2.1
  · intro i _; exact (hf' i (st i) (hst i)).2.2.2.2.2.1
  · intro i _
    rw [hsw]
    exact (hoff i).coarser (hf' i (st i) (hst i)).2.2.2.2.2.2

end Adwt
