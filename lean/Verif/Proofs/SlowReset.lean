import Verif.Proofs.Scratch

/-!
# Playing on after `resetInternals`
-/

set_option linter.unusedSectionVars false

namespace Adwt
open CrossFader

/-- A sequence with one more element in front. -/
def pushFront {α : Type} (a : α) (d : ℕ → α) : ℕ → α
  | 0 => a
  | n + 1 => d n

variable {C : Type} [Zero C] [Add C] [Sub C] [Mul C] [Div C] {S : Sys ℝ C} {ws : List ℝ} {nw L : ℕ}

/-- one forward sample -/
theorem fall_step (hf : Rounding S.env.fl) (hB : 0 < S.B) (hl : Log2Spec S.env.log2f) {num : ℤ} {d : ℕ → ℝ} {x p : ℝ}
    {n : ℕ} {o : Osc ℝ C} (h : SlowAt S ws nw L num d x n o) (hpos : ∀ k, 0 < d k) (hslow : FallsSlowly L num d)
    {dir : Sys.Direction} (hp' : PhaseOk S.env.fl p) (hstep : StepOk dir x p)
    (hd : Sys.dirDiff S.env.fl dir p x = d (n + 1)) :
    ∃ o' y t, S.process dir o [p] [0] = .ok (o', [y]) ∧ SlowAt S ws nw L num d p (n + 1) o' ∧
      NextIndices S o o'.prevPhaseDiff t ∧ TableMove o t.idx ∧ t.idx.toNat ≤ L := by
  have hd0 := hpos (n + 1)
  have hpl := Sys.reached_play hf hl hB h.plays.1
  obtain ⟨wt, hwt, hnum, hmip, hrec⟩ := h.wt
  obtain ⟨wt', hwt', hok⟩ := hpl.wt
  rw [hwt] at hwt'; cases hwt'
  have hs' : StepOk dir o.prevPhase p := by rw [h.phase]; exact hstep
  have hdd : Sys.dirDiff S.env.fl dir p o.prevPhase = d (n + 1) := by rw [h.phase]; exact hd
  rcases Sys.step_cases hf hB hpl hp' hs' with ⟨⟨⟨o', y⟩, e, hr⟩, -⟩ | ⟨-, ⟨-, hneg⟩, -⟩
  swap
  · exact absurd h.diff (by linarith)
  rw [hdd] at hr
  dsimp only at hr
  have hproc : S.process dir o [p] [0] = .ok (o', [y]) := by
    rw [Sys.process_runDir _ _ (by rw [hwt]; rfl) (show [p].length = [(0 : ℝ)].length from rfl)]
    unfold Sys.runDir Sys.runDir
    rw [e]; rfl
  obtain ⟨wt1, c, t, f1, -, f3, f4, f5, f6⟩ := hr.find
  rw [hwt] at f1; cases f1
  have habs : |d (n + 1)| = d (n + 1) := abs_of_pos hd0
  have hc : c = wt.cf.nextState (findLoop (d (n + 1)) (octaveScale ℝ L) : ℤ) := by
    rw [f4, habs]; unfold stepD; rw [hok.scale]
  have hlow := tuple_low hf hok.inv (abs_pos.2 hd0.ne') f3
  have hdrop := recent_drop hok.inv hrec (fun k hk hk2 => by
    have := hslow k (n + 1) (by omega) (by push_cast; omega) _ _
      (by rw [abs_of_pos (hpos k)]; exact findLoop_octave hok.L2 _)
      (by rw [abs_of_pos hd0]; exact findLoop_octave hok.L2 _)
    omega)
  rw [← hc] at hdrop
  obtain ⟨t0, t1, -⟩ := tuple_facts hf hok.inv (abs_pos.2 hd0.ne') f3
  refine ⟨o', y, t, hproc, ?_, ⟨wt, { wt with cf := c }, hwt, ?_⟩, ?_, ?_⟩
  · refine ⟨Props.Plays.process (dir := dir) (ps := [p]) (out := [0]) h.plays ⟨hp', hs', trivial⟩
      rfl hproc, hr.phase, by rw [hr.diff]; exact hd0, _, f5, ?_, ?_, ?_⟩
    · show c.numSamples = _
      rw [hc]; exact (nextState_const _ _).2.trans hnum
    · rw [f6]; exact hlow
    · show Recent _ c (n + 1)
      rw [hc]; exact recent_step hok.inv hrec
  · unfold WavetableData.findMipMapIndices
    rw [hr.diff, f3]; rfl
  · unfold TableMove
    have := h.diff
    rcases lt_trichotomy t.idx o.prevMip with h1 | h1 | h1
    · right; right; omega
    · exact Or.inl h1
    · exact Or.inr (Or.inl ⟨this, h1⟩)
  · have := hok.scale_len
    omega

/-- every octave is that of some step -/
theorem octave_exists {L : ℕ} (i : ℤ) (h0 : 0 ≤ i) (h1 : i < (L : ℤ) - 1) :
    ∃ D : ℝ, 0 < D ∧ IsOctave L i D := by
  refine ⟨2 ^ i.toNat / 2 ^ L, by positivity, h0, by omega, Or.inr le_rfl, Or.inr ?_⟩
  apply div_lt_div_of_pos_right _ (by positivity)
  exact pow_lt_pow_right₀ (by norm_num) (by omega)

/-- `resetInternals` from any state: the table that is faded in afterwards is that of the new step, or, if a
fade is in progress, perhaps a neighbour of it. -/
theorem slow_reset (hf : Rounding S.env.fl) (hl : Log2Spec S.env.log2f) (hB : 0 < S.B) {o0 : Osc ℝ C}
    (ho : Plays S ws nw L o0) {x0 : ℝ} (hp : PhaseOk S.env.fl x0) {d : ℕ → ℝ} (hd : 0 < d 0) {num : ℤ}
    (hnum : ∃ wt, o0.wt = some wt ∧ wt.cf.numSamples = num) :
    ∃ (o : Osc ℝ C) (E : ℝ) (i i' : ℤ), S.resetInternals o0 x0 (d 0) = .ok o ∧ 0 < E ∧
      SlowAt S ws nw L num (pushFront E d) x0 1 o ∧ (∀ y ∈ o.prevY, y = 0) ∧ o.crt = o0.crt ∧
      IsOctave L i (d 0) ∧ IsOctave L i' E ∧
      (i' = i ∨ (i' ≤ i + 1 ∧ ¬ ∃ wt, o0.wt = some wt ∧ wt.cf.samplesLeft = 0)) := by
  have hpl := Sys.reached_play hf hl hB ho.1
  obtain ⟨wt, hwt, hw⟩ := hpl.wt
  obtain ⟨wt', hwt', rfl⟩ := hnum
  rw [hwt] at hwt'; cases hwt'
  obtain ⟨t, e, -⟩ := newIndices_eq (E := S.env) hf hw.inv (abs_pos.2 hd.ne')
  have e1 := Sys.reset_ok (S := S) (o := o0) hf hwt hw hp hd.ne' e
  rw [hw.scale, abs_of_pos hd] at e
  set i : ℤ := (findLoop (d 0) (octaveScale ℝ L) : ℤ) with hi
  have hio : IsOctave L i (d 0) := findLoop_octave hw.L2 _
  have hlow := tuple_low hf hw.inv hd e
  have hinv : (wt.cf.nextState i).Inv := by
    apply nextState_inv hw.inv hio.1
    have := hw.scale_len
    have := hio.2.1
    omega
  obtain ⟨E, hE, hEo⟩ := octave_exists (L := L) (wt.cf.nextState i).nextIdx hinv.next0 (by
    have := hinv.next1
    rw [(nextState_const _ _).1] at this
    have := hw.scale_len
    omega)
  rw [hw.scale, abs_of_pos hd, ← hi] at e1
  refine ⟨_, E, i, _, e1, hE, ⟨?_, rfl, hd, _, rfl, ?_, ?_, ?_⟩, ?_, rfl, hio, hEo, ?_⟩
  · obtain ⟨sr, dur, wt0, wt1, b1, b2, b3⟩ := ho.2
    rw [hwt] at b2; cases b2
    exact ⟨Reached.reset ho.1 ⟨hp, hd.ne'⟩ e1, sr, dur, wt0, _, b1, rfl, b3⟩
  · exact (nextState_const _ _).2
  · exact hlow
  · by_cases hk : (wt.cf.nextState i).nextIdx = i
    · refine ⟨1, le_rfl, ?_, ?_⟩
      · show (findLoop (d 0) (octaveScale ℝ L) : ℤ) = _
        rw [← hi]; exact hk.symm
      · have := hinv.left1
        dsimp only
        push_cast
        omega
    · refine ⟨0, by omega, ?_, ?_⟩
      · show (findLoop E (octaveScale ℝ L) : ℤ) = _
        exact findLoop_of_octave hw.L2 hEo
      · have := hw.inv.num
        have := hw.inv.left1
        dsimp only
        unfold nextState continueFade updateIndices at hk ⊢
        dsimp only at hk ⊢
        split_ifs at hk ⊢ <;> (try dsimp only at *) <;> push_cast <;> omega
  · intro y hy
    exact (List.mem_replicate.1 hy).2
  · by_cases hk : (wt.cf.nextState i).nextIdx = i
    · exact Or.inl hk
    · refine Or.inr ⟨?_, ?_⟩
      · have := hw.inv.fading
        have := hw.inv.idle
        unfold nextState continueFade updateIndices at hk ⊢
        dsimp only at hk ⊢
        split_ifs at hk ⊢ <;> (try dsimp only at *) <;> omega
      · rintro ⟨wt', hwt', h0⟩
        rw [hwt] at hwt'; cases hwt'
        unfold nextState updateIndices at hk
        rw [if_neg (by simpa using h0)] at hk
        dsimp only at hk
        split_ifs at hk with h1 <;> first | exact hk h1.symm | exact hk rfl

/-- After `resetInternals` with a positive step, forward steps none of which is more than an octave below one of
the crossfade before: every call succeeds and the position is never lost. If a fade was in progress, the octave
must also not fall below that of the reset within the first crossfade. -/
theorem reset_run (hf : Rounding S.env.fl) (hB : 0 < S.B) (hl : Log2Spec S.env.log2f) {o0 : Osc ℝ C}
    (ho : Plays S ws nw L o0) {x : ℕ → ℝ} (hp : ∀ n, PhaseOk S.env.fl (x n)) {num : ℤ}
    (hnum : ∃ wt, o0.wt = some wt ∧ wt.cf.numSamples = num) {dir : ℕ → Sys.Direction}
    (hstep : ∀ n, StepOk (dir n) (x n) (x (n + 1))) {d : ℕ → ℝ} (hpos : ∀ n, 0 < d n)
    (hd : ∀ n, d (n + 1) = Sys.dirDiff S.env.fl (dir n) (x (n + 1)) (x n)) (hslow : FallsSlowly L num d)
    (hfade : (∃ wt, o0.wt = some wt ∧ wt.cf.samplesLeft = 0) ∨
      ∀ n : ℕ, (n : ℤ) ≤ num → NotHigher L (d n) (d 0))
    (hoff : ∀ n, OffDenormal (2 ^ L) (x n)) :
    ∃ (st : ℕ → Osc ℝ C) (y : ℕ → ℝ) (t : ℕ → MipMapIndices ℝ), S.resetInternals o0 (x 0) (d 0) = .ok (st 0) ∧
      (st 0).prevPhase = x 0 ∧ (st 0).crt = o0.crt ∧
      (∀ n, S.process (dir n) (st n) [x (n + 1)] [0] = .ok (st (n + 1), [y n])) ∧
      (∀ n, (st (n + 1)).prevPhaseDiff = d (n + 1)) ∧
      ∀ m, TrackedRun S ws nw L m st dir (fun n => x (n + 1)) y t := by
  classical
  obtain ⟨o, E, i, i', e, hE, h0, hy0, hcrt, hi, hi', hii⟩ := slow_reset hf hl hB ho (hp 0) (hpos 0) hnum
  have hpos' : ∀ n, 0 < pushFront E d n := by
    intro n; cases n
    · exact hE
    · exact hpos _
  have hL2 : 2 ≤ L := by
    obtain ⟨wt, -, hw⟩ := (Sys.reached_play hf hl hB ho.1).wt
    exact hw.L2
  have hslow' : FallsSlowly L num (pushFront E d) := by
    intro k n hkn hkn2 a b ha hb
    obtain ⟨n, rfl⟩ : ∃ n', n = n' + 1 := ⟨n - 1, by omega⟩
    cases k with
    | succ k => exact hslow k n (by omega) (by push_cast at hkn2 ⊢; omega) a b ha hb
    | zero =>
      change IsOctave L a |E| at ha
      change IsOctave L b |d n| at hb
      rw [abs_of_pos hE] at ha
      have ea := ha.unique hi'
      have hb' : i ≤ b + 1 := by
        cases n with
        | zero =>
          rw [abs_of_pos (hpos 0)] at hb
          have := hb.unique hi
          omega
        | succ n =>
          exact hslow 0 (n + 1) (by omega) (by push_cast at hkn2 ⊢; omega) i b
            (by rw [abs_of_pos (hpos 0)]; exact hi) hb
      rcases hii with hii | ⟨h1, h2⟩
      · omega
      · rcases hfade with hfd | hfd
        · exact absurd hfd h2
        · rw [abs_of_pos (hpos n)] at hb
          have := hfd n (by push_cast at hkn2; omega) b i hb hi
          omega
  have ex : ∀ (n : ℕ) (o : Osc ℝ C), ∃ (r : Osc ℝ C × ℝ × MipMapIndices ℝ),
      SlowAt S ws nw L num (pushFront E d) (x n) (n + 1) o →
      S.process (dir n) o [x (n + 1)] [0] = .ok (r.1, [r.2.1]) ∧
      SlowAt S ws nw L num (pushFront E d) (x (n + 1)) (n + 1 + 1) r.1 ∧
      NextIndices S o r.1.prevPhaseDiff r.2.2 ∧ TableMove o r.2.2.idx ∧ r.2.2.idx.toNat ≤ L := by
    intro n o
    by_cases h : SlowAt S ws nw L num (pushFront E d) (x n) (n + 1) o
    · obtain ⟨o', y, t, a⟩ := fall_step hf hB hl h hpos' hslow' (dir := dir n) (hp _) (hstep n) (hd n).symm
      exact ⟨(o', y, t), fun _ => a⟩
    · exact ⟨(o, 0, ⟨0, 0, 0, 0⟩), fun h' => absurd h' h⟩
  choose f hf' using ex
  let st : ℕ → Osc ℝ C := fun k => Nat.rec o (fun k o => (f k o).1) k
  have hst : ∀ n, SlowAt S ws nw L num (pushFront E d) (x n) (n + 1) (st n) := by
    intro n
    induction n with
    | zero => exact h0
    | succ n ih => exact (hf' n (st n) ih).2.1
  have hstx : ∀ n, (st n).prevPhase = x n := fun n => (hst n).phase
  refine ⟨st, fun n => (f n (st n)).2.1, fun n => (f n (st n)).2.2, e, h0.phase, hcrt,
    fun n => (hf' n (st n) (hst n)).1, ?_, ?_⟩
  · intro n
    have a := (hf' n (st n) (hst n)).1
    obtain ⟨wt, hwt, -⟩ := (hst n).wt
    obtain ⟨v, e', -⟩ := Props.process_one (by rw [hwt]; rfl) a
    show (f n (st n)).1.prevPhaseDiff = _
    rw [(Sys.stepDir_tables e').2.2.1, hstx, hd]
  · intro m
    refine ⟨h0.plays, hy0, fun i _ => ⟨(hp _).1, (hp _).2.1⟩, ?_, ?_, ?_, ?_, ?_⟩
    · intro i _; rw [hstx]; exact hstep i
    · intro i _; exact (hf' i (st i) (hst i)).1
    · intro i _; exact (hf' i (st i) (hst i)).2.2.1
    · intro i _; exact (hf' i (st i) (hst i)).2.2.2.1
    · intro i _
      rw [hstx]
      exact (hoff i).coarser (hf' i (st i) (hst i)).2.2.2.2

end Adwt
