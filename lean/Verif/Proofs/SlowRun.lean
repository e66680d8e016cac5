import Verif.Proofs.Slow
import Verif.Proofs.ToneRun

/-!
# A whole run within the limit on pitch changes, with changes of waveform
-/

set_option linter.unusedSectionVars false

namespace Adwt
open CrossFader
variable {C : Type} [Zero C] [Add C] [Sub C] [Mul C] [Div C] {S : Sys ℝ C} {ws : List ℝ} {nw L : ℕ}

theorem SlowAt.switch (hl : Log2Spec S.env.log2f) (hf : Rounding S.env.fl) (hB : 0 < S.B) {num : ℤ}
    {d : ℕ → ℝ} {x : ℝ} {n : ℕ} {o : Osc ℝ C} (h : SlowAt S ws nw L num d x n o) {i : ℤ} (h0 : 0 ≤ i)
    (h1 : i < nw) : ∃ o', S.setWaveform o i = .ok o' ∧ SlowAt S ws nw L num d x n o' ∧
      o' = { o with crt := i } := by
  obtain ⟨wt, hwt, -⟩ := h.wt
  have e : S.setWaveform o i = .ok { o with crt := i } := by
    unfold Sys.setWaveform
    rw [chk_true (by rw [hwt]; rfl)]
    rfl
  exact ⟨_, e, ⟨(setWaveform_plays h.plays h0 h1 e).1, h.phase, h.diff, h.wt⟩, rfl⟩

/-- Within the limit on pitch changes every call succeeds and the position is never lost, whatever
waveforms are chosen. -/
theorem slow_run (hf : Rounding S.env.fl) (hB : 0 < S.B) (hl : Log2Spec S.env.log2f)
    {sr dur : ℝ} {wt : WavetableData ℝ} (hb : Built S.env ws nw L sr dur wt)
    {o0 o : Osc ℝ C} {x0 D : ℝ} {r : ℤ} (hx0 : PhaseOk S.env.fl x0) (hD : 0 < D)
    (hi : S.init o0 (some wt) x0 D = .ok (o, r)) {w : ℕ → ℤ} (hw : ∀ n, 0 ≤ w n ∧ w n < nw)
    {dir : ℕ → Sys.Direction} {p : ℕ → ℝ} (hp : ∀ n, PhaseOk S.env.fl (p n))
    (hstep : ∀ n, StepOk (dir n) (if n = 0 then x0 else p (n - 1)) (p n))
    (hpos : ∀ n, 0 < roundedStepOf S.env.fl dir x0 p n)
    (hslow : NoFastFall ⌊S.env.fl (dur * sr)⌋ (roundedStepsFrom S.env.fl D dir x0 p))
    (hoff0 : OffDenormal (2 ^ L) x0) (hoff : ∀ n, OffDenormal (2 ^ L) (p n)) :
    ∃ (st sw : ℕ → Osc ℝ C) (y : ℕ → ℝ) (t : ℕ → MipMapIndices ℝ), st 0 = o ∧
      (st 0).prevPhase = x0 ∧
      (∀ n, S.setWaveform (st n) (w n) = .ok (sw n)) ∧
      (∀ n, S.process (dir n) (sw n) [p n] [0] = .ok (st (n + 1), [y n])) ∧
      (∀ n, (st (n + 1)).prevPhaseDiff = roundedStepOf S.env.fl dir x0 p n) ∧
      ∀ m, SwitchedRun S ws nw L m st sw w dir p y t := by
  classical
  obtain ⟨d, hdd⟩ : ∃ d, d = roundedStepsFrom S.env.fl D dir x0 p := ⟨_, rfl⟩
  let x : ℕ → ℝ := fun n => if n = 0 then x0 else p (n - 1)
  have hd0 : ∀ n, 0 < d (n + 1) := fun n => by rw [hdd]; exact hpos n
  have hd1 : ∀ n, Sys.dirDiff S.env.fl (dir n) (p n) (x n) = d (n + 1) := fun n => by rw [hdd]; rfl
  have hi' : S.init o0 (some wt) x0 (d 0) = .ok (o, r) := by rw [hdd]; exact hi
  obtain ⟨h0, hy0⟩ := slow_init hf hl hb (d := d) hx0 (by rw [hdd]; exact hD) hi'
  obtain ⟨num, hnum⟩ : ∃ num, num = ⌊S.env.fl (dur * sr)⌋ := ⟨_, rfl⟩
  rw [← hnum] at h0 hslow
  rw [← hdd] at hslow
  have ex : ∀ (n : ℕ) (o : Osc ℝ C), ∃ (r : Osc ℝ C × Osc ℝ C × ℝ × MipMapIndices ℝ),
      SlowAt S ws nw L num d (x n) n o →
      S.setWaveform o (w n) = .ok r.2.1 ∧ r.2.1 = { o with crt := w n } ∧
      S.process (dir n) r.2.1 [p n] [0] = .ok (r.1, [r.2.2.1]) ∧
      SlowAt S ws nw L num d (x (n + 1)) (n + 1) r.1 ∧
      NextIndices S r.2.1 r.1.prevPhaseDiff r.2.2.2 ∧ TableMove r.2.1 r.2.2.2.idx ∧
      r.2.2.2.idx.toNat ≤ L := by
    intro n o
    by_cases h : SlowAt S ws nw L num d (x n) n o
    · obtain ⟨o1, e1, h1, e2⟩ := h.switch hl hf hB (hw n).1 (hw n).2
      obtain ⟨o', y, t, a⟩ := slow_step hf hB hl h1 hslow (dir := dir n) (hp n) (hstep n)
        (hd1 n) (hd0 n)
      exact ⟨(o', o1, y, t), fun _ => ⟨e1, e2, a⟩⟩
    · exact ⟨(o, o, 0, ⟨0, 0, 0, 0⟩), fun h' => absurd h' h⟩
  choose f hf' using ex
  let st : ℕ → Osc ℝ C := fun k => Nat.rec o (fun k o => (f k o).1) k
  have hst : ∀ n, SlowAt S ws nw L num d (x n) n (st n) := by
    intro n
    induction n with
    | zero => exact h0
    | succ n ih => exact (hf' n (st n) ih).2.2.2.1
  have hsw : ∀ n, (f n (st n)).2.1.prevPhase = x n := by
    intro n
    rw [(hf' n (st n) (hst n)).2.1]
    exact (hst n).phase
  refine ⟨st, fun n => (f n (st n)).2.1, fun n => (f n (st n)).2.2.1, fun n => (f n (st n)).2.2.2, rfl,
    h0.phase, fun n => (hf' n (st n) (hst n)).1, fun n => (hf' n (st n) (hst n)).2.2.1, ?_, ?_⟩
  · intro n
    obtain ⟨-, e, a, -⟩ := hf' n (st n) (hst n)
    obtain ⟨wt, hwt, -⟩ := (hst n).wt
    obtain ⟨v, e', -⟩ := Props.process_one (by rw [e, hwt]; rfl) a
    show (f n (st n)).1.prevPhaseDiff = _
    rw [(Sys.stepDir_tables e').2.2.1, hsw]; rfl
  · intro m
    refine ⟨h0.plays, hy0, fun i _ => hw i, fun i _ => (hf' i (st i) (hst i)).1,
      fun i _ => ⟨(hp i).1, (hp i).2.1⟩, ?_, ?_, ?_, ?_, ?_⟩
    · intro i _; rw [hsw]; exact hstep i
    · intro i _; exact (hf' i (st i) (hst i)).2.2.1
    · intro i _; exact (hf' i (st i) (hst i)).2.2.2.2.1
    · intro i _; exact (hf' i (st i) (hst i)).2.2.2.2.2.1
    · intro i _
      have hx : OffDenormal (2 ^ L) (x i) := by
        cases i with
        | zero => exact hoff0
        | succ i => exact hoff i
      rw [hsw]
      exact hx.coarser (hf' i (st i) (hst i)).2.2.2.2.2.2

end Adwt
