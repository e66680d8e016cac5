import Verif.Proofs.Slow
import Verif.Proofs.ToneRun

/-!
# C56: within the documented limit on pitch changes, everything is played as it should be
-/

set_option linter.unusedSectionVars false

namespace Adwt.Props
open CrossFader WavetableData

/-- C56: a wavetable is built, an oscillator initialised with it at the phase `x0` and the step `D`,
and then phases are played whose steps are positive and never less than half of one of the
`num + 1` steps before, where `num` is the number of samples of a crossfade. Then, in exact
arithmetic, every call succeeds and every output, forever, is the value of the continuous-time
filter fed with the waveform read along the unwrapped phase, with the crossfader's mixture of
mipmaps: the position is never carried over wrongly. -/
theorem C56_pitch_limit (S : Sys ℝ ℂ) (hS : ExactSys S) (hl : Log2Spec S.env.log2f) (ws : List ℝ)
    (nw L : ℕ) (sr dur : ℝ) (wt : WavetableData ℝ) (hb : Built S.env ws nw L sr dur wt)
    (o0 o : Osc ℝ ℂ) (x0 D : ℝ) (r : ℤ) (hx0 : 0 ≤ x0 ∧ x0 < 1) (hD : 0 < D)
    (hi : S.init o0 (some wt) x0 D = .ok (o, r))
    (dir : ℕ → Sys.Direction) (p : ℕ → ℝ) (hp : ∀ n, 0 ≤ p n ∧ p n < 1)
    (hstep : ∀ n, StepOk (dir n) (if n = 0 then x0 else p (n - 1)) (p n))
    (hpos : ∀ n, 0 < stepOf dir x0 p n)
    (hslow : NoFastFall ⌊dur * sr⌋ (stepsFrom D dir x0 p))
    (hoff0 : OffDenormal (2 ^ L) x0) (hoff : ∀ n, OffDenormal (2 ^ L) (p n)) :
    ∃ (st : ℕ → Osc ℝ ℂ) (y : ℕ → ℝ) (t : ℕ → MipMapIndices ℝ), st 0 = o ∧
      (∀ n, S.process (dir n) (st n) [p n] [0] = .ok (st (n + 1), [y n])) ∧
      (∀ n, NextIndices S (st n) (stepOf dir x0 p n) (t n)) ∧
      (∀ m, TrackedRun S ws nw L m st dir p y t) ∧
      ∀ n, y n = filtered S.flt (played S.env ws L 0 t (unwrapped x0 (stepOf dir x0 p))) (n + 1) := by
  classical
  set d := stepsFrom D dir x0 p with hdd
  let x : ℕ → ℝ := fun n => if n = 0 then x0 else p (n - 1)
  have hfl := Sys.exact_rounding hS
  have ok : ∀ {x : ℝ}, 0 ≤ x ∧ x < 1 → PhaseOk S.env.fl x := fun h => ⟨h.1, h.2, by rw [hS.fl]; exact isPhase_id _⟩
  obtain ⟨h0, hy0⟩ := slow_init hfl hl hb (d := d) (ok hx0) hD hi
  rw [hS.fl, id] at h0
  have hcrt : o.crt = 0 := by
    unfold Sys.init at hi
    obtain ⟨o1, -, hi⟩ := bind_ok hi
    cases hi; rfl
  have ex : ∀ (n : ℕ) (o : Osc ℝ ℂ), ∃ (r : Osc ℝ ℂ × ℝ × MipMapIndices ℝ),
      SlowAt S ws nw L ⌊dur * sr⌋ d (x n) n o →
      S.process (dir n) o [p n] [0] = .ok (r.1, [r.2.1]) ∧
      SlowAt S ws nw L ⌊dur * sr⌋ d (x (n + 1)) (n + 1) r.1 ∧
      NextIndices S o r.1.prevPhaseDiff r.2.2 ∧ TableMove o r.2.2.idx ∧ r.2.2.idx.toNat ≤ L := by
    intro n o
    by_cases h : SlowAt S ws nw L ⌊dur * sr⌋ d (x n) n o
    · obtain ⟨o', y, t, a⟩ := slow_step hfl hS.B hl h hslow (dir := dir n) (ok (hp n)) (hstep n)
        (by rw [hS.fl]; rfl) (hpos n)
      exact ⟨(o', y, t), fun _ => a⟩
    · exact ⟨(o, 0, ⟨0, 0, 0, 0⟩), fun h' => absurd h' h⟩
  choose f hf using ex
  let st : ℕ → Osc ℝ ℂ := fun k => Nat.rec o (fun k o => (f k o).1) k
  have hst : ∀ n, SlowAt S ws nw L ⌊dur * sr⌋ d (x n) n (st n) := by
    intro n
    induction n with
    | zero => exact h0
    | succ n ih => exact (hf n (st n) ih).2.1
  have hstx : ∀ n, (st n).prevPhase = x n := fun n => (hst n).phase
  have hrun : ∀ m, TrackedRun S ws nw L m st dir p (fun n => (f n (st n)).2.1)
      (fun n => (f n (st n)).2.2) := by
    intro m
    refine ⟨h0.plays, hy0, fun i _ => hp i, ?_, ?_, ?_, ?_, ?_⟩
    · intro i _; rw [hstx]; exact hstep i
    · intro i _; exact (hf i (st i) (hst i)).1
    · intro i _; exact (hf i (st i) (hst i)).2.2.1
    · intro i _; exact (hf i (st i) (hst i)).2.2.2.1
    · intro i _
      have hx : OffDenormal (2 ^ L) (x i) := by
        cases i with
        | zero => exact hoff0
        | succ i => exact hoff i
      rw [hstx]
      exact hx.coarser (hf i (st i) (hst i)).2.2.2.2
  have hx00 : (st 0).prevPhase = x0 := h0.phase
  refine ⟨st, _, _, rfl, fun n => (hf n (st n) (hst n)).1, ?_, hrun, ?_⟩
  · intro n
    obtain ⟨a, -, b, -⟩ := hf n (st n) (hst n)
    have hf' := Sys.exact_rounding hS
    obtain ⟨wt, hwt, -⟩ := (hst n).wt
    obtain ⟨v, e, -⟩ := process_one (by rw [hwt]; rfl) a
    have hd : (f n (st n)).1.prevPhaseDiff = stepOf dir x0 p n := by
      rw [(Sys.stepDir_tables e).2.2.1, hS.fl, hstx]; rfl
    rw [hd] at b
    exact b
  · intro n
    have := C37_convolution S hS hl ws nw L (n + 1) st dir p _ _ (hrun (n + 1)) n (Nat.lt_succ_self n)
    rw [hx00] at this
    rw [this]
    show filtered S.flt (played S.env ws L o.crt _ _) _ = _
    rw [hcrt]

/-! ### the hypotheses are met -/

/-- Eighths of a cycle: the steps are `1/8, 1/4, 1/8, 1/4, …`. -/
def zigzag (n : ℕ) : ℕ := (3 * (n / 2) + n % 2) % 8

theorem zigzag_step (n : ℕ) : StepOk .kForward ((zigzag n : ℝ) / 8) ((zigzag (n + 1) : ℝ) / 8) ∧
    Sys.dirDiff id .kForward ((zigzag (n + 1) : ℝ) / 8) ((zigzag n : ℝ) / 8) =
      (if n % 2 = 0 then 1 / 8 else 1 / 4) := by
  have key : ∀ a b s : ℕ, a < 8 → b = (a + s) % 8 → (s = 1 ∨ s = 2) →
      Forward ((a : ℝ) / 8) ((b : ℝ) / 8) ∧ Sys.fwdDiff id ((b : ℝ) / 8) ((a : ℝ) / 8) = s / 8 := by
    intro a b s ha hb hs
    unfold Forward Sys.fwdDiff
    simp only [id]
    rcases hs with rfl | rfl <;> interval_cases a <;> norm_num at hb <;> subst hb <;> norm_num
  have ha : zigzag n < 8 := by unfold zigzag; omega
  rcases Nat.mod_two_eq_zero_or_one n with h | h
  · obtain ⟨k1, k2⟩ := key (zigzag n) (zigzag (n + 1)) 1 ha (by unfold zigzag; omega) (Or.inl rfl)
    refine ⟨k1, ?_⟩
    rw [if_pos h]
    show Sys.fwdDiff id _ _ = _
    rw [k2]; norm_num
  · obtain ⟨k1, k2⟩ := key (zigzag n) (zigzag (n + 1)) 2 ha (by unfold zigzag; omega) (Or.inr rfl)
    refine ⟨k1, ?_⟩
    rw [if_neg (by omega)]
    show Sys.fwdDiff id _ _ = _
    rw [k2]; norm_num

/-- C56 applies, for every built-in filter, any eight samples and any crossfade length, to a run in
which every other sample asks for another mipmap table. -/
example (ft : FilterType) (ws : List ℝ) (hws : ws.length = 2 ^ 3) (xf : ℕ) (h1 : 1 ≤ xf)
    (hx : xf < 2 ^ 31) :
    ∃ (o : Osc ℝ ℂ) (r : ℤ) (st : ℕ → Osc ℝ ℂ) (y : ℕ → ℝ) (t : ℕ → MipMapIndices ℝ),
      (sysOf envX ft).init (sysOf envX ft).fresh (some (wtOf envX ws 1 3 xf)) 0 (1 / 8) =
        .ok (o, r) ∧ st 0 = o ∧
      (∀ n, (sysOf envX ft).process .kForward (st n) [(zigzag (n + 1) : ℝ) / 8] [0] =
        .ok (st (n + 1), [y n])) ∧
      (∀ n, IsOctave 3 (if n % 2 = 0 then 0 else 1)
        (stepOf (fun _ => .kForward) 0 (fun n => (zigzag (n + 1) : ℝ) / 8) n)) ∧
      ∀ n, y n = filtered (filterX ft) (played envX ws 3 0 t
        (unwrapped 0 (stepOf (fun _ => .kForward) 0 (fun n => (zigzag (n + 1) : ℝ) / 8)))) (n + 1) := by
  obtain ⟨o, ho, -⟩ := at_init' ft ws 3 (by norm_num) (by norm_num) hws xf
    h1 hx (p := 0) (d := 1 / 8) (by norm_num) (by norm_num) (i := 0)
    (oct0 (by norm_num))
    (cf_idle (by norm_num) (by norm_num) (oct0 (by norm_num [abs_of_pos])))
  have hd : ∀ n, stepOf (fun _ => .kForward) 0 (fun n => (zigzag (n + 1) : ℝ) / 8) n =
      (if n % 2 = 0 then 1 / 8 else 1 / 4) := by
    intro n
    rw [← (zigzag_step n).2]
    unfold stepOf
    cases n with
    | zero => simp [zigzag]
    | succ n => simp
  have hz : ∀ n, zigzag n < 8 := fun n => by unfold zigzag; omega
  have hoff : ∀ n, OffDenormal (2 ^ 3) ((zigzag n : ℝ) / 8) := by
    intro n
    have := offDenormal_dyadic (zigzag n) 3 3 (by norm_num) le_rfl
    norm_num at this ⊢
    exact this
  obtain ⟨st, y, t, a1, a2, -, -, a5⟩ := C56_pitch_limit _ (exactSys ft) log2X ws 1 3 _ _ _
    (builtX ws 3 (by norm_num) (by norm_num) hws xf h1 hx) _ o 0 (1 / 8) 0 (by norm_num)
    (by norm_num) ho (fun _ => .kForward) (fun n => (zigzag (n + 1) : ℝ) / 8)
    (fun n => ⟨by positivity, by
      have : (zigzag (n + 1) : ℝ) < 8 := by exact_mod_cast hz _
      linarith⟩)
    (fun n => by
      have := (zigzag_step n).1
      cases n with
      | zero => simpa [zigzag] using this
      | succ n => simpa using this)
    (fun n => by rw [hd]; split_ifs <;> norm_num)
    (fun k n _ _ => by
      have hb : ∀ n, 1 / 8 ≤ stepsFrom (1 / 8) (fun _ => .kForward) 0 (fun n => (zigzag (n + 1) : ℝ) / 8) n ∧
          stepsFrom (1 / 8) (fun _ => .kForward) 0 (fun n => (zigzag (n + 1) : ℝ) / 8) n ≤ 1 / 4 := by
        intro n
        cases n with
        | zero => unfold stepsFrom; norm_num
        | succ n => unfold stepsFrom; dsimp only; rw [hd]; split_ifs <;> norm_num
      have := (hb k).2; have := (hb n).1; linarith)
    (by simpa [zigzag] using hoff 0) (fun n => hoff _)
  refine ⟨o, 0, st, y, t, ho, a1, a2, ?_, a5⟩
  intro n
  rw [hd]
  split_ifs
  · exact oct0 (by norm_num)
  · exact oct1 (by norm_num)

end Adwt.Props
