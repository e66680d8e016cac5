import Verif.Proofs.OneOctave
import Verif.Proofs.StepForm
import Verif.Props.Slow

/-!
# C99: playing within one octave, in both directions
-/

set_option linter.unusedSectionVars false

namespace Adwt.Props
open CrossFader WavetableData

/-- The states, outputs and selected tables of such a run. -/
theorem one_run {C : Type} [Zero C] [Add C] [Sub C] [Mul C] [Div C] (S : Sys ℝ C) (hf : Rounding S.env.fl)
    (hB : 0 < S.B) (hl : Log2Spec S.env.log2f) {ws : List ℝ} {nw L : ℕ} {b num : ℤ} {x0 : ℝ} {o : Osc ℝ C}
    (h0 : OneAt S ws nw L b num x0 0 o) (dir : ℕ → Sys.Direction) (p : ℕ → ℝ)
    (hp : ∀ n, PhaseOk S.env.fl (p n))
    (hstep : ∀ n, StepOk (dir n) (if n = 0 then x0 else p (n - 1)) (p n))
    (hoct : ∀ n, IsOctave L b |roundedStepOf S.env.fl dir x0 p n|) :
    ∃ (st : ℕ → Osc ℝ C) (y : ℕ → ℝ) (t : ℕ → MipMapIndices ℝ), st 0 = o ∧
      ∀ n, OneAt S ws nw L b num (if n = 0 then x0 else p (n - 1)) n (st n) ∧
        S.process (dir n) (st n) [p n] [0] = .ok (st (n + 1), [y n]) ∧
        NextIndices S (st n) (st (n + 1)).prevPhaseDiff (t n) ∧ (t n).idx = b ∧ b.toNat ≤ L ∧
        (num ≤ n → t n = ⟨b, 1, b + 1, 0⟩) := by
  classical
  let x : ℕ → ℝ := fun n => if n = 0 then x0 else p (n - 1)
  have ex : ∀ (n : ℕ) (o : Osc ℝ C), ∃ (r : Osc ℝ C × ℝ × MipMapIndices ℝ),
      OneAt S ws nw L b num (x n) n o →
      S.process (dir n) o [p n] [0] = .ok (r.1, [r.2.1]) ∧ OneAt S ws nw L b num (x (n + 1)) (n + 1) r.1 ∧
      NextIndices S o r.1.prevPhaseDiff r.2.2 ∧ r.2.2.idx = b ∧ b.toNat ≤ L ∧
        (num ≤ n → r.2.2 = ⟨b, 1, b + 1, 0⟩) := by
    intro n o
    by_cases h : OneAt S ws nw L b num (x n) n o
    · have hpl := Sys.reached_play hf hl hB h.plays.1
      have hne := (Sys.dirDiff_range hf hpl.toOscOk (hp n) (by rw [h.phase]; exact hstep n)).1
      rw [h.phase] at hne
      obtain ⟨o', y, t, a⟩ := one_step hf hB hl h (dir := dir n) (hp n) (hstep n) rfl hne (hoct n)
      exact ⟨(o', y, t), fun _ => a⟩
    · exact ⟨(o, 0, ⟨0, 0, 0, 0⟩), fun h' => absurd h' h⟩
  choose f hf' using ex
  let st : ℕ → Osc ℝ C := fun k => Nat.rec o (fun k o => (f k o).1) k
  have hst : ∀ n, OneAt S ws nw L b num (x n) n (st n) := by
    intro n
    induction n with
    | zero => exact h0
    | succ n ih => exact (hf' n (st n) ih).2.1
  refine ⟨st, fun n => (f n (st n)).2.1, fun n => (f n (st n)).2.2, rfl, fun n => ⟨hst n, ?_⟩⟩
  obtain ⟨a1, -, a3⟩ := hf' n (st n) (hst n)
  exact ⟨a1, a3⟩

/-- C99, any rounding: a wavetable is built, an oscillator initialised with it at the phase `x0` and a
step `D` of absolute value below 1/8, and then phases are played, in both modes and in both directions,
whose steps have absolute values in the octave of `D`. No call ever fails, whether or not phase 0 is
reached backwards (cf. C27), the lower table is always that of the octave, and when the crossfade that
`init` may have begun is over only that table is heard. -/
theorem C99_safe {C : Type} [Zero C] [Add C] [Sub C] [Mul C] [Div C] (S : Sys ℝ C) (hf : Rounding S.env.fl)
    (hB : 0 < S.B) (hl : Log2Spec S.env.log2f) (ws : List ℝ) (nw L : ℕ) (sr dur : ℝ) (wt : WavetableData ℝ)
    (hb : Built S.env ws nw L sr dur wt) (o0 o : Osc ℝ C) (x0 D : ℝ) (r : ℤ) (b : ℤ)
    (hx0 : PhaseOk S.env.fl x0) (hD0 : D ≠ 0) (hD : |D| < 1 / 8) (hDb : IsOctave L b |D|)
    (hi : S.init o0 (some wt) x0 D = .ok (o, r)) (dir : ℕ → Sys.Direction) (p : ℕ → ℝ)
    (hp : ∀ n, PhaseOk S.env.fl (p n))
    (hstep : ∀ n, StepOk (dir n) (if n = 0 then x0 else p (n - 1)) (p n))
    (hoct : ∀ n, IsOctave L b |roundedStepOf S.env.fl dir x0 p n|) :
    ∃ (st : ℕ → Osc ℝ C) (y : ℕ → ℝ) (t : ℕ → MipMapIndices ℝ), st 0 = o ∧
      (∀ n, S.process (dir n) (st n) [p n] [0] = .ok (st (n + 1), [y n])) ∧
      (∀ n, NextIndices S (st n) (roundedStepOf S.env.fl dir x0 p n) (t n)) ∧
      (∀ n, (t n).idx = b) ∧
      (∀ n : ℕ, ⌊S.env.fl (dur * sr)⌋ ≤ n → t n = ⟨b, 1, b + 1, 0⟩) := by
  obtain ⟨h0, -⟩ := one_init hf hl hb hx0 hD0 hDb hD hi
  obtain ⟨st, y, t, e0, h⟩ := one_run S hf hB hl h0 dir p hp hstep hoct
  refine ⟨st, y, t, e0, fun n => (h n).2.1, fun n => ?_, fun n => (h n).2.2.2.1, fun n => (h n).2.2.2.2.2⟩
  obtain ⟨a1, a2, a3, -⟩ := h n
  obtain ⟨wt, hwt, -⟩ := a1.wt
  obtain ⟨v, e, -⟩ := process_one (by rw [hwt]; rfl) a2
  rw [(Sys.stepDir_tables e).2.2.1, a1.phase] at a3
  exact a3

/-- C99, exact arithmetic: moreover every output, forever, is the value of the continuous-time filter
fed with the waveform read along the unwrapped phase: the position is never carried over wrongly,
however often the direction changes. -/
theorem C99_exact (S : Sys ℝ ℂ) (hS : ExactSys S) (hl : Log2Spec S.env.log2f) (ws : List ℝ)
    (nw L : ℕ) (sr dur : ℝ) (wt : WavetableData ℝ) (hb : Built S.env ws nw L sr dur wt)
    (o0 o : Osc ℝ ℂ) (x0 D : ℝ) (r : ℤ) (b : ℤ) (hx0 : 0 ≤ x0 ∧ x0 < 1) (hD0 : D ≠ 0)
    (hD : |D| < 1 / 8) (hDb : IsOctave L b |D|)
    (hi : S.init o0 (some wt) x0 D = .ok (o, r)) (dir : ℕ → Sys.Direction) (p : ℕ → ℝ)
    (hp : ∀ n, 0 ≤ p n ∧ p n < 1)
    (hstep : ∀ n, StepOk (dir n) (if n = 0 then x0 else p (n - 1)) (p n))
    (hoct : ∀ n, IsOctave L b |stepOf dir x0 p n|)
    (hoff0 : OffDenormal (2 ^ L) x0) (hoff : ∀ n, OffDenormal (2 ^ L) (p n)) :
    ∃ (st : ℕ → Osc ℝ ℂ) (y : ℕ → ℝ) (t : ℕ → MipMapIndices ℝ), st 0 = o ∧
      (∀ n, S.process (dir n) (st n) [p n] [0] = .ok (st (n + 1), [y n])) ∧
      (∀ n, NextIndices S (st n) (stepOf dir x0 p n) (t n)) ∧
      (∀ n, (t n).idx = b) ∧ (∀ n : ℕ, ⌊dur * sr⌋ ≤ n → t n = ⟨b, 1, b + 1, 0⟩) ∧
      ∀ n, y n = filtered S.flt (played S.env ws L 0 t (unwrapped x0 (stepOf dir x0 p))) (n + 1) := by
  have hfl := Sys.exact_rounding hS
  have ok : ∀ {x : ℝ}, 0 ≤ x ∧ x < 1 → PhaseOk S.env.fl x := fun h => ⟨h.1, h.2, by rw [hS.fl]; exact isPhase_id _⟩
  obtain ⟨h0, hy0⟩ := one_init hfl hl hb (ok hx0) hD0 hDb hD hi
  have hcrt : o.crt = 0 := by
    unfold Sys.init at hi
    obtain ⟨o1, -, hi⟩ := bind_ok hi
    cases hi; rfl
  have hro : ∀ n, roundedStepOf S.env.fl dir x0 p n = stepOf dir x0 p n := by
    intro n; rw [hS.fl]; rfl
  obtain ⟨st, y, t, e0, h⟩ := one_run S hfl hS.B hl h0 dir p (fun n => ok (hp n)) hstep
    (fun n => by rw [hro]; exact hoct n)
  have hrun : ∀ m, TrackedRun S ws nw L m st dir p y t := by
    intro m
    refine ⟨by rw [e0]; exact h0.plays, by rw [e0]; exact hy0, fun i _ => hp i, ?_, fun i _ => (h i).2.1,
      fun i _ => (h i).2.2.1, ?_, ?_⟩
    · intro i _; rw [(h i).1.phase]; exact hstep i
    · intro i _; exact Or.inl ((h i).2.2.2.1.trans (h i).1.mip.symm)
    · intro i _
      have hx : OffDenormal (2 ^ L) (if i = 0 then x0 else p (i - 1)) := by
        split_ifs
        · exact hoff0
        · exact hoff _
      rw [(h i).1.phase, (h i).2.2.2.1]
      exact hx.coarser (h i).2.2.2.2.1
  refine ⟨st, y, t, e0, fun n => (h n).2.1, fun n => ?_, fun n => (h n).2.2.2.1, fun n => ?_, fun n => ?_⟩
  · obtain ⟨a1, a2, a3, -⟩ := h n
    obtain ⟨wt, hwt, -⟩ := a1.wt
    obtain ⟨v, e, -⟩ := process_one (by rw [hwt]; rfl) a2
    rw [(Sys.stepDir_tables e).2.2.1, a1.phase, hS.fl] at a3
    exact a3
  · have := (h n).2.2.2.2.2
    rw [hS.fl] at this
    exact this
  · have := C37_convolution S hS hl ws nw L (n + 1) st dir p _ _ (hrun (n + 1)) n (Nat.lt_succ_self n)
    rw [this, e0, h0.phase, hcrt]

/-- C99: in particular a tone played backwards at any constant frequency `j / 2^m` below an eighth of the
samplerate never fails, in blocks of any length `n`, if `init` was told its step, although phase 0 is
reached backwards again and again. (With the default step of `init` it may fail: C27.) -/
theorem C99_reverse {C : Type} [Zero C] [Add C] [Sub C] [Mul C] [Div C] (S : Sys ℝ C) (hf : Rounding S.env.fl)
    (hB : 0 < S.B) (hl : Log2Spec S.env.log2f) (ws : List ℝ) (nw L : ℕ) (sr dur : ℝ) (wt : WavetableData ℝ)
    (hb : Built S.env ws nw L sr dur wt) (o0 : Osc ℝ C) (j m : ℕ) (hm : m ≤ 24) (hj : 0 < j)
    (h8 : (j : ℝ) / 2 ^ m < 1 / 8) :
    ∃ o, S.init o0 (some wt) 0 (-((j : ℝ) / 2 ^ m)) = .ok (o, 0) ∧
      ∀ n, ∃ o' ys, S.process .kBidirectionnal o (backwardTone ((j : ℝ) / 2 ^ m) n) (List.replicate n 0) =
        .ok (o', ys) ∧ ys.length = n := by
  have hok := hb.ok hf hl
  have hq : (0 : ℝ) < (j : ℝ) / 2 ^ m := by positivity
  have hp0 : PhaseOk S.env.fl (0 : ℝ) := ⟨le_rfl, by norm_num, hf.zero_ph⟩
  have hne : -((j : ℝ) / 2 ^ m) ≠ 0 := neg_ne_zero.2 hq.ne'
  have habs : |-((j : ℝ) / 2 ^ m)| = (j : ℝ) / 2 ^ m := by rw [abs_neg, abs_of_pos hq]
  have hj4 : 4 * j < 2 ^ m := by
    rw [div_lt_div_iff₀ (by positivity) (by norm_num)] at h8
    have : ((8 * j : ℕ) : ℝ) < ((2 ^ m : ℕ) : ℝ) := by push_cast; linarith
    have : 8 * j < 2 ^ m := by exact_mod_cast this
    omega
  obtain ⟨⟨o, r⟩, e, -, -, -, -, h3, -⟩ := Sys.init_play hf o0 hok hp0 hne
  dsimp only at h3
  rw [h3] at e
  have hoct := findLoop_octave hok.L2 ((j : ℝ) / 2 ^ m)
  obtain ⟨h0, -⟩ := one_init hf hl hb hp0 hne (by rw [habs]; exact hoct) (by rw [habs]; exact h8) e
  refine ⟨o, e, fun n => ?_⟩
  obtain ⟨wt0, hwt0, -⟩ := h0.wt
  rw [Sys.process_runDir S _ (by rw [hwt0]; rfl) (by simp [backwardTone])]
  suffices h : ∃ o' ys, S.runDir .kBidirectionnal o (backwardTone ((j : ℝ) / 2 ^ m) n) = .ok (o', ys) ∧
      ys.length = n ∧ OneAt S ws nw L (findLoop ((j : ℝ) / 2 ^ m) (octaveScale ℝ L) : ℕ)
        ⌊S.env.fl (dur * sr)⌋ (Int.fract (-((n : ℝ) * ((j : ℝ) / 2 ^ m)))) n o' by
    obtain ⟨o', ys, a, b, -⟩ := h
    exact ⟨o', ys, a, b⟩
  induction n with
  | zero => exact ⟨o, [], rfl, rfl, by simpa using h0⟩
  | succ n ih =>
    obtain ⟨o1, ys, a, b, c⟩ := ih
    have hd := biDiff_back hf hm hj hj4 n
    have hst : StepOk .kBidirectionnal (Int.fract (-((n : ℝ) * ((j : ℝ) / 2 ^ m))))
        (Int.fract (-(((n + 1 : ℕ) : ℝ) * ((j : ℝ) / 2 ^ m)))) := by
      intro h
      have h2 := (Sys.biDiff_range hf (phaseOk_fract hf (j := j) hm n) (phaseOk_fract hf (j := j) hm (n + 1))).2.2.2 h
      rw [hd] at h2
      exact hne h2
    obtain ⟨o2, y, t, f, g, -⟩ := one_step hf hB hl c (phaseOk_fract hf hm (n + 1)) hst hd hne
      (by rw [habs]; exact hoct)
    obtain ⟨wt1, hwt1, -⟩ := c.wt
    obtain ⟨v, f', hv⟩ := process_one (by rw [hwt1]; rfl) f
    refine ⟨o2, ys ++ [y], ?_, by simp [b], g⟩
    rw [backwardTone_succ, runDir_append, a, R.ok_bind]
    dsimp only
    unfold Sys.runDir Sys.runDir
    cases hv
    rw [f']; rfl

/-! ### the hypotheses are met -/

/-- Sixteenths of a cycle: 0, 1, 0, 15, 0, 1, 0, 15, … -/
def rocking (n : ℕ) : ℕ := if n % 4 = 1 then 1 else if n % 4 = 3 then 15 else 0

theorem rocking_step (n : ℕ) : (rocking (n + 1) : ℝ) / 16 ≠ (rocking n : ℝ) / 16 ∧
    Sys.dirDiff id .kBidirectionnal ((rocking (n + 1) : ℝ) / 16) ((rocking n : ℝ) / 16) =
      (if n % 4 = 0 ∨ n % 4 = 3 then 1 / 16 else -(1 / 16)) := by
  have h : n % 4 < 4 := Nat.mod_lt _ (by norm_num)
  have h1 : (n + 1) % 4 = (n % 4 + 1) % 4 := by omega
  unfold rocking
  rw [h1]
  show _ ∧ Sys.biDiff id _ _ = _
  unfold Sys.biDiff
  simp only [id]
  interval_cases n % 4 <;> norm_num

/-- C99 applies, for every built-in filter, any 32 samples and any crossfade length, to a run that rocks
back and forth over phase 0: every other sample is at phase 0, reached backwards as often as forwards. -/
example (ft : FilterType) (ws : List ℝ) (hws : ws.length = 2 ^ 5) (xf : ℕ) (h1 : 1 ≤ xf) (hx : xf < 2 ^ 31) :
    ∃ (o : Osc ℝ ℂ) (r : ℤ) (st : ℕ → Osc ℝ ℂ) (y : ℕ → ℝ) (t : ℕ → MipMapIndices ℝ),
      (sysOf envX ft).init (sysOf envX ft).fresh (some (wtOf envX ws 1 5 xf)) 0 (1 / 16) =
        .ok (o, r) ∧ st 0 = o ∧
      (∀ n, (sysOf envX ft).process .kBidirectionnal (st n) [(rocking (n + 1) : ℝ) / 16] [0] =
        .ok (st (n + 1), [y n])) ∧
      ∀ n, y n = filtered (filterX ft) (played envX ws 5 0 t
        (unwrapped 0 (stepOf (fun _ => .kBidirectionnal) 0 (fun n => (rocking (n + 1) : ℝ) / 16)))) (n + 1) := by
  have hb := builtX ws 5 (by norm_num) (by norm_num) hws xf h1 hx
  have hoct : ∀ x : ℝ, |x| = 1 / 16 → IsOctave 5 1 |x| := by
    intro x h
    rw [h]
    refine ⟨by norm_num, by norm_num, Or.inr ?_, Or.inr ?_⟩ <;> norm_num
  have hok : ∀ x : ℝ, 0 ≤ x ∧ x < 1 → PhaseOk (sysOf envX ft).env.fl x :=
    fun x h => ⟨h.1, h.2, isPhase_id _⟩
  obtain ⟨⟨o, r⟩, e, -⟩ := Sys.init_play (S := sysOf envX ft) (Sys.exact_rounding (exactSys ft)) (sysOf envX ft).fresh
    (hb.ok (Sys.exact_rounding (exactSys ft)) log2X) (hok 0 (by norm_num)) (d := 1 / 16) (by norm_num)
  have hd : ∀ n, stepOf (fun _ => .kBidirectionnal) 0 (fun n => (rocking (n + 1) : ℝ) / 16) n =
      (if n % 4 = 0 ∨ n % 4 = 3 then 1 / 16 else -(1 / 16)) := by
    intro n
    rw [← (rocking_step n).2]
    unfold stepOf
    cases n with
    | zero => simp [rocking]
    | succ n => simp
  have hr : ∀ n, rocking n < 16 := fun n => by unfold rocking; split_ifs <;> norm_num
  have hoff : ∀ n, OffDenormal (2 ^ 5) ((rocking n : ℝ) / 16) := by
    intro n
    have := offDenormal_dyadic ((rocking n : ℤ) * 2) 5 5 (by norm_num) le_rfl
    norm_num at this ⊢
    rw [show (rocking n : ℝ) / 16 = rocking n * 2 / 32 by ring]
    exact this
  obtain ⟨st, y, t, a1, a2, -, -, -, a5⟩ := C99_exact _ (exactSys ft) log2X ws 1 5 _ _ _ hb _ o 0 (1 / 16) r 1
    (by norm_num) (by norm_num) (by norm_num [abs_of_pos]) (hoct _ (by norm_num [abs_of_pos])) e
    (fun _ => .kBidirectionnal) (fun n => (rocking (n + 1) : ℝ) / 16)
    (fun n => ⟨by positivity, by
      have : (rocking (n + 1) : ℝ) < 16 := by exact_mod_cast hr _
      linarith⟩)
    (fun n => by
      have := (rocking_step n).1
      cases n with
      | zero => simpa [rocking, StepOk] using this
      | succ n => simpa [StepOk] using this)
    (fun n => hoct _ (by rw [hd]; split_ifs <;> norm_num [abs_of_pos, abs_of_neg]))
    (by simpa [rocking] using hoff 0) (fun n => hoff _)
  exact ⟨o, r, st, y, t, e, a1, a2, a5⟩

/-- `C99_reverse` applies to the shipped filters in single precision, any samples and the default
crossfade: a tone of -3000 Hz at 48 kHz. -/
example (ft : FilterType) (L : ℕ) (hL : 3 ≤ L) (hL18 : L ≤ 18) (ws : List ℝ) (hws : ws.length = 1 * 2 ^ L) :
    ∃ wt o, build (sysF ft).env ws 1 48000 (defaultDuration (sysF ft).env) = .ok (some wt) ∧
      (sysF ft).init (sysF ft).fresh (some wt) 0 (-(3000 / 48000)) = .ok (o, 0) ∧
      ∀ n, ∃ o' ys, (sysF ft).process .kBidirectionnal o (backwardTone (3000 / 48000) n)
        (List.replicate n 0) = .ok (o', ys) ∧ ys.length = n := by
  have hf : Rounding (sysF ft).env.fl := rounding_ieee32
  have hrate : IsRate (sysF ft).env.fl 48000 := by have := hf.isRate 48000 (by norm_num); simpa using this
  have h240 := default_240 (sysF ft).env (Or.inl rfl)
  obtain ⟨wt, e⟩ := C02_succeeds (sysF ft).env hf envI_ok.2.1 envI_ok.2.2 L (by omega) hL18 1 (by norm_num) ws hws
    48000 (defaultDuration (sysF ft).env) (by norm_num) hrate (by rw [h240]; norm_num)
  have e' : (3000 / 48000 : ℝ) = ((1 : ℕ) : ℝ) / 2 ^ 4 := by norm_num
  rw [e']
  obtain ⟨o, a, b⟩ := C99_reverse (sysF ft) hf (by norm_num [sysF, sysRnd]) envI_ok.2.1 ws 1 L _ _ wt
    ⟨hrate, by rw [h240]; norm_num, hws, e⟩ (sysF ft).fresh 1 4 (by norm_num) (by norm_num) (by norm_num)
  exact ⟨wt, o, e, a, b⟩

end Adwt.Props
