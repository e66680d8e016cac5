import Verif.Proofs.Sweep
import Verif.Proofs.AccumStep
import Verif.Props.HoldExact

/-!
# C61, C62, C65 - C67: the programs shipped with the library

Phases are produced as the programs do it: `phase = fmod(phase + step, 1)` in IEEE single precision
(`ieee32`). `S` is any oscillator type whose float arithmetic is IEEE single precision.
-/

set_option linter.unusedSectionVars false

namespace Adwt.Props
open Drivers
variable {K C : Type} [Field K] [LinearOrder K] [IsStrictOrderedRing K] [FloorRing K]
variable [Zero C] [Add C] [Sub C] [Mul C] [Div C]

/-! ### C61 -/

/-- C61: accumulated phases are legal for both direction modes, whatever the (varying) steps in
`(2^-25, 1/2 - 2^-24)` and the phase at the start. -/
theorem C61_legal (x : K) (hx : PhaseOk ieee32 x) (ss : List K) (h : ∀ s ∈ ss, StepRange s)
    (dir : Sys.Direction) : BlockSafe ieee32 dir x (accumulate ieee32 x ss) :=
  accumulate_safe hx h dir

/-- C61: after `n` steps the phase is, up to whole cycles, the sum of the steps with an error of at
most `n / 2^24`. -/
theorem C61_drift (x : K) (hx : PhaseOk ieee32 x) (ss : List K) (h : ∀ s ∈ ss, StepRange s) :
    ∃ cycles : ℕ, |(accumulate ieee32 x ss).getLastD x + cycles - (x + ss.sum)| ≤ ss.length / 2 ^ 24 :=
  accumulate_drift hx h

/-- C61: the step that `process` computes back from two consecutive phases is within `2^-23` of the
intended one, and forward, in both modes. -/
theorem C61_step (x s : K) (hx : PhaseOk ieee32 x) (hs : StepRange s) (dir : Sys.Direction) :
    0 < Sys.dirDiff ieee32 dir (fmod1 (ieee32 (x + s))) x ∧
      Sys.dirDiff ieee32 dir (fmod1 (ieee32 (x + s))) x ≤ 1 / 2 ∧
      |Sys.dirDiff ieee32 dir (fmod1 (ieee32 (x + s))) x - s| ≤ 1 / 2 ^ 23 := by
  obtain ⟨h0, h1⟩ := hs
  obtain ⟨w, hw⟩ := accum_step hx h0 h1
  exact hw.diff' hx h0 h1 (accum_exact hx h0 h1 hw) dir

/-- C61: such phases can be played from every reached state that is not at phase 0 after a backward
step. -/
theorem C61_plays (S : Sys K C) (he : S.env.fl = ieee32) (hl : Log2Spec S.env.log2f) (hB : 0 < S.B)
    (nw L : ℕ) (o : Osc K C) (ho : Reached S nw L o) (hz : ¬ AtZeroBackward o) (ss : List K)
    (h : ∀ s ∈ ss, StepRange s) (dir : Sys.Direction) (out : List K) (hn : ss.length = out.length) :
    ∃ o' ys, S.process dir o (accumulate ieee32 o.prevPhase ss) out = .ok (o', ys) ∧
      ys.length = ss.length := by
  have hf : Rounding S.env.fl := by rw [he]; exact rounding_ieee32
  have hs := Sys.reached_safe hf hl hB ho hz
  have hx := hs.phase
  rw [he] at hx
  have hb := C61_legal o.prevPhase hx ss h dir
  obtain ⟨⟨o', ys⟩, e, -, -, -, b⟩ := Sys.run_ok hf hB hs (by rw [he]; exact hb)
  obtain ⟨wt, hw, -⟩ := hs.wt
  exact ⟨o', ys, Sys.process_eq hw out (by rw [accumulate_length, hn]) e b,
    by rw [b, accumulate_length]⟩

/-- C61: a linear sweep upwards whose first and last frequencies are in range consists of steps in
range. -/
theorem linear_range {start sr step : K} (hs0 : ieee32 start = start) (hsr : 0 < sr) (hst : 0 ≤ step)
    (n : ℕ) (h0 : StepRange (ieee32 (start / sr)))
    (h1 : ∀ f ∈ (ramp ieee32 step start n).getLast?, StepRange (ieee32 (f / sr))) :
    ∀ s ∈ (ramp ieee32 step start n).map (fun f => ieee32 (f / sr)), StepRange s := by
  intro s hs
  obtain ⟨f, hf, rfl⟩ := List.mem_map.1 hs
  obtain ⟨a, b⟩ := ramp_between rounding_ieee32 hst n start hs0 f hf
  have m := (rounding_ieee32 (K := K)).mono
  constructor
  · exact lt_of_lt_of_le h0.1 (m (div_le_div_of_nonneg_right a hsr.le))
  · cases hl : (ramp ieee32 step start n).getLast? with
    | none => rw [List.getLast?_eq_none_iff.1 hl] at hf; simp at hf
    | some z =>
      have hz := h1 z (by rw [hl]; rfl)
      exact lt_of_le_of_lt (m (div_le_div_of_nonneg_right (b z (by rw [hl]; rfl)) hsr.le)) hz.2

/-- C61: the benchmark with an explicit initial state (phase above 1/2, positive step): one pass of
a rising linear sweep whose first and last frequencies are in range succeeds, for every block size,
and fills all blocks. -/
theorem C61_benchmark (S : Sys K C) (he : S.env.fl = ieee32) (hl : Log2Spec S.env.log2f) (hB : 0 < S.B)
    (nw L : ℕ) (ws : List K) (bsr dur : K) (wt : WavetableData K) (hb : Built S.env ws nw L bsr dur wt)
    (p0 d0 : K) (hp : PhaseOk ieee32 p0) (hp2 : 1 / 2 < p0) (hd : 0 < d0) (sr : K) (hsr : 0 < sr)
    (n : ℕ) (bs : ℕ) (hup : 0 ≤ ieee32 (ieee32 (ieee32 (sr / 2) - ieee32 20) / ieee32 ((n + 1 : ℕ) : K)))
    (h0 : StepRange (ieee32 (ieee32 20 / sr)))
    (h1 : ∀ f ∈ (ramp ieee32 (ieee32 (ieee32 (ieee32 (sr / 2) - ieee32 20) / ieee32 ((n + 1 : ℕ) : K)))
      (ieee32 20) n).getLast?, StepRange (ieee32 (f / sr))) :
    ∃ o ys, bench S (some wt) p0 d0 sr (n + 1) bs = .ok (o, ys) ∧ ys.length = (n + 1) / bs * bs := by
  have hf : Rounding S.env.fl := by rw [he]; exact rounding_ieee32
  have hp' : PhaseOk S.env.fl p0 := by rw [he]; exact hp
  obtain ⟨⟨o, r⟩, e, i1, i2, i3, -, -, -⟩ := Sys.init_play hf S.fresh (hb.ok hf hl) hp' hd.ne'
  dsimp only at e i1 i2 i3
  have hsafe : OscSafe S nw L o := ⟨i1, fun h => absurd h (by rw [i3]; exact not_lt.2 hd.le)⟩
  unfold bench
  rw [e, R.ok_bind]
  dsimp only
  unfold generateLinearSweepPhase
  dsimp only
  rw [he, R.ok_bind]
  have hsw := linear_range ((rounding_ieee32 (K := K)).idem _) hsr hup n h0 h1
  have hblock := sweep_safe hp2 hp hsw .kForward
  obtain ⟨⟨o', ys⟩, e2, -, -, b3⟩ := benchLoop_ok hf hB hsafe (by rw [he, i2]; exact hblock)
    ((n + 1) / bs) (bs := bs) (by
      simp only [List.length_cons, accumulate_length, List.length_map, ramp_length]
      exact Nat.div_mul_le_self _ _)
  exact ⟨o', ys, e2, b3⟩

/-- C61: the sweep generator: a rising exponential sweep whose first and last frequencies are in
range is played without failure, and as many samples as asked for are written. (`pow2` is any
non-decreasing function.) -/
theorem C61_sweep (S : Sys K C) (he : S.env.fl = ieee32) (hl : Log2Spec S.env.log2f) (hB : 0 < S.B)
    (nw L : ℕ) (ws : List K) (sr dur : K) (wt : WavetableData K) (hb : Built S.env ws nw L sr dur wt)
    (pow2 : K → K) (hpow : Monotone pow2) (fmin fmax : K) (n : ℕ)
    (hlog : ieee32 (S.env.log2f fmin) = S.env.log2f fmin)
    (hup : 0 ≤ ieee32 (ieee32 (S.env.log2f fmax - S.env.log2f fmin) / ieee32 ((n + 1 : ℕ) : K)))
    (h0 : StepRange (ieee32 (pow2 (S.env.log2f fmin) / kSamplerate)))
    (h1 : ∀ lf ∈ (ramp ieee32 (ieee32 (ieee32 (S.env.log2f fmax - S.env.log2f fmin) /
      ieee32 ((n + 1 : ℕ) : K))) (S.env.log2f fmin) n).getLast?,
        StepRange (ieee32 (pow2 lf / kSamplerate))) :
    ∃ ys, sweepMain S pow2 (some wt) fmin fmax (n + 1) = .ok (0, ys) ∧ ys.length = n + 1 := by
  have hf : Rounding S.env.fl := by rw [he]; exact rounding_ieee32
  have hg := rounding_ieee32 (K := K)
  have h34 : ieee32 (3 / 4 : K) = 3 / 4 := by
    have := hg.dyadic 3 2 (by norm_num); norm_num at this ⊢; exact this
  have h98 : ieee32 ((255 : K) / 256) = 255 / 256 := by
    have := hg.dyadic 255 8 (by norm_num); norm_num at this ⊢; exact this
  have p1 : (3 : K) / 4 ≤ ieee32 (99 / 100) := hg.ge_of_ge h34 (by norm_num)
  have p2 : ieee32 ((99 : K) / 100) ≤ 255 / 256 := hg.le_of_le h98 (by norm_num)
  have hp : PhaseOk ieee32 (ieee32 ((99 : K) / 100)) :=
    ⟨by linarith [show (0 : K) < 3 / 4 by norm_num], lt_of_le_of_lt p2 (by norm_num), isPhase_ieee32 (hg.idem _)⟩
  have hd : 0 < ieee32 ((1 : K) / 100) := hg.pos_of_ge 7 (by norm_num)
  obtain ⟨⟨o, r⟩, e, i1, i2, i3, -, i4, -⟩ := Sys.init_play hf S.fresh (hb.ok hf hl)
    (p := ieee32 (99 / 100)) (by rw [he]; exact hp) hd.ne'
  dsimp only at e i1 i2 i3 i4
  have hsafe : OscSafe S nw L o := ⟨i1, fun h => absurd h (by rw [i3]; exact not_lt.2 hd.le)⟩
  unfold sweepMain generateExpSweepPhase
  dsimp only
  rw [he, R.ok_bind, e, R.ok_bind]
  dsimp only
  rw [if_neg (by simpa using i4)]
  have hsw : ∀ s ∈ (ramp ieee32 (ieee32 (ieee32 (S.env.log2f fmax - S.env.log2f fmin) /
      ieee32 ((n + 1 : ℕ) : K))) (S.env.log2f fmin) n).map (fun lf => ieee32 (pow2 lf / kSamplerate)),
      StepRange s := by
    intro s hs
    obtain ⟨f, hfm, rfl⟩ := List.mem_map.1 hs
    obtain ⟨a, b⟩ := ramp_between hg hup n _ hlog f hfm
    have hk : (0 : K) ≤ kSamplerate := by unfold kSamplerate; norm_num
    constructor
    · exact lt_of_lt_of_le h0.1 (hg.mono (div_le_div_of_nonneg_right (hpow a) hk))
    · cases hlast : (ramp ieee32 (ieee32 (ieee32 (S.env.log2f fmax - S.env.log2f fmin) /
          ieee32 ((n + 1 : ℕ) : K))) (S.env.log2f fmin) n).getLast? with
      | none => rw [List.getLast?_eq_none_iff.1 hlast] at hfm; simp at hfm
      | some z =>
        have hz := h1 z (by rw [hlast]; rfl)
        exact lt_of_le_of_lt (hg.mono (div_le_div_of_nonneg_right (hpow (b z (by rw [hlast]; rfl))) hk)) hz.2
  have hblock := sweep_safe (by linarith [show (1 : K) / 2 < 3 / 4 by norm_num]) hp hsw .kBidirectionnal
  obtain ⟨⟨o', ys⟩, e2, -, -, -, b4⟩ := Sys.run_ok hf hB hsafe (by rw [he, i2]; exact hblock)
  obtain ⟨wt', hw, -⟩ := i1.wt
  rw [Sys.process_eq hw _ (by simp [accumulate_length, ramp_length]) e2 b4, R.ok_bind]
  refine ⟨_, rfl, ?_⟩
  rw [List.length_map, b4]
  simp [accumulate_length, ramp_length]

/-! ### C62 -/

/-- C62: the bound `2^-25` on the steps is exact. With any smaller or equal step the phase of a tone
stops at some point at or below 1/2 and never moves again. -/
theorem C62_stuck (freq : K) (h0 : 0 ≤ ieee32 (freq / kSamplerate))
    (h1 : ieee32 (freq / kSamplerate) ≤ 1 / 2 ^ 25) :
    ∃ (N : ℕ) (p : K), p ≤ 1 / 2 ∧ ∀ m, generateTonePhase ieee32 freq (N + m) =
      generateTonePhase ieee32 freq N ++ List.replicate m p := by
  obtain ⟨N, p, -, h2, -, h4, h5⟩ := stuck _ h0 h1
  refine ⟨N, p, h4, fun m => ?_⟩
  unfold generateTonePhase
  rw [List.replicate_add, accumulate_append, h2, accumulate_stuck h5]

/-- C62: so, in a debug build, the tones generator aborts on every such frequency if the tone is long
enough, whatever was played before. -/
theorem C62_debug_aborts (S : Sys K C) (he : S.env.fl = ieee32) (hl : Log2Spec S.env.log2f)
    (hB : 0 < S.B) (hdbg : S.env.dbg = true) (nw L : ℕ) (o : Osc K C) (ho : Reached S nw L o) (freq : K)
    (h0 : 0 < ieee32 (freq / kSamplerate)) (h1 : ieee32 (freq / kSamplerate) ≤ 1 / 2 ^ 25) :
    ∃ N, ∀ n, N ≤ n → generateTone S o freq n = .error .assertFail := by
  have hf : Rounding S.env.fl := by rw [he]; exact rounding_ieee32
  have hp := Sys.reached_play hf hl hB ho
  obtain ⟨wt, hwt, hw⟩ := hp.wt
  have hz : PhaseOk S.env.fl (0 : K) := ⟨le_rfl, by norm_num, hf.zero_ph⟩
  obtain ⟨o1, e1, r1, r2, r3, -, -⟩ := Sys.reset_play hf hwt hw hz h0.ne' hp.crt0 hp.crt1
  have hsafe : OscSafe S nw L o1 := ⟨r1, fun h => absurd h (by rw [r3]; exact not_lt.2 h0.le)⟩
  obtain ⟨N, p, a1, a2, a3, a4, a5⟩ := stuck _ h0.le h1
  refine ⟨N + 1, fun n hn => ?_⟩
  obtain ⟨m, rfl⟩ := Nat.exists_eq_add_of_le hn
  obtain ⟨⟨o2, ys⟩, e2, b1, b2, -, -⟩ := Sys.run_ok hf hB hsafe (dir := .kBidirectionnal)
    (by rw [he, r2]; exact a1 .kBidirectionnal)
  dsimp only at b1 b2
  rw [r2, a2] at b2
  unfold generateTone
  dsimp only
  unfold generateTonePhase
  rw [he, e1, R.ok_bind]
  obtain ⟨wt1, hw1, -⟩ := r1.wt
  obtain ⟨wt2, hw2, -⟩ := b1.wt
  rw [Sys.process_runDir S _ (by rw [hw1]; rfl) (by simp [accumulate_length]),
    Nat.add_assoc, List.replicate_add, accumulate_append, a2, accumulate_stuck a5, runDir_append, e2,
    R.ok_bind]
  dsimp only
  have := C28_debug_aborts S hf hdbg .kBidirectionnal o2 (by rw [hw2]; rfl) (List.replicate m p)
    (List.replicate (m + 1) 0) (by simp)
  rw [b2, Sys.process_runDir S _ (by rw [hw2]; rfl) (by simp)] at this
  rw [Nat.add_comm 1 m, List.replicate_succ, this]
  rfl

/-! ### C65 -/

/-- C65: tones of negative frequency (phases in `(-1, 0]`, accumulated as by the tones generator) are
played without failure from every reached state whose crossfader is not leaving the octave of the
tone. -/
theorem C65_negative (S : Sys K C) (he : S.env.fl = ieee32) (hl : Log2Spec S.env.log2f) (hB : 0 < S.B)
    (nw L : ℕ) (o : Osc K C) (ho : Reached S nw L o) (b : ℤ) (f : K) (hf : ToneOk L b f)
    (hb : NotLeaving b o) (n : ℕ) :
    ∃ o' ys, generateTone S o (-f) n = .ok (o', ys) ∧ ys.length = n := by
  have hr : Rounding S.env.fl := by rw [he]; exact rounding_ieee32
  have hp := Sys.reached_play hr hl hB ho
  have hc : Calm S nw L o := by unfold Calm; rw [hp.red, at_self]; exact hp
  obtain ⟨⟨o', ys⟩, e, -, -, h3, -⟩ := tone_run he hB n (freq := -f)
    (Or.inr (by rw [neg_div, ieee32_neg])) hf.lo hf.hi hf.oct hc hb
  exact ⟨o', ys, e, h3⟩

/-! ### C66 -/

/-- C66: the whole tones generator. For any list of frequencies in range, each followed for at least
the length of a crossfade, both directions of all of them are played on one oscillator without
failure, and all files have the requested length. The first frequency must not be in the third
octave from the top, from which the crossfader departs at `init`. -/
theorem C66_tones (S : Sys K C) (he : S.env.fl = ieee32) (hl : Log2Spec S.env.log2f) (hB : 0 < S.B)
    (nw L : ℕ) (ws : List K) (sr dur : K) (wt : WavetableData K) (hb : Built S.env ws nw L sr dur wt)
    (freqs : List K) (n : ℕ) (hn : ieee32 (dur * sr) ≤ n) (hfr : ∀ f ∈ freqs, ∃ b, ToneOk L b f)
    (hfirst : ∀ f ∈ freqs.head?, ¬ IsOctave L ((L : ℤ) - 3) (ieee32 (f / kSamplerate))) :
    ∃ files, tonesMain S (some wt) freqs n = .ok (0, files) ∧ files.length = 2 * freqs.length ∧
      ∀ file ∈ files, file.length = n := by
  obtain ⟨⟨o, r⟩, e, h1, h2, h3, h4⟩ := init_free (S := S) he hl hb
  dsimp only at h1 h2 h3 h4
  unfold tonesMain
  rw [he, e, R.ok_bind]
  dsimp only
  rw [if_neg (by simpa using h1)]
  have hlen : fadeLen o ≤ n := by
    rw [he] at h4
    have hx := hb.2.1
    rw [he] at hx
    unfold toInt at h4
    split at h4
    · injection h4 with h4
      rw [← h4]
      unfold trunc
      rw [if_pos (by linarith), Int.floor_le_iff]
      push_cast
      linarith
    · cases h4
  obtain ⟨⟨o', files⟩, e2, c1, c2⟩ := tonesLoop_ok he hB hfr h2 hlen (fun f hf b hbt =>
    h3 b fun hne => by
      subst hne
      exact hfirst f hf (hbt.oct _ (by rw [sub_self, abs_zero]; positivity)))
  rw [e2, R.ok_bind]
  exact ⟨files, rfl, c1, c2⟩

/-! ### C67 -/

/-- C67: a benchmark that initialises the oscillator at phase 0, as all but the first one do by the
default argument, and then plays a sweep from phase 0 on, does not get beyond its first sample: the
debug build aborts, the release build divides by zero. -/
theorem C67_benchmark (S : Sys K C) (hf : Rounding S.env.fl) (hl : Log2Spec S.env.log2f) (hB : 0 < S.B)
    (nw L : ℕ) (ws : List K) (bsr dur : K) (wt : WavetableData K) (hb : Built S.env ws nw L bsr dur wt)
    (d0 : K) (hd : 0 < d0) (sr : K) (n bs : ℕ) (h0 : 0 < bs) (h1 : bs ≤ n) :
    bench S (some wt) 0 d0 sr n bs = .error (if S.env.dbg then .assertFail else .divByZero) := by
  have hp : PhaseOk S.env.fl 0 := ⟨le_rfl, by norm_num, hf.zero_ph⟩
  obtain ⟨⟨o, r⟩, e, i1, i2, i3, -, rfl, -⟩ := Sys.init_play hf S.fresh (hb.ok hf hl) hp hd.ne'
  dsimp only at i1 i2 i3 e
  unfold bench
  rw [e, R.ok_bind]
  dsimp only
  obtain ⟨n, rfl⟩ := Nat.exists_eq_succ_of_ne_zero (by omega : n ≠ 0)
  obtain ⟨b, rfl⟩ := Nat.exists_eq_succ_of_ne_zero (by omega : bs ≠ 0)
  unfold generateLinearSweepPhase
  dsimp only
  rw [R.ok_bind]
  generalize hph : accumulate S.env.fl 0 _ = rest
  have hrl : rest.length = n := by rw [← hph]; simp [accumulate_length, ramp_length]
  have hk : 1 ≤ (n + 1) / (b + 1) := by
    rw [Nat.le_div_iff_mul_le (by omega)]; omega
  obtain ⟨k, hk⟩ := Nat.exists_eq_add_of_le' hk
  rw [hk]
  have key : ∀ k, benchLoop S o (0 :: rest) (b + 1) (k + 1) =
      .error (if S.env.dbg then .assertFail else .divByZero) := by
    intro k
    induction k with
    | zero =>
      unfold benchLoop benchLoop
      rw [R.ok_bind]
      dsimp only
      rw [Nat.zero_mul, List.drop_zero, List.take_succ_cons]
      obtain ⟨wt', hwt, -⟩ := i1.wt
      have hlen : (rest.take b).length + 1 = (List.replicate (b + 1) (0 : K)).length := by
        simp [hrl]; omega
      have : S.process .kForward o (0 :: rest.take b) (List.replicate (b + 1) 0) =
          .error (if S.env.dbg then .assertFail else .divByZero) := by
        have h0 : (0 : K) :: rest.take b = o.prevPhase :: rest.take b := by rw [i2]
        rw [h0]
        cases hdbg : S.env.dbg with
        | true => exact C28_debug_aborts S hf hdbg .kForward o (by rw [hwt]; rfl) _ _ hlen
        | false =>
          rcases C28_release_divides_by_zero S hf hl hB hdbg nw L o (Reached.init hb ⟨hp, hd.ne'⟩ e) 0
            (by rw [i2]; simp) .kForward _ _ hlen with h | ⟨h, -⟩
          · exact h
          · exact absurd h.2 (by rw [i3]; exact not_lt.2 hd.le)
      rw [this]; rfl
    | succ k ih => unfold benchLoop; rw [ih]; rfl
  exact key k

/-! ### the hypotheses can be met -/

/-- 440 Hz on a wavetable of 2048 samples. -/
theorem example_tone : ToneOk (K := ℝ) 11 4 440 := by
  have hf := rounding_ieee32 (K := ℝ)
  have f1 : ieee32 (20 / 2048 : ℝ) = 20 / 2048 := by
    have := hf.dyadic 20 11 (by norm_num); norm_num at this ⊢; exact this
  have f2 : ieee32 (21 / 2048 : ℝ) = 21 / 2048 := by
    have := hf.dyadic 21 11 (by norm_num); norm_num at this ⊢; exact this
  have b1 := hf.ge_of_ge f1 (show (20 / 2048 : ℝ) ≤ 440 / kSamplerate by unfold kSamplerate; norm_num)
  have b2 := hf.le_of_le f2 (show (440 : ℝ) / kSamplerate ≤ 21 / 2048 by unfold kSamplerate; norm_num)
  refine ⟨by have := hf.int 440 (by norm_num); exact_mod_cast this, ?_, ?_, fun d hd => ?_⟩
  · exact lt_of_lt_of_le (by norm_num) b1
  · exact b2.trans (by norm_num)
  · rw [abs_le] at hd
    refine ⟨by norm_num, by norm_num, Or.inr ?_, Or.inr ?_⟩
    · have : (2 : ℝ) ^ (4 : ℤ).toNat / 2 ^ 11 ≤ 20 / 2048 - 1 / 2 ^ 23 := by
        rw [show (4 : ℤ).toNat = 4 from rfl]; norm_num
      linarith [hd.1]
    · have : (21 : ℝ) / 2048 + 1 / 2 ^ 23 < 2 ^ ((4 : ℤ).toNat + 1) / 2 ^ 11 := by
        rw [show (4 : ℤ).toNat = 4 from rfl]; norm_num
      linarith [hd.2]

/-- The tones generator with a wavetable of 2048 samples, the tone of 440 Hz for 1000 samples, any
filter. -/
example (t : FilterType) (ws : List ℝ) (h : ws.length = 2048) : ∃ wt files,
    tonesMain (sysOf envI t) (some wt) [440] 1000 = .ok (0, files) ∧ files.length = 2 := by
  have hf := rounding_ieee32 (K := ℝ)
  have h44 : IsRate envI.fl 44100 := by
    have := envI_ok.1.isRate 44100 (by norm_num); simpa using this
  have hd : envI.fl (1 / 256 * 44100) = 1 / 256 * 44100 := by
    have e : (1 / 256 * 44100 : ℝ) = ((44100 : ℤ) : ℝ) / 2 ^ 8 := by norm_num
    rw [e, envI_ok.1.dyadic 44100 8 (by norm_num)]
  obtain ⟨wt, hw⟩ := C02_succeeds envI envI_ok.1 envI_ok.2.1 envI_ok.2.2 11 (by norm_num) (by norm_num) 1
    (by norm_num) ws (by simpa using h) 44100 (1 / 256) (by norm_num) h44 (by rw [hd]; norm_num)
  have hb : Built envI ws 1 11 44100 (1 / 256) wt := ⟨h44, by rw [hd]; norm_num, by simpa using h, hw⟩
  obtain ⟨files, e, h1, -⟩ := C66_tones (sysOf envI t) rfl envI_ok.2.1 (by norm_num [sysOf]) 1 11 ws
    44100 (1 / 256) wt hb [440] 1000 (by
      have := hf.int 1000 (by norm_num)
      exact hf.le_of_le (by exact_mod_cast this) (by norm_num)) (by
      intro f hf
      rw [List.mem_singleton] at hf
      exact ⟨4, hf ▸ example_tone⟩) (by
      intro f hf h
      simp at hf
      subst hf
      have h2 := h.2.2.1.resolve_left (by norm_num)
      have hf := rounding_ieee32 (K := ℝ)
      have f2 : ieee32 (21 / 2048 : ℝ) = 21 / 2048 := by
        have := hf.dyadic 21 11 (by norm_num); norm_num at this ⊢; exact this
      have b2 := hf.le_of_le f2 (show (440 : ℝ) / kSamplerate ≤ 21 / 2048 by unfold kSamplerate; norm_num)
      rw [show (((11 : ℕ) : ℤ) - 3).toNat = 8 from rfl] at h2
      norm_num at h2
      linarith)
  exact ⟨wt, files, e, h1⟩

/-- 16 kHz on a wavetable of eight samples. -/
theorem example_tone_high : ToneOk (K := ℝ) 3 1 16000 := by
  have hf := rounding_ieee32 (K := ℝ)
  have f1 : ieee32 (5 / 16 : ℝ) = 5 / 16 := by
    have := hf.dyadic 5 4 (by norm_num); norm_num at this ⊢; exact this
  have f2 : ieee32 (6 / 16 : ℝ) = 6 / 16 := by
    have := hf.dyadic 6 4 (by norm_num); norm_num at this ⊢; exact this
  have b1 := hf.ge_of_ge f1 (show (5 / 16 : ℝ) ≤ 16000 / kSamplerate by unfold kSamplerate; norm_num)
  have b2 := hf.le_of_le f2 (show (16000 : ℝ) / kSamplerate ≤ 6 / 16 by unfold kSamplerate; norm_num)
  refine ⟨by have := hf.int 16000 (by norm_num); exact_mod_cast this, ?_, ?_, fun d hd => ?_⟩
  · exact lt_of_lt_of_le (by norm_num) b1
  · exact b2.trans (by norm_num)
  · rw [abs_le] at hd
    refine ⟨by norm_num, by norm_num, Or.inr ?_, Or.inl (by norm_num)⟩
    have : (2 : ℝ) ^ (1 : ℤ).toNat / 2 ^ 3 ≤ 5 / 16 - 1 / 2 ^ 23 := by
      rw [show (1 : ℤ).toNat = 1 from rfl]; norm_num
    linarith [hd.1]

/-- C65 applies: the default initial state, then the tone of -16 kHz, of any length. -/
example (t : FilterType) (ws : List ℝ) (h : ws.length = 8) (n : ℕ) : ∃ o o' ys,
    Reached (sysOf envI t) 1 3 o ∧ generateTone (sysOf envI t) o (-16000) n = .ok (o', ys) ∧
      ys.length = n := by
  obtain ⟨wt, hb⟩ := exampleWt envI envI_ok ws h
  have hf := rounding_ieee32 (K := ℝ)
  obtain ⟨⟨o, r⟩, e, h1, -, h3, -⟩ := init_free (S := sysOf envI t) rfl envI_ok.2.1 hb
  have ho : Reached (sysOf envI t) 1 3 o := Reached.init hb
    ⟨⟨le_rfl, by norm_num, hf.zero_ph⟩, (hf.pos_of_ge 2 (by norm_num)).ne'⟩ e
  obtain ⟨o', ys, e2, h2⟩ := C65_negative (sysOf envI t) rfl envI_ok.2.1 (by norm_num [sysOf]) 1 3 o ho
    1 16000 example_tone_high (h3 1 (by norm_num)) n
  exact ⟨o, o', ys, ho, e2, h2⟩

/-- A range of steps, and the benchmark's first frequency. -/
example : StepRange (1 / 100 : ℝ) ∧ StepRange (ieee32 (ieee32 20 / 44100 : ℝ)) := by
  have hf := rounding_ieee32 (K := ℝ)
  have f1 : ieee32 (1 / 2 ^ 12 : ℝ) = 1 / 2 ^ 12 := by
    have := hf.dyadic 1 12 (by norm_num); norm_num at this ⊢; exact this
  have f2 : ieee32 (1 / 2 ^ 11 : ℝ) = 1 / 2 ^ 11 := by
    have := hf.dyadic 1 11 (by norm_num); norm_num at this ⊢; exact this
  have e : ieee32 (20 : ℝ) = 20 := by have := hf.int 20 (by norm_num); exact_mod_cast this
  refine ⟨⟨by norm_num, by norm_num⟩, ?_⟩
  rw [e]
  have b1 := hf.ge_of_ge f1 (show (1 / 2 ^ 12 : ℝ) ≤ 20 / 44100 by norm_num)
  have b2 := hf.le_of_le f2 (show (20 / 44100 : ℝ) ≤ 1 / 2 ^ 11 by norm_num)
  exact ⟨lt_of_lt_of_le (by norm_num) b1, lt_of_le_of_lt b2 (by norm_num)⟩

/-- C62 applies to a tone of 0.001 Hz. -/
example : 0 < ieee32 ((1 / 1000 : ℝ) / kSamplerate) ∧ ieee32 ((1 / 1000 : ℝ) / kSamplerate) ≤ 1 / 2 ^ 25 := by
  have hf := rounding_ieee32 (K := ℝ)
  have f1 : ieee32 (1 / 2 ^ 26 : ℝ) = 1 / 2 ^ 26 := by
    have := hf.dyadic 1 26 (by norm_num); norm_num at this ⊢; exact this
  have f2 : ieee32 (1 / 2 ^ 25 : ℝ) = 1 / 2 ^ 25 := by
    have := hf.dyadic 1 25 (by norm_num); norm_num at this ⊢; exact this
  have b1 := hf.ge_of_ge f1 (show (1 / 2 ^ 26 : ℝ) ≤ (1 / 1000) / kSamplerate by unfold kSamplerate; norm_num)
  exact ⟨lt_of_lt_of_le (by norm_num) b1, hf.le_of_le f2 (by unfold kSamplerate; norm_num)⟩

end Adwt.Props
