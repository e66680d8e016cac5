import Verif.Proofs.Ovs

/-!
# C73: the oversampled reference oscillator of the benchmarks

`OvsOscillator<kJuce>`: reads the waveform by linear interpolation at `ratio` times the sample rate and
lets `juce::dsp::Oversampling` (external: `initD` and `down` are arbitrary) bring the result down.
-/

set_option linter.unusedSectionVars false

namespace Adwt.Props
open Ovs

/-- C73: `init` reports an error exactly for a ratio or a block size that is not positive, and then
changes nothing; otherwise the oscillator takes the waveform and the ratio and expects
`block size * ratio` phases per call. -/
theorem C73_init {K D : Type} [Field K] [LinearOrder K] [FloorRing K] (initD : D → ℕ → D) (o : OvsOsc K D)
    (ws : List K) (b r : ℤ) :
    ((init initD o ws b r).2 ≠ 0 ↔ r ≤ 0 ∨ b ≤ 0) ∧
    ((init initD o ws b r).2 ≠ 0 → (init initD o ws b r).1 = o) ∧
    ((init initD o ws b r).2 = 0 → (init initD o ws b r).1.waveform = ws ∧
      (init initD o ws b r).1.ratio = r ∧
      (init initD o ws b r).1.upsampled.length = (b * r).toNat) := by
  unfold init
  split_ifs with h
  · simp [h]
  · refine ⟨by simp [h], by simp, fun _ => ⟨rfl, rfl, ?_⟩⟩
    rw [show (b * r).toNat = b.toNat * r.toNat from Int.toNat_mul (by omega) (by omega)]
    simp; omega

/-- An oscillator after a successful `init` with a waveform `ws`, block size `b` and ratio `r`, and any
number of calls of `process`. -/
inductive OvsReached {K D : Type} [Field K] [LinearOrder K] [FloorRing K] (E : Env K) (initD : D → ℕ → D)
    (down : D → List K → ℕ → D × List K) (ws : List K) (b r : ℕ) : OvsOsc K D → Prop
  | init (o : OvsOsc K D) : OvsReached E initD down ws b r (Ovs.init initD o ws b r).1
  | process {o o' : OvsOsc K D} {ps out : List K} {n : ℕ} : OvsReached E initD down ws b r o →
      Ovs.process E down o ps n = .ok (o', out) → OvsReached E initD down ws b r o'

theorem OvsReached.ready {K D : Type} [Field K] [LinearOrder K] [IsStrictOrderedRing K] [FloorRing K] {E : Env K}
    {initD : D → ℕ → D} {down : D → List K → ℕ → D × List K} {ws : List K} {b r : ℕ} (hb : 0 < b)
    (hr : 0 < r) {o : OvsOsc K D} (h : OvsReached E initD down ws b r o) : Ready ws b r o := by
  induction h with
  | init o => exact init_ready hb hr
  | process _ hp ih => exact process_ready ih hp

/-- C73: in a build with assertions the reference oscillator never produces a sample: every call of
`process` with the sizes it asks for, a waveform of at most `2^24` samples and a first phase between 0
and 1 fails an assertion (`reduce` compares an unsigned index with the negated, i.e. wrapped, length). -/
theorem C73_debug {K D : Type} [Field K] [LinearOrder K] [IsStrictOrderedRing K] [FloorRing K] (E : Env K)
    (hf : Rounding E.fl) (hd : E.dbg = true) (initD : D → ℕ → D)
    (down : D → List K → ℕ → D × List K) (ws : List K) (b r : ℕ) (hb : 0 < b) (hr : 0 < r)
    (o : OvsOsc K D) (ho : OvsReached E initD down ws b r o) (hlen : ws.length ≤ 2 ^ 24) (ps : List K) (hps : ps.length = b * r)
    (h0 : ∀ p ∈ ps, 0 ≤ p ∧ p ≤ 1) :
    process E down o ps b = .error .assertFail := by
  obtain ⟨o1, o2, o3, o4, o5⟩ := ho.ready hb hr
  unfold process
  rw [o1, o2, o5, Int.toNat_natCast, chk_true hps, R.ok_bind, R.ok_bind]
  rw [fill_err (e := .assertFail) (by rw [o5, hps])
    (fun p hp => Or.inr (sample_debug hf hd hlen (h0 p hp).1 (h0 p hp).2))]
  · rfl
  · have : ps ≠ [] := by
      intro hc
      rw [hc] at hps
      have := Nat.mul_pos hb hr
      simp at hps; omega
    obtain ⟨p, hp⟩ := List.exists_mem_of_ne_nil ps this
    exact ⟨p, hp, sample_debug hf hd hlen (h0 p hp).1 (h0 p hp).2⟩

/-- `process` in a release build -/
theorem process_release {D : Type} (E : Env ℝ) (hd : E.dbg = false)
    (down : D → List ℝ → ℕ → D × List ℝ) (o : OvsOsc ℝ D) (ws : List ℝ) (b r : ℕ) (hb : 0 < b)
    (ho : Ready ws b r o) (ps : List ℝ) (hps : ps.length = b * r) (g : ℝ → ℝ) (hg : ∀ p ∈ ps, sample E ws p = .ok (g p)) :
    process E down o ps b =
      if 8 < r then .error .outOfBounds
      else .ok ({ o with upsampled := ps.map g, down := (down o.down (ps.map g) b).1 },
        (down o.down (ps.map g) b).2) := by
  obtain ⟨o1, o2, o3, o4, o5⟩ := ho
  unfold process
  have nochk : ∀ c : Prop, [Decidable c] → chk E.dbg c = .ok () := by
    intro c _
    rw [hd]; simp [chk]
  rw [o1, o4, nochk, R.ok_bind, nochk, R.ok_bind, fill_ok (g := g) (by rw [o5, hps]) hg, R.ok_bind, nochk, R.ok_bind]
  rw [List.length_map, hps]
  by_cases h8 : 8 < r
  · rw [if_pos h8, if_pos (by nlinarith)]
  · rw [if_neg h8, if_neg (by nlinarith)]
    rfl

/-- the samples read in a release build -/
theorem sample_interp {E : Env ℝ} (hE : E.fl = ieee32) (hd : E.dbg = false) {ws : List ℝ} {n : ℕ}
    (hlen : ws.length = 2 ^ n) (hn : n ≤ 24) {A : ℝ} (hA : A ≤ 2 ^ 90) (hws : ∀ w ∈ ws, |w| ≤ A) {p : ℝ}
    (hp : ieee32 p = p) (h0 : 0 ≤ p) (h1 : p < 1) :
    ∃ y, sample E ws p = .ok y ∧ |y - interp ws p| ≤ 2 ^ n * A / 2 ^ 20 + 1 / 2 ^ 140 := by
  have hf : Rounding E.fl := by rw [hE]; exact rounding_ieee32
  have hl : ws.length ≤ 2 ^ 24 := by rw [hlen]; exact Nat.pow_le_pow_right (by norm_num) hn
  have hne : ws ≠ [] := by
    intro hc
    rw [hc] at hlen
    have : 0 < 2 ^ n := by positivity
    simp only [List.length_nil] at hlen
    omega
  have hlt := rel_lt hE hne hl hp h0 h1
  obtain ⟨k, hk, hkl, hs⟩ := (sample_release hf hd hl h0 h1.le).1 hlt
  have hlr : (ws.length : ℝ) = 2 ^ n := by rw [hlen]; push_cast; rfl
  have hpn : (2 : ℝ) ^ n ≤ 2 ^ 24 := pow_le_pow_right₀ (by norm_num) hn
  have hpn1 : (1 : ℝ) ≤ 2 ^ n := one_le_pow₀ (by norm_num)
  have hrel : rel E ws p = p * ws.length := by
    unfold rel
    rw [hf.natCast _ hl, hlr]
    apply hf.up
    · rw [hE, hp]
    · rw [abs_of_nonneg (mul_nonneg h0 (by linarith))]
      have : p * 2 ^ n ≤ 1 * 2 ^ n := mul_le_mul_of_nonneg_right h1.le (by linarith)
      have h24 : (2 : ℝ) ^ 24 ≤ 2 ^ 127 := by norm_num
      linarith
  refine ⟨_, hs, ?_⟩
  have c0 : cyc ws ⌊p * ws.length⌋ = ws.getD k 0 := by
    unfold cyc
    rw [← hrel, hk, Int.emod_eq_of_lt (by omega) (by omega), Int.toNat_natCast]
  have c1 : cyc ws (⌊p * ws.length⌋ + 1) = ws.getD ((k + 1) % ws.length) 0 := by
    unfold cyc
    rw [← hrel, hk]
    congr 1
  have hi : interp ws p = ws.getD k 0 +
      (rel E ws p - k) * (ws.getD ((k + 1) % ws.length) 0 - ws.getD k 0) := by
    unfold interp
    rw [c0, c1, ← hrel, hk, Int.cast_natCast]
  have hm : ∀ j < ws.length, |ws.getD j 0| ≤ A := by
    intro j hj
    rw [show ws.getD j 0 = ws[j] by simp [hj]]
    exact hws _ (List.getElem_mem hj)
  have hkr := Int.floor_le (rel E ws p)
  have hrk := Int.lt_floor_add_one (rel E ws p)
  rw [hk, Int.cast_natCast] at hkr hrk
  rw [hi]
  rw [hlr] at hlt
  exact line_err hE (hm k hkl) (hm _ (Nat.mod_lt _ (by omega))) hA hpn1 hpn (by positivity) hkr hrk hlt

/-- C73: in a release build with IEEE floats, for a waveform of `2^n ≤ 2^24` samples bounded by
`A ≤ 2^90`, an oversampling ratio of at most 8 and float phases in `[0,1)`, a call of `process` succeeds
and hands to the downsampler, for each phase, the linear interpolation of the waveform at this phase up
to an error of `2^n A / 2^20 + 2^-140`. -/
theorem C73_release {D : Type} (E : Env ℝ) (hE : E.fl = ieee32) (hd : E.dbg = false) (initD : D → ℕ → D)
    (down : D → List ℝ → ℕ → D × List ℝ) (ws : List ℝ) (n : ℕ) (hlen : ws.length = 2 ^ n)
    (hn : n ≤ 24) (A : ℝ) (hA : A ≤ 2 ^ 90) (hws : ∀ w ∈ ws, |w| ≤ A) (b r : ℕ) (hb : 0 < b) (hr : 0 < r)
    (hr8 : r ≤ 8) (o : OvsOsc ℝ D)
    (ho : OvsReached E initD down ws b r o) (ps : List ℝ) (hps : ps.length = b * r)
    (h0 : ∀ p ∈ ps, ieee32 p = p ∧ 0 ≤ p ∧ p < 1) :
    ∃ up : List ℝ, List.Forall₂ (fun y p => |y - interp ws p| ≤ 2 ^ n * A / 2 ^ 20 + 1 / 2 ^ 140) up ps ∧
      ∃ o', process E down o ps b =
        .ok (o', (down o.down up b).2) ∧ o'.waveform = ws ∧ o'.ratio = r ∧
        o'.upsampled = up ∧ o'.down = (down o.down up b).1 := by
  have key : ∀ p : ℝ, ∃ y, (ieee32 p = p ∧ 0 ≤ p ∧ p < 1) → sample E ws p = .ok y ∧
      |y - interp ws p| ≤ 2 ^ n * A / 2 ^ 20 + 1 / 2 ^ 140 := by
    intro p
    by_cases h : ieee32 p = p ∧ 0 ≤ p ∧ p < 1
    · obtain ⟨y, hy⟩ := sample_interp hE hd hlen hn hA hws h.1 h.2.1 h.2.2
      exact ⟨y, fun _ => hy⟩
    · exact ⟨0, fun h' => absurd h' h⟩
  choose g hg using key
  have hp := process_release E hd down o ws b r hb (ho.ready hb hr) ps hps g (fun p hp => (hg p (h0 p hp)).1)
  rw [if_neg (by omega)] at hp
  refine ⟨ps.map g, ?_, _, hp, ?_, ?_, rfl, rfl⟩
  · rw [List.forall₂_map_left_iff, List.forall₂_same]
    exact fun p hp => (hg p (h0 p hp)).2
  · exact (ho.ready hb hr).1
  · exact (ho.ready hb hr).2.1

/-- C73: the value read, in exact arithmetic: the linear interpolation itself, for every nonempty
waveform. -/
theorem C73_exact {D : Type} (E : Env ℝ) (hE : E.fl = id) (hd : E.dbg = false) (initD : D → ℕ → D)
    (down : D → List ℝ → ℕ → D × List ℝ) (ws : List ℝ) (hne : ws ≠ [])
    (hlen : ws.length ≤ 2 ^ 24) (b r : ℕ) (hb : 0 < b) (hr : 0 < r) (hr8 : r ≤ 8) (o : OvsOsc ℝ D)
    (ho : OvsReached E initD down ws b r o) (ps : List ℝ) (hps : ps.length = b * r)
    (h0 : ∀ p ∈ ps, 0 ≤ p ∧ p < 1) :
    ∃ o', process E down o ps b =
      .ok (o', (down o.down (ps.map (interp ws)) b).2) := by
  have hf : Rounding E.fl := by rw [hE]; exact rounding_id
  have hs : ∀ p ∈ ps, sample E ws p = .ok (interp ws p) := by
    intro p hp
    have hl0 : (0 : ℝ) < ws.length := by exact_mod_cast List.length_pos_iff.2 hne
    have hrel : rel E ws p = p * ws.length := by
      unfold rel; rw [hE]; rfl
    have hlt : rel E ws p < ws.length := by
      rw [hrel]
      have := mul_lt_mul_of_pos_right (h0 p hp).2 hl0
      linarith
    obtain ⟨k, hk, hkl, hs⟩ := (sample_release hf hd hlen (h0 p hp).1 (h0 p hp).2.le).1 hlt
    rw [hs, line_exact hE]
    congr 1
    have c0 : cyc ws ⌊p * ws.length⌋ = ws.getD k 0 := by
      unfold cyc
      rw [← hrel, hk, Int.emod_eq_of_lt (by omega) (by omega), Int.toNat_natCast]
    have c1 : cyc ws (⌊p * ws.length⌋ + 1) = ws.getD ((k + 1) % ws.length) 0 := by
      unfold cyc
      rw [← hrel, hk]
      congr 1
    unfold interp
    rw [c0, c1, ← hrel, hk, Int.cast_natCast]
  have hp := process_release E hd down o ws b r hb (ho.ready hb hr) ps hps (interp ws) hs
  rw [if_neg (by omega)] at hp
  exact ⟨_, hp⟩

/-- C73, failure: `init` accepts every positive ratio, but the downsampler always has a factor of 8: with
a larger ratio every call of `process` with the sizes it asks for and float phases in `[0,1)` writes
outside the block of the downsampler. -/
theorem C73_overflow {D : Type} (E : Env ℝ) (hE : E.fl = ieee32) (hd : E.dbg = false) (initD : D → ℕ → D)
    (down : D → List ℝ → ℕ → D × List ℝ) (ws : List ℝ) (hne : ws ≠ [])
    (hlen : ws.length ≤ 2 ^ 24) (b r : ℕ) (hb : 0 < b) (hr8 : 8 < r) (o : OvsOsc ℝ D)
    (ho : OvsReached E initD down ws b r o) (ps : List ℝ) (hps : ps.length = b * r)
    (h0 : ∀ p ∈ ps, ieee32 p = p ∧ 0 ≤ p ∧ p < 1) :
    (∀ o₀ : OvsOsc ℝ D, (init initD o₀ ws b r).2 = 0) ∧
    process E down o ps b = .error .outOfBounds := by
  have hf : Rounding E.fl := by rw [hE]; exact rounding_ieee32
  have key : ∀ p : ℝ, ∃ y, (ieee32 p = p ∧ 0 ≤ p ∧ p < 1) → sample E ws p = .ok y := by
    intro p
    by_cases h : ieee32 p = p ∧ 0 ≤ p ∧ p < 1
    · obtain ⟨k, -, -, hs⟩ := (sample_release hf hd hlen h.2.1 h.2.2.le).1
        (rel_lt hE hne hlen h.1 h.2.1 h.2.2)
      exact ⟨_, fun _ => hs⟩
    · exact ⟨0, fun h' => absurd h' h⟩
  choose g hg using key
  refine ⟨fun o₀ => by rw [init_ok (by omega) (by omega)], ?_⟩
  rw [process_release E hd down o ws b r hb (ho.ready hb (by omega)) ps hps g (fun p hp => hg p (h0 p hp)),
    if_pos hr8]

/-- C73, failure: a phase of exactly 1 (a value the phase accumulators of some hosts produce) is read
outside the waveform. -/
theorem C73_phase_one {D : Type} (E : Env ℝ) (hE : E.fl = ieee32) (hd : E.dbg = false) (initD : D → ℕ → D)
    (down : D → List ℝ → ℕ → D × List ℝ) (ws : List ℝ) (hlen : ws.length ≤ 2 ^ 24)
    (hne : ws ≠ []) (b r : ℕ) (hb : 0 < b) (hr : 0 < r) (o : OvsOsc ℝ D)
    (ho : OvsReached E initD down ws b r o) (ps : List ℝ) (hps : ps.length = b * r)
    (h0 : ∀ p ∈ ps, ieee32 p = p ∧ 0 ≤ p ∧ p ≤ 1) (h1 : (1 : ℝ) ∈ ps) :
    process E down o ps b = .error .outOfBounds := by
  have hf : Rounding E.fl := by rw [hE]; exact rounding_ieee32
  have hone : sample E ws 1 = .error .outOfBounds := by
    apply (sample_release hf hd hlen (by norm_num) le_rfl).2
    unfold rel
    rw [one_mul, hf.natCast _ hlen, hf.natCast _ hlen]
  obtain ⟨o1, o2, o3, o4, o5⟩ := ho.ready hb hr
  unfold process
  have nochk : ∀ c : Prop, [Decidable c] → chk E.dbg c = .ok () := by
    intro c _
    rw [hd]; simp [chk]
  rw [o1, nochk, R.ok_bind, nochk, R.ok_bind,
    fill_err (e := .outOfBounds) (by rw [o5, hps]) ?_ ⟨1, h1, hone⟩]
  · rfl
  · intro p hp
    rcases eq_or_lt_of_le (h0 p hp).2.2 with h | h
    · right; rw [h]; exact hone
    · left
      obtain ⟨k, -, -, hs⟩ := (sample_release hf hd hlen (h0 p hp).2.1 (h0 p hp).2.2).1
        (rel_lt hE hne hlen (h0 p hp).1 (h0 p hp).2.1 h)
      exact ⟨_, hs⟩

/-- the loop over the blocks -/
theorem juceLoop_ok {D : Type} (E : Env ℝ) (hE : E.fl = ieee32) (hd : E.dbg = false) (initD : D → ℕ → D)
    (down : D → List ℝ → ℕ → D × List ℝ) (ws : List ℝ) (n : ℕ) (hlen : ws.length = 2 ^ n)
    (hn : n ≤ 24) (A : ℝ) (hA : A ≤ 2 ^ 90) (hws : ∀ w ∈ ws, |w| ≤ A) (b r : ℕ) (hb : 0 < b) (hr : 0 < r)
    (hr8 : r ≤ 8) (o : OvsOsc ℝ D) (ho : OvsReached E initD down ws b r o) (ps : List ℝ)
    (h0 : ∀ p ∈ ps, PhaseOk ieee32 p) (k : ℕ) (hk : k * (r * b) ≤ ps.length) :
    ∃ o' outs, juceLoop E down o ps b r k = .ok (o', outs) ∧ OvsReached E initD down ws b r o' ∧
      outs.length = k := by
  induction k with
  | zero => exact ⟨o, [], rfl, ho, rfl⟩
  | succ k ih =>
    have hk' : k * (r * b) + r * b ≤ ps.length := by rw [← Nat.succ_mul]; exact hk
    obtain ⟨o1, outs, e, h1, hl⟩ := ih (by omega)
    unfold juceLoop
    rw [e, R.ok_bind]
    dsimp only
    obtain ⟨up, -, o2, e2, -⟩ := C73_release E hE hd initD down ws n hlen hn A hA hws b r hb hr hr8 o1 h1
      ((ps.drop (k * (r * b))).take (r * b))
      (by rw [List.length_take, List.length_drop, min_eq_left (by omega), mul_comm])
      (fun p hp => by
        obtain ⟨a, b, c⟩ := h0 p (List.drop_subset _ _ (List.take_subset _ _ hp))
        exact ⟨c.1, a, b⟩)
    rw [e2, R.ok_bind]
    exact ⟨o2, _, rfl, .process h1 e2, by simp [hl]⟩

/-- C73: the JUCE benchmark in a release build: for a rising linear sweep whose frequencies do not exceed
the upsampled rate, one pass of the measured loop succeeds for every block size: all blocks are
produced. -/
theorem C73_bench {D : Type} (E : Env ℝ) (hE : E.fl = ieee32) (hd : E.dbg = false) (initD : D → ℕ → D)
    (down : D → List ℝ → ℕ → D × List ℝ) (o : OvsOsc ℝ D) (ws : List ℝ) (n : ℕ) (hlen : ws.length = 2 ^ n)
    (hn : n ≤ 24) (A : ℝ) (hA : A ≤ 2 ^ 90) (hws : ∀ w ∈ ws, |w| ≤ A) (sr : ℝ) (hsr : 0 < ieee32 (sr * 8))
    (numFrames b : ℕ) (hb : 0 < b) (hnf : 0 < numFrames)
    (hup : 0 ≤ ieee32 (ieee32 (ieee32 (sr / 2) - ieee32 20) / ieee32 ((numFrames * 8 : ℕ) : ℝ)))
    (hmax : ∀ f ∈ (Drivers.ramp ieee32 (ieee32 (ieee32 (ieee32 (sr / 2) - ieee32 20) /
      ieee32 ((numFrames * 8 : ℕ) : ℝ))) (ieee32 20) (numFrames * 8 - 1)).getLast?, f ≤ ieee32 (sr * 8)) :
    ∃ o' outs, juceBench E initD down o ws sr numFrames b = .ok (some (o', outs)) ∧
      outs.length = numFrames / b := by
  have hf := rounding_ieee32 (K := ℝ)
  obtain ⟨m, hm⟩ : ∃ m, numFrames * 8 = m + 1 := ⟨numFrames * 8 - 1, by omega⟩
  rw [hm] at hup hmax
  unfold juceBench
  have hi : (init initD o ws b 8).2 = 0 := by rw [init_ok (by omega) (by omega)]
  have ho : OvsReached E initD down ws b 8 (init initD o ws b 8).1 := .init o
  rw [hE, hm]
  generalize init initD o ws b 8 = io at hi ho
  obtain ⟨o0, res⟩ := io
  dsimp only at hi ho ⊢
  rw [if_neg (by simpa using hi)]
  unfold Drivers.generateLinearSweepPhase
  dsimp only
  rw [R.ok_bind]
  have hz : PhaseOk ieee32 (0 : ℝ) := ⟨le_rfl, by norm_num, hf.zero_ph⟩
  obtain ⟨step, hstep⟩ : ∃ x, x = ieee32 (ieee32 (ieee32 (sr / 2) - ieee32 20) /
    ieee32 ((m + 1 : ℕ) : ℝ)) := ⟨_, rfl⟩
  rw [← hstep] at hup hmax ⊢
  have h20 : (0 : ℝ) ≤ ieee32 20 := hf.nonneg (by norm_num)
  have hps : ∀ p ∈ (0 : ℝ) :: Drivers.accumulate ieee32 0
      ((Drivers.ramp ieee32 step (ieee32 20) m).map fun f => ieee32 (f / ieee32 (sr * 8))),
      PhaseOk ieee32 p := by
    intro p hp
    rcases List.mem_cons.1 hp with rfl | hp
    · exact hz
    refine accumulate_ok hz ?_ p hp
    intro s hs
    obtain ⟨f, hfm, rfl⟩ := List.mem_map.1 hs
    obtain ⟨a, c⟩ := Drivers.ramp_between hf hup m _ (hf.idem _) f hfm
    refine ⟨hf.nonneg (div_nonneg (h20.trans a) hsr.le), hf.le_of_le hf.one ?_⟩
    rw [div_le_one hsr]
    cases hlast : (Drivers.ramp ieee32 step (ieee32 20) m).getLast? with
    | none => rw [List.getLast?_eq_none_iff.1 hlast] at hfm; simp at hfm
    | some z => exact (c z (by rw [hlast]; rfl)).trans (hmax z (by simpa using hlast))
  obtain ⟨o', outs, e, -, hl⟩ := juceLoop_ok E hE hd initD down ws n hlen hn A hA hws b 8 hb (by norm_num)
    (by norm_num) o0 ho _ hps (numFrames / b) (by
      have := Nat.div_mul_le_self numFrames b
      simp only [List.length_cons, Drivers.accumulate_length, List.length_map, Drivers.ramp_length]
      rw [← hm]
      calc numFrames / b * (8 * b) = numFrames / b * b * 8 := by ring
        _ ≤ numFrames * 8 := Nat.mul_le_mul_right _ this)
  rw [e, R.ok_bind]
  exact ⟨o', outs, rfl, hl⟩

/-- an environment in IEEE floats, with or without assertions -/
noncomputable def ovsEnv (dbg : Bool) : Env ℝ :=
  ⟨dbg, ieee32, rne53, rne53_of_ieee32,
  fun a b c => ieee32 (ieee32 (a * b) + c), fun _ _ _ => .inr rfl,
  fun a b c d => rne53 (rne53 (a * b) - rne53 (c * d)), fun _ _ _ _ => .inl rfl,
  fun _ => 0, fun _ _ _ => ⟨1, fun _ => 0, 0, 0⟩⟩

/-- a downsampler that keeps every other sample -/
def ovsDown : Unit → List ℝ → ℕ → Unit × List ℝ := fun _ l n => ((), (List.range n).map fun i => l.getD (2 * i) 0)

/-- an oscillator that was never initialised -/
def ovsFresh : OvsOsc ℝ Unit := ⟨[], [], 0, 0, 0, ()⟩

/-- the hypotheses are met: two samples with ratio 2 of a waveform of four samples -/
example : ∃ up : List ℝ, List.Forall₂ (fun y p => |y - interp [0, 1, 0, -1] p| ≤ 2 ^ 2 * 1 / 2 ^ 20 +
      1 / 2 ^ 140) up [0, 1 / 8, 1 / 4, 3 / 8] ∧
    ∃ o', process (ovsEnv false) ovsDown (init (fun _ _ => ()) ovsFresh [0, 1, 0, -1] (2 : ℕ) (2 : ℕ)).1
      [0, 1 / 8, 1 / 4, 3 / 8] 2 = .ok (o', (ovsDown () up 2).2) ∧ o'.waveform = [0, 1, 0, -1] ∧
      o'.ratio = (2 : ℕ) ∧ o'.upsampled = up ∧ o'.down = () := by
  refine C73_release (ovsEnv false) rfl rfl (fun _ _ => ()) ovsDown [0, 1, 0, -1] 2 rfl (by norm_num) 1
    (by norm_num) ?_ 2 2 (by norm_num) (by norm_num) (by norm_num) _ (.init ovsFresh) _ rfl ?_
  · intro w hw
    simp only [List.mem_cons, List.not_mem_nil, or_false] at hw
    rcases hw with rfl | rfl | rfl | rfl <;> norm_num
  · have h := rounding_ieee32 (K := ℝ)
    intro p hp
    simp only [List.mem_cons, List.not_mem_nil, or_false] at hp
    rcases hp with rfl | rfl | rfl | rfl
    · exact ⟨h.zero, by norm_num, by norm_num⟩
    · exact ⟨by have := h.inv_pow 3; norm_num at this ⊢; exact this, by norm_num, by norm_num⟩
    · exact ⟨by have := h.inv_pow 2; norm_num at this ⊢; exact this, by norm_num, by norm_num⟩
    · exact ⟨by have := h.dyadic 3 3 (by norm_num); norm_num at this ⊢; exact this, by norm_num,
        by norm_num⟩

/-- the same call with assertions -/
example : process (ovsEnv true) ovsDown (init (fun _ _ => ()) ovsFresh [0, 1, 0, -1] (2 : ℕ) (2 : ℕ)).1
    [0, 1 / 8, 1 / 4, 3 / 8] 2 = .error .assertFail := by
  refine C73_debug (ovsEnv true) rounding_ieee32 rfl (fun _ _ => ()) ovsDown [0, 1, 0, -1] 2 2 (by norm_num)
    (by norm_num) _ (.init ovsFresh) (by simp) _ rfl ?_
  intro p hp
  simp only [List.mem_cons, List.not_mem_nil, or_false] at hp
  rcases hp with rfl | rfl | rfl | rfl <;> norm_num

/-- a ratio of 16 -/
example : process (ovsEnv false) ovsDown (init (fun _ _ => ()) ovsFresh [0, 1, 0, -1] (1 : ℕ) (16 : ℕ)).1
    (List.replicate 16 0) 1 = .error .outOfBounds := by
  refine (C73_overflow (ovsEnv false) rfl rfl (fun _ _ => ()) ovsDown [0, 1, 0, -1] (by simp) (by simp) 1 16
    (by norm_num) (by norm_num) _ (.init ovsFresh) _ rfl ?_).2
  intro p hp
  rw [List.eq_of_mem_replicate hp]
  exact ⟨rounding_ieee32.zero, le_rfl, by norm_num⟩

/-- a phase of 1 -/
example : process (ovsEnv false) ovsDown (init (fun _ _ => ()) ovsFresh [0, 1, 0, -1] (1 : ℕ) (2 : ℕ)).1
    [0, 1] 1 = .error .outOfBounds := by
  refine C73_phase_one (ovsEnv false) rfl rfl (fun _ _ => ()) ovsDown [0, 1, 0, -1] (by simp) (by simp) 1 2
    (by norm_num) (by norm_num) _ (.init ovsFresh) _ rfl ?_ (by simp)
  intro p hp
  simp only [List.mem_cons, List.not_mem_nil, or_false] at hp
  rcases hp with rfl | rfl
  · exact ⟨rounding_ieee32.zero, by norm_num, by norm_num⟩
  · exact ⟨rounding_ieee32.one, by norm_num, by norm_num⟩

end Adwt.Props
