import Verif.Proofs.Program
import Verif.Props.Reset
import Verif.Props.FloatExamples

/-!
# C96: legal programs run; C97: looking up a mipmap changes the wavetable
-/

set_option linter.unusedSectionVars false

namespace Adwt.Props
variable {K C : Type} [Field K] [LinearOrder K] [IsStrictOrderedRing K] [FloorRing K]
variable [Zero C] [Add C] [Sub C] [Mul C] [Div C]
open CrossFader

/-- **C96**: a program over any number of oscillators, of any filter types, and any number of variables
for wavetables, in which every call respects the documented preconditions, runs to its end without a
fault, for any float arithmetic; then the getters tell what the caller knows, and every oscillator has
delivered as many samples as it was asked for. -/
theorem C96_safe (S : ℕ → Sys K C) (hE : ∀ i, (S i).env = (S 0).env) (hf : Rounding (S 0).env.fl)
    (hl : Log2Spec (S 0).env.log2f) (hc : SrcContract (S 0).env.src) (hB : ∀ i, 0 < (S i).B)
    (cs : List (Stmt K)) (k : Known K) (h : LegalProg S Known.start cs k) :
    ∃ b, (Bank.fresh S).runS S cs = .ok b ∧ k.Holds S b ∧
      ∀ i, (b.logs i).length = (cs.map (Stmt.samples i)).sum := by
  obtain ⟨b, e, hI, hn⟩ := Program.run_ok hE hf hl hc hB Program.inv_fresh h
  refine ⟨b, e, hI.holds, fun i => ?_⟩
  rw [hn]
  exact Nat.zero_add _

/-- **C96**: moving an oscillator: the new object is the old one, down to the last bit; the old one has no
wavetable any more; nothing else has changed. -/
theorem C96_move (S : ℕ → Sys K C) (b : Bank K C) (i j : ℕ) (hij : i ≠ j) :
    ∃ b', b.execS S (.moveOsc i j) = .ok b' ∧ b'.oscs j = b.oscs i ∧ (b'.oscs i).wt = none ∧
      (∀ n, n ≠ i → n ≠ j → b'.oscs n = b.oscs n) ∧ b'.slots = b.slots ∧ b'.logs = b.logs := by
  refine ⟨_, rfl, ?_, ?_, fun n hi hj => ?_, rfl, rfl⟩
  · dsimp only
    rw [Function.update_of_ne (Ne.symm hij), Function.update_self]
  · dsimp only
    rw [Function.update_self]
  · dsimp only
    rw [Function.update_of_ne hi, Function.update_of_ne hj]

theorem init_j (S : Sys K C) (o o' : Osc K C) (wt : WavetableData K) (p d : K) :
    S.init o' (some wt) p d = (do
      let (o1, r) ← S.init o (some wt) p d
      return ({ o1 with prevJRed := o'.prevJRed }, r)) := by
  unfold Sys.init Sys.resetInternals
  dsimp only
  cases h1 : Maths.reduceF S.env p 1 with
  | error e => rfl
  | ok pr =>
    simp only [R.ok_bind]
    cases h2 : wt.findMipMapIndices S.env |d| with
    | error e => rfl
    | ok a =>
      obtain ⟨wt', t⟩ := a
      simp only [R.ok_bind]
      cases h3 : wt'.waveformLen t.idx with
      | error e => rfl
      | ok len =>
        simp only [R.ok_bind]
        cases h4 : Sys.segIndex S.env.fl (d ≥ 0) (S.env.fl (pr * S.env.fl (len : K))) with
        | error e => rfl
        | ok x => rfl

/-- **C96**: `init` makes any object as good as new: whatever two oscillators of one type were used for,
also if they were moved from, after the same `init` they return the same and every later sequence of calls
has the same outputs and faults. -/
theorem C96_reuse (S : Sys K C) (o o' : Osc K C) (wt : WavetableData K) (p d : K) (ops : List (Op K)) :
    outputs (do
      let (o1, _) ← S.init o (some wt) p d
      runOps S o1 ops) =
    outputs (do
      let (o1, _) ← S.init o' (some wt) p d
      runOps S o1 ops) := by
  rw [init_j S o o' wt p d]
  cases h : S.init o (some wt) p d with
  | error e => rfl
  | ok a =>
    obtain ⟨o1, r⟩ := a
    simp only [R.ok_bind, R.pure_eq]
    exact (Sys.runOps_j ops o1 o'.prevJRed).symm

/-- The same with `swapWavetable`: only what is handed back depends on the past. -/
theorem C96_reuse_swap (S : Sys K C) (o o' : Osc K C) (wt : WavetableData K) (p d : K)
    (ops : List (Op K)) :
    outputs (do
      let (o1, _) ← S.swapWavetable o (some wt) p d
      runOps S o1 ops) =
    outputs (do
      let (o1, _) ← S.init o' (some wt) p d
      runOps S o1 ops) := by
  rw [C96_reuse S o' o]
  unfold Sys.init Sys.swapWavetable
  dsimp only
  cases h : S.resetInternals { o with wt := some wt } p d with
  | error e => rfl
  | ok a => rfl

section example_

/-- `C96_safe` applies: IEEE floats, two oscillators, three wavetables; a lookup, `init`, samples, a swap
while the tone is running, an oscillator moved away and used again with the wavetable handed back. -/
noncomputable def legalProg (ws ws' : List ℝ) : List (Stmt ℝ) :=
  [.call (.build 0 ws 1 44100 (1 / 256)), .tableFind 0 (1 / 4), .call (.build 1 ws' 2 48000 (1 / 256)),
   .call (.init 0 0 0 (1 / 16)), .call (.process 0 .kForward [1 / 16, 1 / 8]),
   .call (.swap 0 1 2 (1 / 4) (-1 / 16)), .call (.setWaveform 0 1),
   .call (.process 0 .kBidirectionnal [1 / 8]), .moveOsc 0 3, .call (.process 3 .kBidirectionnal [1 / 16]),
   .moveTable 2 5, .call (.init 0 5 0 (1 / 8)), .call (.process 0 .kForward [1 / 2]),
   .call (.reset 3 (1 / 2) (1 / 8)), .call (.init 0 7 0 0)]


theorem legalProg_runs (t0 t1 : FilterType) (ws ws' : List ℝ) (h : ws.length = 8) (h' : ws'.length = 32) :
    let S : ℕ → Sys ℝ (CFloat) := fun i => if i = 1 then sysF t1 else sysF t0
    ∃ k b, LegalProg S Known.start (legalProg ws ws') k ∧
      (Bank.fresh S).runS S (legalProg ws ws') = .ok b ∧ k.Holds S b ∧
      (b.logs 0).length = 4 ∧ (b.logs 3).length = 1 := by
  intro S
  have hS : ∀ i, (S i).env = envI := fun i => by by_cases hi : i = 1 <;> simp [S, hi] <;> rfl
  have hf : Rounding envI.fl := envI_ok.1
  have q : ∀ (k n : ℕ) (x : ℝ), k < 2 ^ n → n ≤ 24 → x = (k : ℝ) / 2 ^ n → PhaseOk (S 0).env.fl x := by
    intro k n x h1 h2 h3
    rw [hS, h3]; exact phaseOk_dyadic hf h1 h2
  have q0 := q 0 0 0 (by norm_num) (by norm_num) (by norm_num)
  have q1 := q 1 4 (1 / 16) (by norm_num) (by norm_num) (by norm_num)
  have q2 := q 1 3 (1 / 8) (by norm_num) (by norm_num) (by norm_num)
  have q4 := q 1 2 (1 / 4) (by norm_num) (by norm_num) (by norm_num)
  have q8 := q 1 1 (1 / 2) (by norm_num) (by norm_num) (by norm_num)
  have hr : ∀ m : ℕ, 1000 ≤ m → m < 2 ^ 20 → UsableRate (S 0).env (m : ℝ) (1 / 256) := by
    intro m h0 h1
    have h0' : (1000 : ℝ) ≤ m := by exact_mod_cast h0
    have h1' : (m : ℝ) < 2 ^ 20 := by exact_mod_cast h1
    have e : (1 / 256 * m : ℝ) = (m : ℝ) / 2 ^ 8 := by norm_num; ring
    rw [hS]
    refine ⟨by linarith, hf.isRate m (by omega), ?_, ?_⟩
    · rw [e, show (m : ℝ) = ((m : ℤ) : ℝ) by norm_num, hf.dyadic m 8 (by rw [abs_of_nonneg (by omega)]; omega), Int.cast_natCast]; norm_num; linarith
    · rw [e, show (m : ℝ) = ((m : ℤ) : ℝ) by norm_num, hf.dyadic m 8 (by rw [abs_of_nonneg (by omega)]; omega), Int.cast_natCast]; norm_num; linarith
  have hr1 := hr 44100 (by norm_num) (by norm_num)
  have hr2 := hr 48000 (by norm_num) (by norm_num)
  norm_num only [Nat.cast_ofNat] at hr1 hr2
  have hl : ∃ k, LegalProg S Known.start (legalProg ws ws') k := by
    unfold legalProg
    refine ⟨_, .cons (.build (z := ⟨1, 3⟩) (by norm_num) (by norm_num) (by norm_num) (by simpa using h) hr1) <|
      .cons (.tableFind (z := ⟨1, 3⟩) rfl (by norm_num)) <|
      .cons (.build (z := ⟨2, 4⟩) (by norm_num) (by norm_num) (by norm_num) (by simpa using h') hr2) <|
      .cons (.init (z := ⟨1, 3⟩) rfl ⟨⟨q0, by norm_num⟩, by norm_num⟩) <|
      .cons (.process (z := ⟨1, 3⟩) (prev := 0) rfl ⟨q1, Or.inl (by norm_num), q2, Or.inl (by norm_num), trivial⟩) <|
      .cons (.swap (z := ⟨2, 4⟩) rfl ⟨⟨q4, by norm_num⟩, by norm_num⟩) <|
      .cons (.setWaveform (z := ⟨2, 4⟩) (prev := 1 / 4) rfl (by norm_num) (by norm_num)) <|
      .cons (.process (z := ⟨2, 4⟩) (prev := 1 / 4) rfl ⟨q2, ⟨by norm_num, by norm_num⟩, trivial⟩) <|
      .cons (.moveOsc (by norm_num) rfl) <|
      .cons (.process (z := ⟨2, 4⟩) (prev := 1 / 8) rfl ⟨q1, ⟨by norm_num, by norm_num⟩, trivial⟩) <|
      .cons .moveTable <|
      .cons (.init (z := ⟨1, 3⟩) rfl ⟨⟨q0, by norm_num⟩, by norm_num⟩) <|
      .cons (.process (z := ⟨1, 3⟩) (prev := 0) rfl ⟨q8, Or.inl (by norm_num), trivial⟩) <|
      .cons (.reset (z := ⟨2, 4⟩) (prev := 1 / 16) rfl ⟨⟨q8, by norm_num⟩, by norm_num⟩) <|
      .cons (.initNull rfl) .nil⟩
  obtain ⟨k, hk⟩ := hl
  obtain ⟨b, e, hh, hn⟩ := C96_safe S (fun i => by rw [hS, hS]) (by rw [hS]; exact hf)
    (by rw [hS]; exact envI_ok.2.1) (by rw [hS]; exact envI_ok.2.2)
    (fun i => by by_cases hi : i = 1 <;> simp only [S, hi, if_true, if_false] <;> exact (floatSys _).B) _ _ hk
  exact ⟨k, b, hk, e, hh, by rw [hn]; rfl, by rw [hn]; rfl⟩

end example_

/-! ### C97 -/

/-- **C97**: `findMipMapIndices` is not a query. On a wavetable just built, with a crossfade of at least
two samples, asking twice in a row for the same step of any octave other than the one of 0.1 gives two
different answers, without a fault, although the tables have not changed: every call counts as a sample
of the crossfade. Any float arithmetic. -/
theorem C97_not_a_query (E : Env K) (hf : Rounding E.fl) (hl : Log2Spec E.log2f) (ws : List K)
    (nw L : ℕ) (sr dur : K) (wt : WavetableData K) (hb : Built E ws nw L sr dur wt)
    (h2 : 2 ≤ E.fl (dur * sr)) (h24 : E.fl (dur * sr) ≤ 2 ^ 24) (i : ℤ)
    (hi : IsOctave L i (E.fl (1 / 10))) (d : K) (hd : 0 < d) (hid : ¬ IsOctave L i d) :
    ∃ wt1 wt2 t1 t2, wt.findMipMapIndices E d = .ok (wt1, t1) ∧
      wt1.findMipMapIndices E d = .ok (wt2, t2) ∧ t1 ≠ t2 ∧
      tablesOf wt1 = tablesOf wt ∧ tablesOf wt2 = tablesOf wt := by
  obtain ⟨hr, -, hlen, hbw⟩ := hb
  obtain ⟨L', xf, hL2, hL18, hnw, hsr, hlen', hxf, rfl⟩ := WavetableData.build_some hf hl hr hbw
  obtain rfl : L' = L := by
    have hn : 0 < nw := by omega
    rw [hlen, Int.toNat_natCast] at hlen'
    exact (Nat.pow_right_injective le_rfl (Nat.eq_of_mul_eq_mul_left hn hlen')).symm
  have hxf2 : 2 ≤ xf ∧ xf ≤ 2 ^ 24 := by
    unfold toInt at hxf
    split at hxf
    · have ht : trunc (E.fl (dur * sr)) = ⌊E.fl (dur * sr)⌋ := by
        unfold trunc; rw [if_pos (by linarith)]
      obtain rfl := (Except.ok.inj hxf).symm
      rw [ht]
      constructor
      · rw [Int.le_floor]; exact_mod_cast h2
      · have := Int.floor_le (E.fl (dur * sr))
        have : ((⌊E.fl (dur * sr)⌋ : ℤ) : K) ≤ ((2 ^ 24 : ℤ) : K) := by push_cast; linarith
        exact_mod_cast this
    · cases hxf
  generalize hcf : (WavetableData.wtOf E ws (nw : ℤ).toNat L' xf).cf = c
  have hc0 : make E xf ((2 : ℤ) ^ L') sr = .ok c := by
    rw [make_eq hf hl (by omega) (by omega) hsr hr, ← hcf]; rfl
  have hreach : Reachable E L' xf c :=
    ⟨hL2, by omega, sr, c, [], [], hsr, hr, hc0, by simp, rfl⟩
  obtain ⟨hinv, hs, hnum⟩ := hreach.inv hf hl (by omega)
  have hidle : c.samplesLeft = 0 := by rw [← hcf]; rfl
  have hnext : c.nextIdx = i := by
    refine IsOctave.unique (d := E.fl (1 / 10)) ?_ hi
    rw [← hcf]; exact findLoop_octave hL2 _
  obtain ⟨c', t0, ts, hrun, hlts, hboth, -, -⟩ := C16_fade_on_time E hf hl L' xf (by omega) hxf2.2 c hreach hidle
    d hd (by rw [hnext]; exact hid) (List.replicate xf.toNat d)
    (fun x hx => by rw [List.eq_of_mem_replicate hx]; exact hd) (by rw [List.length_replicate]; omega)
  obtain ⟨c1, t0', ts', e1, e2, hts⟩ := run_cons_ok hrun
  obtain ⟨rfl, rfl⟩ := List.cons.inj hts
  have hrep : List.replicate xf.toNat d = d :: List.replicate (xf.toNat - 1) d := by
    rw [← List.replicate_succ]; congr 1; omega
  rw [hrep] at e2
  obtain ⟨c2, t1, ts1, e3, -, rfl⟩ := run_cons_ok e2
  have hb := hboth 0 (by simp) (by omega)
  refine ⟨{ WavetableData.wtOf E ws (nw : ℤ).toNat L' xf with cf := c1 },
    { WavetableData.wtOf E ws (nw : ℤ).toNat L' xf with cf := c2 }, t0, t1, ?_, ?_, ?_, rfl, rfl⟩
  · unfold WavetableData.findMipMapIndices
    rw [hcf, e1]; rfl
  · unfold WavetableData.findMipMapIndices
    dsimp only
    rw [e3]; rfl
  · rintro rfl
    obtain ⟨t', e', ht⟩ := newIndices_eq hf hinv hd
    obtain ⟨-, rfl⟩ := Prod.mk.inj (Except.ok.inj (e1.symm.trans e'))
    have hinv' := stepD_inv hinv d
    rcases ht with ⟨-, -, rfl⟩ | ⟨hne, f, ef, ht⟩
    · exact hb.2 rfl
    · obtain ⟨f', ef', -, -, -, -, hf1, -⟩ := computeFading_eq hf hinv'
      obtain rfl := Except.ok.inj (ef.symm.trans ef')
      have : f = 1 := hf1 (by
        have h3 : (findLoop d c.scale : ℤ) ≠ c.nextIdx := fun h => hne ⟨hidle, h⟩
        unfold stepD nextState updateIndices
        rw [if_neg (by simpa using hidle), if_neg h3]
        dsimp only; split_ifs <;> rfl)
      rw [this, sub_self, hf.zero] at ht
      split at ht
      · rw [ht] at hb; exact hb.2 rfl
      · rw [ht] at hb; exact hb.1 rfl

/-- it applies: IEEE floats, eight samples, the default fade of 172 samples, step 3/8 -/
example (ws : List ℝ) (h : ws.length = 8) : ∃ wt, Built envI ws 1 3 44100 (1 / 256) wt ∧
    ∃ wt1 wt2 t1 t2, wt.findMipMapIndices envI (3 / 8) = .ok (wt1, t1) ∧
      wt1.findMipMapIndices envI (3 / 8) = .ok (wt2, t2) ∧ t1 ≠ t2 := by
  obtain ⟨wt, hw⟩ := exampleWt envI envI_ok ws h
  have hf := envI_ok.1
  have e : envI.fl (1 / 256 * 44100) = 44100 / 2 ^ 8 := by
    have := hf.dyadic 44100 8 (by norm_num)
    norm_num at this ⊢; exact this
  obtain ⟨wt1, wt2, t1, t2, h1, h2, h3, -⟩ := C97_not_a_query envI hf envI_ok.2.1 ws 1 3 44100 (1 / 256) wt hw
    (by rw [e]; norm_num) (by rw [e]; norm_num) 0
    (by
      have : envI.fl (1 / 10) ≤ 1 / 8 := by
        have h := hf.dyadic 1 3 (by norm_num)
        norm_num at h
        exact hf.le_of_le (by norm_num; exact h) (by norm_num)
      exact ⟨by norm_num, by norm_num, Or.inl rfl, Or.inr (by norm_num; linarith)⟩)
    (3 / 8) (by norm_num)
    (by
      rintro ⟨-, -, -, h | h⟩
      · norm_num at h
      · norm_num at h)
  exact ⟨wt, hw, wt1, wt2, t1, t2, h1, h2, h3⟩

/-- `resetInternals` with waveform 0 selected is `init` with the wavetable that is loaded -/
theorem init_reset {S : Sys K C} {o : Osc K C} {wt : WavetableData K} (hw : o.wt = some wt)
    (hc : o.crt = 0) {p d : K} {ops : List (Op K)} :
    outputs (runOps S o (.reset p d :: ops)) = outputs (do
      let (o1, _) ← S.init o (some wt) p d
      runOps S o1 ops) := by
  have e : ({ o with wt := some wt } : Osc K C) = o := by rw [← hw]
  rw [show runOps S o (.reset p d :: ops) = (do
    let (o1, y1) ← runOp S o (.reset p d)
    let (o2, y2) ← runOps S o1 ops
    return (o2, y1 ++ y2)) from rfl]
  unfold Sys.init runOp
  dsimp only
  rw [e]
  cases h : S.resetInternals o p d with
  | error e => rfl
  | ok o2 =>
    have hc2 : o2.crt = 0 := by
      unfold Sys.resetInternals at h
      rw [hw] at h
      dsimp only at h
      obtain ⟨_, _, h⟩ := bind_ok h
      obtain ⟨_, _, h⟩ := bind_ok h
      obtain ⟨_, _, h⟩ := bind_ok h
      obtain ⟨_, _, h⟩ := bind_ok h
      rw [← Except.ok.inj h]; exact hc
    have e2 : ({ o2 with crt := 0 } : Osc K C) = o2 := by rw [← hc2]
    simp only [R.ok_bind, R.pure_eq]
    rw [e2]
    cases runOps S o2 ops <;> rfl

/-- The samples that an oscillator plays after `findMipMapIndices` was called with `d` on the wavetable it
is then initialised with. -/
noncomputable def playedAfterQuery (S : Sys K C) (wt : WavetableData K) (d p dp : K) (ops : List (Op K)) :
    R (List K) := outputs (do
  let (wt', _) ← wt.findMipMapIndices S.env d
  let (o, _) ← S.init S.fresh (some wt') p dp
  runOps S o ops)

/-- **C97**: and the difference is audible: one wavetable, one `init`, one sample; the outputs differ,
both without a fault, according to what `findMipMapIndices` was asked before. -/
theorem C97_heard : ∃ (wt : WavetableData ℝ) (dA dB yA yB : ℝ),
    Built envX comb 1 3 44100 (3 / 44100) wt ∧
    playedAfterQuery (sysOf envX .kType1) wt dA (1 / 16) (1 / 16) [.process .kBidirectionnal [1 / 8]] =
      .ok [yA] ∧
    playedAfterQuery (sysOf envX .kType1) wt dB (1 / 16) (1 / 16) [.process .kBidirectionnal [1 / 8]] =
      .ok [yB] ∧ yA ≠ yB := by
  obtain ⟨wt, oA, oB, dA, dB, yA, yB, hb, iA, iB, -, rA, rB, hne⟩ := C22_false
  have key : ∀ (o : Osc ℝ ℂ) (d y : ℝ),
      (sysOf envX .kType1).init (sysOf envX .kType1).fresh (some wt) (1 / 16) d = .ok (o, 0) →
      outputs (runOps (sysOf envX .kType1) o
        [.reset (1 / 16) (1 / 16), .process .kBidirectionnal [1 / 8]]) = .ok [y] →
      playedAfterQuery (sysOf envX .kType1) wt |d| (1 / 16) (1 / 16)
        [.process .kBidirectionnal [1 / 8]] = .ok [y] := by
    intro o d y hi hr
    obtain ⟨o1, e1, h⟩ := bind_ok hi
    obtain ⟨rfl, -⟩ := Prod.mk.inj (Except.ok.inj h)
    unfold Sys.resetInternals at e1
    dsimp only at e1
    obtain ⟨pr, h1, e1⟩ := bind_ok e1
    obtain ⟨⟨wt', t⟩, h2, e1⟩ := bind_ok e1
    obtain ⟨len, h3, e1⟩ := bind_ok e1
    obtain ⟨j, h4, e1⟩ := bind_ok e1
    have hw : o1.wt = some wt' := by rw [← Except.ok.inj e1]
    unfold playedAfterQuery
    rw [h2, R.ok_bind]
    dsimp only
    rw [← hr]
    exact ((init_reset (o := { o1 with crt := 0 }) (wt := wt') hw rfl).trans
      (C96_reuse _ _ _ wt' _ _ _)).symm
  exact ⟨wt, |dA|, |dB|, yA, yB, hb, key oA dA yA iA rA, key oB dB yB iB rB, hne⟩

end Adwt.Props
