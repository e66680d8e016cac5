import Verif.Props.Examples
import Verif.Proofs.Sim

/-!
# C20, C21, C23, C24, C25, C42: the calls of an oscillator

States of the oscillator: `o.prevPhase`, `o.prevPhaseDiff`, `o.crt` are what the getters
`prevPhase()`, `prevPhaseDiff()`, `crtWaveform()` return. `Reached S nw L o` (see
`Verif/Spec/Reached.lean`) says that `o` is the state after some legal sequence of calls on a
wavetable with `nw` waveforms of length `2^L`.
-/

set_option linter.unusedSectionVars false

namespace Adwt.Props
open WavetableData
variable {K C : Type} [Field K] [LinearOrder K] [IsStrictOrderedRing K] [FloorRing K]

section
variable [Zero C] [Add C] [Sub C] [Mul C] [Div C]

/-! ### C20 -/

/-- C20: `init(nullptr)` returns nonzero and changes nothing. -/
theorem C20_null (S : Sys K C) (o : Osc K C) (p d : K) :
    ∃ r, S.init o none p d = .ok (o, r) ∧ r ≠ 0 := ⟨1, rfl, by norm_num⟩

/-- C20: on any oscillator, whatever happened to it before, `init` with a built wavetable, a phase
in `[0,1)` and a nonzero step succeeds: it returns 0, loads exactly that wavetable, selects
waveform 0, clears the filter memory, and the getters report the initial state. -/
theorem C20_init (S : Sys K C) (hf : Rounding S.env.fl) (hl : Log2Spec S.env.log2f) (o : Osc K C)
    (ws : List K) (nw L : ℕ) (sr dur : K) (wt : WavetableData K)
    (hb : Built S.env ws nw L sr dur wt) (p d : K) (hp : PhaseOk S.env.fl p) (hd : d ≠ 0) :
    ∃ o' wt', S.init o (some wt) p d = .ok (o', 0) ∧ o'.wt = some wt' ∧
      tablesOf wt' = tablesOf wt ∧ S.numWaveforms o' = .ok nw ∧ o'.crt = 0 ∧ o'.prevPhase = p ∧
      o'.prevPhaseDiff = d ∧ o'.prevY = List.replicate S.n 0 := by
  have hw := hb.ok hf hl
  obtain ⟨c, t, hn, -⟩ := Sys.find_spec hf hw (abs_pos.2 hd)
  have e := Sys.reset_ok (S := S) (o := { o with wt := some wt }) hf rfl hw hp hd hn
  unfold Sys.init
  dsimp only
  rw [e, R.ok_bind]
  refine ⟨_, _, rfl, rfl, rfl, ?_, rfl, rfl, rfl, rfl⟩
  unfold Sys.numWaveforms
  dsimp only
  rw [← hw.rows]; rfl

/-- The hypotheses of C20 are met. -/
example : ∃ wt, Built envI [0, 1, 0, -1, 0, 3, 0, -1] 1 3 44100 (1 / 256) wt ∧
    PhaseOk envI.fl (3 / 8) ∧ (-1 / 4 : ℝ) ≠ 0 := by
  obtain ⟨wt, h⟩ := exampleWt envI envI_ok [0, 1, 0, -1, 0, 3, 0, -1] rfl
  refine ⟨wt, h, ?_, by norm_num⟩
  have := phaseOk_dyadic envI_ok.1 (k := 3) (n := 3) (by norm_num) (by norm_num)
  norm_num at this ⊢
  exact this

/-! ### C21 -/

/-- C21: `swapWavetable(nullptr)` returns null and changes nothing. -/
theorem C21_null (S : Sys K C) (o : Osc K C) (p d : K) :
    S.swapWavetable o none p d = .ok (o, none) := rfl

/-- C21: on any oscillator, `swapWavetable` with a built wavetable hands back exactly the pointer
held before (null if none), loads the new wavetable, selects waveform 0, clears the filter
memory, and the getters report the initial state. -/
theorem C21_swap (S : Sys K C) (hf : Rounding S.env.fl) (hl : Log2Spec S.env.log2f) (o : Osc K C)
    (ws : List K) (nw L : ℕ) (sr dur : K) (wt : WavetableData K)
    (hb : Built S.env ws nw L sr dur wt) (p d : K) (hp : PhaseOk S.env.fl p) (hd : d ≠ 0) :
    ∃ o' wt', S.swapWavetable o (some wt) p d = .ok (o', o.wt) ∧ o'.wt = some wt' ∧
      tablesOf wt' = tablesOf wt ∧ o'.crt = 0 ∧ o'.prevPhase = p ∧
      o'.prevPhaseDiff = d ∧ o'.prevY = List.replicate S.n 0 := by
  have hw := hb.ok hf hl
  obtain ⟨c, t, hn, -⟩ := Sys.find_spec hf hw (abs_pos.2 hd)
  have e := Sys.reset_ok (S := S) (o := { o with wt := some wt }) hf rfl hw hp hd hn
  unfold Sys.swapWavetable
  dsimp only
  rw [e, R.ok_bind]
  exact ⟨_, _, rfl, rfl, rfl, rfl, rfl, rfl, rfl⟩

/-- C21: over any sequence of `swapWavetable` calls, with built wavetables or null pointers, no
wavetable is lost or duplicated: what was loaded at first followed by what was given is, in the
same order, what was handed back followed by what is loaded at the end. -/
theorem C21_conserved (S : Sys K C) (hf : Rounding S.env.fl) (hl : Log2Spec S.env.log2f)
    (o : Osc K C) (swaps : List (Option (WavetableData K) × K × K))
    (hs : ∀ w p d, (some w, p, d) ∈ swaps →
      (∃ ws nw L sr dur, Built S.env ws nw L sr dur w) ∧ PhaseOk S.env.fl p ∧ d ≠ 0) :
    ∃ o' backs, runSwaps S o swaps = .ok (o', backs) ∧
      (backs.filterMap id ++ o'.wt.toList).map tablesOf =
        (o.wt.toList ++ (swaps.map (·.1)).filterMap id).map tablesOf := by
  induction swaps generalizing o with
  | nil => exact ⟨o, [], rfl, by simp⟩
  | cons s rest ih =>
    obtain ⟨w, p, d⟩ := s
    have ih' := fun o => ih o fun w p d h => hs w p d (by simp [h])
    cases w with
    | none =>
      obtain ⟨o', backs, h1, h2⟩ := ih' o
      refine ⟨o', none :: backs, ?_, by simpa using h2⟩
      unfold runSwaps
      rw [C21_null, R.ok_bind]
      dsimp only
      rw [h1]; rfl
    | some w =>
      obtain ⟨⟨ws, nw, L, sr, dur, hb⟩, hp, hd⟩ := hs w p d (by simp)
      obtain ⟨o1, wt', e, hw', ht, -⟩ := C21_swap S hf hl o ws nw L sr dur w hb p d hp hd
      obtain ⟨o', backs, h1, h2⟩ := ih' o1
      refine ⟨o', o.wt :: backs, ?_, ?_⟩
      · unfold runSwaps
        rw [e, R.ok_bind]
        dsimp only
        rw [h1]; rfl
      · rw [hw'] at h2
        simp only [Option.toList_some, List.map_cons, List.map_append, List.singleton_append] at h2 ⊢
        cases ho : o.wt with
        | none => simpa [ht] using h2
        | some x => simpa [ht] using h2

/-- The hypotheses of C21 are met by a sequence of two swaps and a null swap. -/
example : ∃ w1 w2 : WavetableData ℝ, ∀ w p d,
    (some w, p, d) ∈ [(some w1, (0 : ℝ), (1 / 8 : ℝ)), (none, 0, 0), (some w2, 3 / 8, -1 / 8)] →
      (∃ ws nw L sr dur, Built envI ws nw L sr dur w) ∧ PhaseOk envI.fl p ∧ d ≠ 0 := by
  obtain ⟨w1, h1⟩ := exampleWt envI envI_ok [0, 1, 0, -1, 0, 3, 0, -1] rfl
  obtain ⟨w2, h2⟩ := exampleWt envI envI_ok [0, 2, 0, -1, 0, 3, 0, -1] rfl
  have p0 := phaseOk_dyadic envI_ok.1 (k := 0) (n := 3) (by norm_num) (by norm_num)
  have p3 := phaseOk_dyadic envI_ok.1 (k := 3) (n := 3) (by norm_num) (by norm_num)
  norm_num at p0 p3
  refine ⟨w1, w2, fun w p d h => ?_⟩
  simp only [List.mem_cons, Prod.mk.injEq, Option.some.injEq, reduceCtorEq, false_and, false_or,
    List.not_mem_nil, or_false] at h
  rcases h with ⟨rfl, rfl, rfl⟩ | ⟨rfl, rfl, rfl⟩
  · exact ⟨⟨_, _, _, _, _, h1⟩, p0, by norm_num⟩
  · exact ⟨⟨_, _, _, _, _, h2⟩, p3, by norm_num⟩

/-! ### C23 -/

/-- a block whose last phase is split off -/
theorem block_snoc {fl : K → K} {dir : Sys.Direction} {prev p : K} {ps : List K}
    (h : BlockOk fl dir prev (ps ++ [p])) :
    BlockOk fl dir prev ps ∧ PhaseOk fl p ∧ StepOk dir (ps.getLastD prev) p := by
  induction ps generalizing prev with
  | nil => exact ⟨trivial, h.1, h.2.1⟩
  | cons q ps ih =>
    obtain ⟨h1, h2, h3⟩ := h
    obtain ⟨i1, i2, i3⟩ := ih h3
    refine ⟨⟨h1, h2, i1⟩, i2, ?_⟩
    rw [List.getLastD_cons]; exact i3

theorem runDir_snoc (S : Sys K C) (dir : Sys.Direction) (o : Osc K C) (ps : List K) (p : K) :
    S.runDir dir o (ps ++ [p]) = (do
      let (o1, ys) ← S.runDir dir o ps
      let (o2, y) ← S.stepDir dir o1 p
      return (o2, ys ++ [y])) := by
  induction ps generalizing o with
  | nil =>
    simp only [List.nil_append, Sys.runDir, R.ok_bind]
  | cons q ps ih =>
    simp only [List.cons_append, Sys.runDir]
    simp only [ih, bind_assoc]
    congr 1

/-- C23: after `process` on a block that ends with the phase `p`, `prevPhase()` is `p` and
`prevPhaseDiff()` is the step that led to `p`: it lies in `(0,1/2]` (forward mode) or `[-1/2,1/2]`
(bidirectional mode), in exact arithmetic it equals the difference of the last two phases plus an
integer, and in any case it is the rounded difference or obtained from it by one addition of `±1`.
The selected waveform and the number of waveforms do not change. -/
theorem C23_getters (S : Sys K C) (hf : Rounding S.env.fl) (hl : Log2Spec S.env.log2f)
    (hB : 0 < S.B) (nw L : ℕ) (o : Osc K C) (ho : Reached S nw L o) (dir : Sys.Direction)
    (ps : List K) (p : K) (hp : BlockOk S.env.fl dir o.prevPhase (ps ++ [p])) (out : List K)
    (hlen : (ps ++ [p]).length = out.length) (o' : Osc K C) (ys : List K)
    (h : S.process dir o (ps ++ [p]) out = .ok (o', ys)) :
    o'.prevPhase = p ∧ o'.crt = o.crt ∧ S.numWaveforms o' = S.numWaveforms o ∧
    (∃ k : ℤ, (k = -1 ∨ k = 0 ∨ k = 1) ∧
      (o'.prevPhaseDiff = S.env.fl (S.env.fl (p - ps.getLastD o.prevPhase) + k) ∨
        (k = 0 ∧ o'.prevPhaseDiff = S.env.fl (p - ps.getLastD o.prevPhase))) ∧
      (S.env.fl = id → o'.prevPhaseDiff = p - ps.getLastD o.prevPhase + k)) ∧
    o'.prevPhaseDiff ≤ 1 / 2 ∧
    (dir = .kForward → 0 < o'.prevPhaseDiff) ∧
    (dir = .kBidirectionnal → -(1 / 2) ≤ o'.prevPhaseDiff) := by
  have hs := Sys.reached_play hf hl hB ho
  obtain ⟨wt, hwt, hw⟩ := hs.wt
  obtain ⟨b1, b2, b3⟩ := block_snoc hp
  have h' := h
  rw [Sys.process_runDir S dir (by rw [hwt]; rfl) hlen, runDir_snoc] at h'
  rcases Sys.run_cases hf hB hs b1 with ⟨⟨o1, y1⟩, e1, s1, p1, c1, l1⟩ | e1
  swap
  · rw [e1] at h'; cases h'
  dsimp only at s1 p1 c1
  rw [← p1] at b3
  rw [e1, R.ok_bind] at h'
  dsimp only at h'
  rcases Sys.step_cases hf hB s1 b2 b3 with ⟨⟨⟨o2, y2⟩, e2, s2⟩, -⟩ | ⟨e2, -⟩
  swap
  · rw [e2] at h'; cases h'
  have e : S.runDir dir o (ps ++ [p]) = .ok (o2, y1 ++ [y2]) := by
    rw [runDir_snoc, e1, R.ok_bind]
    dsimp only
    rw [e2]; rfl
  have := Sys.process_eq hwt out hlen e (Sys.runDir_length e)
  rw [h] at this
  obtain ⟨rfl, rfl⟩ : o' = o2 ∧ ys = y1 ++ [y2] := by simpa using this
  dsimp only at s2
  have hnum : S.numWaveforms o' = S.numWaveforms o := by
    obtain ⟨wt', hwt', hw'⟩ := s2.ok.wt
    unfold Sys.numWaveforms
    rw [hwt, hwt']
    dsimp only
    unfold WavetableData.numWaveforms
    rw [hw.rows, hw'.rows]
  refine ⟨s2.phase, by rw [s2.crt, c1], hnum, ?_⟩
  rw [s2.diff]
  rw [← p1]
  cases dir with
  | kForward =>
    obtain ⟨r0, r1⟩ := Sys.fwdDiff_range hf s1.phase b2 b3
    refine ⟨?_, r1, fun _ => r0, fun h => by cases h⟩
    simp only [Sys.dirDiff, Sys.fwdDiff]
    split
    · exact ⟨1, by simp, Or.inl (by simp), fun h => by rw [h]; simp⟩
    · exact ⟨0, by simp, Or.inr ⟨rfl, rfl⟩, fun h => by rw [h]; simp⟩
  | kBidirectionnal =>
    obtain ⟨r0, r1, -⟩ := Sys.biDiff_range hf s1.phase b2
    refine ⟨?_, r1, fun h => by (cases h), fun _ => r0⟩
    simp only [Sys.dirDiff, Sys.biDiff]
    split
    · exact ⟨1, by simp, Or.inl (by simp), fun h => by rw [h]; simp⟩
    · split
      · exact ⟨-1, by simp, Or.inl (by rw [sub_eq_add_neg]; simp), fun h => by
          rw [h]; simp only [id]; push_cast; ring⟩
      · exact ⟨0, by simp, Or.inr ⟨rfl, rfl⟩, fun h => by rw [h]; simp⟩

/-- The hypotheses of C23 are met, forward and bidirectional, under IEEE rounding. -/
example (t : FilterType) (dir : Sys.Direction) :
    ∃ o, Reached (sysOf envI t) 1 3 o ∧ BlockOk envI.fl dir o.prevPhase ([3 / 8] ++ [1 / 2]) := by
  obtain ⟨o, ho, h0, -⟩ := exampleReached envI envI_ok t [0, 1, 0, -1, 0, 3, 0, -1] rfl
  refine ⟨o, ho, ?_⟩
  have p3 := phaseOk_dyadic envI_ok.1 (k := 3) (n := 3) (by norm_num) (by norm_num)
  have p4 := phaseOk_dyadic envI_ok.1 (k := 1) (n := 1) (by norm_num) (by norm_num)
  norm_num at p3 p4
  rw [h0]
  refine ⟨p3, ?_, by norm_num; exact p4, ?_, trivial⟩
  · cases dir
    · left; norm_num
    · show (_ : ℝ) ≠ _; norm_num
  · cases dir
    · left; norm_num
    · show (_ : ℝ) ≠ _; norm_num

/-! ### C24 -/

theorem runDir_append (S : Sys K C) (dir : Sys.Direction) (o : Osc K C) (a b : List K) :
    S.runDir dir o (a ++ b) = (do
      let (o1, y1) ← S.runDir dir o a
      let (o2, y2) ← S.runDir dir o1 b
      return (o2, y1 ++ y2)) := by
  induction a generalizing o with
  | nil =>
    simp only [List.nil_append, Sys.runDir, R.ok_bind]
    cases S.runDir dir o b <;> rfl
  | cons q a ih =>
    simp only [List.cons_append, Sys.runDir]
    simp only [ih, bind_assoc]
    congr 1

theorem sample_isSome {S : Sys K C} {dir : Sys.Direction} {o o' : Osc K C} {p y : K}
    (h : S.stepDir dir o p = .ok (o', y)) : o'.wt.isSome = true := by
  have hF : ∀ d, S.processSampleFwd o p d = .ok (o', y) → o'.wt.isSome = true := by
    intro d h
    unfold Sys.processSampleFwd at h
    dsimp only at h
    obtain ⟨_, _, h⟩ := bind_ok h
    cases hw : o.wt with
    | none => rw [hw] at h; cases h
    | some wt =>
      rw [hw] at h
      dsimp only at h
      iterate 11 obtain ⟨_, _, h⟩ := bind_ok h
      cases h; rfl
  have hB : ∀ d, S.processSampleBwd o p d = .ok (o', y) → o'.wt.isSome = true := by
    intro d h
    unfold Sys.processSampleBwd at h
    dsimp only at h
    obtain ⟨_, _, h⟩ := bind_ok h
    cases hw : o.wt with
    | none => rw [hw] at h; cases h
    | some wt =>
      rw [hw] at h
      dsimp only at h
      iterate 11 obtain ⟨_, _, h⟩ := bind_ok h
      cases h; rfl
  cases dir with
  | kForward =>
    obtain ⟨_, _, h⟩ := bind_ok (show (_ >>= _ : R _) = _ from h)
    exact hF _ h
  | kBidirectionnal =>
    change S.stepBi o p = _ at h
    unfold Sys.stepBi at h
    dsimp only at h
    split at h
    · exact hF _ h
    · exact hB _ h

theorem runDir_isSome {S : Sys K C} {dir : Sys.Direction} {o o' : Osc K C} {ps ys : List K}
    (hw : o.wt.isSome = true) (h : S.runDir dir o ps = .ok (o', ys)) : o'.wt.isSome = true := by
  induction ps generalizing o o' ys with
  | nil => cases h; exact hw
  | cons p ps ih =>
    unfold Sys.runDir at h
    obtain ⟨⟨o1, y⟩, h1, h⟩ := bind_ok h
    obtain ⟨⟨o2, ys'⟩, h2, h⟩ := bind_ok h
    cases h
    exact ih (sample_isSome h1) h2

/-- C24: on an oscillator that holds a wavetable, processing the phases of any list of blocks, one
call of `process` per block, is the same as one call for all phases: same outputs, same final
state, and if something goes wrong, the same error. In particular nothing depends on the previous
content of the output buffers. No assumption is made on arithmetic, filter, phases or state. -/
theorem C24_blocks (S : Sys K C) (dir : Sys.Direction) (o : Osc K C) (hw : o.wt.isSome = true)
    (blocks : List (List K)) (out : List K) (hl : blocks.flatten.length = out.length) :
    runOps S o (blocks.map (Op.process dir)) = S.process dir o blocks.flatten out := by
  rw [Sys.process_runDir S dir hw hl]
  clear hl
  induction blocks generalizing o with
  | nil => rfl
  | cons b bs ih =>
    rw [List.map_cons, List.flatten_cons, runDir_append]
    unfold runOps runOp
    dsimp only
    rw [Sys.process_runDir S dir hw (by simp)]
    cases h : S.runDir dir o b with
    | error e => rfl
    | ok r =>
      obtain ⟨o1, y1⟩ := r
      rw [R.ok_bind, R.ok_bind]
      dsimp only
      rw [ih o1 (runDir_isSome hw h)]

/-- Three blocks, one of them empty, of a playing oscillator. -/
example (t : FilterType) : ∃ o, Reached (sysOf envI t) 1 3 o ∧ o.wt.isSome = true ∧
    ([[1 / 8, 3 / 8], [], [1 / 2]] : List (List ℝ)).flatten.length = [0, 0, (0 : ℝ)].length := by
  obtain ⟨o, ho, -⟩ := exampleReached envI envI_ok t [0, 1, 0, -1, 0, 3, 0, -1] rfl
  obtain ⟨wt, hwt, -⟩ := (Sys.reached_play envI_ok.1 envI_ok.2.1 (by norm_num [sysOf]) ho).wt
  exact ⟨o, ho, by rw [hwt]; rfl, rfl⟩

end

/-! ### C25, C42 -/

section
variable [Field C]

theorem rd_map_congr {α β : Type} {n : ℕ} {f g : ℕ → List α} {i : ℤ} {k : ℕ} (hi : i = k)
    (h : f k = g k) (j : ℤ) (F : List α → List β) :
    rd2 ((List.range n).map fun w => F (f w)) i j = rd2 ((List.range n).map fun w => F (g w)) i j := by
  subst hi
  unfold rd2
  congr 1
  unfold rd
  simp only [Int.natCast_nonneg, if_true, Int.toNat_natCast, List.getElem?_map]
  by_cases hk : k < n
  · rw [List.getElem?_range hk]; simp [h]
  · rw [List.getElem?_eq_none (by simpa using hk)]; rfl

/-- two wavetables built from spans that agree on some waveforms -/
theorem wtSim_of_build {E : Env K} (hf : Rounding E.fl) (hl : Log2Spec E.log2f) {ws ws' : List K}
    {nw L : ℕ} {sr dur : K} {wt wt' : WavetableData K} (h : Built E ws nw L sr dur wt)
    (h' : Built E ws' nw L sr dur wt') (W : ℤ → Prop)
    (hW1 : ¬ W (-1)) (hW : ∀ w, W w → ∃ k : ℕ, w = k ∧ waveformOf ws (2 ^ L) k = waveformOf ws' (2 ^ L) k) :
    WtSim W wt wt' := by
  obtain ⟨hs, hx, hlen, hb⟩ := h
  obtain ⟨hs', hx', hlen', hb'⟩ := h'
  obtain ⟨L1, xf, h2, h18, hn, hs0, hl1, hxf, rfl⟩ := build_some hf hl hs hb
  obtain ⟨L2, xf', h2', h18', hn', hs0', hl2, hxf', rfl⟩ := build_some hf hl hs' hb'
  have e : ((nw : ℤ)).toNat = nw := by simp
  rw [e] at hl1 hl2 ⊢
  have e1 : L1 = L := pow_inj_of_mul (by omega) (hl1.symm.trans hlen)
  have e2 : L2 = L := pow_inj_of_mul (by omega) (hl2.symm.trans hlen')
  subst e1; subst e2
  rw [hxf] at hxf'
  obtain rfl : xf = xf' := by simpa using hxf'
  refine ⟨rfl, fun i => rfl, fun i => ?_, ?_, ?_, ?_, ?_, fun h => absurd h hW1⟩
  · by_cases hi : 0 ≤ i
    · obtain ⟨i, rfl⟩ := Int.eq_ofNat_of_zero_le hi
      by_cases hi' : i < L2 - 1
      · have a := wtOf_waveformLen (E := E) (ws := ws) (L := L2) (xf := xf) (i := i) (nw := nw) (by omega) hi'
        have b := wtOf_waveformLen (E := E) (ws := ws') (L := L2) (xf := xf) (i := i) (nw := nw) (by omega) hi'
        exact a.trans b.symm
      · have : ∀ ws, (wtOf E ws nw L2 xf).waveformLen (i : ℤ) = .error .outOfBounds := by
          intro ws
          unfold waveformLen rd2 wtOf
          simp only [List.map_map]
          have := rd_map_range (fun w => (List.map MQ.m ((List.range (L2 - 1)).map
            (tabOf E L2 (waveformOf ws (2 ^ L2) w))))) (n := nw) (k := 0) (by omega)
          rw [show ((0 : ℕ) : ℤ) = 0 from rfl] at this
          erw [this]
          rw [R.ok_bind, rd_big (by simp; omega)]; rfl
        rw [this, this]
    · have : ∀ ws, (wtOf E ws nw L2 xf).waveformLen i = .error .outOfBounds := by
        intro ws
        unfold waveformLen rd2 wtOf
        simp only [List.map_map]
        have := rd_map_range (fun w => (List.map MQ.m ((List.range (L2 - 1)).map
          (tabOf E L2 (waveformOf ws (2 ^ L2) w))))) (n := nw) (k := 0) (by omega)
        rw [show ((0 : ℕ) : ℤ) = 0 from rfl] at this
        erw [this]
        rw [R.ok_bind, rd_neg (by omega)]; rfl
      rw [this, this]
  · intro w hw i
    obtain ⟨k, hk, hww⟩ := hW w hw
    unfold mSpan wtOf
    simp only [List.map_map]
    exact rd_map_congr (F := fun y => (((List.range (L2 - 1)).map (tabOf E L2 y)).map MQ.m))
      (f := fun w => (waveformOf ws (2 ^ L2) w))
      (g := fun w => (waveformOf ws' (2 ^ L2) w)) hk hww i
  · intro w hw i
    obtain ⟨k, hk, hww⟩ := hW w hw
    unfold qSpan wtOf
    simp only [List.map_map]
    exact rd_map_congr (F := fun y => (((List.range (L2 - 1)).map (tabOf E L2 y)).map MQ.q))
      (f := fun w => (waveformOf ws (2 ^ L2) w))
      (g := fun w => (waveformOf ws' (2 ^ L2) w)) hk hww i
  · intro w hw i
    obtain ⟨k, hk, hww⟩ := hW w hw
    unfold mDiffSpan wtOf
    simp only [List.map_map]
    exact rd_map_congr (F := fun y => (((List.range (L2 - 1)).map (tabOf E L2 y)).map MQ.mDiff))
      (f := fun w => (waveformOf ws (2 ^ L2) w))
      (g := fun w => (waveformOf ws' (2 ^ L2) w)) hk hww i
  · intro w hw i
    obtain ⟨k, hk, hww⟩ := hW w hw
    unfold qDiffSpan wtOf
    simp only [List.map_map]
    exact rd_map_congr (F := fun y => (((List.range (L2 - 1)).map (tabOf E L2 y)).map MQ.qDiff))
      (f := fun w => (waveformOf ws (2 ^ L2) w))
      (g := fun w => (waveformOf ws' (2 ^ L2) w)) hk hww i

/-- C25: two oscillators are initialised alike with wavetables built from `ws` and `ws'`, which
agree on the waveforms of a set `W` containing waveform 0. Then for every history of calls (legal
or not) that selects waveforms of `W` only, both produce the same outputs, or both fail in the same
way: the samples of the other waveforms have no influence. -/
theorem C25_isolation (S : Sys K C) (hf : Rounding S.env.fl) (hl : Log2Spec S.env.log2f)
    (hB : 0 < S.B) (ws ws' : List K) (nw L : ℕ) (sr dur : K) (wt wt' : WavetableData K)
    (h : Built S.env ws nw L sr dur wt) (h' : Built S.env ws' nw L sr dur wt')
    (W : ℕ → Prop) (h0 : W 0)
    (hW : ∀ w, W w → waveformOf ws (2 ^ L) w = waveformOf ws' (2 ^ L) w)
    (p d : K) (ops : List (Op K)) (hops : ∀ i, Op.setWaveform i ∈ ops → ∃ w, i = (w : ℕ) ∧ W w) :
    (do let (o, _) ← S.init S.fresh (some wt) p d
        let (_, ys) ← runOps S o ops
        return ys : R (List K)) =
    (do let (o, _) ← S.init S.fresh (some wt') p d
        let (_, ys) ← runOps S o ops
        return ys : R (List K)) := by
  have hS : SysSim S S := ⟨rfl, rfl, rfl, hB, hB, Or.inl rfl⟩
  have hw := wtSim_of_build hf hl h h' (fun i => ∃ w, i = (w : ℕ) ∧ W w)
    (fun ⟨w, h, _⟩ => by omega) (fun w ⟨k, e, hk⟩ => ⟨k, e, hW k hk⟩)
  apply Sim.eq_of
  refine Sim.bind (Sys.init_sim hS S.fresh hw p d ⟨0, rfl, h0⟩) fun a b hab => ?_
  refine Sim.bind (Sys.runOps_sim hS ops hops hab.1) fun a' b' hab' => ?_
  exact hab'.2

/-- Two different wavetables of two waveforms that agree on waveform 0. -/
example : ∃ wt wt', Built envI ([0, 1, 0, -1] ++ [0, 3, 0, -1]) 2 2 44100 (1 / 256) wt ∧
    Built envI ([0, 1, 0, -1] ++ [5, 3, 2, -1]) 2 2 44100 (1 / 256) wt' ∧
    (∀ w, w = 0 → waveformOf ([0, 1, 0, -1] ++ [0, 3, 0, -1] : List ℝ) (2 ^ 2) w =
      waveformOf ([0, 1, 0, -1] ++ [5, 3, 2, -1]) (2 ^ 2) w) := by
  have h44 : IsRate envI.fl 44100 := by simpa using envI_ok.1.isRate 44100 (by norm_num)
  have e : envI.fl (1 / 256 * 44100 : ℝ) = 44100 / 256 := by
    have e : (1 / 256 * 44100 : ℝ) = ((44100 : ℤ) : ℝ) / 2 ^ 8 := by norm_num
    rw [e, envI_ok.1.dyadic 44100 8 (by norm_num)]; norm_num
  have key : ∀ ws : List ℝ, ws.length = 8 → ∃ wt, Built envI ws 2 2 44100 (1 / 256) wt := by
    intro ws hws
    obtain ⟨wt, h⟩ := C02_succeeds envI envI_ok.1 envI_ok.2.1 envI_ok.2.2 2 (by norm_num)
      (by norm_num) 2 (by norm_num) ws (by simpa using hws) 44100 (1 / 256) (by norm_num) h44
      (by rw [e]; norm_num)
    exact ⟨wt, h44, by rw [e]; norm_num, by simpa using hws, h⟩
  obtain ⟨wt, h⟩ := key ([0, 1, 0, -1] ++ [0, 3, 0, -1]) rfl
  obtain ⟨wt', h'⟩ := key ([0, 1, 0, -1] ++ [5, 3, 2, -1]) rfl
  exact ⟨wt, wt', h, h', fun w hw => by subst hw; rfl⟩

/-- C42: two oscillator types that differ only in the SIMD batch size behave identically, for all
histories of calls, legal or not, on the same wavetable: same outputs, same states, same errors. The
only assumption is that the SIMD operations compute what their names say (in exact complex
arithmetic; real SIMD code may use fused operations and so differ by rounding). -/
theorem C42_batch_size (S : Sys K C) (hops : S.ops.Lawful) (B1 B2 : ℕ) (h1 : 0 < B1) (h2 : 0 < B2)
    (o : Osc K C) (ops : List (Op K)) :
    runOps { S with B := B1 } o ops = runOps { S with B := B2 } o ops := by
  have hS : SysSim { S with B := B1 } { S with B := B2 } := ⟨rfl, rfl, rfl, h1, h2, Or.inr hops⟩
  have ho : OscSim (fun _ => True) o o := by
    refine ⟨?_, rfl, rfl, rfl, rfl, rfl, rfl, rfl, rfl, trivial⟩
    cases h : o.wt with
    | none => exact Or.inl ⟨rfl, rfl⟩
    | some wt => exact Or.inr ⟨wt, wt, rfl, rfl, ⟨rfl, fun _ => rfl, fun _ => rfl, fun _ _ _ => rfl,
        fun _ _ _ => rfl, fun _ _ _ => rfl, fun _ _ _ => rfl, fun _ => rfl⟩⟩
  have := Sys.runOps_sim hS ops (fun _ _ => trivial) ho
  apply Sim.eq_of
  exact this.mono fun a b hab => Prod.ext (hab.1.full trivial) hab.2

end
end Adwt.Props
