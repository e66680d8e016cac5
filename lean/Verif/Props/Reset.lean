import Verif.Props.ExactExamples
import Verif.Spec.History
import Verif.Spec.Outputs

/-!
# C22: what `resetInternals` forgets
-/

set_option linter.unusedSectionVars false

namespace Adwt
variable {K C : Type} [Field K] [LinearOrder K] [IsStrictOrderedRing K] [FloorRing K]
variable [Zero C] [Add C] [Sub C] [Mul C] [Div C]

/-- The crossfader is settled on table `i`: no fade is in progress. -/
def Settled (o : Osc K C) (i : ℤ) : Prop :=
  ∃ wt, o.wt = some wt ∧ wt.cf.samplesLeft = 0 ∧ wt.cf.nextIdx = i

/-- The crossfade takes `n` samples. -/
def FadeLength (o : Osc K C) (n : ℤ) : Prop := ∃ wt, o.wt = some wt ∧ wt.cf.numSamples = n

/-- Both hold the same tables. -/
def TablesEq (o o' : Osc K C) : Prop :=
  ∃ wt wt', o.wt = some wt ∧ o'.wt = some wt' ∧ tablesOf wt = tablesOf wt'

namespace Sys
variable {S : Sys K C}

theorem outputs_bind {σ α τ β : Type} (x : R (σ × α)) (f : σ × α → R (τ × β)) :
    outputs (x >>= f) = x >>= fun a => outputs (f a) := by
  cases x <;> rfl

/-- `prevJRed` is never read. -/
theorem runDir_j (dir : Direction) (o : Osc K C) (j : ℤ) (ps : List K) :
    (S.runDir dir o ps = .ok (o, []) ∧
      S.runDir dir { o with prevJRed := j } ps = .ok ({ o with prevJRed := j }, [])) ∨
    S.runDir dir { o with prevJRed := j } ps = S.runDir dir o ps := by
  cases ps with
  | nil => left; exact ⟨rfl, rfl⟩
  | cons p ps => right; cases dir <;> rfl

theorem process_j (dir : Direction) (o : Osc K C) (j : ℤ) (ps out : List K) :
    (∃ ys, S.process dir o ps out = .ok (o, ys) ∧
      S.process dir { o with prevJRed := j } ps out = .ok ({ o with prevJRed := j }, ys)) ∨
    S.process dir { o with prevJRed := j } ps out = S.process dir o ps out := by
  unfold process
  dsimp only
  rcases runDir_j (S := S) dir o j (ps.take out.length) with ⟨a, b⟩ | h
  · rw [a, b]
    cases h2 : chk S.env.dbg (ps.length = out.length) <;> cases h1 : chk S.env.dbg False <;>
      by_cases hn : o.wt.isNone = true
    all_goals first
      | rw [if_pos hn, if_pos hn]
      | rw [if_neg hn, if_neg hn]
    all_goals first
      | (right; rfl)
      | (left; exact ⟨_, rfl, rfl⟩)
  · right
    rw [h]

theorem runOps_j (ops : List (Op K)) (o : Osc K C) (j : ℤ) :
    outputs (runOps S { o with prevJRed := j } ops) = outputs (runOps S o ops) := by
  induction ops generalizing o j with
  | nil => rfl
  | cons op ops ih =>
    have tail : ∀ (o : Osc K C) (j : ℤ) (ys : List K),
        outputs (do
          let (o2, y2) ← runOps S { o with prevJRed := j } ops
          return (o2, ys ++ y2) : R (Osc K C × List K)) =
        outputs (do
          let (o2, y2) ← runOps S o ops
          return (o2, ys ++ y2) : R (Osc K C × List K)) := by
      intro o j ys
      have := ih o j
      cases h1 : runOps S { o with prevJRed := j } ops with
      | error e =>
        rw [h1] at this
        cases h2 : runOps S o ops with
        | error e' => rw [h2] at this; exact this
        | ok a => rw [h2] at this; cases this
      | ok a =>
        rw [h1] at this
        cases h2 : runOps S o ops with
        | error e' => rw [h2] at this; cases this
        | ok b =>
          rw [h2] at this
          obtain ⟨a1, a2⟩ := a
          obtain ⟨b1, b2⟩ := b
          have e : a2 = b2 := by
            have : (Except.ok a2 : R (List K)) = .ok b2 := this
            cases this; rfl
          rw [e]; rfl
    unfold runOps
    cases op with
    | process dir ps =>
      unfold runOp
      dsimp only
      rcases process_j (S := S) dir o j ps (List.replicate ps.length 0) with ⟨ys, a, b⟩ | h
      · rw [a, b, R.ok_bind, R.ok_bind]
        exact tail o j ys
      · rw [h]
    | setWaveform i =>
      unfold runOp setWaveform
      dsimp only
      cases h : chk S.env.dbg (o.wt.isSome = true) with
      | error e => rfl
      | ok u => exact tail { o with crt := i } j []
    | reset p d =>
      unfold runOp resetInternals
      dsimp only
      cases hw : o.wt with
      | none => rfl
      | some wt =>
        dsimp only
        cases h1 : Maths.reduceF S.env p 1 with
        | error e => rfl
        | ok pr =>
          rw [R.ok_bind, R.ok_bind]
          cases h2 : wt.findMipMapIndices S.env |d| with
          | error e => rfl
          | ok a =>
            obtain ⟨wt', t⟩ := a
            rw [R.ok_bind, R.ok_bind]
            dsimp only
            cases h3 : wt'.waveformLen t.idx with
            | error e => rfl
            | ok len =>
              rw [R.ok_bind, R.ok_bind]
              cases h4 : segIndex S.env.fl (d ≥ 0) (S.env.fl (pr * S.env.fl (len : K))) with
              | error e => rfl
              | ok x =>
                exact tail { o with wt := some wt', prevY := List.replicate S.n 0, prevPhase := p,
                                    prevPhaseRed := pr, prevPhaseDiff := d, prevMip := t.idx,
                                    jRed := x } j []

/-- `resetInternals` only looks at the wavetable, its arguments, and keeps the waveform. -/
theorem reset_congr {o o' : Osc K C} (hw : o.wt = o'.wt) (hc : o.crt = o'.crt) (p d : K)
    (ops : List (Op K)) :
    outputs (runOps S o (.reset p d :: ops)) = outputs (runOps S o' (.reset p d :: ops)) := by
  rw [← runOps_j (S := S) (.reset p d :: ops) o' o.prevJRed]
  congr 1
  unfold runOps runOp resetInternals
  dsimp only
  rw [hw, hc]

end Sys

namespace Props
open WavetableData MeasureTheory Seg

/-- C22: after `resetInternals` everything that follows, outputs and faults, depends only on the
arguments, the wavetable in its current state, and the selected waveform; not on the phases, steps
and filter memory of before. Any states, any later calls. -/
theorem C22_wavetable_only (S : Sys K C) (o o' : Osc K C) (hw : o.wt = o'.wt) (hc : o.crt = o'.crt)
    (p d : K) (ops : List (Op K)) :
    outputs (runOps S o (.reset p d :: ops)) = outputs (runOps S o' (.reset p d :: ops)) :=
  Sys.reset_congr hw hc p d ops

/-- C22: if both oscillators have the same tables, the same waveform selected, no fade in progress,
the same fade length and have settled on the same table, whatever was played before, then
everything after `resetInternals` is the same. -/
theorem C22_settled (S : Sys K C) (hf : Rounding S.env.fl) (hl : Log2Spec S.env.log2f)
    (hB : 0 < S.B) (nw L : ℕ) (o o' : Osc K C) (ho : Reached S nw L o) (ho' : Reached S nw L o')
    (ht : TablesEq o o') (hc : o.crt = o'.crt) (n : ℤ) (hn : FadeLength o n) (hn' : FadeLength o' n)
    (i : ℤ) (hi : Settled o i) (hi' : Settled o' i) (p d : K) (ops : List (Op K)) :
    outputs (runOps S o (.reset p d :: ops)) = outputs (runOps S o' (.reset p d :: ops)) := by
  refine Sys.reset_congr ?_ hc p d ops
  obtain ⟨wt, wt', e, e', htab⟩ := ht
  obtain ⟨w1, e1, hn⟩ := hn
  obtain ⟨w2, e2, hl0, hi⟩ := hi
  obtain ⟨w1', e1', hn'⟩ := hn'
  obtain ⟨w2', e2', hl0', hi'⟩ := hi'
  obtain ⟨w3, e3, h3⟩ := (Sys.reached_play hf hl hB ho).wt
  obtain ⟨w3', e3', h3'⟩ := (Sys.reached_play hf hl hB ho').wt
  rw [e] at e1 e2 e3
  rw [e'] at e1' e2' e3'
  cases e1; cases e2; cases e3; cases e1'; cases e2'; cases e3'
  rw [e, e', tables_eq htab]
  have h4 := h3.inv
  have h4' := h3'.inv
  have s1 := h3.scale
  have s2 := h3'.scale
  congr 2
  have p1 := h4.idle hl0
  have p2 := h4'.idle hl0'
  generalize wt.cf = c at *
  generalize wt'.cf = c' at *
  obtain ⟨a1, a2, a3, a4, a5⟩ := c
  obtain ⟨b1, b2, b3, b4, b5⟩ := c'
  dsimp only at *
  subst s1 hl0 p1 hi hn
  subst s2 hl0' p2 hi' hn'
  rfl

/-! ### with a fade in progress -/

/-- one more call of a fade up, the request going back down -/
theorem cf_back {n l i : ℤ} {L : ℕ} {d : ℝ} (hL : 2 ≤ L) (hn : 1 ≤ n) (hl : 2 ≤ l) (hd : 0 < d)
    (h : IsOctave L i d) :
    (⟨n, octaveScale ℝ L, l, i, i + 1⟩ : CrossFader ℝ).newIndices envX d =
      .ok (⟨n, octaveScale ℝ L, l - 1, i, i + 1⟩,
        ⟨i, ((l - 1 : ℤ) : ℝ) / n, i + 1, 1 - ((l - 1 : ℤ) : ℝ) / n⟩) := by
  unfold CrossFader.newIndices
  rw [CrossFader.findMipMapIndex_eq hd, R.ok_bind]
  dsimp only
  rw [CrossFader.findLoop_of_octave hL h, if_pos (by omega), chk_true (by omega), R.ok_bind]
  unfold CrossFader.continueFade
  dsimp only
  have h1 : ¬ (i ≠ i + 1 ∧ i ≠ i) := fun h => h.2 rfl
  simp only [if_neg h1]
  rw [if_neg (by omega)]
  unfold CrossFader.fadeTuple
  rw [fadeX _ hn, R.ok_bind]
  dsimp only
  rw [if_pos (by omega)]
  rfl

/-- `resetInternals` in an explicit state -/
theorem At.reset {ft : FilterType} {ws : List ℝ} {L : ℕ} {o : Osc ℝ ℂ} {c c' : CrossFader ℝ}
    {mip : ℤ} {d p : ℝ} (h : At (sysOf envX ft) ws L o c mip d p) {p' d' : ℝ}
    (hp : 0 ≤ p' ∧ p' < 1) (hd : d' ≠ 0)
    {t : MipMapIndices ℝ} (hn : c.newIndices envX |d'| = .ok (c', t)) :
    ∃ o', (sysOf envX ft).resetInternals o p' d' = .ok o' ∧
      At (sysOf envX ft) ws L o' c' t.idx d' p' ∧
      o'.prevY = List.replicate (sysOf envX ft).n 0 := by
  have hS := exactSys ft
  have hpl := Sys.reached_play (S := sysOf envX ft) envX_ok.1 log2X hS.B h.plays.1
  obtain ⟨wt, hwt, hcf⟩ := h.cf
  obtain ⟨wt1, e1, hw⟩ := hpl.wt
  rw [hwt] at e1; cases e1
  have hp' : PhaseOk envX.fl p' := ⟨hp.1, hp.2, isPhase_id _⟩
  rw [← hcf] at hn
  have e := Sys.reset_ok (S := sysOf envX ft) (o := o) envX_ok.1 hwt hw hp' hd hn
  have hh : HoldsTables (sysOf envX ft) ws 1 L o := h.plays.2
  refine ⟨_, e, ⟨⟨h.plays.1.reset ⟨hp', hd⟩ e, hh.same (Sys.reset_tables e).1⟩, ⟨_, rfl, rfl⟩, rfl, rfl, rfl,
    h.crt⟩, rfl⟩

/-- the samples: table 1 is silent -/
noncomputable def comb : List ℝ := [0, 1, 0, 1, 0, 1, 0, 1]

theorem comb_one : waveAt envX comb 3 0 1 = fun _ => 0 := by
  unfold waveAt
  rw [show (1 : ℤ).toNat = 1 from rfl, show (0 : ℤ).toNat = 0 from rfl,
    mip_one comb 3 4 (by norm_num) rfl]
  have e : ∀ k, cyc ((List.range 4).map fun i => comb.getD (2 * i) 0) k = 0 := by
    intro k
    have h0 : 0 ≤ k % 4 := Int.emod_nonneg _ (by norm_num)
    have h4 : k % 4 < 4 := Int.emod_lt_of_pos _ (by norm_num)
    unfold cyc comb
    simp only [List.range, List.range.loop, List.map_cons, List.map_nil, List.length_cons,
      List.length_nil]
    rw [show ((0 + 1 + 1 + 1 + 1 : ℕ) : ℤ) = 4 by norm_num]
    have : k % 4 = 0 ∨ k % 4 = 1 ∨ k % 4 = 2 ∨ k % 4 = 3 := by omega
    rcases this with h | h | h | h <;> rw [h] <;> norm_num [tn2, tn3]
  funext u
  unfold interp
  rw [e, e]; ring

theorem comb_zero {u : ℝ} (h0 : 0 ≤ u) (h1 : u < 1 / 8) : waveAt envX comb 3 0 0 u = 8 * u := by
  have e : mipSamples envX (waveformOf comb (2 ^ 3) 0) 0 = comb := by
    unfold mipSamples
    rw [if_pos rfl]
    rfl
  unfold waveAt
  rw [show (0 : ℤ).toNat = 0 from rfl, e]
  have hl : ((comb.length : ℕ) : ℝ) = 8 := by unfold comb; norm_num
  have hf : ⌊u * 8⌋ = 0 := by rw [Int.floor_eq_iff]; constructor <;> norm_num <;> linarith
  unfold interp
  rw [hl, hf]
  unfold cyc comb
  norm_num
  ring

/-- the sample which the example compares -/
theorem comb_step {o : Osc ℝ ℂ} {c c' : CrossFader ℝ}
    (h : At (sysOf envX .kType1) comb 3 o c 0 (1 / 16) (1 / 16))
    (hy : o.prevY = List.replicate (sysOf envX .kType1).n 0) {w : ℝ} {v : ℝ}
    (hn : c.newIndices envX (1 / 16) = .ok (c', ⟨0, w, 1, v⟩)) :
    ∃ o', (sysOf envX .kType1).process .kBidirectionnal o [1 / 8] [0] =
      .ok (o', [w * (2 * r1 * response (waveAt envX comb 3 0 0) z1 (1 / 16) (1 / 16)).re]) := by
  have ea : |(1 / 16 : ℝ)| = 1 / 16 := by norm_num [abs_of_pos]
  obtain ⟨⟨o', y, e, h'⟩, hni⟩ := h.step (dir := .kBidirectionnal) (p' := 1 / 8) (d' := 1 / 16)
    (by norm_num) (show (1 / 8 : ℝ) ≠ 1 / 16 by norm_num) (Or.inl (by norm_num))
    (by unfold Sys.dirDiff Sys.biDiff; norm_num) (by rw [ea]; exact hn)
  have hx : OffDenormal (2 ^ 3) o.prevPhase := by
    rw [h.phase]
    have := offDenormal_dyadic 1 4 3 (by norm_num) (by norm_num)
    norm_num at this ⊢
    exact this
  have hs : StepOk .kBidirectionnal o.prevPhase (1 / 8) := by
    rw [h.phase]; exact (by norm_num : (1 / 8 : ℝ) ≠ 1 / 16)
  rw [← h'.diff] at hni
  obtain ⟨a, b, -⟩ := C35_mixture _ (exactSys .kType1) log2X comb 1 3 o h.plays .kBidirectionnal (1 / 8) 0
    (by norm_num) hs o' _ e _ hni (Or.inl h.mip.symm) hx
  refine ⟨o', ?_⟩
  rw [e, b, a]
  have hm : mixture (sysOf envX .kType1).env comb 3 o.crt ⟨0, w, 1, v⟩ =
      fun u => w * waveAt envX comb 3 0 0 u + 0 * waveAt envX comb 3 0 0 u := by
    funext u
    unfold mixture
    rw [h.crt]
    show w * waveAt envX comb 3 0 0 u + v * waveAt envX comb 3 0 1 u = _
    rw [comb_one]; ring
  rw [hm, h.phase, h'.diff, hy]
  have hc : Continuous (waveAt envX comb 3 0 0) := by
    unfold waveAt; exact interp_continuous _
  have hflt : (sysOf envX .kType1).flt = ⟨[r1], [z1]⟩ := filter1
  have hn1 : (sysOf envX .kType1).n = 1 := by unfold Sys.n; rw [hflt]; rfl
  rw [hn1, hflt]
  unfold nextMemory output
  simp only [List.range_one, List.map_cons, List.map_nil, List.sum_cons, List.sum_nil,
    List.length_cons, List.length_nil, zero_add, add_zero]
  rw [response_add hc hc]
  congr 3
  simp
  ring

theorem comb_pos : 0 < (2 * r1 * response (waveAt envX comb 3 0 0) z1 (1 / 16) (1 / 16)).re := by
  rw [response_eq _ _ (by norm_num)]
  apply pos_output (by unfold waveAt; exact interp_continuous _) (by norm_num) (by norm_num)
  · intro s hs
    have h1 : 1 / 16 < s := hs.1
    have h2 : s < 1 / 16 + 1 / 16 := hs.2
    rw [comb_zero (by linarith) (by linarith)]; linarith
  · norm_num
  · norm_num

theorem run_two {S : Sys ℝ ℂ} {o o1 o2 : Osc ℝ ℂ} {p d p' y : ℝ} {dir : Sys.Direction}
    (h1 : S.resetInternals o p d = .ok o1) (h2 : S.process dir o1 [p'] [0] = .ok (o2, [y])) :
    outputs (runOps S o [.reset p d, .process dir [p']]) = .ok [y] := by
  unfold runOps runOps runOps runOp
  dsimp only
  rw [h1]
  show outputs ((do
    let (o2, y2) ← (do
      let (o1, y1) ← S.process dir o1 [p'] [0]
      return (o1, y1 ++ []) : R (Osc ℝ ℂ × List ℝ))
    return (o2, [] ++ y2) : R (Osc ℝ ℂ × List ℝ))) = _
  rw [h2]; rfl

/-- C22 is false while a fade is in progress: one wavetable, the same initial phase, two initial
steps; then the same `resetInternals` and the same sample give different outputs, both without a
fault. (`resetInternals` does not end the fade that the first initial step has started.) -/
theorem C22_false : ∃ (wt : WavetableData ℝ) (oA oB : Osc ℝ ℂ) (dA dB yA yB : ℝ),
    Built envX comb 1 3 44100 (3 / 44100) wt ∧
    (sysOf envX .kType1).init (sysOf envX .kType1).fresh (some wt) (1 / 16) dA = .ok (oA, 0) ∧
    (sysOf envX .kType1).init (sysOf envX .kType1).fresh (some wt) (1 / 16) dB = .ok (oB, 0) ∧
    oA.crt = oB.crt ∧
    outputs (runOps (sysOf envX .kType1) oA
      [.reset (1 / 16) (1 / 16), .process .kBidirectionnal [1 / 8]]) = .ok [yA] ∧
    outputs (runOps (sysOf envX .kType1) oB
      [.reset (1 / 16) (1 / 16), .process .kBidirectionnal [1 / 8]]) = .ok [yB] ∧
    yA ≠ yB := by
  have ea : |(1 / 16 : ℝ)| = 1 / 16 := by norm_num [abs_of_pos]
  have eb : |(3 / 8 : ℝ)| = 3 / 8 := by norm_num [abs_of_pos]
  have o0 : IsOctave 3 0 (1 / 16 : ℝ) := oct0 (by norm_num)
  have o1 : IsOctave 3 1 (3 / 8 : ℝ) := oct1 (by norm_num)
  have idle := cf_idle (E := envX) (n := 3) (L := 3) (d := (1 / 16 : ℝ)) (by norm_num) (by norm_num) o0
  have up := cf_up (n := 3) (L := 3) (d := (3 / 8 : ℝ)) (i := 0) (by norm_num) (by norm_num)
    (by norm_num) o1 (by norm_num)
  have b3 := cf_back (n := 3) (l := 3) (L := 3) (d := (1 / 16 : ℝ)) (i := 0) (by norm_num)
    (by norm_num) (by norm_num) (by norm_num) o0
  have b2 := cf_back (n := 3) (l := 2) (L := 3) (d := (1 / 16 : ℝ)) (i := 0) (by norm_num)
    (by norm_num) (by norm_num) (by norm_num) o0
  obtain ⟨oA, iA, hA, -⟩ := at_init' .kType1 comb 3 (by norm_num) (by norm_num) rfl 3
    (by norm_num) (by norm_num) (p := 1 / 16) (d := 1 / 16) (by norm_num) (by norm_num) (i := 0)
    (oct0 (by norm_num)) (by rw [ea]; exact idle)
  obtain ⟨oB, iB, hB, -⟩ := at_init' .kType1 comb 3 (by norm_num) (by norm_num) rfl 3
    (by norm_num) (by norm_num) (p := 1 / 16) (d := 3 / 8) (by norm_num) (by norm_num) (i := 0)
    (oct0 (by norm_num)) (by rw [eb]; exact up)
  obtain ⟨oA1, rA, hA1, yA⟩ := hA.reset (p' := 1 / 16) (d' := 1 / 16) (by norm_num) (by norm_num)
    (by rw [ea]; exact idle)
  obtain ⟨oB1, rB, hB1, yB⟩ := hB.reset (p' := 1 / 16) (d' := 1 / 16) (by norm_num) (by norm_num)
    (by rw [ea]; exact b3)
  obtain ⟨oA2, pA⟩ := comb_step hA1 yA idle
  obtain ⟨oB2, pB⟩ := comb_step hB1 yB b2
  have qA := run_two rA pA
  have qB := run_two rB pB
  refine ⟨_, oA, oB, _, _, _, _, builtX comb 3 (by norm_num) (by norm_num) rfl 3 (by norm_num)
    (by norm_num), iA, iB, by rw [hA.crt, hB.crt], qA, qB, ?_⟩
  have := comb_pos
  intro h
  have : ((2 - 1 : ℤ) : ℝ) / (3 : ℤ) = 1 / 3 := by norm_num
  rw [this] at h
  linarith

/-- `C22_settled` applies: any filter, any eight samples; one history is `init` at phase 1/16, the
other `init` at 11/16 with a backward step and one more sample; their states differ. -/
example (ft : FilterType) (ws : List ℝ) (hws : ws.length = 2 ^ 3) : ∃ o o' : Osc ℝ ℂ,
    Reached (sysOf envX ft) 1 3 o ∧ Reached (sysOf envX ft) 1 3 o' ∧ TablesEq o o' ∧ o.crt = o'.crt ∧
    FadeLength o 3 ∧ FadeLength o' 3 ∧ Settled o 0 ∧ Settled o' 0 ∧ o.prevPhase ≠ o'.prevPhase ∧
    ∀ p d ops, outputs (runOps (sysOf envX ft) o (.reset p d :: ops)) =
      outputs (runOps (sysOf envX ft) o' (.reset p d :: ops)) := by
  have idle : ∀ {d : ℝ}, d = 1 / 16 → (⟨3, octaveScale ℝ 3, 0, 0, 0⟩ : CrossFader ℝ).newIndices envX d =
      .ok (⟨3, octaveScale ℝ 3, 0, 0, 0⟩, ⟨0, 1, 0 + 1, 0⟩) := by
    intro d hd
    subst hd
    exact cf_idle (by norm_num) (by norm_num) (oct0 (by norm_num))
  obtain ⟨o, -, h, -⟩ := at_init' ft ws 3 (by norm_num) (by norm_num) hws 3
    (by norm_num) (by norm_num) (p := 1 / 16) (d := 1 / 16) (by norm_num) (by norm_num) (i := 0)
    (oct0 (by norm_num)) (idle (by norm_num [abs_of_pos]))
  obtain ⟨o1, -, h1, -⟩ := at_init' ft ws 3 (by norm_num) (by norm_num) hws 3
    (by norm_num) (by norm_num) (p := 11 / 16) (d := -(1 / 16)) (by norm_num) (by norm_num) (i := 0)
    (oct0 (by norm_num)) (idle (by norm_num [abs_of_pos]))
  obtain ⟨⟨o2, y2, -, h2⟩, -⟩ := h1.step (dir := .kBidirectionnal) (p' := 5 / 8) (d' := -(1 / 16))
    (by norm_num) (show (5 / 8 : ℝ) ≠ 11 / 16 by norm_num) (Or.inl (by norm_num))
    (by unfold Sys.dirDiff Sys.biDiff; norm_num) (idle (by norm_num [abs_of_pos]))
  have ht : TablesEq o o2 := by
    obtain ⟨-, sr, dur, w0, w, b, e, t⟩ := h.plays
    obtain ⟨-, sr', dur', w0', w', b', e', t'⟩ := h2.plays
    refine ⟨w, w', e, e', ?_⟩
    rw [t, t']
    obtain ⟨L1, x1, _, _, -, -, l1, -, rfl⟩ := build_some envX_ok.1 log2X b.1 b.2.2.2
    obtain ⟨L2, x2, _, _, -, -, l2, -, rfl⟩ := build_some envX_ok.1 log2X b'.1 b'.2.2.2
    have : L1 = L2 := by
      rw [l1] at l2
      exact Nat.pow_right_injective (le_refl 2) (Nat.eq_of_mul_eq_mul_left (by norm_num) l2)
    subst this
    rfl
  obtain ⟨w, e, c⟩ := h.cf
  obtain ⟨w', e', c'⟩ := h2.cf
  refine ⟨o, o2, h.plays.1, h2.plays.1, ht, by rw [h.crt, h2.crt], ⟨w, e, by rw [c]⟩,
    ⟨w', e', by rw [c']⟩, ⟨w, e, by rw [c], by rw [c]⟩, ⟨w', e', by rw [c'], by rw [c']⟩,
    by rw [h.phase, h2.phase]; norm_num, fun p d ops => ?_⟩
  exact C22_settled _ envX_ok.1 log2X (exactSys ft).B 1 3 o o2 h.plays.1 h2.plays.1 ht
    (by rw [h.crt, h2.crt]) 3 ⟨w, e, by rw [c]⟩ ⟨w', e', by rw [c']⟩ 0
    ⟨w, e, by rw [c], by rw [c]⟩ ⟨w', e', by rw [c'], by rw [c']⟩ p d ops

end Props
end Adwt
