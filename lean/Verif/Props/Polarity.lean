import Verif.Props.FloatExamples
import Verif.Proofs.Polarity

/-!
# C81: polarity and silence, in any arithmetic
-/

set_option linter.unusedSectionVars false

namespace Adwt.Props
open WavetableData
variable {K C : Type} [Field K] [LinearOrder K] [IsStrictOrderedRing K] [FloorRing K]
variable [Zero C] [Add C] [Sub C] [Mul C] [Div C] [Neg C]

/-- C81: negating every sample of every waveform given to a program negates every sample it puts out,
exactly (not up to rounding), and changes nothing else: neither the outcome of the calls (an error is
the same error), nor the getters, nor the number of waveforms. Any program, legal or not, in debug and
release builds, for any rounding that treats both signs alike. -/
theorem C81_polarity (S : Sys K C) (hE : OddEnv S.env) (hC : OddOps S.ops) (prog : List (Call K)) :
    (∀ e, runCalls S S.fresh prog = .error e →
      runCalls S S.fresh (prog.map Call.invert) = .error e) ∧
    ∀ o ys, runCalls S S.fresh prog = .ok (o, ys) →
      ∃ o', runCalls S S.fresh (prog.map Call.invert) = .ok (o', ys.map (- ·)) ∧
        o'.prevPhase = o.prevPhase ∧ o'.prevPhaseDiff = o.prevPhaseDiff ∧ o'.crt = o.crt ∧
        o'.prevMip = o.prevMip ∧ o'.jRed = o.jRed ∧
        S.numWaveforms o' = S.numWaveforms o ∧ o'.prevY = o.prevY.map (- ·) := by
  have key := Sys.calls_neg hE hC prog S.fresh
  rw [Sys.fresh_neg hE hC] at key
  unfold Img at key
  constructor
  · intro e h
    rw [h] at key
    exact key
  · intro o ys h
    rw [h] at key
    refine ⟨Sys.negO o, key, rfl, rfl, rfl, rfl, rfl, ?_, rfl⟩
    unfold Sys.numWaveforms Sys.negO
    cases o.wt with
    | none => rfl
    | some wt =>
      show Except.ok wt.neg.numWaveforms = Except.ok wt.numWaveforms
      unfold WavetableData.numWaveforms WavetableData.neg
      simp

/-- C81: a program that builds its wavetables from zeros only puts out exact zeros, whatever it does. -/
theorem C81_silence (S : Sys K C) (hE : OddEnv S.env) (hC : OddOps S.ops) (prog : List (Call K))
    (hs : ∀ c ∈ prog, c.Silent) (o : Osc K C) (ys : List K)
    (h : runCalls S S.fresh prog = .ok (o, ys)) : ∀ y ∈ ys, y = 0 := by
  have hinv : prog.map Call.invert = prog := by
    have hl : ∀ ws : List K, (∀ x ∈ ws, x = 0) → ws.map (- ·) = ws := by
      intro ws hz
      conv_rhs => rw [← List.map_id ws]
      apply List.map_congr_left
      intro x hx
      rw [hz x hx, neg_zero]; rfl
    conv_rhs => rw [← List.map_id prog]
    apply List.map_congr_left
    intro c hc
    have := hs c hc
    cases c with
    | init ws n sr dur p d => exact congrArg (fun l => Call.init l n sr dur p d) (hl ws this)
    | swap ws n sr dur p d => exact congrArg (fun l => Call.swap l n sr dur p d) (hl ws this)
    | _ => rfl
  obtain ⟨o', e, -⟩ := (C81_polarity S hE hC prog).2 o ys h
  rw [hinv, h] at e
  have e : ys = ys.map (- ·) := by
    have := Except.ok.inj e
    exact congrArg Prod.snd this
  intro y hy
  obtain ⟨i, hi, rfl⟩ := List.getElem_of_mem hy
  have h1 : ys[i] = -ys[i] := by
    have := congrArg (fun l : List K => l[i]?) e
    simp only [List.getElem?_map, List.getElem?_eq_getElem hi, Option.map_some, Option.some.injEq] at this
    exact this
  linarith

/-! ### the hypotheses are met -/

theorem pick_neg (l : List ℝ) (n r : ℕ) : pickSrc ℝ (l.map (- ·)) n r =
    ⟨(pickSrc ℝ l n r).err, fun i => -(pickSrc ℝ l n r).data i, (pickSrc ℝ l n r).inputUsed,
      (pickSrc ℝ l n r).outputGen⟩ := by
  unfold pickSrc
  rw [List.length_map]
  congr 1
  funext i
  dsimp only
  rw [List.getD_eq_getElem?_getD, List.getD_eq_getElem?_getD, List.getElem?_map]
  cases l[i * r]? <;> simp

theorem rne53_neg (x : ℝ) : rne53 (-x) = -rne53 x := by
  unfold rne53
  rw [abs_neg, neg_div, roundEven_neg]; push_cast; ring

theorem oddI : OddEnv envI where
  fl := ieee32_neg
  dbl := rne53_neg
  mad a b c := by
    show ieee32 (ieee32 (-a * b) + -c) = -ieee32 (ieee32 (a * b) + c)
    rw [neg_mul, ieee32_neg, ← neg_add, ieee32_neg]
  dmm a b c d := by
    show rne53 (rne53 (-a * b) - rne53 (c * -d)) = -rne53 (rne53 (a * b) - rne53 (c * d))
    rw [neg_mul, mul_neg, rne53_neg, rne53_neg, ← neg_sub', rne53_neg]
  src := pick_neg

theorem oddFtz : OddEnv envFtz where
  fl := ftz32_neg
  dbl := rne53_neg
  mad a b c := by
    show ftz32 (ftz32 (-a * b) + -c) = -ftz32 (ftz32 (a * b) + c)
    rw [neg_mul, ftz32_neg, ← neg_add, ftz32_neg]
  dmm a b c d := by
    show rne53 (rne53 (-a * b) - rne53 (c * -d)) = -rne53 (rne53 (a * b) - rne53 (c * d))
    rw [neg_mul, mul_neg, rne53_neg, rne53_neg, ← neg_sub', rne53_neg]
  src := pick_neg

instance {rnd : ℝ → ℝ} : Neg (CFl rnd) := ⟨fun a => ⟨-a.re, -a.im⟩⟩

theorem oddOps (rnd : ℝ → ℝ) [GoodRnd rnd] :
    OddOps (CFloat.ops : COps ℝ (CFl rnd)) := by
  have hn : ∀ x : ℝ, rnd (-x) = -rnd x := GoodRnd.neg
  constructor
  · exact CFl.ext (neg_zero : -(0 : ℝ) = 0) (neg_zero : -(0 : ℝ) = 0)
  · intro a b
    apply CFl.ext
    · show rnd (-a.re + -b.re) = -rnd (a.re + b.re)
      rw [← neg_add, hn]
    · show rnd (-a.im + -b.im) = -rnd (a.im + b.im)
      rw [← neg_add, hn]
  · intro a b
    apply CFl.ext
    · show rnd (-a.re - -b.re) = -rnd (a.re - b.re)
      rw [← neg_sub', hn]
    · show rnd (-a.im - -b.im) = -rnd (a.im - b.im)
      rw [← neg_sub', hn]
  · intro a b
    apply CFl.ext
    · show rnd (rnd (-a.re * b.re) - rnd (-a.im * b.im)) = -rnd (rnd (a.re * b.re) - rnd (a.im * b.im))
      rw [neg_mul, neg_mul, hn, hn, ← neg_sub', hn]
    · show rnd (rnd (-a.re * b.im) + rnd (-a.im * b.re)) = -rnd (rnd (a.re * b.im) + rnd (a.im * b.re))
      rw [neg_mul, neg_mul, hn, hn, ← neg_add, hn]
  · intro a b
    apply CFl.ext
    · show rnd (rnd (a.re * -b.re) - rnd (a.im * -b.im)) = -rnd (rnd (a.re * b.re) - rnd (a.im * b.im))
      rw [mul_neg, mul_neg, hn, hn, ← neg_sub', hn]
    · show rnd (rnd (a.re * -b.im) + rnd (a.im * -b.re)) = -rnd (rnd (a.re * b.im) + rnd (a.im * b.re))
      rw [mul_neg, mul_neg, hn, hn, ← neg_add, hn]
  · intro a b
    apply CFl.ext
    · show rnd (rnd (rnd (-a.re * b.re) + rnd (-a.im * b.im)) / _) =
        -rnd (rnd (rnd (a.re * b.re) + rnd (a.im * b.im)) / _)
      rw [neg_mul, neg_mul, hn, hn, ← neg_add, hn, neg_div, hn]
    · show rnd (rnd (rnd (-a.im * b.re) - rnd (-a.re * b.im)) / _) =
        -rnd (rnd (rnd (a.im * b.re) - rnd (a.re * b.im)) / _)
      rw [neg_mul, neg_mul, hn, hn, ← neg_sub', hn, neg_div, hn]
  · intro x
    exact CFl.ext rfl (neg_zero : -(0 : ℝ) = 0).symm
  · intro a
    rfl
  · intro a b c
    apply CFl.ext
    · show rnd (a.re * -b.re - rnd (a.im * -b.im - -c.re)) = -rnd (a.re * b.re - rnd (a.im * b.im - c.re))
      rw [mul_neg, mul_neg, ← neg_sub', hn, ← neg_sub', hn]
    · show rnd (a.re * -b.im + rnd (a.im * -b.re + -c.im)) = -rnd (a.re * b.im + rnd (a.im * b.re + c.im))
      rw [mul_neg, mul_neg, ← neg_add, hn, ← neg_add, hn]
  · intro a b c
    apply CFl.ext
    · show rnd (a.re * -b.re - rnd (a.im * -b.im + -c.re)) = -rnd (a.re * b.re - rnd (a.im * b.im + c.re))
      rw [mul_neg, mul_neg, ← neg_add, hn, ← neg_sub', hn]
    · show rnd (a.re * -b.im + rnd (a.im * -b.re - -c.im)) = -rnd (a.re * b.im + rnd (a.im * b.re - c.im))
      rw [mul_neg, mul_neg, ← neg_sub', hn, ← neg_add, hn]
  · intro a b c
    apply CFl.ext
    · show -rnd (a.re * -b.re - rnd (a.im * -b.im + -c.re)) = - -rnd (a.re * b.re - rnd (a.im * b.im + c.re))
      rw [mul_neg, mul_neg, ← neg_add, hn, ← neg_sub', hn]
    · show -rnd (a.re * -b.im + rnd (a.im * -b.re - -c.im)) = - -rnd (a.re * b.im + rnd (a.im * b.re - c.im))
      rw [mul_neg, mul_neg, ← neg_sub', hn, ← neg_add, hn]

/-- calls on an initialised oscillator as statements of a program -/
def Op.call : Op K → Call K
  | .process dir ps => .process dir ps
  | .setWaveform i => .setWaveform i
  | .reset p d => .reset p d

theorem calls_ops {C : Type} [Zero C] [Add C] [Sub C] [Mul C] [Div C] (S : Sys K C)
    (ops : List (Op K)) (o : Osc K C) : runCalls S o (ops.map Op.call) = runOps S o ops := by
  induction ops generalizing o with
  | nil => rfl
  | cons op ops ih =>
    rw [List.map_cons]
    unfold runCalls runOps
    have e : runCall S o (Op.call op) = runOp S o op := by cases op <;> rfl
    rw [e]
    cases runOp S o op with
    | error e => rfl
    | ok r =>
      rw [R.ok_bind, R.ok_bind]
      dsimp only
      rw [ih]

/-- a program that builds a wavetable, plays forward and then backward -/
noncomputable def exampleProg (ws : List ℝ) : List (Call ℝ) :=
  .init ws 1 44100 (1 / 256) 0 (1 / 16) ::
    [Op.process .kForward [1 / 16, 1 / 8], .process .kBidirectionnal [1 / 16]].map Op.call

theorem exampleProg_ok {C : Type} [Zero C] [Add C] [Sub C] [Mul C] [Div C] {S : Sys ℝ C}
    (hE : Rounding S.env.fl ∧ Log2Spec S.env.log2f ∧ SrcContract S.env.src) (hB : 0 < S.B)
    (ws : List ℝ) (h : ws.length = 8) :
    ∃ o ys, runCalls S S.fresh (exampleProg ws) = .ok (o, ys) ∧ ys.length = 3 := by
  obtain ⟨wt, hw⟩ := exampleWt S.env hE ws h
  have hf := hE.1
  have hp : PhaseOk S.env.fl 0 := by
    have := phaseOk_dyadic hf (k := 0) (n := 0) (by norm_num) (by norm_num); simpa using this
  obtain ⟨⟨o, r⟩, e, hpl, h1, h2, -⟩ := Sys.init_play (S := S) hf S.fresh (hw.ok hf hE.2.1) hp
    (d := 1 / 16) (by norm_num)
  have hr : Reached S 1 3 o := Reached.init hw ⟨hp, by norm_num⟩ e
  have h1 : o.prevPhase = 0 := h1
  have h2 : o.prevPhaseDiff = 1 / 16 := h2
  have hz : ¬ AtZeroBackward o := fun hz => by
    have := hz.2; rw [h2] at this; norm_num at this
  have q1 := phaseOk_dyadic hf (k := 1) (n := 4) (by norm_num) (by norm_num)
  have q2 := phaseOk_dyadic hf (k := 1) (n := 3) (by norm_num) (by norm_num)
  rw [show ((1 : ℕ) : ℝ) / 2 ^ 4 = 1 / 16 by norm_num] at q1
  rw [show ((1 : ℕ) : ℝ) / 2 ^ 3 = 1 / 8 by norm_num] at q2
  have hs : HistorySafe S.env.fl 1 o.prevPhase
      [Op.process .kForward [1 / 16, 1 / 8], .process .kBidirectionnal [1 / 16]] := by
    rw [h1]
    refine ⟨⟨q1, Or.inl ?_, q2, Or.inl ?_, trivial⟩, ⟨q1, ⟨?_, ?_⟩, trivial⟩, trivial⟩ <;> norm_num
  obtain ⟨⟨o', ys⟩, e2, -⟩ := Sys.history_ok hf hB (Sys.reached_safe hf hE.2.1 hB hr hz) hs
  refine ⟨o', ys, ?_, ?_⟩
  · unfold exampleProg runCalls runCall
    dsimp only
    have hb : build S.env ws 1 44100 (1 / 256) = .ok (some wt) := by exact_mod_cast hw.2.2.2
    rw [hb, R.ok_bind]
    rw [e, R.ok_bind]
    show (runCalls S o _ >>= fun r => (pure (r.1, [] ++ r.2) : R _)) = _
    rw [calls_ops, e2]
    rfl
  · rw [Sys.runOps_atoms hf hB (Sys.reached_play hf hE.2.1 hB hr) ?_] at e2
    · rw [Sys.atoms_length e2]; rfl
    · rw [h1]
      refine ⟨⟨q1, Or.inl ?_, q2, Or.inl ?_, trivial⟩, ⟨q1, ?_, trivial⟩, trivial⟩ <;> norm_num [StepOk]

/-- C81 applies to IEEE floats with any built-in filter, and to hosts that flush subnormals; the program
above succeeds, with eight samples of any values. -/
example (t : FilterType) (ws : List ℝ) (h : ws.length = 8) :
    OddEnv (sysF t).env ∧ OddOps (sysF t).ops ∧ OddEnv (sysFtz t).env ∧ OddOps (sysFtz t).ops ∧
    (∃ o ys, runCalls (sysF t) (sysF t).fresh (exampleProg ws) = .ok (o, ys) ∧ ys.length = 3) ∧
    (∃ o ys, runCalls (sysFtz t) (sysFtz t).fresh (exampleProg ws) = .ok (o, ys) ∧ ys.length = 3) :=
  ⟨oddI, oddOps ieee32, oddFtz, oddOps ftz32,
    exampleProg_ok (S := sysF t) envI_ok (floatSys t).B ws h,
    exampleProg_ok (S := sysFtz t) envFtz_ok (floatSysFtz t).B ws h⟩

end Adwt.Props
