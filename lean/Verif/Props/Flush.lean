import Verif.Props.FloatExamples
import Verif.Props.Safety
import Verif.Props.Hold

/-!
# C76: hosts that flush subnormal numbers to zero
-/

set_option linter.unusedSectionVars false

namespace Adwt.Props
open WavetableData
variable {C : Type} [Zero C] [Add C] [Sub C] [Mul C] [Div C]

/-- C76: in flush-to-zero mode the phases accepted by the theorems are the floats in `[0, 1)` that are
zero or at least `2^-100`. -/
theorem C76_phases (p : ℝ) :
    PhaseOk ftz32 p ↔ 0 ≤ p ∧ p < 1 ∧ ieee32 p = p ∧ (p = 0 ∨ 1 / 2 ^ 100 ≤ p) := by
  constructor
  · rintro ⟨h0, h1, h2, h3⟩
    refine ⟨h0, h1, (ftz32_fix.1 h2).1, ?_⟩
    rcases h3 with h | h | h
    · exact absurd h not_gradual_ftz32
    · exact Or.inl h
    · exact Or.inr (by rwa [abs_of_nonneg h0] at h)
  · rintro ⟨h0, h1, h2, h3⟩
    refine ⟨h0, h1, ftz32_fix.2 ⟨h2, h3.imp_right fun h => ?_⟩, Or.inr (h3.imp_right fun h => ?_)⟩
    · rw [abs_of_nonneg h0]
      exact le_trans (one_div_le_one_div_of_le (by positivity)
        (pow_le_pow_right₀ (by norm_num) (by norm_num))) h
    · rwa [abs_of_nonneg h0]

/-- C76: so every history of calls with such phases that is safe with gradual underflow (C26, C27) is
safe with flushing, too. -/
theorem C76_safe (S : Sys ℝ C) (he : S.env.fl = ftz32) (hl : Log2Spec S.env.log2f)
    (hB : 0 < S.B) (nw L : ℕ) (o : Osc ℝ C) (ho : Reached S nw L o) (hz : ¬ AtZeroBackward o)
    (ops : List (Op ℝ)) (hops : HistorySafe ftz32 nw o.prevPhase ops) :
    ∃ o' ys, runOps S o ops = .ok (o', ys) :=
  C27_safe_histories S (by rw [he]; exact rounding_ftz32) hl hB nw L o ho hz ops (by rw [he]; exact hops)

/-- C76: with flushing in the real and in the complex arithmetic, every built-in filter and every
tracked run whose phases are zero or at least `2^-100` and whose steps are at least `2^-100`: the output
differs from the exact one by at most `2^-21` of the size of the tables (samples and slopes) times a
constant of the filter, however long the run is. -/
theorem C76_accuracy (ft : FilterType) (ws : List ℝ) (nw L : ℕ) (A Λ : ℝ)
    (hA : TablesWithin envFtz ws nw L A) (hΛ : SlopesWithin envFtz ws nw L Λ)
    (M0 : 1 / 2 ^ 40 ≤ A + Λ) (M1 : A + Λ ≤ 2 ^ 24)
    (m : ℕ) (st : ℕ → Osc ℝ (CFl ftz32)) (dir : ℕ → Sys.Direction) (p y : ℕ → ℝ)
    (t : ℕ → MipMapIndices ℝ) (h : TrackedRun (sysFtz ft) ws nw L m st dir p y t)
    (hp : ∀ i < m, ieee32 (p i) = p i ∧ (p i = 0 ∨ 1 / 2 ^ 100 ≤ p i))
    (hd : ∀ i < m, 1 / 2 ^ 100 ≤ |(st (i + 1)).prevPhaseDiff|) (n : ℕ) (hn : n < m) :
    |y n - filtered (valFilter CFloat.val (sysFtz ft).flt) (played envFtz ws L (st 0).crt t
        (unwrapped (st 0).prevPhase (trueStepOf ftz32 dir (st 0).prevPhase p))) (n + 1)| ≤
      1 / 2 ^ 21 * (A + Λ) * roundoffGain (valFilter CFloat.val (sysFtz ft).flt) 6.4 :=
  C60_run _ _ _ (floatSysFtz ft) log2Spec_ieee32 ws nw L A Λ hA hΛ M0 M1 m st dir p y t h
    (fun i hi => ((C76_phases (p i)).2 ⟨(h.phase i hi).1, (h.phase i hi).2, hp i hi⟩).2.2) hd n hn

/-- A difference of at most `2^-127` is flushed to zero. -/
theorem ftz32_tiny {x : ℝ} (hx : |x| ≤ 1 / 2 ^ 127) : ftz32 x = 0 := by
  have e : ieee32 ((1 : ℝ) / 2 ^ 127) = 1 / 2 ^ 127 := by
    have e : (1 : ℝ) / 2 ^ 127 = ((1 : ℤ) : ℝ) * 2 ^ (-127 : ℤ) := by
      rw [zpow_neg]; norm_num
    have h1 := rneSub_exact (K := ℝ) 1 (-127) (by norm_num) (by norm_num)
    rw [← e] at h1
    refine (ieee32_eq ?_).trans h1
    rw [h1, abs_of_pos (by positivity)]
    exact (one_div_le_one_div_of_le (by positivity) (one_le_pow₀ (by norm_num))).trans (by norm_num)
  obtain ⟨h1, h2⟩ := abs_le.1 hx
  have a := ieee32_mono (K := ℝ) h2
  have b := ieee32_mono (K := ℝ) h1
  rw [ieee32_neg, e] at b
  rw [e] at a
  unfold ftz32 flush
  rw [if_pos]
  exact lt_of_le_of_lt (abs_le.2 ⟨b, a⟩) (one_div_lt_one_div_of_lt (by positivity) (by norm_num))

/-- C76: the limit is needed. Two different phases can be so close to each other (and to zero) that their
difference is flushed: then a debug build aborts in either mode, as on a held phase. -/
theorem C76_tiny (S : Sys ℝ C) (he : S.env.fl = ftz32) (hdbg : S.env.dbg = true)
    (dir : Sys.Direction) (o : Osc ℝ C) (hw : o.wt.isSome = true) (p : ℝ)
    (hp : |p - o.prevPhase| ≤ 1 / 2 ^ 127) (ps out : List ℝ) (hlen : ps.length + 1 = out.length) :
    S.process dir o (p :: ps) out = .error .assertFail := by
  rw [Sys.process_runDir S dir hw (by simpa using hlen)]
  unfold Sys.runDir
  have hc : ∀ p : Prop, ∀ [Decidable p], ¬ p → chk S.env.dbg p = .error .assertFail := by
    intro p _ hp; unfold chk; rw [if_pos ⟨hdbg, hp⟩]
  have h0 : S.env.fl (p - o.prevPhase) = 0 := by rw [he]; exact ftz32_tiny hp
  cases dir with
  | kForward =>
    show (S.stepFwd o p >>= _) = _
    unfold Sys.stepFwd
    dsimp only
    rw [h0, if_neg (lt_irrefl _), hc _ (by simp)]
    rfl
  | kBidirectionnal =>
    show (S.stepBi o p >>= _) = _
    have : Sys.biDiff S.env.fl p o.prevPhase = 0 := by
      unfold Sys.biDiff
      dsimp only
      rw [h0, if_neg (by norm_num), if_neg (by norm_num)]
    unfold Sys.stepBi
    dsimp only
    rw [this, if_pos (le_refl (0 : ℝ))]
    unfold Sys.processSampleFwd
    dsimp only
    rw [hc _ (by simp)]
    rfl

/-- With gradual underflow the same step, from `2^-126` to `1.5·2^-126`, is a legal one. -/
example : PhaseOk ieee32 ((1 : ℝ) / 2 ^ 126) ∧ PhaseOk ieee32 ((3 : ℝ) / 2 ^ 127) ∧
    StepOk .kForward ((1 : ℝ) / 2 ^ 126) (3 / 2 ^ 127) ∧
    |(3 : ℝ) / 2 ^ 127 - 1 / 2 ^ 126| ≤ 1 / 2 ^ 127 ∧
    ftz32 ((1 : ℝ) / 2 ^ 126) = 1 / 2 ^ 126 ∧ ftz32 ((3 : ℝ) / 2 ^ 127) = 3 / 2 ^ 127 := by
  have a : ieee32 ((1 : ℝ) / 2 ^ 126) = 1 / 2 ^ 126 := rounding_ieee32.inv_pow 126
  have b : ieee32 ((3 : ℝ) / 2 ^ 127) = 3 / 2 ^ 127 := by
    have e : (3 : ℝ) / 2 ^ 127 = ((3 : ℤ) : ℝ) * 2 ^ (-127 : ℤ) := by
      rw [zpow_neg]; norm_num
    have h1 := rneSub_exact (K := ℝ) 3 (-127) (by norm_num) (by norm_num)
    rw [← e] at h1
    refine (ieee32_eq ?_).trans h1
    rw [h1, abs_of_pos (by positivity)]
    norm_num
  refine ⟨⟨by positivity, by norm_num, isPhase_ieee32 a⟩, ⟨by positivity, by norm_num, isPhase_ieee32 b⟩,
    Or.inl ⟨by norm_num, by norm_num⟩, ?_, ftz32_fix.2 ⟨a, Or.inr ?_⟩, ftz32_fix.2 ⟨b, Or.inr ?_⟩⟩
  · rw [show (3 : ℝ) / 2 ^ 127 - 1 / 2 ^ 126 = 1 / 2 ^ 127 by norm_num, abs_of_pos (by positivity)]
  · rw [abs_of_pos (by positivity)]
  · rw [abs_of_pos (by positivity)]; norm_num

/-- An oscillator can be started at phase `2^-126` in flush-to-zero mode; asked for `1.5·2^-126` next, it
aborts. -/
example (ft : FilterType) (dir : Sys.Direction) : ∃ wt o, Built envFtz [0, 1, 2, 3, 4, 5, 6, 7] 1 3 44100 (1 / 256) wt ∧
    (sysFtz ft).init (sysFtz ft).fresh (some wt) (1 / 2 ^ 126) (1 / 16) = .ok (o, 0) ∧
    (sysFtz ft).process dir o [3 / 2 ^ 127] [0] = .error .assertFail := by
  obtain ⟨wt, hb⟩ := exampleWt envFtz envFtz_ok [0, 1, 2, 3, 4, 5, 6, 7] (by simp)
  have hf : Rounding (sysFtz ft).env.fl := envFtz_ok.1
  have hw := hb.ok envFtz_ok.1 envFtz_ok.2.1
  obtain ⟨c, t, hn, hfind, hw', hcs, ht0, ht1, htu⟩ := Sys.find_spec hf hw
    (abs_pos.2 (show (1 / 16 : ℝ) ≠ 0 by norm_num))
  have p0 : (0 : ℝ) ≤ 1 / 2 ^ 126 := by positivity
  have p1 : (1 : ℝ) / 2 ^ 126 < 1 := by norm_num
  have hp : ∃ o, (sysFtz ft).init (sysFtz ft).fresh (some wt) (1 / 2 ^ 126) (1 / 16) = .ok (o, 0) ∧
      o.wt.isSome = true ∧ o.prevPhase = 1 / 2 ^ 126 := by
    have hL := hw.L18
    obtain ⟨hr0, hr1, hr2⟩ := Sys.pos_range (n := 3 - t.idx.toNat) (by omega) p0 p1
    have e1 : (sysFtz ft).env.fl ((1 : ℝ) / 2 ^ 126) = 1 / 2 ^ 126 := hf.inv_pow 126
    unfold Sys.init Sys.resetInternals
    dsimp only
    rw [Maths.reduceF_unit hf p0 p1, R.ok_bind, hfind, R.ok_bind]
    dsimp only
    rw [hw'.waveformLen ht0 ht1, R.ok_bind, Sys.pos_exact hf (by omega) e1 p0 p1.le]
    unfold Sys.segIndex
    rw [if_pos (by norm_num), Maths.floor_small hf (by linarith) (by linarith), R.ok_bind]
    exact ⟨_, rfl, rfl, rfl⟩
  obtain ⟨o, e, h1, h2⟩ := hp
  refine ⟨wt, o, hb, e, C76_tiny (sysFtz ft) rfl rfl dir o h1 _ ?_ [] [0] rfl⟩
  rw [h2, show (3 : ℝ) / 2 ^ 127 - 1 / 2 ^ 126 = 1 / 2 ^ 127 by norm_num, abs_of_pos (by positivity)]

theorem mipSamples_ftz (w : List ℝ) (i : ℕ) : mipSamples envFtz w i = mipSamples envI w i := by
  induction i using Nat.strong_induction_on with
  | _ i ih =>
    conv_lhs => unfold mipSamples
    conv_rhs => unfold mipSamples
    split_ifs with h0 h1
    · rfl
    · rfl
    · rw [ih (i - 8) (by omega)]; rfl

/-- C76 applies to runs of any length of any eight samples in `[-1, 1]`, with any built-in filter. -/
example (ft : FilterType) (ws : List ℝ) (hws : ws.length = 2 ^ 3) (h1 : ∀ x ∈ ws, |x| ≤ 1) (n : ℕ) :
    ∃ (st : ℕ → Osc ℝ (CFl ftz32)) (y : ℕ → ℝ),
      (∀ i ≤ n, (sysFtz ft).process .kForward (st i) [(((i + 1) % 16 : ℕ) : ℝ) / 16] [0] =
        .ok (st (i + 1), [y i])) ∧
      |y n - filtered (valFilter CFloat.val (sysFtz ft).flt) (played envFtz ws 3 (st 0).crt
        (fun _ => ⟨0, 1, 0 + 1, 0⟩) (unwrapped 0 (fun _ => 1 / 16))) (n + 1)| ≤
        1 / 2 ^ 21 * 17 * roundoffGain (valFilter CFloat.val (sysFtz ft).flt) 6.4 := by
  obtain ⟨st, y, h, h0, hd⟩ := floatRunG (rnd := ftz32) envFtz envFtz_ok ft ws hws (n + 1)
  refine ⟨st, y, fun i hi => h.call i (by omega), ?_⟩
  have := C76_accuracy ft ws 1 3 1 16
    (fun w hw i hi => by rw [mipSamples_ftz]; exact tablesWithinI zero_le_one h1 1 3 w hw i hi)
    (fun w hw i hi k => by
      rw [mipSamples_ftz]
      have := slopesWithinI zero_le_one h1 1 3 w hw i hi k
      norm_num at this ⊢; exact this)
    (by norm_num) (by norm_num)
    (n + 1) st _ _ y _ h (fun i _ => ((C76_phases _).1 (phase16G envFtz_ok.1 (i + 1))).2.2)
    (fun i _ => by rw [hd]; norm_num [abs_of_pos]) n (Nat.lt_succ_self n)
  rw [h0] at this
  have e : trueStepOf ftz32 (fun _ => Sys.Direction.kForward) 0
      (fun i => (((i + 1) % 16 : ℕ) : ℝ) / 16) = fun _ => 1 / 16 := funext (trueStep16G envFtz_ok.1)
  rw [e] at this
  norm_num at this ⊢
  exact this

end Adwt.Props
