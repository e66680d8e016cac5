import Verif.Proofs.Repeat
import Verif.Props.FloatExamples

/-!
# C98: a sequence of calls that is repeated repeats its output in the end, bit for bit
-/

set_option linter.unusedSectionVars false

namespace Adwt.Props
open WavetableData

/-- **C98**, for any arithmetic in which a sum of two complex numbers of the filter has finitely many values:
`ops` is a legal sequence of calls that ends at the phase where it began. Repeated for ever (`st k` and `ys k`
are the state before and the samples of the `k`-th pass), it never faults, and from some pass on both the samples and
the whole state repeat themselves exactly. -/
theorem C98_repeats {K C : Type} [Field K] [LinearOrder K] [IsStrictOrderedRing K] [FloorRing K]
    [Zero C] [Add C] [Sub C] [Mul C] [Div C] {S : Sys K C} (hf : Rounding S.env.fl)
    (hl : Log2Spec S.env.log2f) (hB : 0 < S.B) (hfin : (Set.range fun x : C × C => x.1 + x.2).Finite)
    {nw L : ℕ} {o : Osc K C} (h : Reached S nw L o) (hz : ¬ AtZeroBackward o) {ops : List (Op K)}
    (hs : HistorySafe S.env.fl nw o.prevPhase ops) (he : endPhase o.prevPhase ops = o.prevPhase) :
    ∃ (st : ℕ → Osc K C) (ys : ℕ → List K), st 0 = o ∧
      (∀ k, runOps S (st k) ops = .ok (st (k + 1), ys k)) ∧
      EventuallyPeriodic ys ∧ EventuallyPeriodic st := by
  obtain ⟨st, ys, h0, h1, N, Q, hQ, hp⟩ := Sys.repeats hf hB hfin (Sys.reached_safe hf hl hB h hz) hs he
  exact ⟨st, ys, h0, h1, ⟨N, Q, hQ, fun n hn => (Prod.mk.inj (hp n hn)).2⟩,
    ⟨N, Q, hQ, fun n hn => (Prod.mk.inj (hp n hn)).1⟩⟩

/-- **C98** in IEEE floats: any filter, batch size and resampler, debug or release, with or without fused
multiplications. -/
theorem C98_ieee (S : Sys ℝ CFloat) (he : S.env.fl = ieee32) (hl : Log2Spec S.env.log2f) (hB : 0 < S.B)
    {nw L : ℕ} {o : Osc ℝ CFloat} (h : Reached S nw L o)
    (hz : ¬ AtZeroBackward o) {ops : List (Op ℝ)} (hs : HistorySafe ieee32 nw o.prevPhase ops)
    (hp : endPhase o.prevPhase ops = o.prevPhase) :
    ∃ (st : ℕ → Osc ℝ CFloat) (ys : ℕ → List ℝ), st 0 = o ∧
      (∀ k, runOps S (st k) ops = .ok (st (k + 1), ys k)) ∧
      EventuallyPeriodic ys ∧ EventuallyPeriodic st :=
  C98_repeats (S := S) (by rw [he]; exact rounding_ieee32) hl hB
    (sums_finite grid_finite) h hz (by rw [he]; exact hs) hp

/-- **C98** in a host that flushes subnormal numbers to zero. -/
theorem C98_flush (S : Sys ℝ (CFl ftz32)) (he : S.env.fl = ftz32) (hl : Log2Spec S.env.log2f) (hB : 0 < S.B)
    {nw L : ℕ} {o : Osc ℝ (CFl ftz32)} (h : Reached S nw L o)
    (hz : ¬ AtZeroBackward o) {ops : List (Op ℝ)} (hs : HistorySafe ftz32 nw o.prevPhase ops)
    (hp : endPhase o.prevPhase ops = o.prevPhase) :
    ∃ (st : ℕ → Osc ℝ (CFl ftz32)) (ys : ℕ → List ℝ), st 0 = o ∧
      (∀ k, runOps S (st k) ops = .ok (st (k + 1), ys k)) ∧
      EventuallyPeriodic ys ∧ EventuallyPeriodic st :=
  C98_repeats (S := S) (by rw [he]; exact rounding_ftz32) hl hB
    (sums_finite grid_finite_ftz) h hz (by rw [he]; exact hs) hp

/-- Two blocks, one with a turn, and a `setWaveform`: they end at phase 0, where they began. -/
noncomputable def loopOps : List (Op ℝ) :=
  [.process .kForward [1 / 4, 1 / 2, 3 / 4], .setWaveform 0, .process .kBidirectionnal [5 / 8, 7 / 8, 0]]

theorem loopOps_safe {fl : ℝ → ℝ} (hf : Rounding fl) : HistorySafe fl 1 0 loopOps := by
  have h : ∀ k : ℕ, k < 8 → PhaseOk fl ((k : ℝ) / 2 ^ 3) := fun k hk => phaseOk_dyadic hf hk (by norm_num)
  have h0 := h 0 (by norm_num)
  have h2 := h 2 (by norm_num)
  have h4 := h 4 (by norm_num)
  have h5 := h 5 (by norm_num)
  have h6 := h 6 (by norm_num)
  have h7 := h 7 (by norm_num)
  norm_num at h0 h2 h4 h5 h6 h7
  refine ⟨⟨h2, ?_, h4, ?_, h6, ?_, trivial⟩, le_rfl, by norm_num, ⟨h5, ?_, h7, ?_, h0, ?_, trivial⟩, trivial⟩ <;>
    norm_num [StepSafe, Forward]

/-- C98 applies: any eight samples, any built-in filter; the same bar of music played for ever. -/
example (t : FilterType) (ws : List ℝ) (hws : ws.length = 8) :
    ∃ (st : ℕ → Osc ℝ CFloat) (ys : ℕ → List ℝ), Reached (sysF t) 1 3 (st 0) ∧
      (∀ k, runOps (sysF t) (st k) loopOps = .ok (st (k + 1), ys k)) ∧
      EventuallyPeriodic ys ∧ EventuallyPeriodic st := by
  obtain ⟨wt, hw⟩ := exampleWt envI envI_ok ws hws
  have hi : InitOk envI.fl 0 (3 / 8) := by
    refine ⟨?_, by norm_num⟩
    have := phaseOk_dyadic envI_ok.1 (k := 0) (n := 1) (by norm_num) (by norm_num)
    simpa using this
  obtain ⟨⟨o, r⟩, e, -, h1, h2, -⟩ := Sys.init_play (S := sysF t) envI_ok.1 (sysF t).fresh
    (hw.ok envI_ok.1 envI_ok.2.1) hi.1 hi.2
  have hr : Reached (sysF t) 1 3 o := Reached.init hw hi e
  dsimp only at h1 h2
  obtain ⟨st, ys, h0, hk, hp⟩ := C98_ieee (sysF t) rfl envI_ok.2.1 (by norm_num [sysF, sysRnd]) hr
    (by rintro ⟨-, h⟩; rw [h2] at h; norm_num at h)
    (by rw [h1]; exact loopOps_safe envI_ok.1) (by rw [h1]; simp [endPhase, loopOps])
  exact ⟨st, ys, by rw [h0]; exact hr, hk, hp⟩

end Adwt.Props
