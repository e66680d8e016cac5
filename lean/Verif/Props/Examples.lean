import Verif.Props.Wavetable
import Verif.Proofs.Reached
import Verif.Spec.Integral
import Mathlib.Analysis.SpecialFunctions.Complex.Circle
import Mathlib.Analysis.SpecialFunctions.Exp

/-!
# Concrete oscillators for the examples
-/

namespace Adwt.Props
open WavetableData

/-- a complex literal -/
noncomputable def clit (x : CLit) : ℂ := ⟨(x.1 : ℝ), (x.2 : ℝ)⟩

/-- the coefficients of a built-in filter -/
noncomputable def filterX (t : FilterType) : Filter ℂ := ⟨(rLit t).map clit, (zLit t).map clit⟩

/-- The oscillator types of the library, with the default SIMD batch of four complex floats. -/
noncomputable def sysOf (E : Env ℝ) (t : FilterType) : Sys ℝ ℂ := ⟨E, copsX, filterX t, 4⟩

/-- a wavetable built from 8 samples -/
theorem exampleWt (E : Env ℝ) (hE : Rounding E.fl ∧ Log2Spec E.log2f ∧ SrcContract E.src) (ws : List ℝ) (h : ws.length = 8) :
    ∃ wt, Built E ws 1 3 44100 (1 / 256) wt := by
  obtain ⟨wt, hw⟩ := example_build E hE ws h
  have hf := hE.1
  refine ⟨wt, ?_, ?_, by simpa using h, hw⟩
  · have := hf.isRate 44100 (by norm_num); simpa using this
  · have e : (1 / 256 * 44100 : ℝ) = ((44100 : ℤ) : ℝ) / 2 ^ 8 := by norm_num
    rw [e, hf.dyadic 44100 8 (by norm_num)]; norm_num

theorem phaseOk_dyadic {fl : ℝ → ℝ} (hf : Rounding fl) {k n : ℕ} (h : k < 2 ^ n) (hn : n ≤ 24) :
    PhaseOk fl ((k : ℝ) / 2 ^ n) := by
  refine ⟨by positivity, ?_, ?_⟩
  · rw [div_lt_one (by positivity)]; exact_mod_cast h
  · have hk : k ≤ 2 ^ 24 := h.le.trans (Nat.pow_le_pow_right (by norm_num) hn)
    exact hf.dyadic_ph k n hk

/-- An initialised oscillator with any built-in filter exists, under IEEE rounding and in exact
arithmetic: phase 0, step 3/8. -/
theorem exampleReached (E : Env ℝ) (hE : Rounding E.fl ∧ Log2Spec E.log2f ∧ SrcContract E.src) (t : FilterType) (ws : List ℝ)
    (h : ws.length = 8) :
    ∃ o, Reached (sysOf E t) 1 3 o ∧ o.prevPhase = 0 ∧ o.prevPhaseDiff = 3 / 8 := by
  obtain ⟨wt, hw⟩ := exampleWt E hE ws h
  have hok : Rounding E.fl ∧ Log2Spec E.log2f := ⟨hE.1, hE.2.1⟩
  have hi : InitOk E.fl 0 (3 / 8) := by
    refine ⟨?_, by norm_num⟩
    have := phaseOk_dyadic hok.1 (k := 0) (n := 1) (by norm_num) (by norm_num)
    simpa using this
  obtain ⟨⟨o, r⟩, e, -, h1, h2, -⟩ := Sys.init_play (S := sysOf E t) hok.1 (sysOf E t).fresh
    (hw.ok hok.1 hok.2) hi.1 hi.2
  exact ⟨o, Reached.init hw hi e, h1, h2⟩

end Adwt.Props
