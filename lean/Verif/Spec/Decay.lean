import Verif.Spec.Playing
import Verif.Spec.Legal

/-!
# Decay of the filter memory
-/

namespace Adwt

/-- All poles lie left of `-σ`. -/
def PolesLeft (flt : Filter ℂ) (σ : ℝ) : Prop := ∀ z ∈ flt.z, z.re ≤ -σ

/-- Distance of two filter memories. -/
noncomputable def memDist (n : ℕ) (y y' : List ℂ) : ℝ :=
  ∑ k ∈ Finset.range n, ‖y.getD k 0 - y'.getD k 0‖

/-- No `resetInternals` among the calls. -/
def NoReset (ops : List (Op ℝ)) : Prop := ∀ op ∈ ops, ∀ p d, op ≠ .reset p d

/-- The gain of a filter at frequency 0: the integral of `Σ 2 r e^{z t}` over `[0, ∞)`. -/
noncomputable def dcGain (flt : Filter ℂ) : ℝ :=
  (∑ k ∈ Finset.range flt.r.length, -(2 * flt.r.getD k 0 / flt.z.getD k 0)).re

/-- The resampler reproduces constants: a constant period, repeated five times, comes out constant
in the middle period. -/
def KeepsConstants (E : Env ℝ) : Prop :=
  ∀ (c : ℝ) (n r : ℕ), decimate E (List.replicate n c) r = List.replicate (n / r) c

/-- The resampler is linear. -/
def LinearResampler (E : Env ℝ) : Prop :=
  ∀ (a b : ℝ) (v w : List ℝ) (r : ℕ), v.length = w.length →
    decimate E (List.zipWith (fun x y => a * x + b * y) v w) r =
      List.zipWith (fun x y => a * x + b * y) (decimate E v r) (decimate E w r)

end Adwt
