import Verif.Spec.Convolution

/-!
# Wavetables that differ little
-/

namespace Adwt

/-- Corresponding samples of all mipmap tables of all waveforms differ by at most `δ`. -/
def TablesClose (E : Env ℝ) (ws ws' : List ℝ) (nw L : ℕ) (δ : ℝ) : Prop :=
  ∀ w < nw, ∀ i, i + 1 < L → ∀ k : ℤ,
    |cyc (mipSamples E (waveformOf ws (2 ^ L) w) i) k - cyc (mipSamples E (waveformOf ws' (2 ^ L) w) i) k| ≤ δ

/-- Two lists of the same length whose entries differ by at most `δ`. -/
def Close (δ : ℝ) (v v' : List ℝ) : Prop := List.Forall₂ (fun x y => |x - y| ≤ δ) v v'

/-- A resampler that enlarges differences at most `G` times. -/
def StableSrc (E : Env ℝ) (G : ℝ) : Prop :=
  ∀ (v v' : List ℝ) (δ : ℝ), 0 ≤ δ → Close δ v v' → ∀ out ratio i : ℕ,
    |(E.src v out ratio).data i - (E.src v' out ratio).data i| ≤ G * δ

end Adwt
