import Verif.Spec.Octave
import Verif.Model.Wavetable
import Mathlib.Tactic.Ring

/-!
# Specification of the contents of a wavetable

Nothing here refers to how the constructor of `WavetableData` computes its tables.
-/

namespace Adwt
variable {K : Type} [Field K] [LinearOrder K] [IsStrictOrderedRing K] [FloorRing K]

/-- What libsamplerate promises for a decimation by an integer ratio of at most 256: when the input
length is the ratio times the output length, it reports success, uses all of the input and fills
the whole output. -/
def SrcContract (src : List K → Nat → Nat → SrcResult K) : Prop :=
  ∀ inp out ratio, 2 ≤ ratio → ratio ≤ 256 → inp.length = out * ratio →
    (src inp out ratio).err = 0 ∧ (src inp out ratio).inputUsed = inp.length ∧
      (src inp out ratio).outputGen = out

/-- `w` decimated by `r`: five copies of the period are handed to the resampler and the third
output period is kept. -/
def decimate (E : Env K) (w : List K) (r : ℕ) : List K :=
  (List.range (w.length / r)).map fun i =>
    (E.src (w ++ w ++ w ++ w ++ w) (5 * (w.length / r)) r).data (2 * (w.length / r) + i)

/-- The samples from which mipmap table `i` is made: the waveform itself, its decimation by `2^i`
up to `i = 8`, and beyond that the decimation by 256 of the samples of table `i-8`. -/
def mipSamples (E : Env K) (w : List K) (i : ℕ) : List K :=
  if i = 0 then w
  else if i ≤ 8 then decimate E w (2 ^ i)
  else decimate E (mipSamples E w (i - 8)) 256
termination_by i
decreasing_by omega

/-- The `w`-th of the consecutive waveforms of length `len` in a span. -/
def waveformOf (ws : List K) (len w : ℕ) : List K := (ws.drop (w * len)).take len

/-- Sample `k`, periodically. -/
def sampleAt (y : List K) (k : ℕ) : K := y.getD (k % y.length) 0

/-- Entries of a list of lists of lists, as the getters `m(w,i)[k]` see them. -/
def entry3 (t : List (List (List K))) (w i k : ℕ) : Option K :=
  (t[w]?.bind fun a => a[i]?).bind fun a => a[k]?

end Adwt
