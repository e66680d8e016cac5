import Verif.Spec.Slow
import Verif.Spec.Octave

/-!
# The crossfade with which a sound begins
-/

namespace Adwt
variable {K : Type} [Field K] [LinearOrder K]

/-- Weight of the neighbouring table in sample `n = 0, 1, …` of a sound, if a crossfade takes `num` samples. -/
def leadWeight (fl : K → K) (num : ℤ) (n : ℕ) : K := fl (fl ((num - (n + 1) : ℤ) : K) / fl (num : K))

/-- The tables and weights of sample `n` of a sound whose steps lie in octave `b`, if a newly built wavetable is set
to octave `a`: unless `a = b`, the samples before number `num - 1` contain the neighbouring table of `b`, the one on
the side of `a`, in the decreasing proportion `leadWeight`. -/
def leadIn (fl : K → K) (num a b : ℤ) (n : ℕ) : MipMapIndices K :=
  if a = b ∨ num ≤ n then ⟨b, 1, b + 1, 0⟩
  else if num = n + 1 then ⟨b, 1, b, 0⟩
  else if b < a then ⟨b, fl (1 - leadWeight fl num n), b + 1, leadWeight fl num n⟩
  else ⟨b - 1, leadWeight fl num n, b, fl (1 - leadWeight fl num n)⟩

/-- Calling `findMipMapIndices` of a wavetable with the steps `ds` one after the other. -/
def findAll [FloorRing K] (E : Env K) (wt : WavetableData K) : List K → R (WavetableData K)
  | [] => .ok wt
  | d :: ds => do
    let (wt, _) ← wt.findMipMapIndices E d
    findAll E wt ds

end Adwt
