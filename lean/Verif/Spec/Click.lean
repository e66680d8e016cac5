import Verif.Spec.Headroom
import Verif.Spec.Octave

/-!
# Clicks
-/

namespace Adwt

/-- How much of a start `n` samples ago is still to be heard in the next sample. -/
noncomputable def startRest (flt : Filter ℂ) (n : ℕ) : ℝ := ∫ s in (n : ℝ)..n + 1, |impulse flt s|

/-- A phase step in octave `i` or in the next one above. -/
def TwoOctaves (L : ℕ) (i : ℤ) (d : ℝ) : Prop := IsOctave L i d ∨ IsOctave L (i + 1) d

end Adwt
