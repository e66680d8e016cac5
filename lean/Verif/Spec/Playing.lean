import Verif.Spec.Reached
import Verif.Spec.Integral

/-!
# Playing a known wavetable
-/

namespace Adwt

/-- Arithmetic without rounding, a filter with as many poles as residues, none of them zero, and a
positive SIMD width. -/
structure ExactSys (S : Sys ℝ ℂ) : Prop where
  fl : S.env.fl = id
  ops : S.ops = copsX
  B : 0 < S.B
  len : S.flt.r.length = S.flt.z.length
  z0 : ∀ z ∈ S.flt.z, z ≠ 0

variable {C : Type} [Zero C] [Add C] [Sub C] [Mul C] [Div C]

/-- The oscillator is in a state reached by legal calls, and the tables it holds are those which
`build` makes from the samples `ws`. -/
def Plays (S : Sys ℝ C) (ws : List ℝ) (nw L : ℕ) (o : Osc ℝ C) : Prop :=
  Reached S nw L o ∧ ∃ sr dur wt0 wt, Built S.env ws nw L sr dur wt0 ∧ o.wt = some wt ∧
    tablesOf wt = tablesOf wt0

/-- Waveform `w` at mipmap level `i`, as a function of the phase. -/
noncomputable def waveAt (E : Env ℝ) (ws : List ℝ) (L : ℕ) (w i : ℤ) : ℝ → ℝ :=
  interp (mipSamples E (waveformOf ws (2 ^ L) w.toNat) i.toNat)

/-- The mixture of two mipmap levels which a tuple of indices and weights denotes. -/
noncomputable def mixture (E : Env ℝ) (ws : List ℝ) (L : ℕ) (w : ℤ) (t : MipMapIndices ℝ) :
    ℝ → ℝ :=
  fun u => t.weight * waveAt E ws L w t.idx u + t.weightUp * waveAt E ws L w t.idxUp u

/-- The tuple the crossfader gives for the next sample, if its step is `d`. -/
def NextIndices (S : Sys ℝ C) (o : Osc ℝ C) (d : ℝ) (t : MipMapIndices ℝ) : Prop :=
  ∃ wt wt', o.wt = some wt ∧ wt.findMipMapIndices S.env |d| = .ok (wt', t)

/-- The phase is not closer than the smallest normal float to a grid point of a table with `N`
samples, unless it is one. -/
def OffDenormal (N : ℕ) (x : ℝ) : Prop := ∀ k : ℤ, x = k / N ∨ 1 / 2 ^ 126 ≤ |x - k / N|

/-- How the lower table of the next sample may differ from that of the last one, for the position
to be carried over correctly: not at all; by any number of octaves up, after a forward step; or by
one octave down. -/
def TableMove (o : Osc ℝ C) (idx : ℤ) : Prop :=
  idx = o.prevMip ∨ (0 < o.prevPhaseDiff ∧ o.prevMip < idx) ∨ idx + 1 = o.prevMip

end Adwt
