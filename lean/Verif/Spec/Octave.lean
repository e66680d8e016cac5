import Verif.Model.CrossFader
import Mathlib.Algebra.Order.Ring.Abs
import Mathlib.Tactic.Linarith
import Mathlib.Tactic.Positivity

/-!
# Specification vocabulary for octave selection and crossfading
-/

namespace Adwt
variable {K : Type} [Field K] [LinearOrder K] [IsStrictOrderedRing K] [FloorRing K]

/-- A samplerate: a float well inside the exponent range, in that `sr·2^k` is a float for all
`|k| ≤ 24`. (For an IEEE float `2^-102 ≤ |sr| ≤ 2^103` is enough, see `isRate_ieee32`.) -/
def IsRate (fl : K → K) (sr : K) : Prop := ∀ k : ℤ, |k| ≤ 24 → fl (sr * 2 ^ k) = sr * 2 ^ k

/-- Table `i` (of `L-1` tables, waveform length `2^L`) is the one for phase step `d`: the octave
`[2^i, 2^(i+1)) / 2^L` contains `d`, except that the first table also serves everything below and
the last table everything above. -/
def IsOctave (L : ℕ) (i : ℤ) (d : K) : Prop :=
  0 ≤ i ∧ i ≤ (L : ℤ) - 2 ∧ (i = 0 ∨ 2 ^ i.toNat / 2 ^ L ≤ d) ∧
    (i = (L : ℤ) - 2 ∨ d < 2 ^ (i.toNat + 1) / 2 ^ L)

/-- The transition points of a wavetable of length `2^L`: independent of the samplerate. -/
def octaveScale (K : Type) [Field K] (L : ℕ) : List K :=
  (List.range (L - 1)).map fun i => 2 ^ (i + 1) / 2 ^ L

/-- Weight which a returned tuple gives to table `k`. -/
def MipMapIndices.weightOf (t : MipMapIndices K) (k : ℤ) : K :=
  (if t.idx = k then t.weight else 0) + (if t.idxUp = k then t.weightUp else 0)

/-- A history of calls of `newIndices`: final state and the tuples returned, in order. -/
def CrossFader.run (E : Env K) (c : CrossFader K) :
    List K → R (CrossFader K × List (MipMapIndices K))
  | [] => .ok (c, [])
  | d :: ds => do
    let (c1, t) ← c.newIndices E d
    let (c2, ts) ← c1.run E ds
    return (c2, t :: ts)

/-- A crossfader state that some history of calls reaches: construction for a wavetable of length
`2^L` (2 ≤ L ≤ 24) at some float samplerate with `num` crossfade samples, then any number of calls
with positive phase steps. -/
def CrossFader.Reachable (E : Env K) (L : ℕ) (num : ℤ) (c : CrossFader K) : Prop :=
  2 ≤ L ∧ L ≤ 24 ∧ ∃ sr c0 ds ts, 0 < sr ∧ IsRate E.fl sr ∧
    CrossFader.make E num ((2 : ℤ) ^ L) sr = .ok c0 ∧ (∀ d ∈ ds, 0 < d) ∧
    c0.run E ds = .ok (c, ts)

/-- At most one table index satisfies `IsOctave`. -/
theorem IsOctave.unique {L : ℕ} {i j : ℤ} {d : K} (hi : IsOctave L i d) (hj : IsOctave L j d) :
    i = j := by
  obtain ⟨i0, i1, i2, i3⟩ := hi
  obtain ⟨j0, j1, j2, j3⟩ := hj
  have aux : ∀ a b : ℤ, 0 ≤ a → a < b → (b = 0 ∨ 2 ^ b.toNat / 2 ^ L ≤ d) → b ≤ (L : ℤ) - 2 →
      (a = (L : ℤ) - 2 ∨ d < 2 ^ (a.toNat + 1) / 2 ^ L) → False := by
    intro a b ha hab hb hb' h
    rcases hb with hb | hb
    · omega
    rcases h with h | h
    · omega
    have h1 : (2 : K) ^ (a.toNat + 1) ≤ 2 ^ b.toNat :=
      pow_le_pow_right₀ (by norm_num) (by omega)
    have h2 : (2 : K) ^ (a.toNat + 1) / 2 ^ L ≤ 2 ^ b.toNat / 2 ^ L :=
      div_le_div_of_nonneg_right h1 (by positivity)
    linarith
  rcases lt_trichotomy i j with h | h | h
  · exact (aux i j i0 h j2 j1 i3).elim
  · exact h
  · exact (aux j i j0 h i2 i1 j3).elim

end Adwt
