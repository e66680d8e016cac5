import Verif.Spec.Playing
import Verif.Spec.Legal

/-!
# Bounds on the output
-/

namespace Adwt

/-- All samples of all mipmap tables of all waveforms are at most `A` in absolute value. -/
def TablesWithin (E : Env ℝ) (ws : List ℝ) (nw L : ℕ) (A : ℝ) : Prop :=
  ∀ w < nw, ∀ i, i + 1 < L → ∀ x ∈ mipSamples E (waveformOf ws (2 ^ L) w) i, |x| ≤ A

/-- A constant depending only on the filter and the number `N` of samples per waveform. -/
noncomputable def safeGain (flt : Filter ℂ) (N : ℕ) : ℝ :=
  ∑ k ∈ Finset.range flt.r.length, 2 * ‖flt.r.getD k 0‖ *
    (2 * (‖flt.z.getD k 0‖ * (4 * N + 1) + N) + 2 * N * N) /
    (‖flt.z.getD k 0‖ ^ 2 * (1 - Real.exp (flt.z.getD k 0).re))

/-- The integral of `Σ 2 |r e^{z t}|` over `[0, ∞)`: a constant depending only on the filter. -/
noncomputable def filterGain (flt : Filter ℂ) : ℝ :=
  ∑ k ∈ Finset.range flt.r.length, 2 * ‖flt.r.getD k 0‖ / -(flt.z.getD k 0).re

/-- Every sample of the history, played from the state `o`, finds the position carried over
correctly: the table moves of C36 and the phases of C48 do not occur. -/
inductive Tracked (S : Sys ℝ ℂ) (L : ℕ) : Osc ℝ ℂ → List (Op ℝ) → Prop where
  | done {o} : Tracked S L o []
  | block {o dir ops} (h : Tracked S L o ops) : Tracked S L o (.process dir [] :: ops)
  | sample {o o' dir p ps ops ys t} (h : S.process dir o [p] [0] = .ok (o', ys))
      (ht : NextIndices S o o'.prevPhaseDiff t) (hm : TableMove o t.idx)
      (hx : OffDenormal (2 ^ (L - t.idx.toNat)) o.prevPhase)
      (hr : Tracked S L o' (.process dir ps :: ops)) :
      Tracked S L o (.process dir (p :: ps) :: ops)
  | setWaveform {o o' i ops} (h : S.setWaveform o i = .ok o') (hr : Tracked S L o' ops) :
      Tracked S L o (.setWaveform i :: ops)
  | reset {o o' p d ops} (h : S.resetInternals o p d = .ok o') (hr : Tracked S L o' ops) :
      Tracked S L o (.reset p d :: ops)

end Adwt
