import Verif.Spec.Program

/-!
# States that differ only in what is heard
-/

namespace Adwt
variable {K C C' : Type} [Field K]

/-- Two oscillators, of whatever types, in the same state but for the filter memory. -/
structure Osc.SameButSound (o : Osc K C) (o' : Osc K C') : Prop where
  wt : o.wt = o'.wt
  prevPhase : o.prevPhase = o'.prevPhase
  prevPhaseRed : o.prevPhaseRed = o'.prevPhaseRed
  prevPhaseDiff : o.prevPhaseDiff = o'.prevPhaseDiff
  prevMip : o.prevMip = o'.prevMip
  jRed : o.jRed = o'.jRed
  prevJRed : o.prevJRed = o'.prevJRed
  crt : o.crt = o'.crt

/-- Two sets of oscillators, wavetables and recordings: the same wavetables in the same variables, the oscillators in
the same states but for the filter memories, and the recordings of the same lengths. -/
structure Bank.SameButSound (b : Bank K C) (b' : Bank K C') : Prop where
  oscs : ∀ i, (b.oscs i).SameButSound (b'.oscs i)
  slots : b.slots = b'.slots
  logs : ∀ i, (b.logs i).length = (b'.logs i).length

end Adwt
