import Verif.Proofs.SoundOnly
import Verif.Props.Program

/-!
# C107: the type of an oscillator does not influence what it does
-/

set_option linter.unusedSectionVars false

namespace Adwt.Props
open WavetableData
variable {K C C' : Type} [Field K] [LinearOrder K] [IsStrictOrderedRing K] [FloorRing K]
variable [Zero C] [Add C] [Sub C] [Mul C] [Div C]
variable [Zero C'] [Add C'] [Sub C'] [Mul C'] [Div C']

/-- C107: any program, legal or not, executed by oscillators of any types (`S`: filters, complex arithmetic, SIMD
width) and by oscillators of any other types (`S'`) compiled with the same real arithmetic, from states that differ
only in the filter memories: both fail with the same error, or both succeed, and again the states differ only in the
filter memories. -/
theorem C107_program (S : ℕ → Sys K C) (S' : ℕ → Sys K C') (hE : ∀ i, (S i).env = (S' i).env)
    (hB : ∀ i, 0 < (S i).B) (hB' : ∀ i, 0 < (S' i).B) (cs : List (Stmt K)) (b : Bank K C) (b' : Bank K C')
    (hb : b.SameButSound b') :
    (∃ e, b.runS S cs = .error e ∧ b'.runS S' cs = .error e) ∨
    ∃ r r', b.runS S cs = .ok r ∧ b'.runS S' cs = .ok r' ∧ r.SameButSound r' := by
  have key := Bank.runS_both (fun i => ⟨hE i, hB i, hB' i⟩) cs hb
  revert key
  generalize b.runS S cs = x
  generalize b'.runS S' cs = y
  intro key
  cases x <;> cases y
  · exact Or.inl ⟨_, rfl, by rw [show _ = _ from key]⟩
  · exact key.elim
  · exact key.elim
  · exact Or.inr ⟨_, _, rfl, rfl, key⟩

/-- C107: in particular when nothing has been built yet. -/
theorem C107_from_start (S : ℕ → Sys K C) (S' : ℕ → Sys K C') (hE : ∀ i, (S i).env = (S' i).env)
    (hB : ∀ i, 0 < (S i).B) (hB' : ∀ i, 0 < (S' i).B) (cs : List (Stmt K)) :
    (∃ e, (Bank.fresh S).runS S cs = .error e ∧ (Bank.fresh S').runS S' cs = .error e) ∨
    ∃ r r', (Bank.fresh S).runS S cs = .ok r ∧ (Bank.fresh S').runS S' cs = .ok r' ∧ r.SameButSound r' :=
  C107_program S S' hE hB hB' cs _ _ ⟨fun _ => ⟨rfl, rfl, rfl, rfl, rfl, rfl, rfl, rfl⟩, rfl, fun _ => rfl⟩

/-- C107: so the getters, and any later query of the octave, answer the same. -/
theorem C107_getters (S : Sys K C) (S' : Sys K C') (hE : S.env = S'.env) (o : Osc K C) (o' : Osc K C')
    (h : o.SameButSound o') :
    S.numWaveforms o = S'.numWaveforms o' ∧ o.prevPhase = o'.prevPhase ∧ o.prevPhaseDiff = o'.prevPhaseDiff ∧
    o.crt = o'.crt ∧ ∀ d, o.wt.map (fun wt => (wt.findMipMapIndices S.env d).map (·.2)) =
      o'.wt.map fun wt => (wt.findMipMapIndices S'.env d).map (·.2) := by
  refine ⟨?_, h.prevPhase, h.prevPhaseDiff, h.crt, fun d => by rw [h.wt, hE]⟩
  unfold Sys.numWaveforms
  rw [h.wt, hE]

/-- C107: nor does the type influence how often the corner loops run at each sample of a block (in the lower and in
the upper table): a type costs more than another one only by its number of sections and its batches. -/
theorem C107_work (S : Sys K C) (S' : Sys K C') (hE : S.env = S'.env) (hB : 0 < S.B) (hB' : 0 < S'.B)
    (o : Osc K C) (o' : Osc K C') (h : o.SameButSound o') (dir : Sys.Direction) (phases output : List K)
    (r : Osc K C × List K) (counts : List (ℕ × ℕ)) (hr : S.processW dir o phases output = .ok (r, counts)) :
    ∃ r', S'.processW dir o' phases output = .ok (r', counts) := by
  have key := Sys.processW_both ⟨hE, hB, hB'⟩ dir h phases (rfl : output.length = output.length)
  rw [hr] at key
  revert key
  generalize S'.processW dir o' phases output = y
  intro key
  cases y with
  | error => exact key.elim
  | ok r' =>
    have : counts = r'.2 := (show Sys.CallButW (r, counts) r' from key).2
    exact ⟨r'.1, by rw [this]⟩

/-- C107 applies, in IEEE floats: the program of C96 with two oscillators of any built-in types and three wavetables
runs with any other built-in types, and ends with the same wavetables in the same places and as many samples. -/
example (t0 t1 u0 u1 : FilterType) (ws ws' : List ℝ) (h : ws.length = 8) (h' : ws'.length = 32) :
    let S : ℕ → Sys ℝ CFloat := fun i => if i = 1 then sysF t1 else sysF t0
    let S' : ℕ → Sys ℝ CFloat := fun i => if i = 1 then sysF u1 else sysF u0
    ∃ b b', (Bank.fresh S).runS S (legalProg ws ws') = .ok b ∧ (Bank.fresh S').runS S' (legalProg ws ws') = .ok b' ∧
      b.SameButSound b' ∧ (b'.logs 0).length = 4 := by
  intro S S'
  have hB : ∀ t, 0 < (sysF t).B := fun t => (floatSys t).B
  have he : ∀ t u, (sysF t).env = (sysF u).env := fun t u => by cases t <;> cases u <;> rfl
  obtain ⟨k, b, hk, e, hn⟩ := legalProg_runs t0 t1 ws ws' h h'
  rcases C107_from_start S S' (fun i => by simp only [S, S']; split <;> exact he _ _)
    (fun i => by simp only [S]; split <;> exact hB _) (fun i => by simp only [S']; split <;> exact hB _)
    (legalProg ws ws') with ⟨x, ex, -⟩ | ⟨r, r', er, er', hr⟩
  · rw [e] at ex; cases ex
  · rw [e] at er; cases er
    exact ⟨b, r', e, er', hr, by rw [← hr.logs 0]; exact hn.2.1⟩

/-- C107 covers more than the built-in filters: a filter without any section never sounds, and a program that runs
with it runs, with the built-in one, without a fault. -/
example (t : FilterType) (cs : List (Stmt ℝ)) (e : Err)
    (h : (Bank.fresh fun _ => sysF t).runS (fun _ => sysF t) cs = .error e) :
    let D : Sys ℝ CFloat := { sysF t with flt := ⟨[], []⟩ }
    (Bank.fresh fun _ => D).runS (fun _ => D) cs = .error e := by
  intro D
  rcases C107_from_start (fun _ => sysF t) (fun _ => D) (fun _ => rfl) (fun _ => (floatSys t).B)
    (fun _ => (floatSys t).B) cs with ⟨x, ex, ex'⟩ | ⟨r, r', er, -⟩
  · rw [h] at ex; cases ex; exact ex'
  · rw [h] at er; cases er

end Adwt.Props
