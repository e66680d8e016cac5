import Verif.Proofs.BuildMode
import Verif.Props.Program

/-!
# C106: debug and release builds
-/

set_option linter.unusedSectionVars false

namespace Adwt.Props
open WavetableData
variable {K C : Type} [Field K] [LinearOrder K] [IsStrictOrderedRing K] [FloorRing K]
variable [Zero C] [Add C] [Sub C] [Mul C] [Div C]

/-- C106: any program, legal or not, from any state: unless one of its calls fails an assertion, the release build
ends in the same way, in the same state and with the same outputs, bit for bit; and a release build never fails an
assertion. Arithmetic, resampler, filters and SIMD width are arbitrary. -/
theorem C106_program (S : ℕ → Sys K C) (b : Bank K C) (cs : List (Stmt K)) :
    (b.runS S cs = .error .assertFail ∨ b.runS (fun i => (S i).release) cs = b.runS S cs) ∧
    b.runS (fun i => (S i).release) cs ≠ .error .assertFail :=
  Bank.runS_mode S cs b

/-- C106: the same for one block with any output buffer. -/
theorem C106_process (S : Sys K C) (dir : Sys.Direction) (o : Osc K C) (phases output : List K) :
    (S.process dir o phases output = .error .assertFail ∨
      S.release.process dir o phases output = S.process dir o phases output) ∧
    S.release.process dir o phases output ≠ .error .assertFail :=
  Sys.process_mode S dir o phases output

/-- C106: the same for one block with the spans anywhere in one memory, overlapping or not. -/
theorem C106_in_place (S : Sys K C) (dir : Sys.Direction) (o : Osc K C) (mem : ℕ → K) (pa pn oa on : ℕ) :
    (S.processMem dir o mem pa pn oa on = .error .assertFail ∨
      S.release.processMem dir o mem pa pn oa on = S.processMem dir o mem pa pn oa on) ∧
    S.release.processMem dir o mem pa pn oa on ≠ .error .assertFail :=
  Sys.processMem_mode S dir o mem pa pn oa on

/-- C106: and for the reference oscillator of the benchmarks and its benchmark, with any downsampler. -/
theorem C106_reference {D : Type} (E : Env K) (initD : D → Nat → D) (down : D → List K → Nat → D × List K)
    (o : Ovs.OvsOsc K D) (ws : List K) (sr : K) (numFrames blockSize : Nat) :
    (Ovs.juceBench E initD down o ws sr numFrames blockSize = .error .assertFail ∨
      Ovs.juceBench E.release initD down o ws sr numFrames blockSize =
        Ovs.juceBench E initD down o ws sr numFrames blockSize) ∧
    Ovs.juceBench E.release initD down o ws sr numFrames blockSize ≠ .error .assertFail :=
  Ovs.juceBench_mode E initD down o ws sr numFrames blockSize

/-- C106: in particular, a program that was seen to run in a debug build runs in the release build, with the same
state and outputs. -/
theorem C106_tested (S : ℕ → Sys K C) (b b' : Bank K C) (cs : List (Stmt K)) (h : b.runS S cs = .ok b') :
    b.runS (fun i => (S i).release) cs = .ok b' := by
  rcases (C106_program S b cs).1 with e | e
  · rw [h] at e; cases e
  · rw [e, h]

/-- C106: and every program that keeps the contract of C96 plays the same in both builds. -/
theorem C106_legal (S : ℕ → Sys K C) (hE : ∀ i, (S i).env = (S 0).env) (hf : Rounding (S 0).env.fl)
    (hl : Log2Spec (S 0).env.log2f) (hc : SrcContract (S 0).env.src) (hB : ∀ i, 0 < (S i).B)
    (cs : List (Stmt K)) (k : Known K) (h : LegalProg S Known.start cs k) :
    ∃ b, (Bank.fresh S).runS S cs = .ok b ∧ (Bank.fresh S).runS (fun i => (S i).release) cs = .ok b := by
  obtain ⟨b, e, -⟩ := C96_safe S hE hf hl hc hB cs k h
  exact ⟨b, e, C106_tested S _ _ _ e⟩

/-- The case that C106 leaves out happens: `setWaveform` before the first `init` aborts a debug build, and a release
build goes on. -/
example (t : FilterType) :
    (Bank.fresh fun _ => sysF t).runS (fun _ => sysF t) [.call (.setWaveform 0 3)] = .error .assertFail ∧
    ∃ b, (Bank.fresh fun _ => sysF t).runS (fun _ => (sysF t).release) [.call (.setWaveform 0 3)] = .ok b ∧
      (b.oscs 0).crt = 3 := by
  refine ⟨?_, _, rfl, rfl⟩
  have : (sysF t).env.dbg = true := by cases t <;> rfl
  simp [Bank.runS, Bank.exec, Bank.execS, Sys.setWaveform, chk, this, Bank.fresh, Sys.fresh, Bind.bind, Except.bind]

/-- C106 applies: the program of C96 with two oscillators of any types and three wavetables, in IEEE floats, plays
the same in both builds. -/
example (t0 t1 : FilterType) (ws ws' : List ℝ) (h : ws.length = 8) (h' : ws'.length = 32) :
    let S : ℕ → Sys ℝ CFloat := fun i => if i = 1 then sysF t1 else sysF t0
    ∃ b, (Bank.fresh S).runS S (legalProg ws ws') = .ok b ∧
      (Bank.fresh S).runS (fun i => (S i).release) (legalProg ws ws') = .ok b ∧ (b.logs 0).length = 4 := by
  intro S
  obtain ⟨k, b, hk, e, hn⟩ := legalProg_runs t0 t1 ws ws' h h'
  exact ⟨b, e, C106_tested S _ _ _ e, hn.2.1⟩

end Adwt.Props
