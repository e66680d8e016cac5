import Verif.Props.Convolution
import Verif.Proofs.FloatNu

/-!
# C59, C60: the output in float arithmetic
-/

set_option linter.unusedSectionVars false

namespace Adwt.Props
open WavetableData
variable {C : Type} [Zero C] [Add C] [Sub C] [Mul C] [Div C]

/-- C59: one sample with every operation rounded, underflow and overflow included. From every reached
state, in either mode, through table changes and fades that carry the position over correctly: the
memory of each coefficient differs from the exact formula (for the stored coefficients, tables and
memory, and the exact phase difference) by at most `ε` times an explicit constant, the output from the
real part of the sum of the memories by `2 n ε (Σ ‖y‖ + 2^-90)`; the step which the oscillator
computes differs from the exact phase difference, up to whole periods, by at most `3 ε`. The tables are
neither vanishing nor huge (`2^-40 ≤ A + Λ ≤ 2^24`), the step is at least `2^-100` and the memory at
most `2^90`. -/
theorem C59_sample (S : Sys ℝ C) (val : C → ℂ) (ε : ℝ) (hS : FloatSys S val ε)
    (hl : Log2Spec S.env.log2f) (ws : List ℝ) (nw L : ℕ) (A Λ : ℝ)
    (hA : TablesWithin S.env ws nw L A) (hΛ : SlopesWithin S.env ws nw L Λ)
    (M0 : 1 / 2 ^ 40 ≤ A + Λ) (M1 : A + Λ ≤ 2 ^ 24)
    (o : Osc ℝ C) (ho : Plays S ws nw L o) (dir : Sys.Direction) (p b : ℝ)
    (hp : PhaseOk S.env.fl p) (hs : StepOk dir o.prevPhase p) (o' : Osc ℝ C)
    (ys : List ℝ) (h : S.process dir o [p] [b] = .ok (o', ys)) (t : MipMapIndices ℝ)
    (ht : NextIndices S o o'.prevPhaseDiff t) (hm : TableMove o t.idx)
    (hx : OffDenormal (2 ^ (L - t.idx.toNat)) o.prevPhase) (ν : ℝ)
    (hν : 2 ^ (L - t.idx.toNat) * |trueStep S.env.fl dir p o.prevPhase| + 2 ≤ ν)
    (hd : 1 / 2 ^ 100 ≤ |o'.prevPhaseDiff|) (hY : ∀ c ∈ o.prevY, ‖val c‖ ≤ 2 ^ 90) :
    (∃ k : ℤ, trueStep S.env.fl dir p o.prevPhase = p - o.prevPhase + k) ∧
    |o'.prevPhaseDiff - trueStep S.env.fl dir p o.prevPhase| ≤ 3 * ε ∧
    o'.prevY.length = S.flt.r.length ∧
    (∀ k < S.flt.r.length,
      let flt := valFilter val S.flt
      let Y := o.prevY.map val
      let exact := nextMemory flt Y (mixture S.env ws L o.crt t) o.prevPhase
        (trueStep S.env.fl dir p o.prevPhase)
      let z := flt.z.getD k 0
      let r := flt.r.getD k 0
      ‖(o'.prevY.map val).getD k 0 - exact.getD k 0‖ ≤
        ε * (4 * ‖Complex.exp z‖ * ‖Y.getD k 0‖ +
          2 * ‖r‖ * ((132 * ν ^ 2 * (1 + ‖z‖) / ‖z‖ ^ 2 + 7) * (A + Λ)))) ∧
    ∃ y, ys = [y] ∧ |y - output (o'.prevY.map val)| ≤
      2 * S.flt.r.length * ε * (((o'.prevY.map val).map fun c => ‖c‖).sum + 1 / 2 ^ 80) := by
  have hpl := Sys.reached_play hS.fl hl hS.B ho.1
  obtain ⟨wt, hwt, -⟩ := hpl.wt
  obtain ⟨y, e, rfl⟩ := process_one (by rw [hwt]; rfl) h
  have hd' := (Sys.stepDir_tables e).2.2.1
  rw [hd'] at ht hd ⊢
  have hp' : PhaseOk S.env.fl p := hp
  obtain ⟨-, -, -, -, h1, h2, h3⟩ := Sys.step_near hS hl hA hΛ M0 M1 ho hp' hs e ht hm hx hν hd
  obtain ⟨t1, -, -, t2⟩ := Sys.true_step hS (dir := dir) hpl.toOscOk.phase hp'
  have hY' : ∀ k, ‖val (o.prevY.getD k 0)‖ ≤ 2 ^ 90 := by
    intro k
    rw [List.getD_eq_getElem?_getD]
    cases e : o.prevY[k]? with
    | none => simp [hS.ops.zero]
    | some c => exact hY c (List.mem_of_getElem? e)
  refine ⟨t2, t1, h2, ?_, y, rfl, ?_⟩
  · intro k hk
    have hk' : k < (valFilter val S.flt).r.length := by simpa [valFilter] using hk
    have hr : (valFilter val S.flt).r.getD k 0 = val (S.rA k) := Sys.val_getD hS _ k
    have hz : (valFilter val S.flt).z.getD k 0 = val (S.zA k) := Sys.val_getD hS _ k
    dsimp only
    rw [Sys.nextMemory_getD hk', hr, hz, Sys.val_getD hS, Sys.val_getD hS]
    have := h1 k hk (val (o.prevY.getD k 0)) 0 (by simp) (by rw [add_zero]; exact hY' k)
    simpa using this
  · rw [Sys.fsum_getD]
    simp only [List.length_map, h2]
    simp only [Sys.val_getD hS]
    exact h3 fun k hk => Sys.step_mem_range hS hl hA hΛ M0 M1 ho hp' hs e ht hm hx hd hk (hY' k)

/-- C60: a whole run with every operation rounded, underflow and overflow included. From zero filter memory, for a run of any length
`m`, in any mixture of modes and table changes that carry the position over correctly: every output
differs from the value of the continuous-time filter fed with the waveform (the exact formula, see
C37, for the stored coefficients and tables and the exact phase differences) by at most `ε` times
the size of the tables times a constant of the filter (no sample passes more than 4.4 points of a
table). The bound does not grow with the number of
samples played; in particular the memory never overflows. -/
theorem C60_run (S : Sys ℝ C) (val : C → ℂ) (ε : ℝ) (hS : FloatSys S val ε)
    (hl : Log2Spec S.env.log2f) (ws : List ℝ) (nw L : ℕ) (A Λ : ℝ)
    (hA : TablesWithin S.env ws nw L A) (hΛ : SlopesWithin S.env ws nw L Λ)
    (M0 : 1 / 2 ^ 40 ≤ A + Λ) (M1 : A + Λ ≤ 2 ^ 24)
    (m : ℕ) (st : ℕ → Osc ℝ C) (dir : ℕ → Sys.Direction) (p y : ℕ → ℝ) (t : ℕ → MipMapIndices ℝ)
    (h : TrackedRun S ws nw L m st dir p y t) (hp : ∀ i < m, IsPhase S.env.fl (p i))
    (hd : ∀ i < m, 1 / 2 ^ 100 ≤ |(st (i + 1)).prevPhaseDiff|) (n : ℕ) (hn : n < m) :
    |y n - filtered (valFilter val S.flt) (played S.env ws L (st 0).crt t
        (unwrapped (st 0).prevPhase (trueStepOf S.env.fl dir (st 0).prevPhase p))) (n + 1)| ≤
      ε * (A + Λ) * roundoffGain (valFilter val S.flt) 6.4 :=
  Sys.run_output hS hl hA hΛ M0 M1 h hp (fun _ hi => Sys.run_nu hS hl h hp hi) hd hn

end Adwt.Props
