import Verif.Proofs.FloatTone
import Verif.Props.FloatExamples
import Verif.Props.Stored

/-!
# C70: bounded output and steady tones in float arithmetic
-/

set_option linter.unusedSectionVars false

namespace Adwt.Props
open WavetableData
variable {C : Type} [Zero C] [Add C] [Sub C] [Mul C] [Div C]

/-- C70: with every operation rounded, the output of a run of any length stays within the size of the
tables times a constant of the filter, plus the rounding error of C60. -/
theorem C70_bounded (S : Sys ℝ C) (val : C → ℂ) (ε : ℝ) (hS : FloatSys S val ε)
    (hl : Log2Spec S.env.log2f) (ws : List ℝ) (nw L : ℕ) (A Λ : ℝ)
    (hA : TablesWithin S.env ws nw L A) (hΛ : SlopesWithin S.env ws nw L Λ)
    (M0 : 1 / 2 ^ 40 ≤ A + Λ) (M1 : A + Λ ≤ 2 ^ 24)
    (m : ℕ) (st : ℕ → Osc ℝ C) (dir : ℕ → Sys.Direction) (p y : ℕ → ℝ) (t : ℕ → MipMapIndices ℝ)
    (h : TrackedRun S ws nw L m st dir p y t) (hp : ∀ i < m, IsPhase S.env.fl (p i))
    (hd : ∀ i < m, 1 / 2 ^ 100 ≤ |(st (i + 1)).prevPhaseDiff|) (n : ℕ) (hn : n < m) :
    |y n| ≤ 1.001 * A * filterGain (valFilter val S.flt) +
      ε * (A + Λ) * roundoffGain (valFilter val S.flt) 6.4 := by
  have h1 := C60_run S val ε hS hl ws nw L A Λ hA hΛ M0 M1 m st dir p y t h hp hd n hn
  have h2 := Sys.filtered_bound hS hl hA hΛ M0 M1 h hp hd hn
  have := abs_add_le (y n - filtered (valFilter val S.flt) (played S.env ws L (st 0).crt t
    (unwrapped (st 0).prevPhase (trueStepOf S.env.fl dir (st 0).prevPhase p))) (n + 1))
    (filtered (valFilter val S.flt) (played S.env ws L (st 0).crt t
    (unwrapped (st 0).prevPhase (trueStepOf S.env.fl dir (st 0).prevPhase p))) (n + 1))
  rw [sub_add_cancel] at this
  linarith

/-- C70: with every operation rounded, whatever was played up to sample `N`: once the step is a
steady `d` and a single table `i` is selected, the output approaches the tone of that table (the
response of the filter to the table read with `d` cycles per sample forever, at the phase of the
sample) exponentially, up to the rounding error of C60. -/
theorem C70_tone (S : Sys ℝ C) (val : C → ℂ) (ε : ℝ) (hS : FloatSys S val ε)
    (hl : Log2Spec S.env.log2f) (ws : List ℝ) (nw L : ℕ) (A Λ : ℝ)
    (hA : TablesWithin S.env ws nw L A) (hΛ : SlopesWithin S.env ws nw L Λ)
    (M0 : 1 / 2 ^ 40 ≤ A + Λ) (M1 : A + Λ ≤ 2 ^ 24) (σ : ℝ) (hσ : PolesLeft (valFilter val S.flt) σ)
    (m : ℕ) (st : ℕ → Osc ℝ C) (dir : ℕ → Sys.Direction) (p y : ℕ → ℝ) (t : ℕ → MipMapIndices ℝ)
    (h : TrackedRun S ws nw L m st dir p y t) (hp : ∀ i < m, IsPhase S.env.fl (p i))
    (hd : ∀ i < m, 1 / 2 ^ 100 ≤ |(st (i + 1)).prevPhaseDiff|) (N : ℕ) (i : ℤ) (d : ℝ)
    (hN : ∀ n, N ≤ n → n < m → t n = ⟨i, 1, i + 1, 0⟩ ∧
      trueStepOf S.env.fl dir (st 0).prevPhase p n = d) (n : ℕ) (hn0 : N ≤ n) (hn : n < m) :
    |y n - tone (valFilter val S.flt) (waveAt S.env ws L (st 0).crt i) d (p n)| ≤
      Real.exp (-σ * (n + 1 - N)) * (2.002 * A * filterGain (valFilter val S.flt)) +
      ε * (A + Λ) * roundoffGain (valFilter val S.flt) 6.4 := by
  have hσ1 : ∀ z ∈ S.flt.z, (val z).re ≤ -σ := fun z hz => hσ _ (List.mem_map_of_mem hz)
  have h1 := C60_run S val ε hS hl ws nw L A Λ hA hΛ M0 M1 m st dir p y t h hp hd n hn
  have h2 := Sys.filtered_tone hS hl hA hΛ M0 M1 hσ1 h hp hd hN hn0 hn
  rw [Nat.cast_sub (by omega)] at h2
  push_cast at h2
  have := abs_sub_le (y n) (filtered (valFilter val S.flt) (played S.env ws L (st 0).crt t
    (unwrapped (st 0).prevPhase (trueStepOf S.env.fl dir (st 0).prevPhase p))) (n + 1))
    (tone (valFilter val S.flt) (waveAt S.env ws L (st 0).crt i) d (p n))
  linarith

/-- C70 applies: any built-in filter, any eight samples in `[-1, 1]`, a run of any length in IEEE
floats at a steady step; its harmonics are those of the table times the stored filter's gain
(C53, C68). -/
example (ft : FilterType) (ws : List ℝ) (hws : ws.length = 2 ^ 3) (h1 : ∀ x ∈ ws, |x| ≤ 1) (n : ℕ) :
    ∃ (st : ℕ → Osc ℝ CFloat) (y : ℕ → ℝ),
      (∀ i ≤ n, (sysF ft).process .kForward (st i) [(((i + 1) % 16 : ℕ) : ℝ) / 16] [0] =
        .ok (st (i + 1), [y i])) ∧
      |y n - tone (valFilter CFloat.val (sysF ft).flt) (waveAt envI ws 3 (st 0).crt 0) (1 / 16)
          ((((n + 1) % 16 : ℕ) : ℝ) / 16)| ≤
        Real.exp (-0.28 * (n + 1)) * (2.002 * filterGain (valFilter CFloat.val (sysF ft).flt)) +
        1 / 2 ^ 21 * 17 * roundoffGain (valFilter CFloat.val (sysF ft).flt) 6.4 := by
  obtain ⟨st, y, h, h0, hd⟩ := floatRun ft ws hws (n + 1)
  refine ⟨st, y, fun i hi => h.call i (by omega), ?_⟩
  have e : trueStepOf (sysF ft).env.fl (fun _ => Sys.Direction.kForward) (st 0).prevPhase
      (fun i => (((i + 1) % 16 : ℕ) : ℝ) / 16) = fun _ => 1 / 16 := by
    rw [h0]; exact funext trueStep16
  have := C70_tone _ _ _ (floatSys ft) log2I ws 1 3 1 16 (tablesWithinI zero_le_one h1 1 3)
    (by have := slopesWithinI zero_le_one h1 1 3; norm_num at this; exact this)
    (by norm_num) (by norm_num) 0.28
    (fun z hz => by
      obtain ⟨c, hc, rfl⟩ := List.mem_map.1 hz
      have := (sysF_pole hc).1
      norm_num at this ⊢; linarith)
    (n + 1) st _ _ y _ h (fun i _ => (phase16 (i + 1)).2.2) (fun i _ => by rw [hd]; norm_num [abs_of_pos]) 0 0 (1 / 16) (fun k _ _ => ⟨rfl, by rw [e]⟩) n (Nat.zero_le n)
      (Nat.lt_succ_self n)
  norm_num at this ⊢
  exact this

end Adwt.Props
