import Verif.Props.Bounded
import Verif.Proofs.Convolution

/-!
# C37: a whole run is the convolution of the waveform with the filter's impulse response
-/

set_option linter.unusedSectionVars false

namespace Adwt.Props
open WavetableData

/-- C37: in exact arithmetic, from zero filter memory, output `n` of a run of any length, in any
mixture of modes, with any table changes that carry the position over correctly, is the value at
time `n + 1` of the continuous-time filter fed with the waveform read along the piecewise linear
unwrapped phase. -/
theorem C37_convolution (S : Sys ℝ ℂ) (hS : ExactSys S) (hl : Log2Spec S.env.log2f) (ws : List ℝ)
    (nw L m : ℕ) (st : ℕ → Osc ℝ ℂ) (dir : ℕ → Sys.Direction) (p y : ℕ → ℝ)
    (t : ℕ → MipMapIndices ℝ) (h : TrackedRun S ws nw L m st dir p y t) (n : ℕ) (hn : n < m) :
    y n = filtered S.flt (played S.env ws L (st 0).crt t
      (unwrapped (st 0).prevPhase (stepOf dir (st 0).prevPhase p))) (n + 1) := by
  obtain ⟨-, -, -, -, h1, h2⟩ := Sys.run_conv hS hl h (n := n + 1) hn
  obtain ⟨hlen, hy⟩ := h2 n rfl
  rw [hy]
  unfold output filtered
  congr 1
  have e : (st (n + 1)).prevY.sum = ∑ k ∈ Finset.range S.n, (st (n + 1)).prevY.getD k 0 := by
    rw [← hlen, Finset.sum_range, ← List.sum_ofFn]
    congr 1
    apply List.ext_getElem
    · simp
    · intro i h1 h2
      simp [List.getD_eq_getElem?_getD, h1]
  rw [e]
  apply Finset.sum_congr rfl
  intro k hk
  rw [h1 k (Finset.mem_range.1 hk)]
  push_cast
  rfl

/-! ### the hypotheses are met -/

/-- Any built-in filter, any eight samples: a run of any length at a steady step. -/
theorem steadyRun (ft : FilterType) (ws : List ℝ) (hws : ws.length = 2 ^ 3) (m : ℕ) :
    ∃ st y, TrackedRun (sysOf envX ft) ws 1 3 m st (fun _ => .kForward)
      (fun i => (((i + 1) % 16 : ℕ) : ℝ) / 16) y (fun _ => ⟨0, 1, 0 + 1, 0⟩) := by
  obtain ⟨o, h1, hy⟩ := at_init ft ws 3 (by norm_num) (by norm_num) hws 1
    le_rfl (by norm_num) (p := 0) (d := 1 / 16) (by norm_num) (by norm_num) (i := 0)
    (oct0 (by norm_num))
    (cf_idle (by norm_num) (by norm_num) (oct0 (by norm_num [abs_of_pos])))
  have ex : ∀ (k : ℕ) (o : Osc ℝ ℂ), ∃ (r : Osc ℝ ℂ × ℝ),
      At (sysOf envX ft) ws 3 o ⟨1, octaveScale ℝ 3, 0, 0, 0⟩ 0 (1 / 16) (((k % 16 : ℕ) : ℝ) / 16) →
      (sysOf envX ft).process .kForward o [(((k + 1) % 16 : ℕ) : ℝ) / 16] [0] = .ok (r.1, [r.2]) ∧
      At (sysOf envX ft) ws 3 r.1 ⟨1, octaveScale ℝ 3, 0, 0, 0⟩ 0 (1 / 16)
        ((((k + 1) % 16 : ℕ) : ℝ) / 16) ∧
      NextIndices (sysOf envX ft) o r.1.prevPhaseDiff ⟨0, 1, 0 + 1, 0⟩ := by
    intro k o
    by_cases h : At (sysOf envX ft) ws 3 o ⟨1, octaveScale ℝ 3, 0, 0, 0⟩ 0 (1 / 16)
        (((k % 16 : ℕ) : ℝ) / 16)
    · obtain ⟨⟨o2, y2, e, h2⟩, hn⟩ := h.step (dir := .kForward) (range16 (k + 1)) (mod16_step k).1
        (Or.inr (by norm_num)) (mod16_step k).2
        (cf_idle (by norm_num) (by norm_num) (oct0 (by norm_num [abs_of_pos])))
      refine ⟨(o2, y2), fun _ => ⟨e, h2, ?_⟩⟩
      rw [h2.diff]; exact hn
    · exact ⟨(o, 0), fun h' => absurd h' h⟩
  choose f hf using ex
  let st : ℕ → Osc ℝ ℂ := fun k => Nat.rec o (fun k o => (f k o).1) k
  have hst : ∀ k, At (sysOf envX ft) ws 3 (st k) ⟨1, octaveScale ℝ 3, 0, 0, 0⟩ 0 (1 / 16)
      (((k % 16 : ℕ) : ℝ) / 16) := by
    intro k
    induction k with
    | zero =>
      have e : (((0 % 16 : ℕ) : ℕ) : ℝ) / 16 = 0 := by norm_num
      rw [e]; exact h1
    | succ k ih => exact (hf k (st k) ih).2.1
  refine ⟨st, fun k => (f k (st k)).2, ?_⟩
  refine ⟨h1.plays, ?_, fun i _ => range16 _, ?_, ?_, ?_, ?_, ?_⟩
  · intro y hy'
    have hy' : y ∈ o.prevY := hy'
    rw [hy] at hy'
    exact (List.mem_replicate.1 hy').2
  · intro i _
    rw [(hst i).phase]
    exact (mod16_step i).1
  · intro i _
    exact (hf i (st i) (hst i)).1
  · intro i _
    exact (hf i (st i) (hst i)).2.2
  · intro i _
    exact Or.inl (hst i).mip.symm
  · intro i _
    rw [(hst i).phase]
    have := offDenormal_dyadic (i % 16 : ℕ) 4 3 (by norm_num) (by norm_num)
    norm_num at this ⊢
    exact this

/-- C37 applies: the steady run reads table 0 at the phase `u / 16`. -/
example (ft : FilterType) (ws : List ℝ) (hws : ws.length = 2 ^ 3) (n : ℕ) :
    ∃ (st : ℕ → Osc ℝ ℂ) (y : ℕ → ℝ), (∀ i ≤ n, (sysOf envX ft).process .kForward (st i) [(((i + 1) % 16 : ℕ) : ℝ) / 16] [0] =
      .ok (st (i + 1), [y i])) ∧
      y n = filtered (filterX ft) (played envX ws 3 (st 0).crt (fun _ => ⟨0, 1, 0 + 1, 0⟩)
        (unwrapped (st 0).prevPhase (stepOf (fun _ => .kForward) (st 0).prevPhase
          (fun i => (((i + 1) % 16 : ℕ) : ℝ) / 16)))) (n + 1) := by
  obtain ⟨st, y, h⟩ := steadyRun ft ws hws (n + 1)
  refine ⟨st, y, fun i hi => h.call i (by omega), ?_⟩
  exact C37_convolution _ (exactSys ft) log2X ws 1 3 _ st _ _ y _ h n (Nat.lt_succ_self n)

end Adwt.Props
