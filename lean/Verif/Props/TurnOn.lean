import Verif.Proofs.TurnOnNum
import Verif.Props.Decay
import Verif.Props.Stored
import Verif.Props.Headroom

/-!
# C88: what is heard when a sound starts
-/

set_option linter.unusedSectionVars false

namespace Adwt.Props
open MeasureTheory

/-- C88: for constant waveforms the output of any legal history of calls, with crossfades, changes of
direction, changes of the waveform and resets, is known exactly: it is the constant times the step response
of the filter, evaluated at the number of samples since the last `init` or `resetInternals`, and depends on
nothing else. -/
theorem C88_exact (S : Sys ℝ ℂ) (hS : ExactSys S) (hl : Log2Spec S.env.log2f) (hk : KeepsConstants S.env)
    (nw L : ℕ) (c : ℝ) (o : Osc ℝ ℂ) (ho : Plays S (List.replicate (nw * 2 ^ L) c) nw L o)
    (hy : ∀ y ∈ o.prevY, y = 0) (ops : List (Op ℝ)) (hops : HistoryOk S.env.fl nw o.prevPhase ops)
    (o' : Osc ℝ ℂ) (ys : List ℝ) (h : runOps S o ops = .ok (o', ys)) :
    ys = sinceReset (fun n => c * stepResponse S.flt n) 0 ops := by
  have hf := Sys.exact_rounding hS
  have hpl := Sys.reached_play hf hl hS.B ho.1
  obtain ⟨wt, hwt, hlin⟩ := ho.lines hS.fl hl
  rw [Sys.runOps_atoms hf hS.B hpl hops] at h
  have hc : ∀ w i j : ℤ, 0 ≤ w → w < nw → 0 ≤ i → i < (L : ℤ) - 1 →
      Sys.tabY S.env (List.replicate (nw * 2 ^ L) c) L w i j = c := by
    intro w i j a b d e
    have hlen := hlin.len w i a b d e
    unfold Sys.tabY
    obtain ⟨n, e1⟩ := waveform_const (c := c) (nw := nw) (L := L) (w := w.toNat)
    rw [e1] at hlen ⊢
    obtain ⟨m, e2⟩ := mip_const hk c n i.toNat
    rw [e2] at hlen ⊢
    apply cyc_const
    rw [List.length_replicate] at hlen
    rw [hlen]; positivity
  rw [Sys.turn_atoms hS hpl hwt hlin hc (Sys.atomsOk_history.2 hops) h (Sys.turn_zero hy), Sys.sinceReset_atoms]

/-- C88: the step responses of the built-in filters after 1, 2, 3 and 4 samples, -/
theorem C88_table (t : FilterType) (n : ℕ) (hn : n < 4) :
    |stepResponse (filterX t) (n + 1 : ℕ) - (stepTable t).getD n 0| ≤ 1e-5 := step_builtin t hn

/-- and of the filters as the compiler stores them: -/
theorem C88_stored (t : FilterType) (flt : Filter ℂ) (h : StoredFilter (1 / 2 ^ 23) t flt) (T : ℝ) (hT : 0 ≤ T) :
    |stepResponse flt T - stepResponse (filterX t) T| ≤ 2.5e-4 := by
  obtain ⟨h1, h2, h3⟩ := stored_area h
  unfold stepResponse
  rw [← intervalIntegral.integral_sub ((impulse_continuous _).intervalIntegrable _ _)
    ((impulse_continuous _).intervalIntegrable _ _)]
  have hi : IntegrableOn (fun s => |impulse flt s - impulse (filterX t) s|) (Set.Ioi 0) :=
    ((impulse_integrable h2 0).sub (impulse_integrable h3 0)).abs
  calc _ ≤ ∫ s in (0 : ℝ)..T, |impulse flt s - impulse (filterX t) s| :=
        intervalIntegral.abs_integral_le_integral_abs hT
    _ ≤ ∫ s in Set.Ioi 0, |impulse flt s - impulse (filterX t) s| := by
        rw [intervalIntegral.integral_of_le hT]
        exact setIntegral_mono_set hi (Filter.Eventually.of_forall fun _ => abs_nonneg _)
          (Set.Ioc_subset_Ioi_self).eventuallyLE
    _ ≤ _ := h1.trans (by norm_num)

/-- C88: no step response ever exceeds the headroom of the filter (C87). -/
theorem C88_headroom (t : FilterType) (T : ℝ) (hT : 0 ≤ T) : |stepResponse (filterX t) T| ≤ headroom t := by
  have h3 : ∀ k < (filterX t).r.length, ((filterX t).z.getD k 0).re < 0 := (stored_area (C68_stored t)).2.2
  unfold stepResponse
  exact (intervalIntegral.abs_integral_le_integral_abs hT).trans ((impulse_area h3 hT).trans (C87_gain t))

/-- C88, the finding: with every built-in filter the output overshoots a constant waveform after a start or
a reset, within the first three samples, by up to 18 percent (2.5, 15.4, 10.8, 4.5 and 18.1), -/
theorem C88_overshoot (t : FilterType) : ∃ n, n ≤ 3 ∧
    stepResponse (filterX t) (n : ℕ) ≥ (match t with
      | .kType1 => 1.025 | .kType2 => 1.154 | .kType3 => 1.108 | .kType4 => 1.045 | .kType5 => 1.181 : ℝ) := by
  have key : ∀ (n : ℕ) (q : ℚ) (x : ℝ), n < 4 → (stepTable t).getD n 0 = q → x ≤ (q : ℝ) - 1e-5 →
      x ≤ stepResponse (filterX t) (n + 1 : ℕ) := by
    intro n q x hn hq hx
    have := (abs_le.1 (C88_table t n hn)).1
    rw [hq] at this
    linarith
  cases t
  · exact ⟨2, by norm_num, key 1 1.02587 _ (by norm_num) rfl (by norm_num)⟩
  · exact ⟨3, by norm_num, key 2 1.15421 _ (by norm_num) rfl (by norm_num)⟩
  · exact ⟨2, by norm_num, key 1 1.10811 _ (by norm_num) rfl (by norm_num)⟩
  · exact ⟨3, by norm_num, key 2 1.04562 _ (by norm_num) rfl (by norm_num)⟩
  · exact ⟨3, by norm_num, key 2 1.18127 _ (by norm_num) rfl (by norm_num)⟩

/-- and the first sample is always below the waveform: by 7 percent with the shallowest filter, by at least
85 percent with the steepest ones. A reset in the middle of a sound is therefore audible. -/
theorem C88_first (t : FilterType) : stepResponse (filterX t) (1 : ℕ) ≤ (match t with
      | .kType1 => 0.934 | .kType2 => 0.148 | .kType3 => 0.503 | .kType4 => 0.127 | .kType5 => 0.13 : ℝ) := by
  have key : ∀ (q : ℚ) (x : ℝ), (stepTable t).getD 0 0 = q → (q : ℝ) + 1e-5 ≤ x →
      stepResponse (filterX t) (0 + 1 : ℕ) ≤ x := by
    intro q x hq hx
    have := (abs_le.1 (C88_table t 0 (by norm_num))).2
    rw [hq] at this
    generalize stepResponse (filterX t) (0 + 1 : ℕ) = y at *
    linarith
  cases t
  · exact key 0.93309 _ rfl (by norm_num)
  · exact key 0.14763 _ rfl (by norm_num)
  · exact key 0.50273 _ rfl (by norm_num)
  · exact key 0.12614 _ rfl (by norm_num)
  · exact key 0.12905 _ rfl (by norm_num)

/-! ### the hypotheses are met -/

/-- a history with both modes and a reset -/
noncomputable def turnOps : List (Op ℝ) := exampleOps ++ [.reset (1 / 2) (1 / 16), .process .kForward [5 / 8, 3 / 4, 7 / 8]]

/-- Constant samples, any built-in filter: a history of seven samples with a reset after four, and its
outputs. -/
theorem turnExample (t : FilterType) (c : ℝ) : ∃ o o',
    Plays (sysOf envX t) (List.replicate (1 * 2 ^ 3) c) 1 3 o ∧
    runOps (sysOf envX t) o turnOps = .ok (o', [c * stepResponse (filterX t) (1 : ℕ), c * stepResponse (filterX t) (2 : ℕ),
      c * stepResponse (filterX t) (3 : ℕ), c * stepResponse (filterX t) (4 : ℕ), c * stepResponse (filterX t) (1 : ℕ),
      c * stepResponse (filterX t) (2 : ℕ), c * stepResponse (filterX t) (3 : ℕ)]) := by
  obtain ⟨o, h1, hy⟩ := at_init t (List.replicate (1 * 2 ^ 3) c) 3 (by norm_num) (by norm_num) (by simp) 1
    le_rfl (by norm_num) (p := 0) (d := 1 / 16) (by norm_num) (by norm_num) (i := 0)
    (oct0 (by norm_num))
    (cf_idle (by norm_num) (by norm_num) (oct0 (by norm_num [abs_of_pos])))
  have hph := h1.phase
  have hS := exactSys t
  have hf := Sys.exact_rounding hS
  have hs : HistorySafe (sysOf envX t).env.fl 1 o.prevPhase turnOps := by
    rw [hph]
    refine ⟨⟨⟨?_, ?_, isPhase_id _⟩, Or.inl ?_, ⟨?_, ?_, isPhase_id _⟩, Or.inl ?_, trivial⟩, by norm_num, by norm_num,
      ⟨⟨?_, ?_, isPhase_id _⟩, ⟨?_, ?_⟩, ⟨?_, ?_, isPhase_id _⟩, ⟨?_, ?_⟩, trivial⟩,
      ⟨?_, ?_, isPhase_id _⟩, ?_, (fun h => absurd h (by norm_num)), ⟨⟨?_, ?_, isPhase_id _⟩, Or.inl ?_, ⟨?_, ?_, isPhase_id _⟩, Or.inl ?_,
        ⟨?_, ?_, isPhase_id _⟩, Or.inl ?_, trivial⟩, trivial⟩ <;> norm_num
  have ho : HistoryOk (sysOf envX t).env.fl 1 o.prevPhase turnOps := by
    rw [hph]
    refine ⟨⟨⟨?_, ?_, isPhase_id _⟩, Or.inl ?_, ⟨?_, ?_, isPhase_id _⟩, Or.inl ?_, trivial⟩, by norm_num, by norm_num,
      ⟨⟨?_, ?_, isPhase_id _⟩, ?_, ⟨?_, ?_, isPhase_id _⟩, ?_, trivial⟩,
      ⟨?_, ?_, isPhase_id _⟩, ?_, ⟨⟨?_, ?_, isPhase_id _⟩, Or.inl ?_, ⟨?_, ?_, isPhase_id _⟩, Or.inl ?_,
        ⟨?_, ?_, isPhase_id _⟩, Or.inl ?_, trivial⟩, trivial⟩ <;> norm_num [StepOk]
  have hz : ¬ AtZeroBackward o := fun hz => by
    have := hz.2; rw [h1.diff] at this; norm_num at this
  obtain ⟨⟨o', ys⟩, e, -⟩ := Sys.history_ok hf hS.B (Sys.reached_safe hf log2X hS.B h1.plays.1 hz) hs
  have key := C88_exact _ hS log2X keepsX 1 3 c o h1.plays (by
    rw [hy]; intro y h; exact List.eq_of_mem_replicate h) _ ho _ _ e
  refine ⟨o, o', h1.plays, ?_⟩
  rw [e, key]
  rfl

end Adwt.Props
