import Verif.Proofs.TrackedBound
import Verif.Spec.Convolution

/-!
# Proof that a run is one integral
-/

set_option linter.unusedSectionVars false

namespace Adwt
open MeasureTheory

theorem floor_mid {n : ℕ} {u : ℝ} (h0 : (n : ℝ) ≤ u) (h1 : u < n + 1) : ⌊u⌋₊ = n :=
  (Nat.floor_eq_iff ((Nat.cast_nonneg n).trans h0)).2 ⟨h0, h1⟩

/-- A piecewise signal: on `[n, n+1)` it is `g n (u - n)`, all `g n` continuous. -/
theorem piece_integral {V : ℝ → ℝ} {g : ℕ → ℝ → ℝ} {m : ℕ} (hg : ∀ n < m, Continuous (g n))
    (hV : ∀ n < m, ∀ u : ℝ, (n : ℝ) ≤ u → u < n + 1 → V u = g n (u - n)) (z : ℂ) {n : ℕ}
    (hn : n < m) (T : ℂ) :
    IntervalIntegrable (fun u : ℝ => Complex.exp (z * (T - u)) * (V u : ℂ)) volume n (n + 1 : ℕ) ∧
    ∫ u in (n : ℝ)..(n + 1 : ℕ), Complex.exp (z * (T - u)) * (V u : ℂ) =
      ∫ u in (0 : ℝ)..1, Complex.exp (z * (T - n - u)) * (g n u : ℂ) := by
  have hgc := hg n hn
  have key : Set.EqOn (fun u : ℝ => Complex.exp (z * (T - u)) * (V u : ℂ))
      (fun u : ℝ => Complex.exp (z * (T - n - (u - n : ℝ))) * (g n (u - n) : ℂ))
      (Set.Ioo (n : ℝ) (n + 1 : ℕ)) := by
    intro u hu
    have h1 : u < n + 1 := by have := hu.2; push_cast at this; exact this
    dsimp only
    rw [hV n hn u hu.1.le h1]
    congr 2
    push_cast; ring
  have hc : Continuous fun u : ℝ => Complex.exp (z * (T - n - (u - n : ℝ))) * (g n (u - n) : ℂ) := by
    fun_prop
  have hle : (n : ℝ) ≤ (n + 1 : ℕ) := by push_cast; linarith
  have hae : (fun u : ℝ => Complex.exp (z * (T - n - (u - n : ℝ))) * (g n (u - n) : ℂ)) =ᵐ[
      volume.restrict (Set.uIoc (n : ℝ) (n + 1 : ℕ))]
      (fun u : ℝ => Complex.exp (z * (T - u)) * (V u : ℂ)) := by
    rw [Set.uIoc_of_le hle, Measure.restrict_congr_set Ioo_ae_eq_Ioc.symm]
    exact (ae_restrict_iff' measurableSet_Ioo).2 (Filter.Eventually.of_forall fun u hu => (key hu).symm)
  constructor
  · exact (hc.intervalIntegrable _ _).congr_ae hae
  · rw [← intervalIntegral.integral_congr_ae_restrict hae]
    have := intervalIntegral.integral_comp_sub_right (a := (n : ℝ)) (b := ((n + 1 : ℕ) : ℝ))
      (fun u : ℝ => Complex.exp (z * (T - n - u)) * (g n u : ℂ)) (n : ℝ)
    rw [this]
    congr 1 <;> push_cast <;> ring

/-- One more sample. -/
theorem conv_succ {V : ℝ → ℝ} {g : ℕ → ℝ → ℝ} {m : ℕ} (hg : ∀ n < m, Continuous (g n))
    (hV : ∀ n < m, ∀ u : ℝ, (n : ℝ) ≤ u → u < n + 1 → V u = g n (u - n)) (z : ℂ) {n : ℕ}
    (hn : n < m) :
    ∫ u in (0 : ℝ)..(n + 1 : ℕ), Complex.exp (z * ((n + 1 : ℕ) - u)) * (V u : ℂ) =
      Complex.exp z * (∫ u in (0 : ℝ)..n, Complex.exp (z * (n - u)) * (V u : ℂ)) +
      ∫ u in (0 : ℝ)..1, Complex.exp (z * (1 - u)) * (g n u : ℂ) := by
  have hi : ∀ T : ℂ, IntervalIntegrable (fun u : ℝ => Complex.exp (z * (T - u)) * (V u : ℂ))
      volume (0 : ℝ) n := by
    intro T
    have := IntervalIntegrable.trans_iterate (f := fun u : ℝ => Complex.exp (z * (T - u)) * (V u : ℂ))
      (μ := volume) (a := fun k : ℕ => (k : ℝ)) (n := n)
      (fun k hk => (piece_integral hg hV z (hk.trans hn) T).1)
    simpa using this
  obtain ⟨h1, h2⟩ := piece_integral hg hV z hn ((n + 1 : ℕ) : ℂ)
  rw [← intervalIntegral.integral_add_adjacent_intervals (hi _) h1, h2]
  congr 1
  · rw [← intervalIntegral.integral_const_mul]
    apply intervalIntegral.integral_congr
    intro u _
    dsimp only
    rw [← mul_assoc, ← Complex.exp_add]
    congr 2
    push_cast; ring
  · apply intervalIntegral.integral_congr
    intro u _
    dsimp only
    congr 2
    push_cast; ring

theorem waveAt_period {E : Env ℝ} {ws : List ℝ} {L : ℕ} {w i : ℤ} :
    Function.Periodic (waveAt E ws L w i) 1 := fun u => interp_period _ u

theorem mixture_period {E : Env ℝ} {ws : List ℝ} {L : ℕ} {w : ℤ} {t : MipMapIndices ℝ} :
    Function.Periodic (mixture E ws L w t) 1 := by
  intro u
  unfold mixture
  rw [waveAt_period, waveAt_period]

theorem mixture_continuous {E : Env ℝ} {ws : List ℝ} {L : ℕ} {w : ℤ} {t : MipMapIndices ℝ} :
    Continuous (mixture E ws L w t) := by
  unfold mixture waveAt
  exact (continuous_const.mul (interp_continuous _)).add (continuous_const.mul (interp_continuous _))

theorem mixture_int {E : Env ℝ} {ws : List ℝ} {L : ℕ} {w : ℤ} {t : MipMapIndices ℝ} (u : ℝ) (k : ℤ) :
    mixture E ws L w t (u + k) = mixture E ws L w t u := by
  have := (mixture_period (E := E) (ws := ws) (L := L) (w := w) (t := t)).int_mul k u
  simpa using this

/-- Choosing a waveform changes nothing else. -/
theorem setWaveform_plays {C : Type} [Zero C] [Add C] [Sub C] [Mul C] [Div C] {S : Sys ℝ C}
    {ws : List ℝ} {nw L : ℕ} {o o' : Osc ℝ C} {i : ℤ} (h : Plays S ws nw L o) (h0 : 0 ≤ i)
    (h1 : i < nw) (e : S.setWaveform o i = .ok o') :
    Plays S ws nw L o' ∧ o' = { o with crt := i } := by
  have e' := e
  unfold Sys.setWaveform at e'
  obtain ⟨_, _, e'⟩ := bind_ok e'
  cases e'
  exact ⟨⟨Reached.setWaveform h.1 h0 h1 e, h.2⟩, rfl⟩

/-- A run that keeps its waveform. -/
theorem TrackedRun.switched {C : Type} [Zero C] [Add C] [Sub C] [Mul C] [Div C] {S : Sys ℝ C}
    {nw L m : ℕ} {ws : List ℝ} {st : ℕ → Osc ℝ C} {dir : ℕ → Sys.Direction} {p y : ℕ → ℝ}
    {t : ℕ → MipMapIndices ℝ} (hf : Rounding S.env.fl) (hl : Log2Spec S.env.log2f) (hB : 0 < S.B)
    (h : TrackedRun S ws nw L m st dir p y t) (hp : ∀ i < m, IsPhase S.env.fl (p i)) :
    SwitchedRun S ws nw L m st st (fun _ => (st 0).crt) dir p y t ∧
      ∀ n ≤ m, (st n).crt = (st 0).crt := by
  have key : ∀ n ≤ m, Plays S ws nw L (st n) ∧ (st n).crt = (st 0).crt := by
    intro n hn
    induction n with
    | zero => exact ⟨h.plays, rfl⟩
    | succ n ih =>
      have hn' : n < m := hn
      obtain ⟨i1, i2⟩ := ih hn'.le
      have hpl := Sys.reached_play hf hl hB i1.1
      obtain ⟨wt, hwt, -⟩ := hpl.wt
      obtain ⟨v, e, -⟩ := Props.process_one (by rw [hwt]; rfl) (h.call n hn')
      have hp' : PhaseOk S.env.fl (p n) := ⟨(h.phase n hn').1, (h.phase n hn').2, hp n hn'⟩
      exact ⟨Props.Plays.process (dir := dir n) (ps := [p n]) (out := [0]) i1
        ⟨hp', h.step n hn', trivial⟩ rfl (h.call n hn'), by rw [(Sys.stepDir_tables e).2.2.2, i2]⟩
  refine ⟨⟨h.plays, h.zero, ?_, ?_, h.phase, h.step, h.call, h.next, h.move, h.off⟩, fun n hn =>
    (key n hn).2⟩
  · intro i _
    have := Sys.reached_play hf hl hB h.plays.1
    exact ⟨this.crt0, this.crt1⟩
  · intro i hi
    obtain ⟨i1, i2⟩ := key i hi.le
    have hpl := Sys.reached_play hf hl hB i1.1
    obtain ⟨wt, hwt, -⟩ := hpl.wt
    unfold Sys.setWaveform
    rw [← i2, chk_true (by rw [hwt]; rfl)]
    rfl

namespace Sys
variable {S : Sys ℝ ℂ} {nw L m : ℕ} {ws : List ℝ} {st : ℕ → Osc ℝ ℂ}
  {sw : ℕ → Osc ℝ ℂ} {w : ℕ → ℤ} {dir : ℕ → Sys.Direction} {p y : ℕ → ℝ} {t : ℕ → MipMapIndices ℝ}

theorem run_convW (hS : ExactSys S) (hl : Log2Spec S.env.log2f)
    (h : SwitchedRun S ws nw L m st sw w dir p y t) {n : ℕ} (hn : n ≤ m) :
    Plays S ws nw L (st n) ∧
    (st n).prevPhase = (if n = 0 then (st 0).prevPhase else p (n - 1)) ∧
    (∃ k : ℤ, (st 0).prevPhase + ∑ i ∈ Finset.range n, stepOf dir (st 0).prevPhase p i =
      (st n).prevPhase + k) ∧
    (∀ k < S.n, (st n).prevY.getD k 0 = 2 * S.flt.r.getD k 0 *
      ∫ u in (0 : ℝ)..n, Complex.exp (S.flt.z.getD k 0 * (n - u)) *
        (playedW S.env ws L w t (unwrapped (st 0).prevPhase (stepOf dir (st 0).prevPhase p)) u : ℂ)) ∧
    ∀ j, n = j + 1 → (st n).prevY.length = S.n ∧ y j = output (st n).prevY := by
  induction n with
  | zero =>
    refine ⟨h.plays, by simp, ⟨0, by simp⟩, ?_, by omega⟩
    intro k _
    have : (st 0).prevY.getD k 0 = 0 := by
      rw [List.getD_eq_getElem?_getD]
      cases e : (st 0).prevY[k]? with
      | none => rfl
      | some y => exact h.zero y (List.mem_of_getElem? e)
    rw [this]; simp
  | succ n ih =>
    have hn' : n < m := hn
    obtain ⟨i0, i3, ⟨j, i4⟩, i5, -⟩ := ih hn'.le
    obtain ⟨i1, hsw⟩ := setWaveform_plays i0 (h.wave n hn').1 (h.wave n hn').2 (h.set n hn')
    have ep : (st n).prevPhase = (sw n).prevPhase := by rw [hsw]
    have ey : (st n).prevY = (sw n).prevY := by rw [hsw]
    have i2 : (sw n).crt = w n := by rw [hsw]
    rw [ep] at i3 i4
    simp only [ey] at i5
    have hf := exact_rounding hS
    have hpl := reached_play hf hl hS.B i1.1
    obtain ⟨wt, hwt, hlin⟩ := i1.lines hS.fl hl
    obtain ⟨v, e, hv⟩ := Props.process_one (by rw [hwt]; rfl) (h.call n hn')
    have hp : PhaseOk S.env.fl (p n) := ⟨(h.phase n hn').1, (h.phase n hn').2, by rw [hS.fl]; exact isPhase_id _⟩
    obtain ⟨-, s1, s2, s3⟩ := stepDir_tables e
    obtain ⟨m1, m2, -⟩ := Props.C35_mixture S hS hl ws nw L (sw n) i1 (dir n) (p n) 0
      (h.phase n hn') (h.step n hn') _ _ (h.call n hn') (t n) (h.next n hn') (h.move n hn') (h.off n hn')
    have hd : (st (n + 1)).prevPhaseDiff = stepOf dir (st 0).prevPhase p n := by
      rw [s2, hS.fl, i3]; rfl
    refine ⟨Props.Plays.process (dir := dir n) (ps := [p n]) (out := [0]) i1
      ⟨hp, h.step n hn', trivial⟩ rfl (h.call n hn'), ?_,
      ?_, ?_, ?_⟩
    · simpa using s1
    · rw [Finset.sum_range_succ, ← add_assoc, i4, s1, ← hd, s2]
      rcases dirDiff_exact hS (dir n) (p n) (sw n).prevPhase with e | e | ⟨e, -⟩ <;> rw [e]
      · exact ⟨j, by ring⟩
      · exact ⟨j + 1, by push_cast; ring⟩
      · exact ⟨j - 1, by push_cast; ring⟩
    · intro k hk
      rw [m1, nextMemory_getD hk, i5 k hk, i2]
      have hc := conv_succ (m := n + 1)
        (V := playedW S.env ws L w t
          (unwrapped (st 0).prevPhase (stepOf dir (st 0).prevPhase p)))
        (g := fun i τ => mixture S.env ws L (w i) (t i)
          ((st 0).prevPhase + ∑ l ∈ Finset.range i, stepOf dir (st 0).prevPhase p l +
            τ * stepOf dir (st 0).prevPhase p i))
        (fun i _ => mixture_continuous.comp (by fun_prop)) ?_ (S.flt.z.getD k 0) (Nat.lt_succ_self n)
      · rw [hc]
        have : response (mixture S.env ws L (w n) (t n)) (S.flt.z.getD k 0) (sw n).prevPhase
            (st (n + 1)).prevPhaseDiff = ∫ u in (0 : ℝ)..1,
            Complex.exp (S.flt.z.getD k 0 * (1 - u)) * (mixture S.env ws L (w n) (t n)
              ((st 0).prevPhase + ∑ l ∈ Finset.range n, stepOf dir (st 0).prevPhase p l +
                u * stepOf dir (st 0).prevPhase p n) : ℂ) := by
          unfold response
          apply intervalIntegral.integral_congr
          intro u _
          dsimp only
          rw [i4, hd]
          congr 2
          rw [add_right_comm, mixture_int]
        rw [this]
        ring
      · intro i _ u h0 h1
        unfold playedW unwrapped
        rw [floor_mid h0 h1]
    · intro i hi
      have : i = n := by omega
      subst this
      refine ⟨by rw [m1]; exact nextMemory_length, ?_⟩
      simpa using m2

theorem run_conv (hS : ExactSys S) (hl : Log2Spec S.env.log2f)
    (h : TrackedRun S ws nw L m st dir p y t) {n : ℕ} (hn : n ≤ m) :
    Plays S ws nw L (st n) ∧ (st n).crt = (st 0).crt ∧
    (st n).prevPhase = (if n = 0 then (st 0).prevPhase else p (n - 1)) ∧
    (∃ k : ℤ, (st 0).prevPhase + ∑ i ∈ Finset.range n, stepOf dir (st 0).prevPhase p i =
      (st n).prevPhase + k) ∧
    (∀ k < S.n, (st n).prevY.getD k 0 = 2 * S.flt.r.getD k 0 *
      ∫ u in (0 : ℝ)..n, Complex.exp (S.flt.z.getD k 0 * (n - u)) *
        (played S.env ws L (st 0).crt t (unwrapped (st 0).prevPhase (stepOf dir (st 0).prevPhase p)) u : ℂ)) ∧
    ∀ j, n = j + 1 → (st n).prevY.length = S.n ∧ y j = output (st n).prevY := by
  obtain ⟨h1, h2⟩ := h.switched (exact_rounding hS) hl hS.B (fun i _ => by
    rw [hS.fl]; exact isPhase_id (p i))
  obtain ⟨a1, a2, a3, a4, a5⟩ := run_convW hS hl h1 hn
  exact ⟨a1, h2 n hn, a2, a3, a4, a5⟩

end Sys
end Adwt
