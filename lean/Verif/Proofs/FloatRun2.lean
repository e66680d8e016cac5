import Verif.Proofs.FloatRun
import Verif.Spec.Live

/-!
# Rounding errors do not pile up
-/

set_option linter.unusedSectionVars false

namespace Adwt
open Seg WavetableData

variable {C : Type} [Zero C] [Add C] [Sub C] [Mul C] [Div C]

/-- contraction of one coefficient -/
theorem contract {g σ ε : ℝ} (hg0 : 0 ≤ g) (hg : g ≤ 1 / (1 + σ)) (hσ : 8 * ε ≤ σ) (hσ0 : 0 < σ) :
    (1 + 4 * ε) * g ≤ (1 + σ / 2) / (1 + σ) := by
  calc (1 + 4 * ε) * g ≤ (1 + σ / 2) * (1 / (1 + σ)) := by
        apply mul_le_mul (by linarith) hg hg0 (by positivity)
    _ = _ := by ring

/-- error recursion of one coefficient -/
theorem err_step {g σ ε Y r M B E : ℝ} (hg0 : 0 ≤ g) (hg : g ≤ 1 / (1 + σ)) (e0 : 0 ≤ ε)
    (hσ : 8 * ε ≤ σ) (hσ0 : 0 < σ) (hr : 0 ≤ r) (hM : 0 ≤ M) (hB : 0 ≤ B)
    (hY : Y ≤ 2 * r / σ * (1.001 * M))
    (hE : E = ε * (M * (4 * r * (1 + 1 / σ) * (B + 5 / σ + 7)))) :
    (1 + 4 * ε) * g * E + ε * (4 * g * Y + 2 * r * ((B + 7) * M)) ≤ E := by
  have hE0 : 0 ≤ E := by rw [hE]; positivity
  have hg1 : g ≤ 1 := hg.trans (by rw [div_le_one (by linarith)]; linarith)
  set K := ε * (2 * r * M * (B + 5 / σ + 7)) with hK
  have hK0 : 0 ≤ K := by positivity
  have h1 : ε * (4 * g * Y + 2 * r * ((B + 7) * M)) ≤ K := by
    rw [hK]
    apply mul_le_mul_of_nonneg_left _ e0
    have a1 : 4 * g * Y ≤ 4 * g * (2 * r / σ * (1.001 * M)) := by gcongr
    have a2 : 4 * g * (2 * r / σ * (1.001 * M)) ≤ 4 * 1 * (2 * r / σ * (1.001 * M)) := by gcongr
    have a3 : 0 ≤ r / σ * M := by positivity
    have a4 : 2 * r / σ * (1.001 * M) = 2.002 * (r / σ * M) := by ring
    have a5 : 2 * r * M * (B + 5 / σ + 7) = 2 * r * ((B + 7) * M) + 10 * (r / σ * M) := by ring
    rw [a5]
    linarith
  have h2 : E = K * (2 * (1 + 1 / σ)) := by rw [hE, hK]; ring
  have h3 := contract hg0 hg hσ hσ0
  have h4 : (1 + 4 * ε) * g * E ≤ (1 + σ / 2) / (1 + σ) * E := by gcongr
  have h5 : (1 + σ / 2) / (1 + σ) * E = E - K := by
    rw [h2]; field_simp; ring
  linarith

namespace Sys
variable {S : Sys ℝ C} {val : C → ℂ} {ε A Λ ν : ℝ} {nw L m : ℕ} {ws : List ℝ} {st : ℕ → Osc ℝ C}
  {sw : ℕ → Osc ℝ C} {w : ℕ → ℤ} {dir : ℕ → Sys.Direction} {p y : ℕ → ℝ} {t : ℕ → MipMapIndices ℝ}

theorem pole_pos (hS : FloatSys S val ε) {k : ℕ} (hk : k < S.n) :
    8 * ε ≤ -(val (S.zA k)).re ∧ 0 < -(val (S.zA k)).re := by
  obtain ⟨z1, -, -, -⟩ := z_range hS hk
  have := FloatSys.εs hS
  constructor <;> linarith

/-- the memory stays far from overflow -/
theorem mem_range (hS : FloatSys S val ε) {k : ℕ} (hk : k < S.n) (hA : 0 ≤ A) (hM : 0 ≤ A + Λ)
    (hAM : A ≤ A + Λ) (M1 : A + Λ ≤ 2 ^ 24) (hν0 : 0 ≤ ν) (hν : ν ≤ 2 ^ 20) :
    2 * ‖val (S.rA k)‖ / -(val (S.zA k)).re * (1.001 * A) +
      ε * ((A + Λ) * (4 * ‖val (S.rA k)‖ * (1 + 1 / -(val (S.zA k)).re) *
        (132 * ν ^ 2 * (1 + ‖val (S.zA k)‖) / ‖val (S.zA k)‖ ^ 2 + 5 / -(val (S.zA k)).re + 7))) ≤
      2 ^ 89 := by
  obtain ⟨z0, z1, z2, -⟩ := z_range hS hk
  obtain ⟨-, rh⟩ := r_range hS hk
  have e1 := hS.ε1
  have e0 := hS.ε0
  set Z := ‖val (S.zA k)‖
  set σ := -(val (S.zA k)).re
  set r := ‖val (S.rA k)‖ with hr
  have r0 : 0 ≤ r := norm_nonneg _
  have σ0 : 0 < σ := by linarith
  have Z0 : 0 < Z := by linarith
  have hσ : 1 / σ ≤ 16 := by rw [div_le_iff₀ σ0]; linarith
  have h5 : 5 / σ ≤ 80 := by rw [div_le_iff₀ σ0]; linarith
  have hA' : A ≤ 2 ^ 24 := hAM.trans M1
  have hrs : 2 * r / σ ≤ 2 * 1024 * 16 := by
    rw [div_eq_mul_one_div]; gcongr
  have hZ : 132 * ν ^ 2 * (1 + Z) / Z ^ 2 ≤ 132 * (2 ^ 20) ^ 2 * (1 + 32) / (1 / 16) ^ 2 := by gcongr
  refine le_trans (b := (2 * 1024 * 16 * (1.001 * 2 ^ 24) + 1 / 2 ^ 21 * (2 ^ 24 * (4 * 1024 * (1 + 16) *
        (132 * (2 ^ 20) ^ 2 * (1 + 32) / (1 / 16) ^ 2 + 80 + 7))) : ℝ)) ?_ (by norm_num)
  gcongr

/-- no step is longer than a few periods -/
theorem trueStep_le (hS : FloatSys S val ε) {dir : Sys.Direction} {p x : ℝ} (hx : PhaseOk S.env.fl x)
    (hp : PhaseOk S.env.fl p) : |trueStep S.env.fl dir p x| ≤ 2 := by
  have e1 := FloatSys.εs hS
  obtain ⟨t1, t2, t3, -⟩ := true_step hS (dir := dir) hx hp
  obtain ⟨x0, x1, -⟩ := hx
  obtain ⟨p0, p1, -⟩ := hp
  rcases lt_trichotomy (dirDiff S.env.fl dir p x) 0 with hd | hd | hd
  · obtain ⟨-, a | a⟩ := t3 hd <;> rw [a, abs_le] <;> constructor <;> linarith
  · rw [hd, zero_sub, abs_neg] at t1
    linarith
  · obtain ⟨-, a | a⟩ := t2 hd <;> rw [a, abs_le] <;> constructor <;> linarith

theorem cap_le {L : ℕ} (hL : L ≤ 18) (i : ℕ) {d : ℝ} (hd : |d| ≤ 2) :
    2 ^ (L - i) * |d| + 2 ≤ (2 : ℝ) ^ 20 := by
  have h1 : (2 : ℝ) ^ (L - i) ≤ 2 ^ 18 := pow_le_pow_right₀ (by norm_num) (by omega)
  calc _ ≤ (2 : ℝ) ^ 18 * 2 + 2 := by gcongr
    _ ≤ _ := by norm_num

theorem step_capL (hS : FloatSys S val ε) (hl : Log2Spec S.env.log2f)
    (h : LiveRun S ws nw L m st sw w dir p y t) (hp : ∀ i < m, IsPhase S.env.fl (p i)) {i : ℕ} (hi : i < m) :
    2 ^ (L - (t i).idx.toNat) * |trueStepOf S.env.fl dir (st 0).prevPhase p i| + 2 ≤ (2 : ℝ) ^ 20 := by
  have hpl := reached_play hS.fl hl hS.B h.plays.1
  have hL : L ≤ 18 := by
    obtain ⟨wt, -, hw⟩ := hpl.wt
    exact hw.L18
  have hx : PhaseOk S.env.fl (if i = 0 then (st 0).prevPhase else p (i - 1)) := by
    split_ifs
    · exact hpl.toOscOk.phase
    · exact ⟨(h.phase (i - 1) (by omega)).1, (h.phase (i - 1) (by omega)).2, hp (i - 1) (by omega)⟩
  have hp' : PhaseOk S.env.fl (p i) := ⟨(h.phase i hi).1, (h.phase i hi).2, hp i hi⟩
  exact cap_le hL _ (trueStep_le hS hx hp')

/-- a single sample keeps the memory away from overflow -/
theorem step_mem_range (hS : FloatSys S val ε) (hl : Log2Spec S.env.log2f)
    (hA : TablesWithin S.env ws nw L A) (hΛ : SlopesWithin S.env ws nw L Λ)
    (M0 : 1 / 2 ^ 40 ≤ A + Λ) (M1 : A + Λ ≤ 2 ^ 24) {o o' : Osc ℝ C}
    (ho : Plays S ws nw L o) {dir : Direction} {p : ℝ}
    (hp : PhaseOk S.env.fl p) (hs : StepOk dir o.prevPhase p) {y : ℝ}
    (e : S.stepDir dir o p = .ok (o', y)) {t : MipMapIndices ℝ}
    (ht : NextIndices S o (dirDiff S.env.fl dir p o.prevPhase) t) (hm : TableMove o t.idx)
    (hx : OffDenormal (2 ^ (L - t.idx.toNat)) o.prevPhase)
    (hdl : 1 / 2 ^ 100 ≤ |dirDiff S.env.fl dir p o.prevPhase|) {k : ℕ} (hk : k < S.n)
    (hy : ‖val (o.prevY.getD k 0)‖ ≤ 2 ^ 90) : ‖val (o'.prevY.getD k 0)‖ ≤ 2 ^ 95 := by
  have hpl := reached_play hS.fl hl hS.B ho.1
  have hL : L ≤ 18 := by
    obtain ⟨wt, -, hw⟩ := hpl.wt
    exact hw.L18
  have hν := cap_le hL t.idx.toNat (trueStep_le (dir := dir) hS hpl.toOscOk.phase hp)
  obtain ⟨hM, hA0, hAM, hmix, hnear, -, -⟩ := step_near hS hl hA hΛ M0 M1 ho hp hs e ht hm hx hν hdl
  have h1 := hnear k hk _ 0 (by rw [sub_self, norm_zero]) (by rw [add_zero]; exact hy)
  obtain ⟨z0, z1, z2, -⟩ := z_range hS hk
  obtain ⟨-, rh⟩ := r_range hS hk
  obtain ⟨-, zp⟩ := pole_pos hS hk
  have hg : ‖Complex.exp (val (S.zA k))‖ ≤ 1 := by
    rw [Complex.norm_exp]; exact Real.exp_le_one_iff.2 (by linarith)
  have a2 := response_bound hmix (z := val (S.zA k)) (by linarith) o.prevPhase
    (trueStep S.env.fl dir p o.prevPhase)
  have e1 := hS.ε1
  have e0 := hS.ε0
  have hA' : A ≤ 2 ^ 24 := hAM.trans M1
  set z := val (S.zA k)
  set r := val (S.rA k)
  set Q := response (mixture S.env ws L o.crt t) z o.prevPhase (trueStep S.env.fl dir p o.prevPhase)
  set Y := val (o.prevY.getD k 0)
  have a3 : ‖Q‖ ≤ 16 * (1.001 * 2 ^ 24) := by
    refine a2.trans ?_
    have : (1 - Real.exp z.re) / -z.re ≤ 16 := by
      rw [div_le_iff₀ zp]
      have := Real.exp_pos z.re
      linarith
    gcongr
  have a4 : ‖Complex.exp z * Y + 2 * r * Q‖ ≤ 2 ^ 90 + 2 * 1024 * (16 * (1.001 * 2 ^ 24)) := by
    refine (norm_add_le _ _).trans (add_le_add ?_ ?_)
    · exact (norm_mul_le' hg hy).trans (by norm_num)
    · refine norm_mul_le' ?_ a3
      rw [norm_mul]; norm_num; norm_num at rh; linarith
  have Z0 : 0 < ‖z‖ := by linarith
  have a5 : ε * (4 * ‖Complex.exp z‖ * ‖Y‖ + 2 * ‖r‖ *
      ((132 * (2 ^ 20) ^ 2 * (1 + ‖z‖) / ‖z‖ ^ 2 + 7) * (A + Λ))) ≤
      1 / 2 ^ 21 * (4 * 1 * 2 ^ 90 + 2 * 2 ^ 10 *
      ((132 * (2 ^ 20) ^ 2 * (1 + 32) / (1 / 16) ^ 2 + 7) * 2 ^ 24)) := by
    gcongr
    norm_num at rh ⊢; exact rh
  have a6 := near_norm h1 a4
  rw [mul_zero, zero_add] at a6
  refine a6.trans ((add_le_add le_rfl a5).trans ?_)
  norm_num

theorem zero_mem (hS : FloatSys S val ε) {l : List C} (h : ∀ y ∈ l, y = 0) :
    ∀ k < S.n, ‖val (l.getD k 0)‖ ≤ 0 := by
  intro k _
  have : l.getD k 0 = 0 := by
    rw [List.getD_eq_getElem?_getD]
    cases e : l[k]? with
    | none => rfl
    | some y => exact h y (List.mem_of_getElem? e)
  rw [this, hS.ops.zero, norm_zero]

theorem run_nearL (hS : FloatSys S val ε) (hl : Log2Spec S.env.log2f)
    (hA : TablesWithin S.env ws nw L A) (hΛ : SlopesWithin S.env ws nw L Λ)
    (M0 : 1 / 2 ^ 40 ≤ A + Λ) (M1 : A + Λ ≤ 2 ^ 24)
    (h : LiveRun S ws nw L m st sw w dir p y t) (hp : ∀ i < m, IsPhase S.env.fl (p i))
    {μ : ℝ} (hμ : μ ≤ 2 ^ 89) (hmem : ∀ k < S.n, ‖val ((st 0).prevY.getD k 0)‖ ≤ μ)
    (hν : ∀ i < m, 2 ^ (L - (t i).idx.toNat) *
      |trueStepOf S.env.fl dir (st 0).prevPhase p i| + 2 ≤ ν) (hν20 : ν ≤ 2 ^ 20)
    (hdl : ∀ i < m, 1 / 2 ^ 100 ≤ |(st (i + 1)).prevPhaseDiff|) {n : ℕ} (hn : n ≤ m) :
    Plays S ws nw L (st n) ∧
    (st n).prevPhase = (if n = 0 then (st 0).prevPhase else p (n - 1)) ∧
    (∃ k : ℤ, (st 0).prevPhase +
      ∑ i ∈ Finset.range n, trueStepOf S.env.fl dir (st 0).prevPhase p i = (st n).prevPhase + k) ∧
    (n ≠ 0 → 0 ≤ A ∧ 0 ≤ Λ) ∧
    (∀ k < S.n, ‖val ((st n).prevY.getD k 0) - 2 * val (S.rA k) *
      ∫ u in (0 : ℝ)..n, Complex.exp (val (S.zA k) * (n - u)) *
        (playedW S.env ws L w t
          (unwrapped (st 0).prevPhase (trueStepOf S.env.fl dir (st 0).prevPhase p)) u : ℂ)‖ ≤
      (if n = 0 then 0 else ε * ((A + Λ) * (4 * ‖val (S.rA k)‖ * (1 + 1 / -(val (S.zA k)).re) *
        (132 * ν ^ 2 * (1 + ‖val (S.zA k)‖) / ‖val (S.zA k)‖ ^ 2 + 5 / -(val (S.zA k)).re + 7)))) +
        ((1 + -(val (S.zA k)).re / 2) / (1 + -(val (S.zA k)).re)) ^ n * μ ∧
      ‖2 * val (S.rA k) * ∫ u in (0 : ℝ)..n, Complex.exp (val (S.zA k) * (n - u)) *
        (playedW S.env ws L w t
          (unwrapped (st 0).prevPhase (trueStepOf S.env.fl dir (st 0).prevPhase p)) u : ℂ)‖ ≤
        (if n = 0 then 0 else 2 * ‖val (S.rA k)‖ / -(val (S.zA k)).re * (1.001 * A))) ∧
    ∀ j, n = j + 1 → (st n).prevY.length = S.n ∧ |y j - output ((st n).prevY.map val)| ≤
      2 * S.n * ε * (∑ k ∈ Finset.range S.n, ‖val ((st n).prevY.getD k 0)‖ + 1 / 2 ^ 80) := by
  have e0 := hS.ε0
  induction n with
  | zero =>
    refine ⟨h.plays, by simp, ⟨0, by simp⟩, by simp, ?_, by omega⟩
    intro k hk
    simpa using hmem k hk
  | succ n ih =>
    have hn' : n < m := hn
    obtain ⟨i0, i3, ⟨j, i4⟩, i6, i5, -⟩ := ih hn'.le
    obtain ⟨i1, hsw⟩ := setWaveform_plays i0 (h.wave n hn').1 (h.wave n hn').2 (h.set n hn')
    have ep : (st n).prevPhase = (sw n).prevPhase := by rw [hsw]
    have ey : (st n).prevY = (sw n).prevY := by rw [hsw]
    have i2 : (sw n).crt = w n := by rw [hsw]
    rw [ep] at i3 i4
    simp only [ey] at i5
    have hf := hS.fl
    have hpl := reached_play hf hl hS.B i1.1
    obtain ⟨wt, hwt, -⟩ := hpl.wt
    obtain ⟨v, e, hv⟩ := Props.process_one (by rw [hwt]; rfl) (h.call n hn')
    have hp' : PhaseOk S.env.fl (p n) := ⟨(h.phase n hn').1, (h.phase n hn').2, hp n hn'⟩
    obtain ⟨-, s1, s2, s3⟩ := stepDir_tables e
    have ht := h.next n hn'
    rw [s2] at ht
    have hd : trueStep S.env.fl (dir n) (p n) (sw n).prevPhase =
        trueStepOf S.env.fl dir (st 0).prevPhase p n := by
      rw [i3]; rfl
    have hν' := hν n hn'
    rw [← hd] at hν'
    have hdn := hdl n hn'
    rw [s2] at hdn
    obtain ⟨hM, hA0, hAM, hmix, hnear, hlen, hout⟩ := step_near hS hl hA hΛ M0 M1 i1 hp'
      (h.step n hn') e ht (h.move n hn') (h.off n hn') hν' hdn
    have hν0 : 0 ≤ ν := le_trans (by positivity) hν'
    obtain ⟨-, -, -, ⟨q, hq⟩⟩ := true_step hS (dir := dir n) hpl.toOscOk.phase hp'
    have main : ∀ k < S.n, ‖val ((st (n + 1)).prevY.getD k 0) - 2 * val (S.rA k) *
      ∫ u in (0 : ℝ)..(n + 1 : ℕ), Complex.exp (val (S.zA k) * ((n + 1 : ℕ) - u)) *
        (playedW S.env ws L w t
          (unwrapped (st 0).prevPhase (trueStepOf S.env.fl dir (st 0).prevPhase p)) u : ℂ)‖ ≤
      (if n + 1 = 0 then 0 else ε * ((A + Λ) * (4 * ‖val (S.rA k)‖ * (1 + 1 / -(val (S.zA k)).re) *
        (132 * ν ^ 2 * (1 + ‖val (S.zA k)‖) / ‖val (S.zA k)‖ ^ 2 + 5 / -(val (S.zA k)).re + 7)))) +
        ((1 + -(val (S.zA k)).re / 2) / (1 + -(val (S.zA k)).re)) ^ (n + 1) * μ ∧
      ‖2 * val (S.rA k) * ∫ u in (0 : ℝ)..(n + 1 : ℕ), Complex.exp (val (S.zA k) * ((n + 1 : ℕ) - u)) *
        (playedW S.env ws L w t
          (unwrapped (st 0).prevPhase (trueStepOf S.env.fl dir (st 0).prevPhase p)) u : ℂ)‖ ≤
        (if n + 1 = 0 then 0 else 2 * ‖val (S.rA k)‖ / -(val (S.zA k)).re * (1.001 * A)) := by
      intro k hk
      obtain ⟨c1, c2⟩ := i5 k hk
      obtain ⟨z8, z0⟩ := pole_pos hS hk
      have hzr := z_re hS hk
      set z := val (S.zA k) with hz
      set r := val (S.rA k) with hr
      set I : ℂ := ∫ u in (0 : ℝ)..n, Complex.exp (z * (n - u)) *
        (playedW S.env ws L w t
          (unwrapped (st 0).prevPhase (trueStepOf S.env.fl dir (st 0).prevPhase p)) u : ℂ) with hI
      have hc := conv_succ (m := n + 1)
        (V := playedW S.env ws L w t
          (unwrapped (st 0).prevPhase (trueStepOf S.env.fl dir (st 0).prevPhase p)))
        (g := fun i τ => mixture S.env ws L (w i) (t i)
          ((st 0).prevPhase + ∑ l ∈ Finset.range i, trueStepOf S.env.fl dir (st 0).prevPhase p l +
            τ * trueStepOf S.env.fl dir (st 0).prevPhase p i))
        (fun i _ => mixture_continuous.comp (by fun_prop))
        (by
          intro i _ u h0 h1
          unfold playedW unwrapped
          rw [floor_mid h0 h1]) z (Nat.lt_succ_self n)
      have hresp : response (mixture S.env ws L (sw n).crt (t n)) z (sw n).prevPhase
            (trueStep S.env.fl (dir n) (p n) (sw n).prevPhase) = ∫ u in (0 : ℝ)..1,
            Complex.exp (z * (1 - u)) * (mixture S.env ws L (w n) (t n)
              ((st 0).prevPhase + ∑ l ∈ Finset.range n, trueStepOf S.env.fl dir (st 0).prevPhase p l +
                u * trueStepOf S.env.fl dir (st 0).prevPhase p n) : ℂ) := by
        unfold response
        apply intervalIntegral.integral_congr
        intro u _
        dsimp only
        rw [i4, hd, i2]
        congr 2
        rw [add_right_comm, mixture_int]
      rw [hc, ← hresp, ← hI]
      have hM' : (if n = 0 then 0 else 2 * ‖r‖ / -z.re * (1.001 * A)) ≤
          2 * ‖r‖ / -z.re * (1.001 * A) := by
        split_ifs
        · positivity
        · exact le_rfl
      have c2' := c2.trans hM'
      set E := ε * ((A + Λ) * (4 * ‖r‖ * (1 + 1 / -z.re) *
        (132 * ν ^ 2 * (1 + ‖z‖) / ‖z‖ ^ 2 + 5 / -z.re + 7))) with hE
      have hE0 : 0 ≤ E := by positivity
      have μ0 : 0 ≤ μ := (norm_nonneg _).trans (hmem k hk)
      obtain ⟨ρ, hρ⟩ : ∃ ρ, ρ = (1 + -z.re / 2) / (1 + -z.re) := ⟨_, rfl⟩
      rw [← hρ] at c1 ⊢
      have ρ0 : 0 ≤ ρ := by rw [hρ]; positivity
      have ρ1 : ρ ≤ 1 := by
        rw [hρ, div_le_one (by linarith)]; linarith
      have hρn : ρ ^ n * μ ≤ 2 ^ 89 :=
        (mul_le_of_le_one_left μ0 (pow_le_one₀ ρ0 ρ1)).trans hμ
      have c1' : ‖val ((sw n).prevY.getD k 0) - 2 * r * I‖ ≤ E + ρ ^ n * μ :=
        c1.trans (add_le_add (by split_ifs; exacts [hE0, le_rfl]) le_rfl)
      have eq : 2 * r * (Complex.exp z * I + response (mixture S.env ws L (sw n).crt (t n)) z
          (sw n).prevPhase (trueStep S.env.fl (dir n) (p n) (sw n).prevPhase)) =
        Complex.exp z * (2 * r * I) + 2 * r * response (mixture S.env ws L (sw n).crt (t n)) z
          (sw n).prevPhase (trueStep S.env.fl (dir n) (p n) (sw n).prevPhase) := by ring
      rw [eq, if_neg (Nat.succ_ne_zero n), if_neg (Nat.succ_ne_zero n)]
      have hg : ‖Complex.exp z‖ = Real.exp z.re := Complex.norm_exp z
      constructor
      · have hge : Real.exp z.re ≤ 1 / (1 + -z.re) := by
          rw [le_div_iff₀ (by linarith)]
          have h1 := Real.add_one_le_exp (-z.re)
          have h2 : Real.exp z.re * Real.exp (-z.re) = 1 := by rw [← Real.exp_add]; simp
          have h3 := Real.exp_nonneg z.re
          nlinarith
        have hrange := mem_range hS hk hA0 hM hAM M1 hν0 hν20
        refine (hnear k hk _ _ c1' ((add_le_add c2' (le_refl _)).trans ?_)).trans ?_
        · rw [← add_assoc]
          refine (add_le_add hrange hρn).trans (by norm_num)
        rw [hg]
        have b1 := err_step (Real.exp_nonneg _) hge e0 z8 z0 (norm_nonneg r) hM (by positivity)
          (c2'.trans (by gcongr)) hE
        have b2 : (1 + 4 * ε) * Real.exp z.re * (ρ ^ n * μ) ≤ ρ ^ (n + 1) * μ := by
          have := mul_le_mul_of_nonneg_right (contract (Real.exp_nonneg _) hge z8 z0)
            (mul_nonneg (pow_nonneg ρ0 n) μ0)
          rw [← hρ] at this
          calc _ ≤ _ := this
            _ = _ := by ring
        rw [mul_add]
        linarith
      · refine (norm_add_le _ _).trans ?_
        have a1 := norm_mul_le' (le_of_eq hg) c2'
        have a2 := response_bound hmix (z := z) (by linarith) (sw n).prevPhase
          (trueStep S.env.fl (dir n) (p n) (sw n).prevPhase)
        have a3 : ‖2 * r * response (mixture S.env ws L (sw n).crt (t n)) z
          (sw n).prevPhase (trueStep S.env.fl (dir n) (p n) (sw n).prevPhase)‖ ≤
          2 * ‖r‖ * ((1 - Real.exp z.re) / -z.re * (1.001 * A)) :=
          norm_mul_le' (by rw [norm_mul]; norm_num) a2
        have a4 : Real.exp z.re * (2 * ‖r‖ / -z.re * (1.001 * A)) +
          2 * ‖r‖ * ((1 - Real.exp z.re) / -z.re * (1.001 * A)) =
          2 * ‖r‖ / -z.re * (1.001 * A) := by ring
        linarith
    refine ⟨Props.Plays.process (dir := dir n) (ps := [p n]) (out := [0]) i1
      ⟨hp', h.step n hn', trivial⟩ rfl (h.call n hn'), by simpa using s1,
      ⟨j + q, ?_⟩, fun _ => ⟨hA0, by linarith⟩, main, ?_⟩
    · rw [Finset.sum_range_succ, ← add_assoc, i4, s1, ← hd, hq]
      push_cast; ring
    · intro i hi
      have : i = n := by omega
      subst this
      have hy : y i = v := by simpa using hv
      rw [hy]
      refine ⟨hlen, hout fun k hk => ?_⟩
      obtain ⟨m1, m2⟩ := main k hk
      rw [if_neg (Nat.succ_ne_zero i)] at m1 m2
      have μ0 : 0 ≤ μ := (norm_nonneg _).trans (hmem k hk)
      obtain ⟨-, z0⟩ := pole_pos hS hk
      have hρn : ((1 + -(val (S.zA k)).re / 2) / (1 + -(val (S.zA k)).re)) ^ (i + 1) * μ ≤ 2 ^ 89 := by
        refine (mul_le_of_le_one_left μ0 (pow_le_one₀ (by positivity) ?_)).trans hμ
        rw [div_le_one (by linarith)]; linarith
      refine (near_norm m1 m2).trans ?_
      have := mem_range hS hk hA0 hM hAM M1 hν0 hν20
      rw [← add_assoc]
      exact (add_le_add this hρn).trans (by norm_num)

theorem run_nearW (hS : FloatSys S val ε) (hl : Log2Spec S.env.log2f)
    (hA : TablesWithin S.env ws nw L A) (hΛ : SlopesWithin S.env ws nw L Λ)
    (M0 : 1 / 2 ^ 40 ≤ A + Λ) (M1 : A + Λ ≤ 2 ^ 24)
    (h : SwitchedRun S ws nw L m st sw w dir p y t) (hp : ∀ i < m, IsPhase S.env.fl (p i))
    (hν : ∀ i < m, 2 ^ (L - (t i).idx.toNat) *
      |trueStepOf S.env.fl dir (st 0).prevPhase p i| + 2 ≤ ν) (hν20 : ν ≤ 2 ^ 20)
    (hdl : ∀ i < m, 1 / 2 ^ 100 ≤ |(st (i + 1)).prevPhaseDiff|) {n : ℕ} (hn : n ≤ m) :
    Plays S ws nw L (st n) ∧
    (st n).prevPhase = (if n = 0 then (st 0).prevPhase else p (n - 1)) ∧
    (∃ k : ℤ, (st 0).prevPhase +
      ∑ i ∈ Finset.range n, trueStepOf S.env.fl dir (st 0).prevPhase p i = (st n).prevPhase + k) ∧
    (n ≠ 0 → 0 ≤ A ∧ 0 ≤ Λ) ∧
    (∀ k < S.n, ‖val ((st n).prevY.getD k 0) - 2 * val (S.rA k) *
      ∫ u in (0 : ℝ)..n, Complex.exp (val (S.zA k) * (n - u)) *
        (playedW S.env ws L w t
          (unwrapped (st 0).prevPhase (trueStepOf S.env.fl dir (st 0).prevPhase p)) u : ℂ)‖ ≤
      (if n = 0 then 0 else ε * ((A + Λ) * (4 * ‖val (S.rA k)‖ * (1 + 1 / -(val (S.zA k)).re) *
        (132 * ν ^ 2 * (1 + ‖val (S.zA k)‖) / ‖val (S.zA k)‖ ^ 2 + 5 / -(val (S.zA k)).re + 7)))) ∧
      ‖2 * val (S.rA k) * ∫ u in (0 : ℝ)..n, Complex.exp (val (S.zA k) * (n - u)) *
        (playedW S.env ws L w t
          (unwrapped (st 0).prevPhase (trueStepOf S.env.fl dir (st 0).prevPhase p)) u : ℂ)‖ ≤
        (if n = 0 then 0 else 2 * ‖val (S.rA k)‖ / -(val (S.zA k)).re * (1.001 * A))) ∧
    ∀ j, n = j + 1 → (st n).prevY.length = S.n ∧ |y j - output ((st n).prevY.map val)| ≤
      2 * S.n * ε * (∑ k ∈ Finset.range S.n, ‖val ((st n).prevY.getD k 0)‖ + 1 / 2 ^ 80) := by
  have := run_nearL hS hl hA hΛ M0 M1 h.live hp (by positivity) (zero_mem hS h.zero) hν hν20 hdl hn
  simpa only [mul_zero, add_zero] using this

/-- any value `v` close to the sum of the memories -/
theorem run_value_capL (hS : FloatSys S val ε) (hl : Log2Spec S.env.log2f)
    (hA : TablesWithin S.env ws nw L A) (hΛ : SlopesWithin S.env ws nw L Λ)
    (M0 : 1 / 2 ^ 40 ≤ A + Λ) (M1 : A + Λ ≤ 2 ^ 24)
    (h : LiveRun S ws nw L m st sw w dir p y t) (hp : ∀ i < m, IsPhase S.env.fl (p i))
    {μ : ℝ} (hμ : μ ≤ 2 ^ 89) (hmem : ∀ k < S.n, ‖val ((st 0).prevY.getD k 0)‖ ≤ μ)
    (hν : ∀ i < m, 2 ^ (L - (t i).idx.toNat) *
      |trueStepOf S.env.fl dir (st 0).prevPhase p i| + 2 ≤ ν) (hν20 : ν ≤ 2 ^ 20)
    (hdl : ∀ i < m, 1 / 2 ^ 100 ≤ |(st (i + 1)).prevPhaseDiff|) {n : ℕ} (hn : n < m) {v : ℝ}
    (hv : |v - output ((st (n + 1)).prevY.map val)| ≤
      2 * S.n * ε * (∑ k ∈ Finset.range S.n, ‖val ((st (n + 1)).prevY.getD k 0)‖ + 1 / 2 ^ 80)) :
    |v - filtered (valFilter val S.flt) (playedW S.env ws L w t
        (unwrapped (st 0).prevPhase (trueStepOf S.env.fl dir (st 0).prevPhase p))) (n + 1)| ≤
      ε * (A + Λ) * roundoffGain (valFilter val S.flt) ν + 2 * μ * leftAfter (valFilter val S.flt) (n + 1) := by
  have e0 := hS.ε0
  obtain ⟨-, -, -, hAΛ, hnear, hout⟩ := run_nearL hS hl hA hΛ M0 M1 h hp hμ hmem hν hν20 hdl (n := n + 1) hn
  obtain ⟨hA0, hΛ0⟩ := hAΛ (Nat.succ_ne_zero n)
  obtain ⟨hlen, -⟩ := hout n rfl
  have hsum := hv
  have hr : ∀ k, (valFilter val S.flt).r.getD k 0 = val (S.rA k) := fun k => val_getD hS _ k
  have hz : ∀ k, (valFilter val S.flt).z.getD k 0 = val (S.zA k) := fun k => val_getD hS _ k
  have hN : (valFilter val S.flt).r.length = S.n := by simp [valFilter, Sys.n]
  unfold filtered roundoffGain filterGain leftAfter
  simp only [hr, hz, hN]
  set V := playedW S.env ws L w t
    (unwrapped (st 0).prevPhase (trueStepOf S.env.fl dir (st 0).prevPhase p)) with hV
  set Y : ℕ → ℂ := fun k => 2 * val (S.rA k) *
    ∫ u in (0 : ℝ)..((n + 1 : ℕ) : ℝ), Complex.exp (val (S.zA k) * (((n + 1 : ℕ) : ℝ) - u)) * (V u : ℂ)
    with hY
  have eY : ∀ k, 2 * val (S.rA k) * ∫ u in (0 : ℝ)..(n + 1 : ℝ),
      Complex.exp (val (S.zA k) * ((n + 1 : ℝ) - u)) * (V u : ℂ) = Y k := by
    intro k; simp only [hY]; push_cast; rfl
  set E : ℕ → ℝ := fun k => ε * ((A + Λ) * (4 * ‖val (S.rA k)‖ * (1 + 1 / -(val (S.zA k)).re) *
        (132 * ν ^ 2 * (1 + ‖val (S.zA k)‖) / ‖val (S.zA k)‖ ^ 2 + 5 / -(val (S.zA k)).re + 7))) with hE
  set T : ℕ → ℝ := fun k => ((1 + -(val (S.zA k)).re / 2) / (1 + -(val (S.zA k)).re)) ^ (n + 1) with hT
  have n1 : ∀ k < S.n, ‖val ((st (n + 1)).prevY.getD k 0) - Y k‖ ≤ E k + T k * μ := by
    intro k hk
    have := (hnear k hk).1
    rw [if_neg (Nat.succ_ne_zero n)] at this
    convert this using 3 <;> (try simp only [hY]) <;> push_cast <;> rfl
  have n2 : ∀ k < S.n, ‖Y k‖ ≤ 2 * ‖val (S.rA k)‖ / -(val (S.zA k)).re * (1.001 * A) := by
    intro k hk
    have := (hnear k hk).2
    rw [if_neg (Nat.succ_ne_zero n)] at this
    convert this using 2 <;> (try simp only [hY]) <;> push_cast <;> rfl
  have e1 : |output ((st (n + 1)).prevY.map val) - (∑ k ∈ Finset.range S.n, Y k).re| ≤
      ∑ k ∈ Finset.range S.n, (E k + T k * μ) := by
    unfold output
    rw [csum_getD, hlen, ← Complex.sub_re, ← Finset.sum_sub_distrib]
    refine (Complex.abs_re_le_norm _).trans ((norm_sum_le _ _).trans ?_)
    exact Finset.sum_le_sum fun k hk => n1 k (Finset.mem_range.1 hk)
  have e2 : ∑ k ∈ Finset.range S.n, ‖val ((st (n + 1)).prevY.getD k 0)‖ ≤
      (∑ k ∈ Finset.range S.n, 2 * ‖val (S.rA k)‖ / -(val (S.zA k)).re) * (1.001 * A) +
        ∑ k ∈ Finset.range S.n, (E k + T k * μ) := by
    rw [Finset.sum_mul, ← Finset.sum_add_distrib]
    exact Finset.sum_le_sum fun k hk => near_norm (n1 k (Finset.mem_range.1 hk))
      (n2 k (Finset.mem_range.1 hk))
  have hzpos : ∀ k ∈ Finset.range S.n, 0 < -(val (S.zA k)).re := fun k hk =>
    (pole_pos hS (Finset.mem_range.1 hk)).2
  have G0 : 0 ≤ ∑ k ∈ Finset.range S.n, 2 * ‖val (S.rA k)‖ / -(val (S.zA k)).re :=
    Finset.sum_nonneg fun k hk => by have := hzpos k hk; positivity
  have E0 : 0 ≤ ∑ k ∈ Finset.range S.n, E k :=
    Finset.sum_nonneg fun k hk => by have := hzpos k hk; simp only [hE]; positivity
  have T0 : 0 ≤ ∑ k ∈ Finset.range S.n, T k * μ :=
    Finset.sum_nonneg fun k hk => by
      have := hzpos k hk
      have μ0 : 0 ≤ μ := (norm_nonneg _).trans (hmem k (Finset.mem_range.1 hk))
      simp only [hT]; positivity
  rw [Finset.sum_add_distrib] at e1 e2
  have eT : 2 * μ * ∑ k ∈ Finset.range S.n, T k = 2 * ∑ k ∈ Finset.range S.n, T k * μ := by
    rw [← Finset.sum_mul]; ring
  rw [eT]
  simp only [eY]
  set G := ∑ k ∈ Finset.range S.n, 2 * ‖val (S.rA k)‖ / -(val (S.zA k)).re with hG
  set Es := ∑ k ∈ Finset.range S.n, E k with hEs
  set Ts := ∑ k ∈ Finset.range S.n, T k * μ with hTs
  have few : 2 * (S.n : ℝ) * ε ≤ 1 := by
    have h1 : ((S.n : ℕ) : ℝ) ≤ 2 ^ 20 := by exact_mod_cast hS.few.trans (by norm_num)
    have : ((S.n : ℕ) : ℝ) * ε ≤ 2 ^ 20 * (1 / 2 ^ 21) := mul_le_mul h1 hS.ε1 e0 (by positivity)
    norm_num at this
    linarith
  have e3 : |v - output ((st (n + 1)).prevY.map val)| ≤ 3 * S.n * ε * (G * (A + Λ)) + Es + Ts := by
    refine hsum.trans ?_
    have hn0 : 0 ≤ 2 * (S.n : ℝ) * ε := by positivity
    have h1 := mul_le_mul_of_nonneg_left (add_le_add e2 (le_refl ((1 : ℝ) / 2 ^ 90))) hn0
    have h2 : 2 * (S.n : ℝ) * ε * Es ≤ 1 * Es := mul_le_mul_of_nonneg_right few E0
    have h5 : 2 * (S.n : ℝ) * ε * Ts ≤ 1 * Ts := mul_le_mul_of_nonneg_right few T0
    have h4 : 2 * (S.n : ℝ) * ε * (1 / 2 ^ 80) ≤ 0.9 * S.n * ε * (G * (A + Λ)) := by
      rcases Nat.eq_zero_or_pos S.n with hz0 | hz0
      · rw [hz0]; simp
      · have hg : 1 / 2 ^ 14 ≤ G := by
          have hg1 : 2 * ‖val (S.rA 0)‖ / -(val (S.zA 0)).re ≤ G := by
            rw [hG]
            exact Finset.single_le_sum (f := fun k => 2 * ‖val (S.rA k)‖ / -(val (S.zA k)).re)
              (fun k hk => by have := hzpos k hk; positivity) (Finset.mem_range.2 hz0)
          refine le_trans ?_ hg1
          obtain ⟨z0, -, z2, -⟩ := z_range hS hz0
          have hre := (abs_le.1 (Complex.abs_re_le_norm (val (S.zA 0)))).1
          rw [le_div_iff₀ (by linarith)]
          have := (r_range hS hz0).1
          norm_num
          linarith
        have hgm : 1 / 2 ^ 14 * (1 / 2 ^ 40) ≤ G * (A + Λ) :=
          mul_le_mul hg M0 (by positivity) G0
        have hn1 : 0 ≤ (S.n : ℝ) * ε := by positivity
        have : (S.n : ℝ) * ε * (2 * (1 / 2 ^ 80)) ≤ (S.n : ℝ) * ε * (0.9 * (G * (A + Λ))) := by
          apply mul_le_mul_of_nonneg_left _ hn1
          norm_num at hgm ⊢
          linarith
        linarith
    have h3 : 2 * (S.n : ℝ) * ε * (G * (1.001 * A)) ≤ 2.1 * S.n * ε * (G * (A + Λ)) := by
      have : 0 ≤ (S.n : ℝ) * ε * G := by positivity
      have : (S.n : ℝ) * ε * G * (2.002 * A) ≤ (S.n : ℝ) * ε * G * (2.1 * (A + Λ)) := by
        apply mul_le_mul_of_nonneg_left _ this
        linarith
      linarith
    linarith
  have e4 : ε * (A + Λ) * ((∑ k ∈ Finset.range S.n, 8 * ‖val (S.rA k)‖ * (1 + 1 / -(val (S.zA k)).re) *
      (132 * ν ^ 2 * (1 + ‖val (S.zA k)‖) / ‖val (S.zA k)‖ ^ 2 + 5 / -(val (S.zA k)).re + 7)) +
      3 * (S.n : ℝ) * G) = 2 * Es + 3 * S.n * ε * (G * (A + Λ)) := by
    have a : ∀ k, 8 * ‖val (S.rA k)‖ * (1 + 1 / -(val (S.zA k)).re) *
      (132 * ν ^ 2 * (1 + ‖val (S.zA k)‖) / ‖val (S.zA k)‖ ^ 2 + 5 / -(val (S.zA k)).re + 7) =
      2 * (4 * ‖val (S.rA k)‖ * (1 + 1 / -(val (S.zA k)).re) *
      (132 * ν ^ 2 * (1 + ‖val (S.zA k)‖) / ‖val (S.zA k)‖ ^ 2 + 5 / -(val (S.zA k)).re + 7)) :=
      fun k => by ring
    have b : Es = ε * ((A + Λ) * ∑ k ∈ Finset.range S.n, 4 * ‖val (S.rA k)‖ *
      (1 + 1 / -(val (S.zA k)).re) *
      (132 * ν ^ 2 * (1 + ‖val (S.zA k)‖) / ‖val (S.zA k)‖ ^ 2 + 5 / -(val (S.zA k)).re + 7)) := by
      rw [hEs]; simp only [hE]
      rw [← Finset.mul_sum, ← Finset.mul_sum]
    rw [b, Finset.sum_congr rfl fun k _ => a k, ← Finset.mul_sum]
    ring
  rw [e4]
  have := abs_add_le (v - output ((st (n + 1)).prevY.map val))
    (output ((st (n + 1)).prevY.map val) - (∑ k ∈ Finset.range S.n, Y k).re)
  rw [sub_add_sub_cancel] at this
  linarith

theorem run_valueL (hS : FloatSys S val ε) (hl : Log2Spec S.env.log2f)
    (hA : TablesWithin S.env ws nw L A) (hΛ : SlopesWithin S.env ws nw L Λ)
    (M0 : 1 / 2 ^ 40 ≤ A + Λ) (M1 : A + Λ ≤ 2 ^ 24)
    (h : LiveRun S ws nw L m st sw w dir p y t) (hp : ∀ i < m, IsPhase S.env.fl (p i))
    {μ : ℝ} (hμ : μ ≤ 2 ^ 89) (hmem : ∀ k < S.n, ‖val ((st 0).prevY.getD k 0)‖ ≤ μ)
    (hν : ∀ i < m, 2 ^ (L - (t i).idx.toNat) *
      |trueStepOf S.env.fl dir (st 0).prevPhase p i| + 2 ≤ ν)
    (hdl : ∀ i < m, 1 / 2 ^ 100 ≤ |(st (i + 1)).prevPhaseDiff|) {n : ℕ} (hn : n < m) {v : ℝ}
    (hv : |v - output ((st (n + 1)).prevY.map val)| ≤
      2 * S.n * ε * (∑ k ∈ Finset.range S.n, ‖val ((st (n + 1)).prevY.getD k 0)‖ + 1 / 2 ^ 80)) :
    |v - filtered (valFilter val S.flt) (playedW S.env ws L w t
        (unwrapped (st 0).prevPhase (trueStepOf S.env.fl dir (st 0).prevPhase p))) (n + 1)| ≤
      ε * (A + Λ) * roundoffGain (valFilter val S.flt) ν + 2 * μ * leftAfter (valFilter val S.flt) (n + 1) := by
  have hν0 : 0 ≤ ν := le_trans (by positivity) (hν n hn)
  refine (run_value_capL hS hl hA hΛ M0 M1 h hp hμ hmem (ν := min ν (2 ^ 20))
    (fun i hi => le_min (hν i hi) (step_capL hS hl h hp hi)) (min_le_right _ _) hdl hn hv).trans ?_
  have hM : 0 ≤ A + Λ := le_trans (by positivity) M0
  have hz : ∀ k, (valFilter val S.flt).z.getD k 0 = val (S.zA k) := fun k => val_getD hS _ k
  have hN : (valFilter val S.flt).r.length = S.n := by simp [valFilter, Sys.n]
  have hm : (min ν (2 ^ 20)) ^ 2 ≤ ν ^ 2 :=
    pow_le_pow_left₀ (le_min hν0 (by positivity)) (min_le_left _ _) 2
  refine add_le_add (mul_le_mul_of_nonneg_left ?_ (mul_nonneg hS.ε0 hM)) le_rfl
  unfold roundoffGain
  gcongr with k hk
  rw [hN] at hk
  have := (pole_pos hS (Finset.mem_range.1 hk)).2
  rw [hz]
  positivity

theorem run_outputL (hS : FloatSys S val ε) (hl : Log2Spec S.env.log2f)
    (hA : TablesWithin S.env ws nw L A) (hΛ : SlopesWithin S.env ws nw L Λ)
    (M0 : 1 / 2 ^ 40 ≤ A + Λ) (M1 : A + Λ ≤ 2 ^ 24)
    (h : LiveRun S ws nw L m st sw w dir p y t) (hp : ∀ i < m, IsPhase S.env.fl (p i))
    {μ : ℝ} (hμ : μ ≤ 2 ^ 89) (hmem : ∀ k < S.n, ‖val ((st 0).prevY.getD k 0)‖ ≤ μ)
    (hν : ∀ i < m, 2 ^ (L - (t i).idx.toNat) *
      |trueStepOf S.env.fl dir (st 0).prevPhase p i| + 2 ≤ ν)
    (hdl : ∀ i < m, 1 / 2 ^ 100 ≤ |(st (i + 1)).prevPhaseDiff|) {n : ℕ} (hn : n < m) :
    |y n - filtered (valFilter val S.flt) (playedW S.env ws L w t
        (unwrapped (st 0).prevPhase (trueStepOf S.env.fl dir (st 0).prevPhase p))) (n + 1)| ≤
      ε * (A + Λ) * roundoffGain (valFilter val S.flt) ν + 2 * μ * leftAfter (valFilter val S.flt) (n + 1) := by
  have hν0 : 0 ≤ ν := le_trans (by positivity) (hν n hn)
  obtain ⟨-, -, -, -, -, hout⟩ := run_nearL hS hl hA hΛ M0 M1 h hp hμ hmem (ν := min ν (2 ^ 20))
    (fun i hi => le_min (hν i hi) (step_capL hS hl h hp hi)) (min_le_right _ _) hdl (n := n + 1) hn
  exact run_valueL hS hl hA hΛ M0 M1 h hp hμ hmem hν hdl hn (hout n rfl).2

/-- the memories stay far from overflow -/
theorem run_small (hS : FloatSys S val ε) (hl : Log2Spec S.env.log2f)
    (hA : TablesWithin S.env ws nw L A) (hΛ : SlopesWithin S.env ws nw L Λ)
    (M0 : 1 / 2 ^ 40 ≤ A + Λ) (M1 : A + Λ ≤ 2 ^ 24)
    (h : LiveRun S ws nw L m st sw w dir p y t) (hp : ∀ i < m, IsPhase S.env.fl (p i))
    {μ : ℝ} (hμ : μ ≤ 2 ^ 89) (hmem : ∀ k < S.n, ‖val ((st 0).prevY.getD k 0)‖ ≤ μ)
    (hdl : ∀ i < m, 1 / 2 ^ 100 ≤ |(st (i + 1)).prevPhaseDiff|) {n : ℕ} (hn : n < m) :
    (st (n + 1)).prevY.length = S.n ∧ ∀ k < S.n, ‖val ((st (n + 1)).prevY.getD k 0)‖ ≤ 2 ^ 95 := by
  obtain ⟨-, -, -, hAΛ, hnear, hout⟩ := run_nearL hS hl hA hΛ M0 M1 h hp hμ hmem (ν := 2 ^ 20)
    (fun i hi => step_capL hS hl h hp hi) le_rfl hdl (n := n + 1) hn
  obtain ⟨hA0, hΛ0⟩ := hAΛ (Nat.succ_ne_zero n)
  refine ⟨(hout n rfl).1, fun k hk => ?_⟩
  obtain ⟨m1, m2⟩ := hnear k hk
  rw [if_neg (Nat.succ_ne_zero n)] at m1 m2
  have μ0 : 0 ≤ μ := (norm_nonneg _).trans (hmem k hk)
  obtain ⟨-, z0⟩ := pole_pos hS hk
  have hρn : ((1 + -(val (S.zA k)).re / 2) / (1 + -(val (S.zA k)).re)) ^ (n + 1) * μ ≤ 2 ^ 89 := by
    refine (mul_le_of_le_one_left μ0 (pow_le_one₀ (by positivity) ?_)).trans hμ
    rw [div_le_one (by linarith)]; linarith
  refine (near_norm m1 m2).trans ?_
  have := mem_range hS hk hA0 (le_trans (by positivity) M0) (by linarith) M1 (by positivity)
    (le_refl ((2 : ℝ) ^ 20))
  rw [← add_assoc]
  exact (add_le_add this hρn).trans (by norm_num)

theorem step_capW (hS : FloatSys S val ε) (hl : Log2Spec S.env.log2f)
    (h : SwitchedRun S ws nw L m st sw w dir p y t) (hp : ∀ i < m, IsPhase S.env.fl (p i)) {i : ℕ} (hi : i < m) :
    2 ^ (L - (t i).idx.toNat) * |trueStepOf S.env.fl dir (st 0).prevPhase p i| + 2 ≤ (2 : ℝ) ^ 20 :=
  step_capL hS hl h.live hp hi

theorem run_outputW (hS : FloatSys S val ε) (hl : Log2Spec S.env.log2f)
    (hA : TablesWithin S.env ws nw L A) (hΛ : SlopesWithin S.env ws nw L Λ)
    (M0 : 1 / 2 ^ 40 ≤ A + Λ) (M1 : A + Λ ≤ 2 ^ 24)
    (h : SwitchedRun S ws nw L m st sw w dir p y t) (hp : ∀ i < m, IsPhase S.env.fl (p i))
    (hν : ∀ i < m, 2 ^ (L - (t i).idx.toNat) *
      |trueStepOf S.env.fl dir (st 0).prevPhase p i| + 2 ≤ ν)
    (hdl : ∀ i < m, 1 / 2 ^ 100 ≤ |(st (i + 1)).prevPhaseDiff|) {n : ℕ} (hn : n < m) :
    |y n - filtered (valFilter val S.flt) (playedW S.env ws L w t
        (unwrapped (st 0).prevPhase (trueStepOf S.env.fl dir (st 0).prevPhase p))) (n + 1)| ≤
      ε * (A + Λ) * roundoffGain (valFilter val S.flt) ν := by
  have := run_outputL hS hl hA hΛ M0 M1 h.live hp (by positivity) (zero_mem hS h.zero) hν hdl hn
  simpa only [mul_zero, zero_mul, add_zero] using this

theorem step_cap (hS : FloatSys S val ε) (hl : Log2Spec S.env.log2f)
    (h : TrackedRun S ws nw L m st dir p y t) (hp : ∀ i < m, IsPhase S.env.fl (p i)) {i : ℕ} (hi : i < m) :
    2 ^ (L - (t i).idx.toNat) * |trueStepOf S.env.fl dir (st 0).prevPhase p i| + 2 ≤ (2 : ℝ) ^ 20 :=
  step_capW hS hl (h.switched hS.fl hl hS.B hp).1 hp hi

theorem run_near (hS : FloatSys S val ε) (hl : Log2Spec S.env.log2f)
    (hA : TablesWithin S.env ws nw L A) (hΛ : SlopesWithin S.env ws nw L Λ)
    (M0 : 1 / 2 ^ 40 ≤ A + Λ) (M1 : A + Λ ≤ 2 ^ 24)
    (h : TrackedRun S ws nw L m st dir p y t) (hp : ∀ i < m, IsPhase S.env.fl (p i))
    (hν : ∀ i < m, 2 ^ (L - (t i).idx.toNat) *
      |trueStepOf S.env.fl dir (st 0).prevPhase p i| + 2 ≤ ν) (hν20 : ν ≤ 2 ^ 20)
    (hdl : ∀ i < m, 1 / 2 ^ 100 ≤ |(st (i + 1)).prevPhaseDiff|) {n : ℕ} (hn : n ≤ m) :
    Plays S ws nw L (st n) ∧ (st n).crt = (st 0).crt ∧
    (st n).prevPhase = (if n = 0 then (st 0).prevPhase else p (n - 1)) ∧
    (∃ k : ℤ, (st 0).prevPhase +
      ∑ i ∈ Finset.range n, trueStepOf S.env.fl dir (st 0).prevPhase p i = (st n).prevPhase + k) ∧
    (n ≠ 0 → 0 ≤ A ∧ 0 ≤ Λ) ∧
    (∀ k < S.n, ‖val ((st n).prevY.getD k 0) - 2 * val (S.rA k) *
      ∫ u in (0 : ℝ)..n, Complex.exp (val (S.zA k) * (n - u)) *
        (played S.env ws L (st 0).crt t
          (unwrapped (st 0).prevPhase (trueStepOf S.env.fl dir (st 0).prevPhase p)) u : ℂ)‖ ≤
      (if n = 0 then 0 else ε * ((A + Λ) * (4 * ‖val (S.rA k)‖ * (1 + 1 / -(val (S.zA k)).re) *
        (132 * ν ^ 2 * (1 + ‖val (S.zA k)‖) / ‖val (S.zA k)‖ ^ 2 + 5 / -(val (S.zA k)).re + 7)))) ∧
      ‖2 * val (S.rA k) * ∫ u in (0 : ℝ)..n, Complex.exp (val (S.zA k) * (n - u)) *
        (played S.env ws L (st 0).crt t
          (unwrapped (st 0).prevPhase (trueStepOf S.env.fl dir (st 0).prevPhase p)) u : ℂ)‖ ≤
        (if n = 0 then 0 else 2 * ‖val (S.rA k)‖ / -(val (S.zA k)).re * (1.001 * A))) ∧
    ∀ j, n = j + 1 → (st n).prevY.length = S.n ∧ |y j - output ((st n).prevY.map val)| ≤
      2 * S.n * ε * (∑ k ∈ Finset.range S.n, ‖val ((st n).prevY.getD k 0)‖ + 1 / 2 ^ 80) := by
  obtain ⟨h1, h2⟩ := h.switched hS.fl hl hS.B hp
  obtain ⟨a1, a2⟩ := run_nearW hS hl hA hΛ M0 M1 h1 hp hν hν20 hdl hn
  exact ⟨a1, h2 n hn, a2⟩

theorem run_output (hS : FloatSys S val ε) (hl : Log2Spec S.env.log2f)
    (hA : TablesWithin S.env ws nw L A) (hΛ : SlopesWithin S.env ws nw L Λ)
    (M0 : 1 / 2 ^ 40 ≤ A + Λ) (M1 : A + Λ ≤ 2 ^ 24)
    (h : TrackedRun S ws nw L m st dir p y t) (hp : ∀ i < m, IsPhase S.env.fl (p i))
    (hν : ∀ i < m, 2 ^ (L - (t i).idx.toNat) *
      |trueStepOf S.env.fl dir (st 0).prevPhase p i| + 2 ≤ ν)
    (hdl : ∀ i < m, 1 / 2 ^ 100 ≤ |(st (i + 1)).prevPhaseDiff|) {n : ℕ} (hn : n < m) :
    |y n - filtered (valFilter val S.flt) (played S.env ws L (st 0).crt t
        (unwrapped (st 0).prevPhase (trueStepOf S.env.fl dir (st 0).prevPhase p))) (n + 1)| ≤
      ε * (A + Λ) * roundoffGain (valFilter val S.flt) ν :=
  run_outputW hS hl hA hΛ M0 M1 (h.switched hS.fl hl hS.B hp).1 hp hν hdl hn

end Sys
end Adwt
