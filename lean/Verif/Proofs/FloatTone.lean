import Verif.Proofs.FloatRun2
import Verif.Proofs.ToneRun

/-!
# Steady tones in float arithmetic
-/

set_option linter.unusedSectionVars false

namespace Adwt
open Seg WavetableData MeasureTheory

variable {C : Type} [Zero C] [Add C] [Sub C] [Mul C] [Div C]

theorem past_bound {W : ℝ → ℝ} {B : ℝ} (hB : ∀ u, |W u| ≤ B) {z : ℂ} (hz : z.re < 0) (d x : ℝ) :
    ‖past W z d x‖ ≤ B / -z.re := by
  unfold past
  have hi : IntegrableOn (fun τ : ℝ => Real.exp (z.re * τ) * B) (Set.Ioi 0) :=
    (integrableOn_exp_mul_Ioi hz 0).mul_const _
  refine (norm_integral_le_of_norm_le hi (Filter.Eventually.of_forall fun τ => ?_)).trans ?_
  · rw [norm_mul, norm_exp_mul, Complex.norm_real]
    exact mul_le_mul_of_nonneg_left (hB _) (Real.exp_nonneg _)
  · rw [integral_mul_const, integral_exp_mul_Ioi hz]
    simp only [mul_zero, Real.exp_zero]
    apply le_of_eq
    ring

theorem tone_int {flt : Filter ℂ} {W : ℝ → ℝ} (hp : Function.Periodic W 1) (d x : ℝ) (k : ℤ) :
    tone flt W d (x + k) = tone flt W d x := by
  unfold tone
  congr 1
  apply Finset.sum_congr rfl
  intro j _
  congr 1
  exact past_period hp _ d x k

namespace Sys
variable {S : Sys ℝ C} {val : C → ℂ} {ε A Λ ν σ : ℝ} {nw L m : ℕ} {ws : List ℝ} {st : ℕ → Osc ℝ C}
  {dir : ℕ → Sys.Direction} {p y : ℕ → ℝ} {t : ℕ → MipMapIndices ℝ}

theorem single_mixture {E : Env ℝ} {w i : ℤ} : mixture E ws L w ⟨i, 1, i + 1, 0⟩ = waveAt E ws L w i := by
  funext u; unfold mixture; simp

/-- The memory approaches that of the tone. -/
theorem tone_mem (hS : FloatSys S val ε) (hl : Log2Spec S.env.log2f)
    (hA : TablesWithin S.env ws nw L A) (hΛ : SlopesWithin S.env ws nw L Λ)
    (M0 : 1 / 2 ^ 40 ≤ A + Λ) (M1 : A + Λ ≤ 2 ^ 24)
    (hσ1 : ∀ z ∈ S.flt.z, (val z).re ≤ -σ)
    (h : TrackedRun S ws nw L m st dir p y t) (hp : ∀ i < m, IsPhase S.env.fl (p i))
    (hdl : ∀ i < m, 1 / 2 ^ 100 ≤ |(st (i + 1)).prevPhaseDiff|) {N : ℕ} {i : ℤ} {d : ℝ}
    (hN : ∀ n, N ≤ n → n < m → t n = ⟨i, 1, i + 1, 0⟩ ∧
      trueStepOf S.env.fl dir (st 0).prevPhase p n = d) (hNm : N < m) {k : ℕ} (hk : k < S.n) {n : ℕ}
    (hn : N + n ≤ m) :
    ‖2 * val (S.rA k) * (∫ u in (0 : ℝ)..(N + n : ℕ), Complex.exp (val (S.zA k) * ((N + n : ℕ) - u)) *
        (played S.env ws L (st 0).crt t
          (unwrapped (st 0).prevPhase (trueStepOf S.env.fl dir (st 0).prevPhase p)) u : ℂ)) -
      2 * val (S.rA k) * past (waveAt S.env ws L (st 0).crt i) (val (S.zA k)) d
        ((st 0).prevPhase + ∑ j ∈ Finset.range (N + n), trueStepOf S.env.fl dir (st 0).prevPhase p j)‖ ≤
      Real.exp (-σ * n) * (2.002 * A * (2 * ‖val (S.rA k)‖ / -(val (S.zA k)).re)) := by
  have z0 := (pole_pos hS hk).2
  have z1 := hσ1 _ (z_mem hS hk)
  set z := val (S.zA k) with hz
  set r := val (S.rA k) with hr
  set W := waveAt S.env ws L (st 0).crt i with hW
  have hWc : Continuous W := interp_continuous _
  have hWp : Function.Periodic W 1 := waveAt_period
  set V := played S.env ws L (st 0).crt t
    (unwrapped (st 0).prevPhase (trueStepOf S.env.fl dir (st 0).prevPhase p)) with hV
  induction n with
  | zero =>
    have hn := run_near hS hl hA hΛ M0 M1 h hp (fun i hi => step_cap hS hl h hp hi) le_rfl hdl (n := N) hNm.le
    obtain ⟨i1, i2, i3, -, -, i5, -⟩ := hn
    have c2 := (i5 k hk).2
    have hpl := reached_play hS.fl hl hS.B i1.1
    obtain ⟨wt, hwt, -⟩ := hpl.wt
    obtain ⟨v, e, hv⟩ := Props.process_one (by rw [hwt]; rfl) (h.call N hNm)
    have hp' : PhaseOk S.env.fl (p N) := ⟨(h.phase N hNm).1, (h.phase N hNm).2, hp N hNm⟩
    obtain ⟨-, s1, s2, s3⟩ := stepDir_tables e
    have ht := h.next N hNm
    rw [s2] at ht
    have hd : trueStep S.env.fl (dir N) (p N) (st N).prevPhase =
        trueStepOf S.env.fl dir (st 0).prevPhase p N := by
      rw [i3]; rfl
    have hν' := step_cap hS hl h hp hNm
    have hdn := hdl N hNm
    rw [s2] at hdn
    rw [← hd] at hν'
    obtain ⟨-, hA0, -, hmix, -, -, -⟩ := step_near hS hl hA hΛ M0 M1 i1 hp' (h.step N hNm) e ht
      (h.move N hNm) (h.off N hNm) hν' hdn
    rw [i2, (hN N le_rfl hNm).1, single_mixture] at hmix
    have hP := past_bound hmix (by linarith : z.re < 0) d
      ((st 0).prevPhase + ∑ j ∈ Finset.range (N + 0), trueStepOf S.env.fl dir (st 0).prevPhase p j)
    have c2' : ‖2 * r * ∫ u in (0 : ℝ)..(N : ℕ), Complex.exp (z * ((N : ℕ) - u)) * (V u : ℂ)‖ ≤
        2 * ‖r‖ / -z.re * (1.001 * A) := by
      refine c2.trans ?_
      split_ifs
      · positivity
      · exact le_rfl
    simp only [add_zero, Nat.cast_zero, mul_zero, Real.exp_zero, one_mul] at hP ⊢
    refine (norm_sub_le _ _).trans ?_
    have a : ‖2 * r * past W z d ((st 0).prevPhase +
        ∑ j ∈ Finset.range N, trueStepOf S.env.fl dir (st 0).prevPhase p j)‖ ≤
        2 * ‖r‖ * (1.001 * A / -z.re) := norm_mul_le' (by rw [norm_mul]; norm_num) hP
    have b : 2 * ‖r‖ * (1.001 * A / -z.re) = 2 * ‖r‖ / -z.re * (1.001 * A) := by ring
    linarith
  | succ n ih =>
    have hlt : N + n < m := by omega
    have ih := ih (by omega)
    have hc := conv_succ (m := N + n + 1)
      (V := V)
      (g := fun i τ => mixture S.env ws L (st 0).crt (t i)
        ((st 0).prevPhase + ∑ l ∈ Finset.range i, trueStepOf S.env.fl dir (st 0).prevPhase p l +
          τ * trueStepOf S.env.fl dir (st 0).prevPhase p i))
      (fun i _ => mixture_continuous.comp (by fun_prop))
      (by
        intro i _ u h0 h1
        simp only [hV]
        unfold played unwrapped
        rw [floor_mid h0 h1]) z (Nat.lt_succ_self (N + n))
    obtain ⟨ht, hd⟩ := hN (N + n) (by omega) hlt
    rw [ht, hd, single_mixture] at hc
    have hresp : ∫ u in (0 : ℝ)..1, Complex.exp (z * (1 - u)) * (waveAt S.env ws L (st 0).crt i
        ((st 0).prevPhase + ∑ l ∈ Finset.range (N + n), trueStepOf S.env.fl dir (st 0).prevPhase p l +
          u * d) : ℂ) = response W z ((st 0).prevPhase +
          ∑ l ∈ Finset.range (N + n), trueStepOf S.env.fl dir (st 0).prevPhase p l) d := rfl
    rw [hresp] at hc
    rw [← add_assoc, hc, Finset.sum_range_succ, hd, ← add_assoc (st 0).prevPhase,
      past_step hWc hWp (by linarith)]
    set I : ℂ := ∫ u in (0 : ℝ)..(N + n : ℕ), Complex.exp (z * ((N + n : ℕ) - u)) * (V u : ℂ) with hI
    set P := past W z d ((st 0).prevPhase +
      ∑ l ∈ Finset.range (N + n), trueStepOf S.env.fl dir (st 0).prevPhase p l) with hP
    rw [show ∀ q : ℂ, 2 * r * (Complex.exp z * I + q) - 2 * r * (Complex.exp z * P + q) =
      Complex.exp z * (2 * r * I - 2 * r * P) from fun q => by ring]
    have hg : ‖Complex.exp z‖ ≤ Real.exp (-σ) := by
      rw [Complex.norm_exp]; exact Real.exp_le_exp.2 z1
    refine (norm_mul_le' hg ih).trans (le_of_eq ?_)
    rw [← mul_assoc, ← Real.exp_add]
    congr 2
    push_cast; ring

theorem filtered_tone (hS : FloatSys S val ε) (hl : Log2Spec S.env.log2f)
    (hA : TablesWithin S.env ws nw L A) (hΛ : SlopesWithin S.env ws nw L Λ)
    (M0 : 1 / 2 ^ 40 ≤ A + Λ) (M1 : A + Λ ≤ 2 ^ 24)
    (hσ1 : ∀ z ∈ S.flt.z, (val z).re ≤ -σ)
    (h : TrackedRun S ws nw L m st dir p y t) (hp : ∀ i < m, IsPhase S.env.fl (p i))
    (hdl : ∀ i < m, 1 / 2 ^ 100 ≤ |(st (i + 1)).prevPhaseDiff|) {N : ℕ} {i : ℤ} {d : ℝ}
    (hN : ∀ n, N ≤ n → n < m → t n = ⟨i, 1, i + 1, 0⟩ ∧
      trueStepOf S.env.fl dir (st 0).prevPhase p n = d) {n : ℕ} (hn0 : N ≤ n) (hn : n < m) :
    |filtered (valFilter val S.flt) (played S.env ws L (st 0).crt t
        (unwrapped (st 0).prevPhase (trueStepOf S.env.fl dir (st 0).prevPhase p))) (n + 1) -
      tone (valFilter val S.flt) (waveAt S.env ws L (st 0).crt i) d (p n)| ≤
      Real.exp (-σ * (n + 1 - N : ℕ)) * (2.002 * A * filterGain (valFilter val S.flt)) := by
  obtain ⟨-, -, i3, ⟨j, i4⟩, -⟩ := run_near hS hl hA hΛ M0 M1 h hp (fun i hi => step_cap hS hl h hp hi) le_rfl hdl (n := n + 1) hn
  rw [if_neg (Nat.succ_ne_zero n), Nat.add_sub_cancel] at i3
  rw [i3] at i4
  have hr : ∀ k, (valFilter val S.flt).r.getD k 0 = val (S.rA k) := fun k => val_getD hS _ k
  have hz : ∀ k, (valFilter val S.flt).z.getD k 0 = val (S.zA k) := fun k => val_getD hS _ k
  have hlen : (valFilter val S.flt).r.length = S.n := by simp [valFilter, Sys.n]
  rw [← tone_int waveAt_period d (p n) j, ← i4]
  unfold filtered tone filterGain
  simp only [hr, hz, hlen]
  rw [← Complex.sub_re, ← Finset.sum_sub_distrib]
  refine (Complex.abs_re_le_norm _).trans ((norm_sum_le _ _).trans ?_)
  rw [Finset.mul_sum, Finset.mul_sum]
  apply Finset.sum_le_sum
  intro k hk
  have key := tone_mem hS hl hA hΛ M0 M1 hσ1 h hp hdl hN (by omega : N < m) (Finset.mem_range.1 hk)
    (n := n + 1 - N) (by omega)
  rw [show N + (n + 1 - N) = n + 1 by omega] at key
  push_cast at key ⊢
  exact key

theorem filtered_bound (hS : FloatSys S val ε) (hl : Log2Spec S.env.log2f)
    (hA : TablesWithin S.env ws nw L A) (hΛ : SlopesWithin S.env ws nw L Λ)
    (M0 : 1 / 2 ^ 40 ≤ A + Λ) (M1 : A + Λ ≤ 2 ^ 24)
    (h : TrackedRun S ws nw L m st dir p y t) (hp : ∀ i < m, IsPhase S.env.fl (p i))
    (hdl : ∀ i < m, 1 / 2 ^ 100 ≤ |(st (i + 1)).prevPhaseDiff|) {n : ℕ} (hn : n < m) :
    |filtered (valFilter val S.flt) (played S.env ws L (st 0).crt t
        (unwrapped (st 0).prevPhase (trueStepOf S.env.fl dir (st 0).prevPhase p))) (n + 1)| ≤
      1.001 * A * filterGain (valFilter val S.flt) := by
  obtain ⟨-, -, -, -, -, i5, -⟩ := run_near hS hl hA hΛ M0 M1 h hp (fun i hi => step_cap hS hl h hp hi) le_rfl hdl (n := n + 1) hn
  have hr : ∀ k, (valFilter val S.flt).r.getD k 0 = val (S.rA k) := fun k => val_getD hS _ k
  have hz : ∀ k, (valFilter val S.flt).z.getD k 0 = val (S.zA k) := fun k => val_getD hS _ k
  have hlen : (valFilter val S.flt).r.length = S.n := by simp [valFilter, Sys.n]
  unfold filtered filterGain
  simp only [hr, hz, hlen]
  refine (Complex.abs_re_le_norm _).trans ((norm_sum_le _ _).trans ?_)
  rw [Finset.mul_sum]
  apply Finset.sum_le_sum
  intro k hk
  have key := (i5 k (Finset.mem_range.1 hk)).2
  rw [if_neg (Nat.succ_ne_zero n)] at key
  push_cast at key ⊢
  linarith

end Sys
end Adwt
