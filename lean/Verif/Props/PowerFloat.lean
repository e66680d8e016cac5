import Verif.Props.Power
import Verif.Props.LinesFloat

/-!
# C105 in float arithmetic
-/

set_option linter.unusedSectionVars false

namespace Adwt
open Classical _root_.Filter

/-- Minkowski's inequality for the level of `N` samples -/
theorem rms_sub (u w : ℕ → ℝ) (N : ℕ) :
    |√((∑ n ∈ Finset.range N, u n ^ 2) / N) - √((∑ n ∈ Finset.range N, w n ^ 2) / N)| ≤
      √((∑ n ∈ Finset.range N, (u n - w n) ^ 2) / N) := by
  have e : ∀ v : ℕ → ℝ, √((∑ n ∈ Finset.range N, v n ^ 2) / N) =
      ‖WithLp.toLp 2 (fun n : Fin N => v n)‖ / √N := by
    intro v
    rw [EuclideanSpace.norm_eq, Real.sqrt_div (Finset.sum_nonneg fun _ _ => sq_nonneg _), Finset.sum_range]
    simp
  rw [e u, e w, e fun n => u n - w n, ← sub_div, abs_div, abs_of_nonneg (Real.sqrt_nonneg (N : ℝ))]
  exact div_le_div_of_nonneg_right (abs_norm_sub_norm_le _ _) (Real.sqrt_nonneg _)

/-- samples that are, in the end, within `B` of some that have a mean power -/
theorem MeanPower.near {y z : ℕ → ℝ} {P B : ℝ} (h : MeanPower y P) (hB : 0 ≤ B) {e : ℕ → ℝ}
    (he : Tendsto e atTop (nhds 0)) (N : ℕ) (hz : ∀ n ≥ N, |z n - y n| ≤ e n + B) (η : ℝ) (hη : 0 < η) :
    ∀ᶠ M : ℕ in atTop, |√((∑ n ∈ Finset.range M, z n ^ 2) / M) - √P| ≤ B + η := by
  -- the squared distance is, in the mean, at most `(B + η/2)²` and something that tends to zero
  set v : ℕ → ℝ := fun n => max ((z n - y n) ^ 2 - B ^ 2) 0 with hv
  have hv0 : Tendsto v atTop (nhds 0) := by
    have h1 : Tendsto (fun n => |e n| * (|e n| + 2 * B)) atTop (nhds 0) := by
      have h2 : Tendsto (fun n => |e n|) atTop (nhds 0) := by simpa using he.abs
      simpa using h2.mul (h2.add_const (2 * B))
    refine squeeze_zero' (Eventually.of_forall fun n => le_max_right _ _) ?_ h1
    filter_upwards [eventually_ge_atTop N] with n hn
    have h3 : |z n - y n| ≤ |e n| + B := (hz n hn).trans (by linarith [le_abs_self (e n)])
    have h4 : (z n - y n) ^ 2 ≤ (|e n| + B) ^ 2 := by
      rw [← sq_abs]; exact pow_le_pow_left₀ (abs_nonneg _) h3 2
    have h5 := mul_nonneg (abs_nonneg (e n)) (add_nonneg (abs_nonneg (e n)) (mul_nonneg two_pos.le hB))
    exact max_le (by linarith [show (|e n| + B) ^ 2 = |e n| * (|e n| + 2 * B) + B ^ 2 by ring]) h5
  have hc := hv0.cesaro
  have hs := (Real.continuous_sqrt.tendsto _).comp h
  have e1 := (Metric.tendsto_atTop.1 hc) ((η / 2) ^ 2) (by positivity)
  have e2 := (Metric.tendsto_atTop.1 hs) (η / 2) (by linarith)
  obtain ⟨M1, e1⟩ := e1
  obtain ⟨M2, e2⟩ := e2
  filter_upwards [eventually_ge_atTop (max (max M1 M2) 1)] with M hM
  have hM1 : M1 ≤ M := (le_max_left _ _).trans ((le_max_left _ _).trans hM)
  have hM2 : M2 ≤ M := (le_max_right _ _).trans ((le_max_left _ _).trans hM)
  have hM0 : 0 < (M : ℝ) := by exact_mod_cast lt_of_lt_of_le Nat.one_pos ((le_max_right _ _).trans hM)
  have k1 := e1 M hM1
  have k2 := (e2 M hM2).le
  rw [Real.dist_eq, sub_zero] at k1
  rw [Real.dist_eq] at k2
  simp only [Function.comp] at k2
  have k3 := rms_sub z y M
  have k4 : √((∑ n ∈ Finset.range M, (z n - y n) ^ 2) / M) ≤ B + η / 2 := by
    rw [Real.sqrt_le_left (by linarith)]
    have : (∑ n ∈ Finset.range M, (z n - y n) ^ 2) ≤ ∑ n ∈ Finset.range M, (B ^ 2 + v n) :=
      Finset.sum_le_sum fun n _ => by
        have := le_max_left ((z n - y n) ^ 2 - B ^ 2) 0
        show _ ≤ B ^ 2 + max ((z n - y n) ^ 2 - B ^ 2) 0
        linarith
    rw [Finset.sum_add_distrib, Finset.sum_const, Finset.card_range, nsmul_eq_mul] at this
    have h6 : (∑ n ∈ Finset.range M, (z n - y n) ^ 2) / M ≤ B ^ 2 + (M : ℝ)⁻¹ * ∑ n ∈ Finset.range M, v n := by
      rw [div_le_iff₀ hM0]
      refine this.trans (le_of_eq ?_)
      field_simp
    have h7 := le_abs_self ((M : ℝ)⁻¹ * ∑ n ∈ Finset.range M, v n)
    have h8 : 0 ≤ B * η := mul_nonneg hB hη.le
    linarith [show (B + η / 2) ^ 2 = B ^ 2 + B * η + (η / 2) ^ 2 by ring]
  have k5 := abs_sub_le (√((∑ n ∈ Finset.range M, z n ^ 2) / M)) (√((∑ n ∈ Finset.range M, y n ^ 2) / M)) (√P)
  linarith

end Adwt

namespace Adwt.Props
open WavetableData Gain
variable {C : Type} [Zero C] [Add C] [Sub C] [Mul C] [Div C]

/-- C105 with every operation rounded: whatever was played up to sample `N`, once the step is a steady `d` and a
single table `i` is selected, the level of the output in the long run is that of the harmonics below the Nyquist
frequency, up to the sum of the harmonics above it as the filter leaves them, and the rounding error of C60. -/
theorem C105_float (S : Sys ℝ C) (val : C → ℂ) (ε : ℝ) (hS : FloatSys S val ε)
    (hl : Log2Spec S.env.log2f) (ws : List ℝ) (nw L : ℕ) (A Λ : ℝ)
    (hA : TablesWithin S.env ws nw L A) (hΛ : SlopesWithin S.env ws nw L Λ)
    (M0 : 1 / 2 ^ 40 ≤ A + Λ) (M1 : A + Λ ≤ 2 ^ 24) (σ : ℝ) (hσ0 : 0 < σ)
    (hσ : PolesLeft (valFilter val S.flt) σ) (hlen : S.flt.r.length = S.flt.z.length)
    (st : ℕ → Osc ℝ C) (dir : ℕ → Sys.Direction) (p y : ℕ → ℝ) (t : ℕ → MipMapIndices ℝ)
    (h : ∀ m, TrackedRun S ws nw L m st dir p y t) (hp : ∀ i, IsPhase S.env.fl (p i))
    (hd : ∀ i, 1 / 2 ^ 100 ≤ |(st (i + 1)).prevPhaseDiff|) (N : ℕ) (i : ℤ) (d : ℝ) (hd0 : d ≠ 0)
    (hN : ∀ n, N ≤ n → t n = ⟨i, 1, i + 1, 0⟩ ∧ trueStepOf S.env.fl dir (st 0).prevPhase p n = d)
    (η : ℝ) (hη : 0 < η) :
    ∀ᶠ M : ℕ in _root_.Filter.atTop,
      |√((∑ n ∈ Finset.range M, y n ^ 2) / M) -
        √(∑' k : {k : ℤ | |(k : ℝ) * d| < 1 / 2},
          ‖freqResponse (valFilter val S.flt) (2 * Real.pi * (k : ℤ) * d) *
            harmonic (waveAt S.env ws L (st 0).crt i) k‖ ^ 2)| ≤
        (∑' k : {k : ℤ | 1 / 2 ≤ |(k : ℝ) * d|},
          ‖freqResponse (valFilter val S.flt) (2 * Real.pi * (k : ℤ) * d) *
            harmonic (waveAt S.env ws L (st 0).crt i) k‖) +
        ε * (A + Λ) * roundoffGain (valFilter val S.flt) 6.4 + η := by
  have hlen' : (valFilter val S.flt).r.length = (valFilter val S.flt).z.length := by
    simp [valFilter, hlen]
  set T := tone (valFilter val S.flt) (waveAt S.env ws L (st 0).crt i) d with hT
  have hper : Function.Periodic T 1 := tone_periodic _ waveAt_period d
  have hph : ∀ n : ℕ, ∃ k : ℤ, p (N + n) = p N + n * d + k := by
    intro n
    induction n with
    | zero => exact ⟨0, by simp⟩
    | succ n ih =>
      obtain ⟨k, hk⟩ := ih
      have h1 := (hN (N + n + 1) (by omega)).2
      unfold trueStepOf trueStep at h1
      rw [if_neg (by omega), Nat.add_sub_cancel] at h1
      refine ⟨k - round (Sys.dirDiff S.env.fl (dir (N + n + 1)) (p (N + n + 1)) (p (N + n)) -
        (p (N + n + 1) - p (N + n))), ?_⟩
      rw [← Nat.add_assoc]
      push_cast
      linarith
  have hTp : ∀ n ≥ N, T (p n) = T (p N - N * d + n * d) := by
    intro n hn
    obtain ⟨m, rfl⟩ := Nat.exists_eq_add_of_le hn
    obtain ⟨k, hk⟩ := hph m
    rw [hk]
    have := hper.int_mul k (p N + m * d)
    rw [mul_one] at this
    rw [this]
    congr 1
    push_cast; ring
  obtain ⟨P, hP, hb⟩ := level_sampled
    (C53_spectrum (valFilter val S.flt) σ hσ0 hσ hlen' S.env ws L (st 0).crt i d hd0) d (p N - N * d) hd0
  have he : _root_.Filter.Tendsto (fun n : ℕ => Real.exp (-σ * (n + 1 - N)) *
      (2.002 * A * filterGain (valFilter val S.flt))) _root_.Filter.atTop (nhds 0) := by
    have := (tendsto_pow_atTop_nhds_zero_of_lt_one (Real.exp_pos (-σ)).le
      (by rw [← Real.exp_zero]; exact Real.exp_lt_exp.2 (by linarith))).mul_const
        (Real.exp (-σ * (1 - N)) * (2.002 * A * filterGain (valFilter val S.flt)))
    rw [zero_mul] at this
    refine this.congr fun n => ?_
    rw [← Real.exp_nat_mul, ← mul_assoc, ← Real.exp_add]
    congr 2
    ring
  have hz : ∀ n ≥ N, |y n - T (p N - N * d + n * d)| ≤ Real.exp (-σ * (n + 1 - N)) *
      (2.002 * A * filterGain (valFilter val S.flt)) + ε * (A + Λ) * roundoffGain (valFilter val S.flt) 6.4 := by
    intro n hn
    rw [← hTp n hn]
    exact C70_tone S val ε hS hl ws nw L A Λ hA hΛ M0 M1 σ hσ (n + 1) st dir p y t (h (n + 1))
      (fun i _ => hp i) (fun i _ => hd i) N i d (fun k hk _ => hN k hk) n hn (Nat.lt_succ_self n)
  have hB : 0 ≤ ε * (A + Λ) * roundoffGain (valFilter val S.flt) 6.4 := by
    have h1 := he.add_const (ε * (A + Λ) * roundoffGain (valFilter val S.flt) 6.4)
    rw [zero_add] at h1
    refine ge_of_tendsto h1 ?_
    filter_upwards [_root_.Filter.eventually_ge_atTop N] with n hn
    exact (abs_nonneg _).trans (hz n hn)
  refine (hP.near hB he N hz η hη).mono fun M hM => ?_
  have := abs_sub_le (√((∑ n ∈ Finset.range M, y n ^ 2) / M)) (√P)
    (√(∑' k : {k : ℤ | |(k : ℝ) * d| < 1 / 2},
          ‖freqResponse (valFilter val S.flt) (2 * Real.pi * (k : ℤ) * d) *
            harmonic (waveAt S.env ws L (st 0).crt i) k‖ ^ 2))
  linarith

/-- C105 applies in IEEE floats: any built-in filter, any eight samples in `[-1, 1]`, an endless run at a steady
step of 1/16 cycle per sample. -/
example (ft : FilterType) (ws : List ℝ) (hws : ws.length = 2 ^ 3) (h1 : ∀ x ∈ ws, |x| ≤ 1) (η : ℝ) (hη : 0 < η) :
    ∃ (st : ℕ → Osc ℝ CFloat) (y : ℕ → ℝ),
      (∀ i, (sysF ft).process .kForward (st i) [(((i + 1) % 16 : ℕ) : ℝ) / 16] [0] = .ok (st (i + 1), [y i])) ∧
      ∀ᶠ M : ℕ in _root_.Filter.atTop,
        |√((∑ n ∈ Finset.range M, y n ^ 2) / M) -
          √(∑' k : {k : ℤ | |(k : ℝ) * (1 / 16)| < 1 / 2},
            ‖freqResponse (valFilter CFloat.val (sysF ft).flt) (2 * Real.pi * (k : ℤ) * (1 / 16)) *
              harmonic (waveAt envI ws 3 (st 0).crt 0) k‖ ^ 2)| ≤
          (∑' k : {k : ℤ | 1 / 2 ≤ |(k : ℝ) * (1 / 16)|},
            ‖freqResponse (valFilter CFloat.val (sysF ft).flt) (2 * Real.pi * (k : ℤ) * (1 / 16)) *
              harmonic (waveAt envI ws 3 (st 0).crt 0) k‖) +
          1 / 2 ^ 21 * 17 * roundoffGain (valFilter CFloat.val (sysF ft).flt) 6.4 + η := by
  obtain ⟨wt, xf, hb, hcf⟩ := builtG envI envI_ok ws hws
  obtain ⟨st, y, h, h0, hd, -⟩ := endlessRunF (sysF ft) envI_ok.1 envI_ok.2.1 (by norm_num [sysF, sysRnd]) ws wt xf hb hcf
  refine ⟨st, y, fun i => (h (i + 1)).call i (by omega), ?_⟩
  have e : trueStepOf (sysF ft).env.fl (fun _ => Sys.Direction.kForward) (st 0).prevPhase
      (fun i => (((i + 1) % 16 : ℕ) : ℝ) / 16) = fun _ => 1 / 16 := by
    rw [h0]; exact funext trueStep16
  have := C105_float _ _ _ (floatSys ft) log2I ws 1 3 1 16 (tablesWithinI zero_le_one h1 1 3)
    (by have := slopesWithinI zero_le_one h1 1 3; norm_num at this; exact this)
    (by norm_num) (by norm_num) 0.28 (by norm_num)
    (fun z hz => by
      obtain ⟨c, hc, rfl⟩ := List.mem_map.1 hz
      have := (sysF_pole hc).1
      norm_num at this ⊢; linarith)
    (by cases ft <;> rfl)
    st _ _ y _ h (fun i => (phase16 (i + 1)).2.2) (fun i => by rw [hd]; norm_num [abs_of_pos]) 0 0 (1 / 16)
    (by norm_num) (fun k _ => ⟨rfl, by rw [e]⟩) η hη
  refine this.mono fun M hM => hM.trans (le_of_eq ?_)
  rw [show ((1 : ℝ) + 16) = 17 by norm_num]
  rfl

end Adwt.Props
