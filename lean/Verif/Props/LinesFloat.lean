import Verif.Props.Lines
import Verif.Props.FloatTone

/-!
# C104 in float arithmetic
-/

set_option linter.unusedSectionVars false

namespace Adwt
open _root_.Filter

/-- samples that are, in the end, within `B` of some that have a component -/
theorem Component.near {y z : ℕ → ℝ} {f B : ℝ} {a : ℂ} (h : Component y f a) {e : ℕ → ℝ}
    (he : Tendsto e atTop (nhds 0)) (N : ℕ) (hz : ∀ n ≥ N, |z n - y n| ≤ e n + B) (η : ℝ) (hη : 0 < η) :
    ∀ᶠ M : ℕ in atTop, ‖(∑ n ∈ Finset.range M, (z n : ℂ) *
      Complex.exp (-(2 * Real.pi * Complex.I * f * n))) / M - a‖ ≤ B + η := by
  set v : ℕ → ℝ := fun n => max (|z n - y n| - B) 0 with hv
  have hv0 : Tendsto v atTop (nhds 0) := by
    have h1 : Tendsto (fun n => |e n|) atTop (nhds 0) := by simpa using he.abs
    refine squeeze_zero' (Eventually.of_forall fun n => le_max_right _ _) ?_ h1
    filter_upwards [eventually_ge_atTop N] with n hn
    exact max_le (by linarith [hz n hn, le_abs_self (e n)]) (abs_nonneg _)
  have hc := hv0.cesaro_smul
  have ht : ∀ n : ℕ, ‖Complex.exp (-(2 * Real.pi * Complex.I * f * n))‖ = 1 := fun n => by
    rw [show (-(2 * Real.pi * Complex.I * f * n) : ℂ) = 2 * Real.pi * Complex.I * ((-(f * n) : ℝ) : ℂ) by
        push_cast; ring, norm_turn]
  have e1 := (Metric.tendsto_atTop.1 hc) (η / 2) (by linarith)
  have e2 := (Metric.tendsto_atTop.1 h) (η / 2) (by linarith)
  obtain ⟨M1, e1⟩ := e1
  obtain ⟨M2, e2⟩ := e2
  filter_upwards [eventually_ge_atTop (max (max M1 M2) 1)] with M hM
  have hM1 : M1 ≤ M := (le_max_left _ _).trans ((le_max_left _ _).trans hM)
  have hM2 : M2 ≤ M := (le_max_right _ _).trans ((le_max_left _ _).trans hM)
  have hM0 : 0 < (M : ℝ) := by exact_mod_cast lt_of_lt_of_le Nat.one_pos ((le_max_right _ _).trans hM)
  have k1 := e1 M hM1
  have k2 := (e2 M hM2).le
  rw [Real.dist_eq, sub_zero, smul_eq_mul] at k1
  rw [dist_eq_norm] at k2
  have k3 : ‖(∑ n ∈ Finset.range M, (z n : ℂ) * Complex.exp (-(2 * Real.pi * Complex.I * f * n))) / M -
      (∑ n ∈ Finset.range M, (y n : ℂ) * Complex.exp (-(2 * Real.pi * Complex.I * f * n))) / M‖ ≤
      B + (M : ℝ)⁻¹ * ∑ n ∈ Finset.range M, v n := by
    rw [← sub_div, ← Finset.sum_sub_distrib, norm_div, Complex.norm_natCast, div_le_iff₀ hM0]
    refine (norm_sum_le _ _).trans ?_
    have : ∀ n ∈ Finset.range M, ‖(z n : ℂ) * Complex.exp (-(2 * Real.pi * Complex.I * f * n)) -
        (y n : ℂ) * Complex.exp (-(2 * Real.pi * Complex.I * f * n))‖ ≤ B + v n := by
      intro n _
      rw [← sub_mul, norm_mul, ht, mul_one, ← Complex.ofReal_sub, Complex.norm_real, Real.norm_eq_abs]
      have := le_max_left (|z n - y n| - B) 0
      show _ ≤ B + max (|z n - y n| - B) 0
      linarith
    refine (Finset.sum_le_sum this).trans (le_of_eq ?_)
    rw [Finset.sum_add_distrib, Finset.sum_const, Finset.card_range, nsmul_eq_mul]
    field_simp
  have k4 := norm_sub_le_norm_sub_add_norm_sub
    ((∑ n ∈ Finset.range M, (z n : ℂ) * Complex.exp (-(2 * Real.pi * Complex.I * f * n))) / M)
    ((∑ n ∈ Finset.range M, (y n : ℂ) * Complex.exp (-(2 * Real.pi * Complex.I * f * n))) / M) a
  have := le_abs_self ((M : ℝ)⁻¹ * ∑ n ∈ Finset.range M, v n)
  linarith

end Adwt

namespace Adwt.Props
open WavetableData Gain
variable {C : Type} [Zero C] [Add C] [Sub C] [Mul C] [Div C]

/-- C104 with every operation rounded: whatever was played up to sample `N`, once the step is a steady `d` and a
single table `i` is selected, the component of the output at any frequency is, up to the rounding error of C60,
the sum of the harmonics heard there. -/
theorem C104_float (S : Sys ℝ C) (val : C → ℂ) (ε : ℝ) (hS : FloatSys S val ε)
    (hl : Log2Spec S.env.log2f) (ws : List ℝ) (nw L : ℕ) (A Λ : ℝ)
    (hA : TablesWithin S.env ws nw L A) (hΛ : SlopesWithin S.env ws nw L Λ)
    (M0 : 1 / 2 ^ 40 ≤ A + Λ) (M1 : A + Λ ≤ 2 ^ 24) (σ : ℝ) (hσ0 : 0 < σ)
    (hσ : PolesLeft (valFilter val S.flt) σ) (hlen : S.flt.r.length = S.flt.z.length)
    (st : ℕ → Osc ℝ C) (dir : ℕ → Sys.Direction) (p y : ℕ → ℝ) (t : ℕ → MipMapIndices ℝ)
    (h : ∀ m, TrackedRun S ws nw L m st dir p y t) (hp : ∀ i, IsPhase S.env.fl (p i))
    (hd : ∀ i, 1 / 2 ^ 100 ≤ |(st (i + 1)).prevPhaseDiff|) (N : ℕ) (i : ℤ) (d : ℝ) (hd0 : d ≠ 0)
    (hN : ∀ n, N ≤ n → t n = ⟨i, 1, i + 1, 0⟩ ∧ trueStepOf S.env.fl dir (st 0).prevPhase p n = d)
    (f η : ℝ) (hη : 0 < η) :
    ∀ᶠ M : ℕ in _root_.Filter.atTop,
      ‖(∑ n ∈ Finset.range M, (y n : ℂ) * Complex.exp (-(2 * Real.pi * Complex.I * f * n))) / M -
        ∑' k : heardAt d f, freqResponse (valFilter val S.flt) (2 * Real.pi * (k : ℤ) * d) *
          harmonic (waveAt S.env ws L (st 0).crt i) k *
          Complex.exp (2 * Real.pi * Complex.I * (k : ℤ) * (p N - N * d : ℝ))‖ ≤
        ε * (A + Λ) * roundoffGain (valFilter val S.flt) 6.4 + η := by
  have hlen' : (valFilter val S.flt).r.length = (valFilter val S.flt).z.length := by
    simp [valFilter, hlen]
  set T := tone (valFilter val S.flt) (waveAt S.env ws L (st 0).crt i) d with hT
  have hper : Function.Periodic T 1 := tone_periodic _ waveAt_period d
  -- the phases
  have hph : ∀ n : ℕ, ∃ k : ℤ, p (N + n) = p N + n * d + k := by
    intro n
    induction n with
    | zero => exact ⟨0, by simp⟩
    | succ n ih =>
      obtain ⟨k, hk⟩ := ih
      have h1 := (hN (N + n + 1) (by omega)).2
      unfold trueStepOf trueStep at h1
      rw [if_neg (by omega), Nat.add_sub_cancel] at h1
      refine ⟨k - round (Sys.dirDiff S.env.fl (dir (N + n + 1)) (p (N + n + 1)) (p (N + n)) -
        (p (N + n + 1) - p (N + n))), ?_⟩
      rw [← Nat.add_assoc]
      push_cast
      linarith
  have hTp : ∀ n ≥ N, T (p n) = T (p N - N * d + n * d) := by
    intro n hn
    obtain ⟨m, rfl⟩ := Nat.exists_eq_add_of_le hn
    obtain ⟨k, hk⟩ := hph m
    rw [hk]
    have := hper.int_mul k (p N + m * d)
    rw [mul_one] at this
    rw [this]
    congr 1
    push_cast; ring
  have hcomp := (component_sampled
    (C53_spectrum (valFilter val S.flt) σ hσ0 hσ hlen' S.env ws L (st 0).crt i d hd0) d f (p N - N * d)).2
  have he : _root_.Filter.Tendsto (fun n : ℕ => Real.exp (-σ * (n + 1 - N)) *
      (2.002 * A * filterGain (valFilter val S.flt))) _root_.Filter.atTop (nhds 0) := by
    have := (tendsto_pow_atTop_nhds_zero_of_lt_one (Real.exp_pos (-σ)).le
      (by rw [← Real.exp_zero]; exact Real.exp_lt_exp.2 (by linarith))).mul_const
        (Real.exp (-σ * (1 - N)) * (2.002 * A * filterGain (valFilter val S.flt)))
    rw [zero_mul] at this
    refine this.congr fun n => ?_
    rw [← Real.exp_nat_mul, ← mul_assoc, ← Real.exp_add]
    congr 2
    ring
  refine hcomp.near he N (fun n hn => ?_) η hη
  have := C70_tone S val ε hS hl ws nw L A Λ hA hΛ M0 M1 σ hσ (n + 1) st dir p y t (h (n + 1))
    (fun i _ => hp i) (fun i _ => hd i) N i d (fun k hk _ => hN k hk) n hn (Nat.lt_succ_self n)
  show |y n - T (p N - N * d + n * d)| ≤ _
  rw [← hTp n hn]
  exact this

/-- Any eight samples: an endless run at a steady step, in any arithmetic. -/
theorem endlessRunF {C : Type} [Zero C] [Add C] [Sub C] [Mul C] [Div C] (S : Sys ℝ C) (hf : Rounding S.env.fl)
    (hl : Log2Spec S.env.log2f) (hB : 0 < S.B) (ws : List ℝ) (wt : WavetableData ℝ) (xf : ℤ)
    (hb : Built S.env ws 1 3 44100 (1 / 256) wt) (hcf : wt.cf = ⟨xf, octaveScale ℝ 3, 0, 0, 0⟩) :
    ∃ st y, (∀ m, TrackedRun S ws 1 3 m st (fun _ => .kForward)
      (fun i => (((i + 1) % 16 : ℕ) : ℝ) / 16) y (fun _ => ⟨0, 1, 0 + 1, 0⟩)) ∧
      (st 0).prevPhase = 0 ∧ (∀ i, (st (i + 1)).prevPhaseDiff = 1 / 16) ∧ (st 0).crt = 0 ∧
      ∀ wt', (st 0).wt = some wt' → wt'.cf = ⟨xf, octaveScale ℝ 3, 0, 0, 0⟩ := by
  have hi : IsOctave 3 0 |(1 / 16 : ℝ)| := oct0 (by norm_num [abs_of_pos])
  obtain ⟨o, -, h1, hy⟩ := at_initG (S := S) hf hl hb (p := 0) (d := 1 / 16)
    (by have := phase16G hf 0; simp only [Nat.zero_mod, Nat.cast_zero, zero_div] at this; exact this) (by norm_num) (c := ⟨xf, octaveScale ℝ 3, 0, 0, 0⟩)
    (t := ⟨0, 1, 0 + 1, 0⟩) (by rw [hcf]; exact cf_idle (by norm_num) (by norm_num) hi)
  have ex : ∀ (k : ℕ) (o : Osc ℝ C), ∃ (r : Osc ℝ C × ℝ),
      At S ws 3 o ⟨xf, octaveScale ℝ 3, 0, 0, 0⟩ 0 (1 / 16) (((k % 16 : ℕ) : ℝ) / 16) →
      S.process .kForward o [(((k + 1) % 16 : ℕ) : ℝ) / 16] [0] = .ok (r.1, [r.2]) ∧
      At S ws 3 r.1 ⟨xf, octaveScale ℝ 3, 0, 0, 0⟩ 0 (1 / 16)
        ((((k + 1) % 16 : ℕ) : ℝ) / 16) ∧
      NextIndices S o r.1.prevPhaseDiff ⟨0, 1, 0 + 1, 0⟩ := by
    intro k o
    by_cases h : At S ws 3 o ⟨xf, octaveScale ℝ 3, 0, 0, 0⟩ 0 (1 / 16)
        (((k % 16 : ℕ) : ℝ) / 16)
    · obtain ⟨⟨o2, y2, e, h2⟩, hn⟩ := h.stepG hf hl hB (dir := .kForward) (phase16G hf (k + 1))
        (mod16_step k).1 (Or.inr (by norm_num)) (mod16_floatG hf k)
        (cf_idle (by norm_num) (by norm_num) hi)
      refine ⟨(o2, y2), fun _ => ⟨e, h2, ?_⟩⟩
      rw [h2.diff]; exact hn
    · exact ⟨(o, 0), fun h' => absurd h' h⟩
  choose f hg using ex
  let st : ℕ → Osc ℝ C := fun k => Nat.rec o (fun k o => (f k o).1) k
  have hst : ∀ k, At S ws 3 (st k) ⟨xf, octaveScale ℝ 3, 0, 0, 0⟩ 0 (1 / 16)
      (((k % 16 : ℕ) : ℝ) / 16) := by
    intro k
    induction k with
    | zero =>
      have e : (((0 % 16 : ℕ) : ℕ) : ℝ) / 16 = 0 := by norm_num
      rw [e]; exact h1
    | succ k ih => exact (hg k (st k) ih).2.1
  refine ⟨st, fun k => (f k (st k)).2, ?_, h1.phase, fun i => (hst (i + 1)).diff, h1.crt, ?_⟩
  swap
  · intro wt' e
    obtain ⟨wt'', e', hc⟩ := h1.cf
    rw [show (st 0).wt = o.wt from rfl, e'] at e; cases e; exact hc
  intro m
  refine ⟨h1.plays, ?_, fun i _ => range16 _, ?_, ?_, ?_, ?_, ?_⟩
  · intro y hy'
    have hy' : y ∈ o.prevY := hy'
    rw [hy] at hy'
    exact (List.mem_replicate.1 hy').2
  · intro i _
    rw [(hst i).phase]
    exact (mod16_step i).1
  · intro i _
    exact (hg i (st i) (hst i)).1
  · intro i _
    exact (hg i (st i) (hst i)).2.2
  · intro i _
    exact Or.inl (hst i).mip.symm
  · intro i _
    rw [(hst i).phase]
    have := offDenormal_dyadic (i % 16 : ℕ) 4 3 (by norm_num) (by norm_num)
    norm_num at this ⊢
    exact this

/-- C104 applies in IEEE floats: any built-in filter, any eight samples in `[-1, 1]`, an endless run at a steady
step. -/
example (ft : FilterType) (ws : List ℝ) (hws : ws.length = 2 ^ 3) (h1 : ∀ x ∈ ws, |x| ≤ 1) (f η : ℝ) (hη : 0 < η) :
    ∃ (st : ℕ → Osc ℝ CFloat) (y : ℕ → ℝ),
      (∀ i, (sysF ft).process .kForward (st i) [(((i + 1) % 16 : ℕ) : ℝ) / 16] [0] = .ok (st (i + 1), [y i])) ∧
      ∀ᶠ M : ℕ in _root_.Filter.atTop,
        ‖(∑ n ∈ Finset.range M, (y n : ℂ) * Complex.exp (-(2 * Real.pi * Complex.I * f * n))) / M -
          ∑' k : heardAt (1 / 16) f, freqResponse (valFilter CFloat.val (sysF ft).flt) (2 * Real.pi * (k : ℤ) *
              (1 / 16 : ℝ)) * harmonic (waveAt envI ws 3 (st 0).crt 0) k *
            Complex.exp (2 * Real.pi * Complex.I * (k : ℤ) * (1 / 16 : ℝ))‖ ≤
          1 / 2 ^ 21 * 17 * roundoffGain (valFilter CFloat.val (sysF ft).flt) 6.4 + η := by
  obtain ⟨wt, xf, hb, hcf⟩ := builtG envI envI_ok ws hws
  obtain ⟨st, y, h, h0, hd, -⟩ := endlessRunF (sysF ft) envI_ok.1 envI_ok.2.1 (by norm_num [sysF, sysRnd]) ws wt xf hb hcf
  refine ⟨st, y, fun i => (h (i + 1)).call i (by omega), ?_⟩
  have e : trueStepOf (sysF ft).env.fl (fun _ => Sys.Direction.kForward) (st 0).prevPhase
      (fun i => (((i + 1) % 16 : ℕ) : ℝ) / 16) = fun _ => 1 / 16 := by
    rw [h0]; exact funext trueStep16
  have := C104_float _ _ _ (floatSys ft) log2I ws 1 3 1 16 (tablesWithinI zero_le_one h1 1 3)
    (by have := slopesWithinI zero_le_one h1 1 3; norm_num at this; exact this)
    (by norm_num) (by norm_num) 0.28 (by norm_num)
    (fun z hz => by
      obtain ⟨c, hc, rfl⟩ := List.mem_map.1 hz
      have := (sysF_pole hc).1
      norm_num at this ⊢; linarith)
    (by cases ft <;> rfl)
    st _ _ y _ h (fun i => (phase16 (i + 1)).2.2) (fun i => by rw [hd]; norm_num [abs_of_pos]) 0 0 (1 / 16)
    (by norm_num) (fun k _ => ⟨rfl, by rw [e]⟩) f η hη
  refine this.mono fun M hM => le_trans (le_of_eq ?_) (hM.trans (le_of_eq ?_))
  · norm_num
    rfl
  · norm_num

end Adwt.Props
