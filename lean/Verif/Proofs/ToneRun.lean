import Verif.Proofs.Tone
import Verif.Props.CrossFader

/-!
# A steady tone from any state
-/

set_option linter.unusedSectionVars false

namespace Adwt
open CrossFader

theorem steady_diff {dir : Sys.Direction} {x p d : ℝ} (hd : SteadyStep dir d) (hx0 : 0 ≤ x)
    (hx1 : x < 1) (hp0 : 0 ≤ p) (hp1 : p < 1) {k : ℤ} (hk : p = x + d + k) :
    StepOk dir x p ∧ Sys.dirDiff id dir p x = d := by
  have hk1 : (k : ℝ) < 2 := by
    cases dir with
    | kForward => obtain ⟨a, b⟩ : 0 < d ∧ d ≤ 1 / 2 := hd; linarith
    | kBidirectionnal => obtain ⟨-, b⟩ : d ≠ 0 ∧ |d| < 1 / 2 := hd; have := (abs_lt.1 b).1; linarith
  have hk2 : (-2 : ℝ) < k := by
    cases dir with
    | kForward => obtain ⟨a, b⟩ : 0 < d ∧ d ≤ 1 / 2 := hd; linarith
    | kBidirectionnal => obtain ⟨-, b⟩ : d ≠ 0 ∧ |d| < 1 / 2 := hd; have := (abs_lt.1 b).2; linarith
  have h1 : k < 2 := by exact_mod_cast hk1
  have h2 : -2 < k := by exact_mod_cast hk2
  have h3 : k = -1 ∨ k = 0 ∨ k = 1 := by omega
  cases dir with
  | kForward =>
    obtain ⟨a, b⟩ : 0 < d ∧ d ≤ 1 / 2 := hd
    show Forward x p ∧ Sys.fwdDiff id p x = d
    unfold Forward Sys.fwdDiff
    simp only [id]
    rcases h3 with rfl | rfl | rfl
    · push_cast at hk
      refine ⟨Or.inr ⟨by linarith, by linarith⟩, ?_⟩
      rw [if_pos (by linarith)]; linarith
    · push_cast at hk
      refine ⟨Or.inl ⟨by linarith, by linarith⟩, ?_⟩
      rw [if_neg (by linarith)]; linarith
    · push_cast at hk; linarith
  | kBidirectionnal =>
    obtain ⟨a, b⟩ : d ≠ 0 ∧ |d| < 1 / 2 := hd
    obtain ⟨b1, b2⟩ := abs_lt.1 b
    show p ≠ x ∧ Sys.biDiff id p x = d
    unfold Sys.biDiff
    simp only [id]
    rcases h3 with rfl | rfl | rfl
    · push_cast at hk
      refine ⟨by intro h; linarith, ?_⟩
      rw [if_pos (by linarith)]; linarith
    · push_cast at hk
      refine ⟨by intro h; apply a; linarith, ?_⟩
      rw [if_neg (by linarith), if_neg (by linarith)]; linarith
    · push_cast at hk
      refine ⟨by intro h; linarith, ?_⟩
      rw [if_neg (by linarith), if_pos (by linarith)]; linarith

theorem SteadyStep.ne {dir : Sys.Direction} {d : ℝ} (h : SteadyStep dir d) : d ≠ 0 := by
  cases dir with
  | kForward => exact (ne_of_gt (show 0 < d ∧ d ≤ 1 / 2 from h).1)
  | kBidirectionnal => exact (show d ≠ 0 ∧ |d| < 1 / 2 from h).1

theorem OffDenormal.coarser {L i : ℕ} (hi : i ≤ L) {x : ℝ} (h : OffDenormal (2 ^ L) x) :
    OffDenormal (2 ^ (L - i)) x := by
  intro k
  have e : (k : ℝ) / ((2 ^ (L - i) : ℕ) : ℝ) = ((k * 2 ^ i : ℤ) : ℝ) / ((2 ^ L : ℕ) : ℝ) := by
    have : (2 : ℝ) ^ L = 2 ^ (L - i) * 2 ^ i := by rw [← pow_add]; congr 1; omega
    push_cast
    rw [this, mul_div_mul_right _ _ (by positivity)]
  rw [e]
  exact h _

variable {S : Sys ℝ ℂ} {ws : List ℝ} {nw L : ℕ} {dir : Sys.Direction} {d : ℝ} {st : ℕ → Osc ℝ ℂ}
  {y : ℕ → ℝ} {i : ℤ} {σ : ℝ}

/-- The deviation of a filter memory from that of the tone. -/
noncomputable def toneDist (flt : Filter ℂ) (W : ℝ → ℝ) (d x : ℝ) (m : List ℂ) : ℝ :=
  ∑ k ∈ Finset.range flt.r.length, ‖m.getD k 0 - 2 * flt.r.getD k 0 * past W (flt.z.getD k 0) d x‖

theorem toneDist_nonneg (flt : Filter ℂ) (W : ℝ → ℝ) (d x : ℝ) (m : List ℂ) :
    0 ≤ toneDist flt W d x m := Finset.sum_nonneg fun _ _ => norm_nonneg _

theorem output_tone {flt : Filter ℂ} {W : ℝ → ℝ} {x : ℝ} {m : List ℂ} (hm : m.length = flt.r.length) :
    |output m - tone flt W d x| ≤ toneDist flt W d x m := by
  have e : m.sum = ∑ k ∈ Finset.range flt.r.length, m.getD k 0 := by
    rw [← hm, Finset.sum_range, ← List.sum_ofFn]
    congr 1
    apply List.ext_getElem
    · simp
    · intro i h1 h2
      simp [List.getD_eq_getElem?_getD, h1]
  unfold output tone toneDist
  rw [← Complex.sub_re, e, ← Finset.sum_sub_distrib]
  exact (Complex.abs_re_le_norm _).trans (norm_sum_le _ _)

/-- One sample in the settled state. -/
theorem toneDist_step {flt : Filter ℂ} {W : ℝ → ℝ} (hc : Continuous W) (hp : Function.Periodic W 1)
    (hlen : flt.r.length = flt.z.length) (hσ0 : 0 < σ) (hσ : PolesLeft flt σ) (m : List ℂ) {x x0 : ℝ}
    {j : ℤ} (hx : x = x0 + j) :
    toneDist flt W d (x + d) (nextMemory flt m W x0 d) ≤ Real.exp (-σ) * toneDist flt W d x m := by
  unfold toneDist
  rw [Finset.mul_sum]
  apply Finset.sum_le_sum
  intro k hk
  have hk := Finset.mem_range.1 hk
  have hmem : flt.z.getD k 0 ∈ flt.z := by
    rw [List.getD_eq_getElem?_getD, List.getElem?_eq_getElem (by omega)]
    exact List.getElem_mem _
  have hz := hσ _ hmem
  have hresp : response W (flt.z.getD k 0) x0 d = response W (flt.z.getD k 0) x d := by
    unfold response
    congr 1; funext t
    have := hp.int_mul j (x0 + t * d)
    rw [mul_one] at this
    rw [hx, show x0 + j + t * d = x0 + t * d + j by ring, this]
  rw [Sys.nextMemory_getD hk, past_step hc hp (by linarith), hresp]
  have e : Complex.exp (flt.z.getD k 0) * m.getD k 0 +
      2 * flt.r.getD k 0 * response W (flt.z.getD k 0) x d -
      2 * flt.r.getD k 0 * (Complex.exp (flt.z.getD k 0) * past W (flt.z.getD k 0) d x +
        response W (flt.z.getD k 0) x d) =
      Complex.exp (flt.z.getD k 0) * (m.getD k 0 - 2 * flt.r.getD k 0 * past W (flt.z.getD k 0) d x) := by
    ring
  rw [e, norm_mul, Complex.norm_exp]
  exact mul_le_mul_of_nonneg_right (Real.exp_le_exp.2 hz) (norm_nonneg _)

namespace Sys

/-- What is known at every sample of a steady tone. -/
theorem steady_at (hS : ExactSys S) (hl : Log2Spec S.env.log2f)
    (h : SteadyTone S ws nw L dir d st y) (n : ℕ) :
    Plays S ws nw L (st n) ∧ (st n).crt = (st 0).crt ∧
    (st n).prevPhase = Int.fract ((st 0).prevPhase + n * d) ∧
    (∃ wt0 wt, (st 0).wt = some wt0 ∧ (st n).wt = some wt ∧
      wt.cf = (List.replicate n |d|).foldl stepD wt0.cf) := by
  have hf := exact_rounding hS
  induction n with
  | zero =>
    have hpl := reached_play hf hl hS.B h.plays.1
    obtain ⟨wt, hwt, -⟩ := hpl.wt
    refine ⟨h.plays, rfl, ?_, wt, wt, hwt, hwt, rfl⟩
    rw [Nat.cast_zero, zero_mul, add_zero, Int.fract_eq_self.2 ⟨hpl.p0, hpl.p1⟩]
  | succ n ih =>
    obtain ⟨i1, i2, i3, wt0, wt, w0, w1, w2⟩ := ih
    have hpl := reached_play hf hl hS.B i1.1
    set p := Int.fract ((st 0).prevPhase + (n + 1) * d) with hpdef
    have hp0 : 0 ≤ p := Int.fract_nonneg _
    have hp1 : p < 1 := Int.fract_lt_one _
    have hk : ∃ k : ℤ, p = (st n).prevPhase + d + k := by
      rw [i3, hpdef]
      refine ⟨⌊(st 0).prevPhase + n * d⌋ - ⌊(st 0).prevPhase + (n + 1) * d⌋, ?_⟩
      unfold Int.fract
      push_cast; ring
    obtain ⟨k, hk⟩ := hk
    obtain ⟨hstep, hdiff⟩ := steady_diff h.step hpl.p0 hpl.p1 hp0 hp1 hk
    have hp : PhaseOk S.env.fl p := ⟨hp0, hp1, by rw [hS.fl]; exact isPhase_id _⟩
    have hcall := h.call n
    refine ⟨Props.Plays.process (dir := dir) (ps := [p]) (out := [0]) i1 ⟨hp, hstep, trivial⟩ rfl hcall,
      ?_⟩
    obtain ⟨v, e, -⟩ := Props.process_one (by rw [w1]; rfl) hcall
    obtain ⟨-, s1, s2, s3⟩ := stepDir_tables e
    refine ⟨by rw [s3, i2], by rw [s1]; push_cast; rfl, ?_⟩
    rcases step_cases hf hS.B hpl hp hstep with ⟨ok, -⟩ | ⟨he, -⟩
    · obtain ⟨wt1, c, t, a1, -, -, a4, a5, -⟩ := (ok.elim e).find
      rw [w1] at a1; cases a1
      refine ⟨wt0, _, w0, a5, ?_⟩
      dsimp only
      rw [a4, w2, hS.fl, hdiff, List.replicate_succ', List.foldl_append]
      rfl
    · rw [e] at he; cases he

theorem next_at (hS : ExactSys S) (hl : Log2Spec S.env.log2f)
    (h : SteadyTone S ws nw L dir d st y) (hi : IsOctave L i |d|) {wt0 : WavetableData ℝ}
    (hw0 : (st 0).wt = some wt0) {n : ℕ} (hn : Props.settleTime wt0.cf i ≤ n) :
    NextIndices S (st n) d ⟨i, 1, i + 1, 0⟩ := by
  have hf := exact_rounding hS
  have hpl := reached_play hf hl hS.B h.plays.1
  obtain ⟨wt0', hw0', hok⟩ := hpl.wt
  rw [hw0] at hw0'; cases hw0'
  obtain ⟨-, -, -, wt0', wt, w0, w1, w2⟩ := steady_at hS hl h n
  rw [hw0] at w0; cases w0
  have hinv := foldl_inv hok.inv (List.replicate n |d|)
  have hset := Props.settle_foldl hok.L2 hok.inv hok.scale (i := i) (ds := List.replicate n |d|)
    (fun d' hd' => by rw [List.eq_of_mem_replicate hd']; exact hi) (by
      rw [List.length_replicate]; exact hn)
  have hsc := (foldl_const wt0.cf (List.replicate n |d|)).1
  rw [← w2] at hinv hset hsc
  have hidle : wt.cf.samplesLeft = 0 ∧ wt.cf.nextIdx = i := by
    have := hinv.left0; have := hinv.num
    unfold Props.settleTime at hset
    split_ifs at hset <;> constructor <;> omega
  have hloop : (findLoop |d| wt.cf.scale : ℤ) = i := by
    rw [hsc, hok.scale]; exact findLoop_of_octave hok.L2 hi
  obtain ⟨t, e, ht⟩ := newIndices_eq (E := S.env) hf hinv (abs_pos.2 h.step.ne)
  rcases ht with ⟨-, -, rfl⟩ | ⟨hne, -⟩
  · have hres : wt.findMipMapIndices S.env |d| =
        .ok ({ wt with cf := wt.cf.nextState (findLoop |d| wt.cf.scale) }, ⟨i, 1, i + 1, 0⟩) := by
      unfold WavetableData.findMipMapIndices
      rw [e, hidle.2]
      rfl
    exact ⟨wt, _, w1, hres⟩
  · exact absurd ⟨hidle.1, by rw [hloop, hidle.2]⟩ hne

theorem settled_at (hS : ExactSys S) (hl : Log2Spec S.env.log2f)
    (h : SteadyTone S ws nw L dir d st y) (hi : IsOctave L i |d|) :
    ∃ N : ℕ, ∀ n, N ≤ n → NextIndices S (st n) d ⟨i, 1, i + 1, 0⟩ := by
  have hpl := reached_play (exact_rounding hS) hl hS.B h.plays.1
  obtain ⟨wt0, hw0, hok⟩ := hpl.wt
  refine ⟨(2 * wt0.cf.numSamples + 1).toNat, fun n hn => next_at hS hl h hi hw0 ?_⟩
  have := hok.inv.left1; have := hok.inv.left0; have := hok.inv.num
  unfold Props.settleTime; split_ifs <;> omega

theorem idle_at (hS : ExactSys S) (hl : Log2Spec S.env.log2f)
    (h : SteadyTone S ws nw L dir d st y) (hi : IsOctave L i |d|) {wt : WavetableData ℝ}
    (hwt : (st 0).wt = some wt) (h0 : wt.cf.samplesLeft = 0) (h1 : wt.cf.nextIdx = i) (n : ℕ)
    (_ : 0 ≤ n) : NextIndices S (st n) d ⟨i, 1, i + 1, 0⟩ := by
  refine next_at hS hl h hi hwt ?_
  unfold Props.settleTime
  rw [if_pos h0, if_pos h1]; positivity

/-- From the settled state on, the deviation from the tone decays. -/
theorem tone_decay (hS : ExactSys S) (hl : Log2Spec S.env.log2f) (hσ0 : 0 < σ)
    (hσ : PolesLeft S.flt σ) (h : SteadyTone S ws nw L dir d st y) (hi : IsOctave L i |d|) {N : ℕ}
    (hN : ∀ n, N ≤ n → NextIndices S (st n) d ⟨i, 1, i + 1, 0⟩) (hm : (st N).prevMip = i) (n : ℕ) :
    (st (N + n)).prevMip = i ∧
    toneDist S.flt (waveAt S.env ws L (st 0).crt i) d ((st 0).prevPhase + (N + n : ℕ) * d)
        (st (N + n)).prevY ≤ Real.exp (-σ * n) *
      toneDist S.flt (waveAt S.env ws L (st 0).crt i) d ((st 0).prevPhase + N * d) (st N).prevY ∧
    |y (N + n) - tone S.flt (waveAt S.env ws L (st 0).crt i) d
        ((st 0).prevPhase + (N + n + 1 : ℕ) * d)| ≤ Real.exp (-σ * (n + 1)) *
      toneDist S.flt (waveAt S.env ws L (st 0).crt i) d ((st 0).prevPhase + N * d) (st N).prevY := by
  set W := waveAt S.env ws L (st 0).crt i with hW
  have hWc : Continuous W := interp_continuous _
  have hWp : Function.Periodic W 1 := waveAt_period
  have key : ∀ n, (st (N + n)).prevMip = i →
      (st (N + n + 1)).prevMip = i ∧ y (N + n) = output (st (N + n + 1)).prevY ∧
      (st (N + n + 1)).prevY.length = S.flt.r.length ∧
      toneDist S.flt W d ((st 0).prevPhase + (N + n + 1 : ℕ) * d) (st (N + n + 1)).prevY ≤
        Real.exp (-σ) * toneDist S.flt W d ((st 0).prevPhase + (N + n : ℕ) * d) (st (N + n)).prevY := by
    intro n hmip
    obtain ⟨a1, a2, a3, -⟩ := steady_at hS hl h (N + n)
    obtain ⟨-, -, b3, -⟩ := steady_at hS hl h (N + n + 1)
    have hf := exact_rounding hS
    have hpl := reached_play hf hl hS.B a1.1
    set x := (st 0).prevPhase + (N + n : ℕ) * d with hx
    have hnext := hN (N + n) (by omega)
    have hp0 : 0 ≤ (st (N + n + 1)).prevPhase := by rw [b3]; exact Int.fract_nonneg _
    have hp1 : (st (N + n + 1)).prevPhase < 1 := by rw [b3]; exact Int.fract_lt_one _
    have hk : (st (N + n + 1)).prevPhase = (st (N + n)).prevPhase + d +
        ((⌊x⌋ - ⌊(st 0).prevPhase + (N + n + 1 : ℕ) * d⌋ : ℤ) : ℝ) := by
      rw [a3, b3, hx]
      unfold Int.fract
      push_cast; ring
    obtain ⟨hstep, hdiff⟩ := steady_diff h.step hpl.p0 hpl.p1 hp0 hp1 hk
    have hcall := h.call (N + n)
    have ep : Int.fract ((st 0).prevPhase + (((N + n : ℕ) : ℝ) + 1) * d) = (st (N + n + 1)).prevPhase := by
      rw [b3]; push_cast; rfl
    rw [ep] at hcall
    have hd : (st (N + n + 1)).prevPhaseDiff = d := by
      obtain ⟨wt, hwt, -⟩ := hpl.wt
      obtain ⟨v, e, -⟩ := Props.process_one (by rw [hwt]; rfl) hcall
      rw [(stepDir_tables e).2.2.1, hS.fl, hdiff]
    obtain ⟨m1, m2, m3⟩ := Props.C35_mixture S hS hl ws nw L _ a1 dir _ 0 ⟨hp0, hp1⟩ hstep _ _ hcall
      ⟨i, 1, i + 1, 0⟩ (by rw [hd]; exact hnext) (Or.inl hmip.symm) (by
        have := h.off (N + n)
        rw [← a3] at this
        exact this.coarser (by have := hi.1; have := hi.2.1; dsimp only; omega))
    rw [Props.mixture_single hS hl a1.1 h.step.ne hnext rfl, a2, hd] at m1
    refine ⟨m3, by simpa using m2, by rw [m1]; exact nextMemory_length, ?_⟩
    rw [m1]
    have := toneDist_step (d := d) hWc hWp hS.len hσ0 hσ (st (N + n)).prevY (x := x)
      (x0 := (st (N + n)).prevPhase) (j := ⌊x⌋) (by rw [a3]; exact (Int.fract_add_floor x).symm)
    refine le_trans (le_of_eq ?_) this
    congr 1
    rw [hx]; push_cast; ring
  have main : ∀ n, (st (N + n)).prevMip = i ∧
      toneDist S.flt W d ((st 0).prevPhase + (N + n : ℕ) * d) (st (N + n)).prevY ≤
        Real.exp (-σ * n) * toneDist S.flt W d ((st 0).prevPhase + N * d) (st N).prevY := by
    intro n
    induction n with
    | zero => refine ⟨hm, ?_⟩; simp
    | succ n ih =>
      obtain ⟨k1, -, -, k4⟩ := key n ih.1
      refine ⟨k1, ?_⟩
      have e : Real.exp (-σ * ((n + 1 : ℕ) : ℝ)) = Real.exp (-σ) * Real.exp (-σ * n) := by
        rw [← Real.exp_add]; congr 1; push_cast; ring
      rw [e, mul_assoc]
      exact k4.trans (mul_le_mul_of_nonneg_left ih.2 (Real.exp_pos _).le)
  refine ⟨(main n).1, (main n).2, ?_⟩
  obtain ⟨-, k2, k3, k4⟩ := key n (main n).1
  rw [k2]
  refine (output_tone k3).trans (k4.trans ?_)
  have e : Real.exp (-σ * ((n : ℝ) + 1)) = Real.exp (-σ) * Real.exp (-σ * n) := by
    rw [← Real.exp_add]; congr 1; ring
  rw [e, mul_assoc]
  exact mul_le_mul_of_nonneg_left (main n).2 (Real.exp_pos _).le

/-- One sample after the crossfader has settled, the position refers to the settled table. -/
theorem steady_mip (hS : ExactSys S) (hl : Log2Spec S.env.log2f)
    (h : SteadyTone S ws nw L dir d st y) {n : ℕ}
    (hN : NextIndices S (st n) d ⟨i, 1, i + 1, 0⟩) : (st (n + 1)).prevMip = i := by
  have hf := exact_rounding hS
  obtain ⟨a1, a2, a3, -⟩ := steady_at hS hl h n
  obtain ⟨-, -, b3, -⟩ := steady_at hS hl h (n + 1)
  have hpl := reached_play hf hl hS.B a1.1
  have hp0 : 0 ≤ (st (n + 1)).prevPhase := by rw [b3]; exact Int.fract_nonneg _
  have hp1 : (st (n + 1)).prevPhase < 1 := by rw [b3]; exact Int.fract_lt_one _
  have hk : (st (n + 1)).prevPhase = (st n).prevPhase + d +
      ((⌊(st 0).prevPhase + n * d⌋ - ⌊(st 0).prevPhase + (n + 1 : ℕ) * d⌋ : ℤ) : ℝ) := by
    rw [a3, b3]
    unfold Int.fract
    push_cast; ring
  obtain ⟨hstep, hdiff⟩ := steady_diff h.step hpl.p0 hpl.p1 hp0 hp1 hk
  have hcall := h.call n
  have ep : Int.fract ((st 0).prevPhase + ((n : ℝ) + 1) * d) = (st (n + 1)).prevPhase := by
    rw [b3]; push_cast; rfl
  rw [ep] at hcall
  obtain ⟨wt, hwt, -⟩ := hpl.wt
  obtain ⟨v, e, -⟩ := Props.process_one (by rw [hwt]; rfl) hcall
  have hp : PhaseOk S.env.fl (st (n + 1)).prevPhase := ⟨hp0, hp1, by rw [hS.fl]; exact isPhase_id _⟩
  rcases step_cases hf hS.B hpl hp hstep with ⟨ok, -⟩ | ⟨he, -⟩
  · obtain ⟨wt1, c, t, c1, -, c3, -, -, c6⟩ := (ok.elim e).find
    obtain ⟨wt2, wt3, d1, d2⟩ := hN
    rw [c1] at d1; cases d1
    unfold WavetableData.findMipMapIndices at d2
    rw [hS.fl, hdiff] at c3
    rw [c3] at d2
    cases d2
    exact c6
  · rw [e] at he; cases he

end Sys
end Adwt
