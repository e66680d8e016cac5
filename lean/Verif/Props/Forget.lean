import Verif.Props.FloatSlow
import Verif.Props.FloatExamples

/-!
# C77: the past is forgotten, in float arithmetic
-/

set_option linter.unusedSectionVars false

namespace Adwt.Props
open WavetableData

variable {C : Type} [Zero C] [Add C] [Sub C] [Mul C] [Div C]

/-- C77: take any playing oscillator at any moment, with anything in its filter memory (up to `2^89`),
and go on playing, the position being carried over correctly from now on. With every operation rounded,
output `n` is that of the filter fed with the waveform from this moment on, up to the rounding error of
C60 and what is left of the old memory: at most `2 μ` times a sum of decaying powers, one for each pole
of the filter. -/
theorem C77_forget (S : Sys ℝ C) (val : C → ℂ) (ε : ℝ) (hS : FloatSys S val ε)
    (hl : Log2Spec S.env.log2f) (ws : List ℝ) (nw L : ℕ) (A Λ : ℝ)
    (hA : TablesWithin S.env ws nw L A) (hΛ : SlopesWithin S.env ws nw L Λ)
    (M0 : 1 / 2 ^ 40 ≤ A + Λ) (M1 : A + Λ ≤ 2 ^ 24)
    (m : ℕ) (st sw : ℕ → Osc ℝ C) (w : ℕ → ℤ) (dir : ℕ → Sys.Direction) (p y : ℕ → ℝ)
    (t : ℕ → MipMapIndices ℝ)
    (h : LiveRun S ws nw L m st sw w dir p y t) (hp : ∀ i < m, IsPhase S.env.fl (p i))
    (μ : ℝ) (hμ : μ ≤ 2 ^ 89) (hmem : ∀ k < S.flt.r.length, ‖val ((st 0).prevY.getD k 0)‖ ≤ μ)
    (hd : ∀ i < m, 1 / 2 ^ 100 ≤ |(st (i + 1)).prevPhaseDiff|) (n : ℕ) (hn : n < m) :
    |y n - filtered (valFilter val S.flt) (playedW S.env ws L w t
        (unwrapped (st 0).prevPhase (trueStepOf S.env.fl dir (st 0).prevPhase p))) (n + 1)| ≤
      ε * (A + Λ) * roundoffGain (valFilter val S.flt) 6.4 +
        2 * μ * leftAfter (valFilter val S.flt) (n + 1) :=
  Sys.run_outputL hS hl hA hΛ M0 M1 h hp hμ hmem (fun _ hi => Sys.run_nuL hS hl h hp hi) hd hn

/-- C39 in float arithmetic: two oscillators that play the same way, whatever their filter memories at
the start, come to give the same output up to twice the rounding error of C60. -/
theorem C39_float (S : Sys ℝ C) (val : C → ℂ) (ε : ℝ) (hS : FloatSys S val ε)
    (hl : Log2Spec S.env.log2f) (ws : List ℝ) (nw L : ℕ) (A Λ : ℝ)
    (hA : TablesWithin S.env ws nw L A) (hΛ : SlopesWithin S.env ws nw L Λ)
    (M0 : 1 / 2 ^ 40 ≤ A + Λ) (M1 : A + Λ ≤ 2 ^ 24)
    (m : ℕ) (st sw st' sw' : ℕ → Osc ℝ C) (w : ℕ → ℤ) (dir : ℕ → Sys.Direction) (p y y' : ℕ → ℝ)
    (t : ℕ → MipMapIndices ℝ)
    (h : LiveRun S ws nw L m st sw w dir p y t) (h' : LiveRun S ws nw L m st' sw' w dir p y' t)
    (hx : (st 0).prevPhase = (st' 0).prevPhase) (hp : ∀ i < m, IsPhase S.env.fl (p i))
    (μ : ℝ) (hμ : μ ≤ 2 ^ 89) (hmem : ∀ k < S.flt.r.length, ‖val ((st 0).prevY.getD k 0)‖ ≤ μ)
    (hmem' : ∀ k < S.flt.r.length, ‖val ((st' 0).prevY.getD k 0)‖ ≤ μ)
    (hd : ∀ i < m, 1 / 2 ^ 100 ≤ |(st (i + 1)).prevPhaseDiff|)
    (hd' : ∀ i < m, 1 / 2 ^ 100 ≤ |(st' (i + 1)).prevPhaseDiff|) (n : ℕ) (hn : n < m) :
    |y n - y' n| ≤ 2 * (ε * (A + Λ) * roundoffGain (valFilter val S.flt) 6.4 +
        2 * μ * leftAfter (valFilter val S.flt) (n + 1)) := by
  have h1 := C77_forget S val ε hS hl ws nw L A Λ hA hΛ M0 M1 m st sw w dir p y t h hp μ hμ hmem hd n hn
  have h2 := C77_forget S val ε hS hl ws nw L A Λ hA hΛ M0 M1 m st' sw' w dir p y' t h' hp μ hμ hmem' hd' n hn
  rw [← hx] at h2
  rw [abs_sub_comm] at h2
  have := abs_sub_le (y n) (filtered (valFilter val S.flt) (playedW S.env ws L w t
        (unwrapped (st 0).prevPhase (trueStepOf S.env.fl dir (st 0).prevPhase p))) (n + 1)) (y' n)
  linarith

theorem leftAfter_le {flt : Filter ℂ} {σ : ℝ} (hσ : 0 < σ) (hz : PolesLeft flt σ)
    (hlen : flt.z.length = flt.r.length) (n : ℕ) :
    leftAfter flt n ≤ flt.r.length * ((1 + σ / 2) / (1 + σ)) ^ n := by
  unfold leftAfter
  have : ∀ k ∈ Finset.range flt.r.length,
      ((1 + -(flt.z.getD k 0).re / 2) / (1 + -(flt.z.getD k 0).re)) ^ n ≤
        ((1 + σ / 2) / (1 + σ)) ^ n := by
    intro k hk
    have hk : k < flt.z.length := by rw [hlen]; exact Finset.mem_range.1 hk
    have h := hz (flt.z.getD k 0) (by
      rw [List.getD_eq_getElem?_getD, List.getElem?_eq_getElem hk]; exact List.getElem_mem hk)
    obtain ⟨s, hs⟩ : ∃ s, s = -(flt.z.getD k 0).re := ⟨_, rfl⟩
    rw [← hs]
    have h : σ ≤ s := by linarith
    have s0 : 0 < s := by linarith
    apply pow_le_pow_left₀ (by positivity)
    rw [div_le_div_iff₀ (by linarith) (by linarith)]
    nlinarith
  exact (Finset.sum_le_sum this).trans (by simp)

/-- C77: the built-in filters, as stored in binary32, forget at least 10.9 % of their memory per sample:
what is left after `n` samples is at most the number of coefficients times `0.891^n`. -/
theorem C77_rate (ft : FilterType) (n : ℕ) :
    leftAfter (valFilter CFloat.val (sysF ft).flt) n ≤ (sysF ft).flt.r.length * 0.891 ^ n := by
  have hz : PolesLeft (valFilter CFloat.val (sysF ft).flt) 0.28 := by
    intro z hz
    have : ∃ c ∈ (sysF ft).flt.z, CFloat.val c = z := by simpa [valFilter] using hz
    obtain ⟨c, hc, rfl⟩ := this
    have := (sysF_pole hc).1
    linarith
  have hlen : (valFilter CFloat.val (sysF ft).flt).r.length = (sysF ft).flt.r.length := by
    simp [valFilter]
  have h := leftAfter_le (by norm_num) hz (by simpa [valFilter] using (floatSys ft).len.symm) n
  rw [hlen] at h
  refine h.trans (mul_le_mul_of_nonneg_left ?_ (Nat.cast_nonneg _))
  exact pow_le_pow_left₀ (by norm_num) (by norm_num) n

/-- C77 for the library's oscillators on any machine with IEEE binary32 arithmetic: whatever the filter memory (up to `μ ≤ 2^89`),
the output is that of the filter fed with the waveform from now on, up to the rounding error of C60 and
an error that falls below every positive number: `2 μ` times the number of coefficients times
`0.891^(n+1)`. -/
theorem C77_builtin (E : Env ℝ) (hE : IeeeHost E) (ft : FilterType) (ws : List ℝ) (nw L : ℕ) (A Λ : ℝ)
    (hA : TablesWithin E ws nw L A) (hΛ : SlopesWithin E ws nw L Λ)
    (M0 : 1 / 2 ^ 40 ≤ A + Λ) (M1 : A + Λ ≤ 2 ^ 24)
    (m : ℕ) (st sw : ℕ → Osc ℝ CFloat) (w : ℕ → ℤ) (dir : ℕ → Sys.Direction) (p y : ℕ → ℝ)
    (t : ℕ → MipMapIndices ℝ)
    (h : LiveRun (sysRnd ieee32 E ft) ws nw L m st sw w dir p y t) (hp : ∀ i < m, ieee32 (p i) = p i)
    (μ : ℝ) (h0 : 0 ≤ μ) (hμ : μ ≤ 2 ^ 89)
    (hmem : ∀ k < (sysRnd ieee32 E ft).flt.r.length, ‖CFloat.val ((st 0).prevY.getD k 0)‖ ≤ μ)
    (hd : ∀ i < m, 1 / 2 ^ 100 ≤ |(st (i + 1)).prevPhaseDiff|) (n : ℕ) (hn : n < m) :
    |y n - filtered (valFilter CFloat.val (sysRnd ieee32 E ft).flt) (playedW E ws L w t
        (unwrapped (st 0).prevPhase (trueStepOf ieee32 dir (st 0).prevPhase p))) (n + 1)| ≤
      1 / 2 ^ 21 * (A + Λ) * roundoffGain (valFilter CFloat.val (sysRnd ieee32 E ft).flt) 6.4 +
        2 * μ * ((sysRnd ieee32 E ft).flt.r.length * 0.891 ^ (n + 1)) := by
  have h1 := C77_forget _ _ _ (hE.floatSys ft) hE.log2 ws nw L A Λ hA hΛ M0 M1 m st sw w dir p y t h
    (fun i hi => by
      show IsPhase E.fl (p i)
      rw [hE.fl]; exact isPhase_ieee32 (hp i hi)) μ hμ hmem hd n hn
  have e : (sysRnd ieee32 E ft).env.fl = ieee32 := hE.fl
  rw [e] at h1
  refine h1.trans (add_le_add le_rfl (mul_le_mul_of_nonneg_left (C77_rate ft _) (by positivity)))

/-! ### the hypotheses are met -/

/-- A run may be taken up at any moment. -/
theorem live_tail {S : Sys ℝ C} {ws : List ℝ} {nw L m : ℕ} {st : ℕ → Osc ℝ C}
    {dir : ℕ → Sys.Direction} {p y : ℕ → ℝ} {t : ℕ → MipMapIndices ℝ}
    (hf : Rounding S.env.fl) (hl : Log2Spec S.env.log2f) (hB : 0 < S.B) (j : ℕ)
    (h : TrackedRun S ws nw L (j + m) st dir p y t) (hp : ∀ i < j + m, IsPhase S.env.fl (p i)) :
    LiveRun S ws nw L m (fun i => st (j + i)) (fun i => st (j + i)) (fun _ => (st 0).crt)
      (fun i => dir (j + i)) (fun i => p (j + i)) (fun i => y (j + i)) (fun i => t (j + i)) := by
  obtain ⟨h1, -⟩ := h.switched hf hl hB hp
  have hpl := (Sys.run_plays hf hl hB h1 hp (n := j) (by omega)).1
  refine ⟨hpl, fun i hi => h1.wave (j + i) (by omega), fun i hi => h1.set (j + i) (by omega),
    fun i hi => h1.phase (j + i) (by omega), fun i hi => h1.step (j + i) (by omega),
    fun i hi => h1.call (j + i) (by omega), fun i hi => h1.next (j + i) (by omega),
    fun i hi => h1.move (j + i) (by omega), fun i hi => h1.off (j + i) (by omega)⟩

/-- C77 applies, for every built-in filter and every waveform of eight samples in `[-1, 1]`, in IEEE
floats, to a run taken up after any number `j` of samples, with what is then in the filter memory. -/
example (ft : FilterType) (ws : List ℝ) (hws : ws.length = 2 ^ 3) (hv : ∀ x ∈ ws, |x| ≤ 1) (j m : ℕ) :
    ∃ (st : ℕ → Osc ℝ CFloat) (y : ℕ → ℝ), Plays (sysF ft) ws 1 3 (st 0) ∧
      (∀ i < m, (sysF ft).process .kForward (st i) [(((j + i + 1) % 16 : ℕ) : ℝ) / 16] [0] =
        .ok (st (i + 1), [y i])) ∧
      ∀ n < m, |y n - filtered (valFilter CFloat.val (sysF ft).flt) (playedW envI ws 3
        (fun _ => 0) (fun _ => ⟨0, 1, 0 + 1, 0⟩)
        (unwrapped (st 0).prevPhase (trueStepOf ieee32 (fun _ => .kForward) (st 0).prevPhase
          (fun i => (((j + i + 1) % 16 : ℕ) : ℝ) / 16)))) (n + 1)| ≤
        1 / 2 ^ 21 * (1 + 16) * roundoffGain (valFilter CFloat.val (sysF ft).flt) 6.4 +
          2 * 2 ^ 89 * ((sysF ft).flt.r.length * 0.891 ^ (n + 1)) := by
  obtain ⟨wt, xf, hb, hcf⟩ := builtI ws hws
  obtain ⟨st, y, h, -, hd, hc, -⟩ := steadyRunF (sysF ft) envI_ok.1 log2I (floatSys ft).B ws wt _ hb hcf (j + m)
  have hph : ∀ k : ℕ, ieee32 (((k % 16 : ℕ) : ℝ) / 16) = ((k % 16 : ℕ) : ℝ) / 16 := by
    intro k
    exact (phase16 k).2.2.1
  have hA := tablesWithinI zero_le_one hv 1 3
  have hΛ : SlopesWithin envI ws 1 3 16 := by
    have := slopesWithinI zero_le_one hv 1 3; norm_num at this; exact this
  have ht := live_tail envI_ok.1 log2I (floatSys ft).B j h (fun i _ => isPhase_ieee32 (hph _))
  rw [hc] at ht
  refine ⟨fun i => st (j + i), fun i => y (j + i), ht.plays, fun i hi => ht.call i hi, ?_⟩
  intro n hn
  have := C77_builtin envI ieeeHostI ft ws 1 3 1 16 hA hΛ (by norm_num) (by norm_num) m _ _ _ _ _ _ _ ht
    (fun i _ => hph _) (2 ^ 89) (by positivity) le_rfl
    (fun k hk => Sys.run_mem (floatSys ft) log2I hA hΛ (by norm_num) (by norm_num)
      (h.switched envI_ok.1 log2I (floatSys ft).B (fun i _ => isPhase_ieee32 (hph _))).1
      (fun i _ => isPhase_ieee32 (hph _))
      (fun i _ => by rw [hd]; norm_num [abs_of_pos]) (by omega) hk)
    (fun i _ => by
      show (1 : ℝ) / 2 ^ 100 ≤ |(st (j + i + 1)).prevPhaseDiff|
      rw [hd]; norm_num [abs_of_pos]) n hn
  exact this

/-- C39 in floats applies to a run and the same run taken up one period later: its output becomes
periodic up to rounding. -/
example (ft : FilterType) (ws : List ℝ) (hws : ws.length = 2 ^ 3) (hv : ∀ x ∈ ws, |x| ≤ 1) (m : ℕ) :
    ∃ (st : ℕ → Osc ℝ CFloat) (y : ℕ → ℝ), Plays (sysF ft) ws 1 3 (st 0) ∧
      (∀ i < 16 + m, (sysF ft).process .kForward (st i) [(((i + 1) % 16 : ℕ) : ℝ) / 16] [0] =
        .ok (st (i + 1), [y i])) ∧
      ∀ n < m, |y n - y (16 + n)| ≤
        2 * (1 / 2 ^ 21 * (1 + 16) * roundoffGain (valFilter CFloat.val (sysF ft).flt) 6.4 +
          2 * 2 ^ 89 * leftAfter (valFilter CFloat.val (sysF ft).flt) (n + 1)) := by
  obtain ⟨wt, xf, hb, hcf⟩ := builtI ws hws
  obtain ⟨st, y, h, h0, hd, hc, -⟩ := steadyRunF (sysF ft) envI_ok.1 log2I (floatSys ft).B ws wt _ hb hcf (16 + m)
  have hph : ∀ i < 16 + m, IsPhase envI.fl ((((i + 1) % 16 : ℕ) : ℝ) / 16) :=
    fun i _ => (phase16 (i + 1)).2.2
  have hA := tablesWithinI zero_le_one hv 1 3
  have hΛ : SlopesWithin envI ws 1 3 16 := by
    have := slopesWithinI zero_le_one hv 1 3; norm_num at this; exact this
  obtain ⟨hs, -⟩ := h.switched envI_ok.1 log2I (floatSys ft).B hph
  have ht := live_tail (j := 16) envI_ok.1 log2I (floatSys ft).B h hph
  have hmod : ∀ i : ℕ, (16 + i + 1) % 16 = (i + 1) % 16 := fun i => by omega
  simp only [hmod] at ht
  have hx : (st 16).prevPhase = (st 0).prevPhase := by
    have := (Sys.run_plays envI_ok.1 log2I (floatSys ft).B hs hph (n := 16) (by omega)).2
    rw [this, h0]; norm_num
  have h1 : LiveRun (sysF ft) ws 1 3 m st st (fun _ => (st 0).crt) (fun _ => .kForward)
      (fun i => (((i + 1) % 16 : ℕ) : ℝ) / 16) y (fun _ => ⟨0, 1, 0 + 1, 0⟩) :=
    ⟨hs.plays, fun i hi => hs.wave i (by omega), fun i hi => hs.set i (by omega),
      fun i hi => hs.phase i (by omega), fun i hi => hs.step i (by omega),
      fun i hi => hs.call i (by omega), fun i hi => hs.next i (by omega),
      fun i hi => hs.move i (by omega), fun i hi => hs.off i (by omega)⟩
  have hmem : ∀ n ≤ 16 + m, ∀ k < (sysF ft).flt.r.length, ‖CFloat.val ((st n).prevY.getD k 0)‖ ≤ 2 ^ 89 :=
    fun n hn k hk => Sys.run_mem (floatSys ft) log2I hA hΛ (by norm_num) (by norm_num) hs hph
      (fun i _ => by rw [hd]; norm_num [abs_of_pos]) hn hk
  refine ⟨st, y, hs.plays, fun i hi => hs.call i hi, fun n hn => ?_⟩
  exact C39_float _ _ _ (floatSys ft) log2I ws 1 3 1 16 hA hΛ (by norm_num) (by norm_num) m _ _ _ _ _ _ _ _ _ _
    h1 ht hx.symm (fun i _ => (phase16 (i + 1)).2.2) (2 ^ 89) le_rfl (hmem 0 (by omega)) (hmem 16 (by omega))
    (fun i _ => by rw [hd]; norm_num [abs_of_pos])
    (fun i _ => by
      show (1 : ℝ) / 2 ^ 100 ≤ |(st (16 + i + 1)).prevPhaseDiff|
      rw [hd]; norm_num [abs_of_pos]) n hn

end Adwt.Props
