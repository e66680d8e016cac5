import Verif.Props.FloatSlow
import Verif.Proofs.SlowRun

/-!
# C72: changing the waveform while playing
-/

set_option linter.unusedSectionVars false

namespace Adwt.Props
open CrossFader WavetableData

/-- C72, exact arithmetic: `setWaveform` may be called before every sample. From zero filter memory,
output `n` of a run of any length, in any mixture of modes, with any table changes that carry the
position over correctly, is the value at time `n + 1` of the continuous-time filter fed with the
signal that, during sample `i`, reads the waveform chosen last before it; the phase goes on unbroken. -/
theorem C72_switch (S : Sys ℝ ℂ) (hS : ExactSys S) (hl : Log2Spec S.env.log2f) (ws : List ℝ)
    (nw L m : ℕ) (st sw : ℕ → Osc ℝ ℂ) (w : ℕ → ℤ) (dir : ℕ → Sys.Direction) (p y : ℕ → ℝ)
    (t : ℕ → MipMapIndices ℝ) (h : SwitchedRun S ws nw L m st sw w dir p y t) (n : ℕ) (hn : n < m) :
    y n = filtered S.flt (playedW S.env ws L w t
      (unwrapped (st 0).prevPhase (stepOf dir (st 0).prevPhase p))) (n + 1) := by
  obtain ⟨-, -, -, h1, h2⟩ := Sys.run_convW hS hl h (n := n + 1) hn
  obtain ⟨hlen, hy⟩ := h2 n rfl
  rw [hy]
  unfold output filtered
  congr 1
  have e : (st (n + 1)).prevY.sum = ∑ k ∈ Finset.range S.n, (st (n + 1)).prevY.getD k 0 := by
    rw [← hlen, Finset.sum_range, ← List.sum_ofFn]
    congr 1
    apply List.ext_getElem
    · simp
    · intro i h1 h2
      simp [List.getD_eq_getElem?_getD, h1]
  rw [e]
  apply Finset.sum_congr rfl
  intro k hk
  rw [h1 k (Finset.mem_range.1 hk)]
  push_cast
  rfl

/-- C72, float arithmetic: the same with every operation rounded, up to the rounding error of C60. -/
theorem C72_float {C : Type} [Zero C] [Add C] [Sub C] [Mul C] [Div C]
    (S : Sys ℝ C) (val : C → ℂ) (ε : ℝ) (hS : FloatSys S val ε)
    (hl : Log2Spec S.env.log2f) (ws : List ℝ) (nw L : ℕ) (A Λ : ℝ)
    (hA : TablesWithin S.env ws nw L A) (hΛ : SlopesWithin S.env ws nw L Λ)
    (M0 : 1 / 2 ^ 40 ≤ A + Λ) (M1 : A + Λ ≤ 2 ^ 24)
    (m : ℕ) (st sw : ℕ → Osc ℝ C) (w : ℕ → ℤ) (dir : ℕ → Sys.Direction) (p y : ℕ → ℝ)
    (t : ℕ → MipMapIndices ℝ)
    (h : SwitchedRun S ws nw L m st sw w dir p y t) (hp : ∀ i < m, IsPhase S.env.fl (p i))
    (hd : ∀ i < m, 1 / 2 ^ 100 ≤ |(st (i + 1)).prevPhaseDiff|) (n : ℕ) (hn : n < m) :
    |y n - filtered (valFilter val S.flt) (playedW S.env ws L w t
        (unwrapped (st 0).prevPhase (trueStepOf S.env.fl dir (st 0).prevPhase p))) (n + 1)| ≤
      ε * (A + Λ) * roundoffGain (valFilter val S.flt) 6.4 :=
  Sys.run_outputW hS hl hA hΛ M0 M1 h hp (fun _ hi => Sys.run_nuW hS hl h hp hi) hd hn

section
variable {rnd : ℝ → ℝ} [GoodRnd rnd]

/-- C72 for the library's oscillators with any good rounding (binary32 with or without subnormals). -/
theorem C72_rounded (E : Env ℝ) (hf : Rounding rnd) (hE : E.fl = rnd)
    (hdb : ∀ x, |E.dbl x - x| ≤ |x| / 2 ^ 53) (hl : Log2Spec E.log2f)
    (ft : FilterType) (ws : List ℝ) (nw L : ℕ) (A Λ : ℝ)
    (hA : TablesWithin E ws nw L A) (hΛ : SlopesWithin E ws nw L Λ)
    (M0 : 1 / 2 ^ 40 ≤ A + Λ) (M1 : A + Λ ≤ 2 ^ 24)
    (sr dur : ℝ) (wt : WavetableData ℝ) (hb : Built E ws nw L sr dur wt)
    (o0 o : Osc ℝ (CFl rnd)) (D : ℝ) (r : ℤ) (x : ℕ → ℝ)
    (hx : ∀ n, PhaseOk rnd (x n)) (hoff : ∀ n, OffDenormal (2 ^ L) (x n)) (hD : 0 < D)
    (hi : (sysRnd rnd E ft).init o0 (some wt) (x 0) D = .ok (o, r))
    (w : ℕ → ℤ) (hw : ∀ n, 0 ≤ w n ∧ w n < nw) (dir : ℕ → Sys.Direction)
    (hstep : ∀ n, StepOk (dir n) (x n) (x (n + 1)))
    (hpos : ∀ n, 1 / 2 ^ 100 ≤ Sys.dirDiff rnd (dir n) (x (n + 1)) (x n))
    (hslow : NoFastFall ⌊rnd (dur * sr)⌋ (roundedStepsFrom rnd D dir (x 0) fun n => x (n + 1))) :
    ∃ (st sw : ℕ → Osc ℝ (CFl rnd)) (y : ℕ → ℝ) (t : ℕ → MipMapIndices ℝ), st 0 = o ∧
      (∀ n, (sysRnd rnd E ft).setWaveform (st n) (w n) = .ok (sw n)) ∧
      (∀ n, (sysRnd rnd E ft).process (dir n) (sw n) [x (n + 1)] [0] = .ok (st (n + 1), [y n])) ∧
      (∀ n, NextIndices (sysRnd rnd E ft) (sw n) (Sys.dirDiff rnd (dir n) (x (n + 1)) (x n)) (t n)) ∧
      ∀ n, |y n - filtered (valFilter CFloat.val (sysRnd rnd E ft).flt) (playedW E ws L w t
          (unwrapped (x 0) (trueStepOf rnd dir (x 0) fun n => x (n + 1)))) (n + 1)| ≤
        1 / 2 ^ 21 * (A + Λ) * roundoffGain (valFilter CFloat.val (sysRnd rnd E ft).flt) 6.4 := by
  subst hE
  have hprev : ∀ n : ℕ, (if n = 0 then x 0 else (fun n => x (n + 1)) (n - 1)) = x n := by
    intro n
    cases n with
    | zero => rfl
    | succ n => rfl
  have hrd : ∀ n, roundedStepOf E.fl dir (x 0) (fun n => x (n + 1)) n =
      Sys.dirDiff E.fl (dir n) (x (n + 1)) (x n) := by
    intro n
    unfold roundedStepOf; rw [hprev]
  have hS : FloatSys (sysRnd E.fl E ft) CFloat.val (1 / 2 ^ 21) := floatSysRnd (E := E) hf rfl hdb ft
  obtain ⟨st, sw, y, t, a1, a2, a3, a4, a5, a6⟩ := slow_run (S := sysRnd E.fl E ft) (w := w) (dir := dir)
    (p := fun n => x (n + 1)) hS.fl hS.B hl hb (hx 0) hD hi hw (fun n => hx _)
    (fun n => by rw [hprev]; exact hstep n)
    (fun n => by
      have h1 := hpos n
      rw [← hrd] at h1
      exact lt_of_lt_of_le (by positivity) h1) hslow (hoff 0) (fun n => hoff _)
  have a5' : ∀ n, (st (n + 1)).prevPhaseDiff = Sys.dirDiff E.fl (dir n) (x (n + 1)) (x n) :=
    fun n => (a5 n).trans (hrd n)
  refine ⟨st, sw, y, t, a1, a3, a4, fun n => ?_, fun n => ?_⟩
  · have := (a6 (n + 1)).next n (Nat.lt_succ_self n)
    rw [a5'] at this
    exact this
  · have := C72_float _ _ _ hS hl ws nw L A Λ hA hΛ M0 M1 (n + 1) st sw w dir _ y t
      (a6 (n + 1)) (fun i _ => (hx _).2.2)
      (fun i _ => by rw [a5']; exact (hpos i).trans (le_abs_self _)) n (Nat.lt_succ_self n)
    rw [a2] at this
    exact this

end

/-- C72 for the library's oscillators on any machine with IEEE binary32 arithmetic, debug or release build,
any resampler, within the documented limit on pitch changes:
any built-in filter, any waveform chosen before each sample, any float phases that are zero or not
subnormal. Every call succeeds and every output, forever, is that of the filter fed with the waveforms
as they are chosen, up to the rounding error. -/
theorem C72_builtin (E : Env ℝ) (hE : IeeeHost E) (ft : FilterType) (ws : List ℝ) (nw L : ℕ) (A Λ : ℝ)
    (hA : TablesWithin E ws nw L A) (hΛ : SlopesWithin E ws nw L Λ)
    (M0 : 1 / 2 ^ 40 ≤ A + Λ) (M1 : A + Λ ≤ 2 ^ 24)
    (sr dur : ℝ) (wt : WavetableData ℝ) (hb : Built E ws nw L sr dur wt)
    (o0 o : Osc ℝ CFloat) (D : ℝ) (r : ℤ) (x : ℕ → ℝ)
    (hx : ∀ n, 0 ≤ x n ∧ x n < 1 ∧ ieee32 (x n) = x n ∧ (x n = 0 ∨ 1 / 2 ^ 126 ≤ x n)) (hD : 0 < D)
    (hi : (sysRnd ieee32 E ft).init o0 (some wt) (x 0) D = .ok (o, r))
    (w : ℕ → ℤ) (hw : ∀ n, 0 ≤ w n ∧ w n < nw) (dir : ℕ → Sys.Direction)
    (hstep : ∀ n, StepOk (dir n) (x n) (x (n + 1)))
    (hpos : ∀ n, 1 / 2 ^ 100 ≤ Sys.dirDiff ieee32 (dir n) (x (n + 1)) (x n))
    (hslow : NoFastFall ⌊ieee32 (dur * sr)⌋ (roundedStepsFrom ieee32 D dir (x 0) fun n => x (n + 1))) :
    ∃ (st sw : ℕ → Osc ℝ CFloat) (y : ℕ → ℝ) (t : ℕ → MipMapIndices ℝ), st 0 = o ∧
      (∀ n, (sysRnd ieee32 E ft).setWaveform (st n) (w n) = .ok (sw n)) ∧
      (∀ n, (sysRnd ieee32 E ft).process (dir n) (sw n) [x (n + 1)] [0] = .ok (st (n + 1), [y n])) ∧
      (∀ n, NextIndices (sysRnd ieee32 E ft) (sw n) (Sys.dirDiff ieee32 (dir n) (x (n + 1)) (x n)) (t n)) ∧
      ∀ n, |y n - filtered (valFilter CFloat.val (sysRnd ieee32 E ft).flt) (playedW E ws L w t
          (unwrapped (x 0) (trueStepOf ieee32 dir (x 0) fun n => x (n + 1)))) (n + 1)| ≤
        1 / 2 ^ 21 * (A + Λ) * roundoffGain (valFilter CFloat.val (sysRnd ieee32 E ft).flt) 6.4 :=
  C72_rounded E rounding_ieee32 hE.fl hE.dbl hE.log2 ft ws nw L A Λ hA hΛ M0 M1 sr dur wt hb o0 o D r x
    (fun n => ⟨(hx n).1, (hx n).2.1, isPhase_ieee32 (hx n).2.2.1⟩)
    (fun n => normal_offDenormal (hx n).2.2.1 (hx n).1 (hx n).2.2.2 (hE.L100 hb)) hD hi w hw dir hstep
    hpos hslow

/-! ### the hypotheses are met -/

/-- C72 applies, for every built-in filter and two waveforms of eight samples in `[-1, 1]`, in IEEE
floats, to an endless run in which the waveform changes at every sample, and the mipmap table asked for
too. -/
theorem switchExample (ft : FilterType) (ws : List ℝ) (hws : ws.length = 2 * 2 ^ 3) (hv : ∀ x ∈ ws, |x| ≤ 1) :
    ∃ (wt : WavetableData ℝ) (o : Osc ℝ CFloat) (r : ℤ) (st sw : ℕ → Osc ℝ CFloat) (y : ℕ → ℝ)
        (t : ℕ → MipMapIndices ℝ),
      Built envI ws 2 3 44100 (1 / 256) wt ∧
      (sysF ft).init (sysF ft).fresh (some wt) 0 (1 / 8) = .ok (o, r) ∧ st 0 = o ∧
      (∀ n, (sysF ft).setWaveform (st n) (n % 2) = .ok (sw n)) ∧
      (∀ n, (sysF ft).process .kForward (sw n) [(zigzag (n + 1) : ℝ) / 8] [0] =
        .ok (st (n + 1), [y n])) ∧
      ∀ n, |y n - filtered (valFilter CFloat.val (sysF ft).flt) (playedW envI ws 3 (fun n => n % 2) t
        (unwrapped 0 (trueStepOf envI.fl (fun _ => .kForward) 0
          (fun n => (zigzag (n + 1) : ℝ) / 8)))) (n + 1)| ≤
        1 / 2 ^ 21 * (1 + 16) * roundoffGain (valFilter CFloat.val (sysF ft).flt) 6.4 := by
  have hz : ∀ n, zigzag n < 8 := fun n => by unfold zigzag; omega
  have hph : ∀ n, PhaseOk envI.fl ((zigzag n : ℝ) / 8) := by
    intro n
    have := phaseOk_dyadic envI_ok.1 (k := zigzag n) (n := 3) (hz n) (by norm_num)
    norm_num at this ⊢
    exact this
  have hz0 : ((zigzag 0 : ℕ) : ℝ) / 8 = 0 := by simp [zigzag]
  obtain ⟨wt, hb⟩ : ∃ wt, Built envI ws 2 3 44100 (1 / 256) wt := by
    have e : (1 / 256 * 44100 : ℝ) = ((44100 : ℤ) : ℝ) / 2 ^ 8 := by norm_num
    have e2 : envI.fl (1 / 256 * 44100) = 1 / 256 * 44100 := by
      rw [e, envI_ok.1.dyadic 44100 8 (by norm_num)]
    have hr : IsRate envI.fl (44100 : ℝ) := by
      have := envI_ok.1.isRate 44100 (by norm_num); simpa using this
    obtain ⟨wt, h⟩ := C02_succeeds envI envI_ok.1 envI_ok.2.1 envI_ok.2.2 3 (by norm_num) (by norm_num) 2
      (by norm_num) ws hws 44100 (1 / 256) (by norm_num) hr (by rw [e2]; norm_num)
    exact ⟨wt, hr, by rw [e2]; norm_num, by simpa using hws, h⟩
  obtain ⟨o, r, ho⟩ : ∃ o r, (sysF ft).init (sysF ft).fresh (some wt) 0 (1 / 8) = .ok (o, r) := by
    have hw := hb.ok envI_ok.1 envI_ok.2.1
    obtain ⟨t, e, -⟩ := newIndices_eq (E := envI) envI_ok.1 hw.inv (abs_pos.2 (show (1 / 8 : ℝ) ≠ 0 by norm_num))
    have e1 := Sys.reset_ok (S := sysF ft) (o := { (sysF ft).fresh with wt := some wt }) envI_ok.1 rfl hw
      (by have := hph 0; rw [hz0] at this; exact this) (by norm_num) e
    unfold Sys.init
    dsimp only
    rw [e1, R.ok_bind]
    exact ⟨_, _, rfl⟩
  have hd : ∀ n, Sys.dirDiff ieee32 .kForward ((zigzag (n + 1) : ℝ) / 8) ((zigzag n : ℝ) / 8) =
      (if n % 2 = 0 then 1 / 8 else 1 / 4) := zigzag_float
  have hd' : ∀ n, roundedStepOf ieee32 (fun _ => .kForward) ((zigzag 0 : ℝ) / 8)
      (fun n => (zigzag (n + 1) : ℝ) / 8) n = (if n % 2 = 0 then 1 / 8 else 1 / 4) := by
    intro n
    rw [← hd n]
    unfold roundedStepOf
    cases n with
    | zero => rfl
    | succ n => rfl
  obtain ⟨st, sw, y, t, a1, a2, a3, -, a5⟩ := C72_builtin envI ieeeHostI ft ws 2 3 1 16
    (tablesWithinI zero_le_one hv 2 3)
    (by have := slopesWithinI zero_le_one hv 2 3; norm_num at this; exact this)
    (by norm_num) (by norm_num) _ _ _ hb _ o (1 / 8) r (fun n => (zigzag n : ℝ) / 8)
    (fun n => ⟨(hph n).1, (hph n).2.1, (hph n).2.2.1, by
      rcases Nat.eq_zero_or_pos (zigzag n) with h | h
      · left; rw [h]; norm_num
      · right
        have : (1 : ℝ) ≤ zigzag n := by exact_mod_cast h
        have h8 : (1 : ℝ) / 8 ≤ (zigzag n : ℝ) / 8 := by gcongr
        refine le_trans ?_ h8
        norm_num⟩)
    (by norm_num) (by rw [hz0]; exact ho) (fun n => n % 2) (fun n => by omega)
    (fun _ => .kForward) (fun n => (zigzag_step n).1)
    (fun n => by rw [hd]; split_ifs <;> norm_num)
    (fun k n _ _ => by
      have hb : ∀ n, 1 / 8 ≤ roundedStepsFrom ieee32 (1 / 8) (fun _ => .kForward) ((zigzag 0 : ℝ) / 8)
            (fun n => (zigzag (n + 1) : ℝ) / 8) n ∧
          roundedStepsFrom ieee32 (1 / 8) (fun _ => .kForward) ((zigzag 0 : ℝ) / 8)
            (fun n => (zigzag (n + 1) : ℝ) / 8) n ≤ 1 / 4 := by
        intro n
        cases n with
        | zero => unfold roundedStepsFrom; norm_num
        | succ n => unfold roundedStepsFrom; dsimp only; rw [hd']; split_ifs <;> norm_num
      have h1 := (hb k).2; have h2 := (hb n).1
      linarith)

  rw [hz0] at a5
  exact ⟨wt, o, r, st, sw, y, t, hb, ho, a1, a2, a3, a5⟩

end Adwt.Props
