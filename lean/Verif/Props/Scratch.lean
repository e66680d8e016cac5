import Verif.Proofs.Scratch
import Verif.Props.Switch

/-!
# C84: playing in both directions
-/

set_option linter.unusedSectionVars false

namespace Adwt.Props
open CrossFader WavetableData

/-! ### when backward steps stay clear of table changes -/

/-- A run with forward steps only meets the condition, and the documented limit is enough: C84 covers
C56 and C72. -/
theorem scratch_forward {fl : ℝ → ℝ} {L : ℕ} (hL : 2 ≤ L) {num : ℤ} {d x : ℕ → ℝ} (hpos : ∀ n, 0 < d n)
    (hslow : NoFastFall num d) : FallsSlowly L num d ∧ ClearOfChanges fl L num d x := by
  refine ⟨fun k n h1 h2 i j hi hj => ?_, fun n h => absurd (hpos n) (by linarith),
    fun n h => absurd (hpos n) (by linarith)⟩
  have := octave_half hL (hslow k n h1 h2)
  rw [abs_of_pos (hpos k)] at hi
  rw [abs_of_pos (hpos n)] at hj
  have e1 := hi.unique (findLoop_octave hL (d k))
  have e2 := hj.unique (findLoop_octave hL (d n))
  omega

/-- So does any to and fro with steps in one mipmap octave that is not above the one of a tenth. -/
theorem scratch_octave {fl : ℝ → ℝ} (hf : Rounding fl) {L : ℕ} (hL : 2 ≤ L) (hL' : L ≤ 100) {num : ℤ} {d x : ℕ → ℝ}
    {i : ℤ}
    (hi : i = 0 ∨ 2 ^ i.toNat / 2 ^ L ≤ (1 / 10 : ℝ)) (ho : ∀ n, IsOctave L i |d n|) :
    FallsSlowly L num d ∧ ClearOfChanges fl L num d x := by
  have h10 : i ≤ (findLoop (fl (1 / 10)) (octaveScale ℝ L) : ℤ) := by
    obtain ⟨a0, a1, a2, a3⟩ := findLoop_octave hL (fl (1 / 10))
    rcases hi with hi | hi
    · omega
    by_contra hc
    rw [not_le] at hc
    obtain ⟨-, i1, -⟩ := ho 0
    rcases a3 with a3 | a3
    · omega
    have h1 : fl ((2 : ℝ) ^ i.toNat / 2 ^ L) ≤ fl (1 / 10) := hf.mono hi
    have hle : i.toNat ≤ L := by omega
    have h2 : fl ((2 : ℝ) ^ i.toNat / 2 ^ L) = 2 ^ i.toNat / 2 ^ L := by
      generalize i.toNat = m at hle
      have := hf.range 1 ((m : ℤ) - L) (by norm_num) (by omega) (by omega)
      rw [zpow_sub₀ (by norm_num)] at this
      simpa using this
    have h3 : (2 : ℝ) ^ ((findLoop (fl (1 / 10)) (octaveScale ℝ L) : ℤ).toNat + 1) / 2 ^ L ≤ 2 ^ i.toNat / 2 ^ L :=
      div_le_div_of_nonneg_right (pow_le_pow_right₀ (by norm_num) (by omega)) (by positivity)
    linarith
  refine ⟨fun k n _ _ a b ha hb => ?_, fun n _ j k hjk _ _ a b ha hb => ?_, fun n _ _ k _ _ a b ha hb => ?_⟩
  · have e1 := ha.unique (ho k)
    have e2 := hb.unique (ho n)
    omega
  · obtain ⟨k, rfl⟩ : ∃ k', k = k' + 1 := ⟨k - 1, by omega⟩
    have e2 : b = i := hb.unique (ho k)
    cases j with
    | zero =>
      have e1 := ha.unique (findLoop_octave hL (fl (1 / 10)))
      omega
    | succ j =>
      have e1 : a = i := ha.unique (ho j)
      omega
  · have e1 := ha.unique (ho (n + 1))
    have e2 := hb.unique (ho k)
    omega

/-! ### the run -/

/-- C84, exact arithmetic: forward and backward steps in any order, any waveform chosen before each
sample. If no step is more than an octave below one of the crossfade before, and backward steps stay
clear of table changes, every call succeeds and output `n` is the value at time `n + 1` of the
continuous-time filter fed with the waveform read at the phase as it goes to and fro. -/
theorem C84_exact (S : Sys ℝ ℂ) (hS : ExactSys S) (hl : Log2Spec S.env.log2f) (ws : List ℝ) (nw L : ℕ)
    (sr dur : ℝ) (wt : WavetableData ℝ) (hb : Built S.env ws nw L sr dur wt)
    (o0 o : Osc ℝ ℂ) (D : ℝ) (r : ℤ) (x : ℕ → ℝ)
    (hx : ∀ n, PhaseOk S.env.fl (x n)) (hoff : ∀ n, OffDenormal (2 ^ L) (x n)) (hD : D ≠ 0)
    (hi : S.init o0 (some wt) (x 0) D = .ok (o, r))
    (w : ℕ → ℤ) (hw : ∀ n, 0 ≤ w n ∧ w n < nw) (dir : ℕ → Sys.Direction)
    (hstep : ∀ n, StepOk (dir n) (x n) (x (n + 1)))
    (hslow : FallsSlowly L ⌊dur * sr⌋ (stepsAlong id D dir x))
    (hclear : ClearOfChanges id L ⌊dur * sr⌋ (stepsAlong id D dir x) x) :
    ∃ (st sw : ℕ → Osc ℝ ℂ) (y : ℕ → ℝ) (t : ℕ → MipMapIndices ℝ), st 0 = o ∧
      (∀ n, S.setWaveform (st n) (w n) = .ok (sw n)) ∧
      (∀ n, S.process (dir n) (sw n) [x (n + 1)] [0] = .ok (st (n + 1), [y n])) ∧
      (∀ n, NextIndices S (sw n) (Sys.dirDiff id (dir n) (x (n + 1)) (x n)) (t n)) ∧
      ∀ n, y n = filtered S.flt (playedW S.env ws L w t
        (unwrapped (x 0) (stepOf dir (x 0) fun n => x (n + 1)))) (n + 1) := by
  have hid : S.env.fl = id := hS.fl
  obtain ⟨st, sw, y, t, a1, a2, a3, a4, a5, a6⟩ := scratch_run (S := S) (w := w) (dir := dir) (x := x)
    (d := stepsAlong S.env.fl D dir x) (Sys.exact_rounding hS) hS.B hl hb hx hD hi hw hstep rfl (fun n => rfl)
    (by rw [hid]; exact hslow) (by rw [hid]; exact hclear) hoff
  refine ⟨st, sw, y, t, a1, a3, a4, fun n => ?_, fun n => ?_⟩
  · have := (a6 (n + 1)).next n (Nat.lt_succ_self n)
    rw [a5, hid] at this
    exact this
  · have := C72_switch S hS hl ws nw L (n + 1) st sw w dir _ y t (a6 (n + 1)) n (Nat.lt_succ_self n)
    rw [a2] at this
    exact this

section
variable {rnd : ℝ → ℝ} [GoodRnd rnd]

/-- C84 for the library's oscillators with any good rounding (binary32 with or without subnormals). -/
theorem C84_rounded (E : Env ℝ) (hf : Rounding rnd) (hE : E.fl = rnd)
    (hdb : ∀ x, |E.dbl x - x| ≤ |x| / 2 ^ 53) (hl : Log2Spec E.log2f)
    (ft : FilterType) (ws : List ℝ) (nw L : ℕ) (A Λ : ℝ)
    (hA : TablesWithin E ws nw L A) (hΛ : SlopesWithin E ws nw L Λ)
    (M0 : 1 / 2 ^ 40 ≤ A + Λ) (M1 : A + Λ ≤ 2 ^ 24)
    (sr dur : ℝ) (wt : WavetableData ℝ) (hb : Built E ws nw L sr dur wt)
    (o0 o : Osc ℝ (CFl rnd)) (D : ℝ) (r : ℤ) (x : ℕ → ℝ)
    (hx : ∀ n, PhaseOk rnd (x n)) (hoff : ∀ n, OffDenormal (2 ^ L) (x n)) (hD : D ≠ 0)
    (hi : (sysRnd rnd E ft).init o0 (some wt) (x 0) D = .ok (o, r))
    (w : ℕ → ℤ) (hw : ∀ n, 0 ≤ w n ∧ w n < nw) (dir : ℕ → Sys.Direction)
    (hstep : ∀ n, StepOk (dir n) (x n) (x (n + 1)))
    (hmin : ∀ n, 1 / 2 ^ 100 ≤ |Sys.dirDiff rnd (dir n) (x (n + 1)) (x n)|)
    (hslow : FallsSlowly L ⌊rnd (dur * sr)⌋ (stepsAlong rnd D dir x))
    (hclear : ClearOfChanges rnd L ⌊rnd (dur * sr)⌋ (stepsAlong rnd D dir x) x) :
    ∃ (st sw : ℕ → Osc ℝ (CFl rnd)) (y : ℕ → ℝ) (t : ℕ → MipMapIndices ℝ), st 0 = o ∧
      (∀ n, (sysRnd rnd E ft).setWaveform (st n) (w n) = .ok (sw n)) ∧
      (∀ n, (sysRnd rnd E ft).process (dir n) (sw n) [x (n + 1)] [0] = .ok (st (n + 1), [y n])) ∧
      (∀ n, NextIndices (sysRnd rnd E ft) (sw n) (Sys.dirDiff rnd (dir n) (x (n + 1)) (x n)) (t n)) ∧
      ∀ n, |y n - filtered (valFilter CFloat.val (sysRnd rnd E ft).flt) (playedW E ws L w t
          (unwrapped (x 0) (trueStepOf rnd dir (x 0) fun n => x (n + 1)))) (n + 1)| ≤
        1 / 2 ^ 21 * (A + Λ) * roundoffGain (valFilter CFloat.val (sysRnd rnd E ft).flt) 6.4 := by
  subst hE
  have hS : FloatSys (sysRnd E.fl E ft) CFloat.val (1 / 2 ^ 21) := floatSysRnd (E := E) hf rfl hdb ft
  obtain ⟨st, sw, y, t, a1, a2, a3, a4, a5, a6⟩ := scratch_run (S := sysRnd E.fl E ft) (w := w) (dir := dir)
    (x := x) (d := stepsAlong E.fl D dir x) hS.fl hS.B hl hb hx hD hi hw hstep rfl (fun n => rfl)
    hslow hclear hoff
  have a5' : ∀ n, (st (n + 1)).prevPhaseDiff = Sys.dirDiff E.fl (dir n) (x (n + 1)) (x n) := a5
  refine ⟨st, sw, y, t, a1, a3, a4, fun n => ?_, fun n => ?_⟩
  · have := (a6 (n + 1)).next n (Nat.lt_succ_self n)
    rw [a5'] at this
    exact this
  · have := C72_float _ _ _ hS hl ws nw L A Λ hA hΛ M0 M1 (n + 1) st sw w dir _ y t
      (a6 (n + 1)) (fun i _ => (hx _).2.2)
      (fun i _ => by rw [a5']; exact hmin i) n (Nat.lt_succ_self n)
    rw [a2] at this
    exact this

end

/-- C84 for the library's oscillators on any machine with IEEE binary32 arithmetic, debug or release
build, any resampler, any built-in filter: float phases that are zero or not subnormal, going to and fro,
any waveform chosen before each sample. Every call succeeds and every output, forever, is that of the
filter fed with the waveforms as they are chosen, read at the phase as it goes to and fro, up to the
rounding error. -/
theorem C84_builtin (E : Env ℝ) (hE : IeeeHost E) (ft : FilterType) (ws : List ℝ) (nw L : ℕ) (A Λ : ℝ)
    (hA : TablesWithin E ws nw L A) (hΛ : SlopesWithin E ws nw L Λ)
    (M0 : 1 / 2 ^ 40 ≤ A + Λ) (M1 : A + Λ ≤ 2 ^ 24)
    (sr dur : ℝ) (wt : WavetableData ℝ) (hb : Built E ws nw L sr dur wt)
    (o0 o : Osc ℝ CFloat) (D : ℝ) (r : ℤ) (x : ℕ → ℝ)
    (hx : ∀ n, 0 ≤ x n ∧ x n < 1 ∧ ieee32 (x n) = x n ∧ (x n = 0 ∨ 1 / 2 ^ 126 ≤ x n)) (hD : D ≠ 0)
    (hi : (sysRnd ieee32 E ft).init o0 (some wt) (x 0) D = .ok (o, r))
    (w : ℕ → ℤ) (hw : ∀ n, 0 ≤ w n ∧ w n < nw) (dir : ℕ → Sys.Direction)
    (hstep : ∀ n, StepOk (dir n) (x n) (x (n + 1)))
    (hmin : ∀ n, 1 / 2 ^ 100 ≤ |Sys.dirDiff ieee32 (dir n) (x (n + 1)) (x n)|)
    (hslow : FallsSlowly L ⌊ieee32 (dur * sr)⌋ (stepsAlong ieee32 D dir x))
    (hclear : ClearOfChanges ieee32 L ⌊ieee32 (dur * sr)⌋ (stepsAlong ieee32 D dir x) x) :
    ∃ (st sw : ℕ → Osc ℝ CFloat) (y : ℕ → ℝ) (t : ℕ → MipMapIndices ℝ), st 0 = o ∧
      (∀ n, (sysRnd ieee32 E ft).setWaveform (st n) (w n) = .ok (sw n)) ∧
      (∀ n, (sysRnd ieee32 E ft).process (dir n) (sw n) [x (n + 1)] [0] = .ok (st (n + 1), [y n])) ∧
      (∀ n, NextIndices (sysRnd ieee32 E ft) (sw n) (Sys.dirDiff ieee32 (dir n) (x (n + 1)) (x n)) (t n)) ∧
      ∀ n, |y n - filtered (valFilter CFloat.val (sysRnd ieee32 E ft).flt) (playedW E ws L w t
          (unwrapped (x 0) (trueStepOf ieee32 dir (x 0) fun n => x (n + 1)))) (n + 1)| ≤
        1 / 2 ^ 21 * (A + Λ) * roundoffGain (valFilter CFloat.val (sysRnd ieee32 E ft).flt) 6.4 :=
  C84_rounded E rounding_ieee32 hE.fl hE.dbl hE.log2 ft ws nw L A Λ hA hΛ M0 M1 sr dur wt hb o0 o D r x
    (fun n => ⟨(hx n).1, (hx n).2.1, isPhase_ieee32 (hx n).2.2.1⟩)
    (fun n => normal_offDenormal (hx n).2.2.1 (hx n).1 (hx n).2.2.2 (hE.L100 hb)) hD hi w hw dir hstep
    hmin hslow hclear

/-- C84 within one octave: any to and fro whose steps are all served by one mipmap table, which is not
above the one for a tenth, meets the conditions, whatever the length of the crossfade. -/
theorem C84_octave (E : Env ℝ) (hE : IeeeHost E) (ft : FilterType) (ws : List ℝ) (nw L : ℕ) (A Λ : ℝ)
    (hA : TablesWithin E ws nw L A) (hΛ : SlopesWithin E ws nw L Λ)
    (M0 : 1 / 2 ^ 40 ≤ A + Λ) (M1 : A + Λ ≤ 2 ^ 24)
    (sr dur : ℝ) (wt : WavetableData ℝ) (hb : Built E ws nw L sr dur wt)
    (o0 o : Osc ℝ CFloat) (D : ℝ) (r : ℤ) (x : ℕ → ℝ)
    (hx : ∀ n, 0 ≤ x n ∧ x n < 1 ∧ ieee32 (x n) = x n ∧ (x n = 0 ∨ 1 / 2 ^ 126 ≤ x n)) (hD : D ≠ 0)
    (hi : (sysRnd ieee32 E ft).init o0 (some wt) (x 0) D = .ok (o, r))
    (w : ℕ → ℤ) (hw : ∀ n, 0 ≤ w n ∧ w n < nw) (dir : ℕ → Sys.Direction)
    (hstep : ∀ n, StepOk (dir n) (x n) (x (n + 1)))
    (hmin : ∀ n, 1 / 2 ^ 100 ≤ |Sys.dirDiff ieee32 (dir n) (x (n + 1)) (x n)|)
    (i : ℤ) (h10 : i = 0 ∨ 2 ^ i.toNat / 2 ^ L ≤ (1 / 10 : ℝ)) (hD' : IsOctave L i |D|)
    (hoct : ∀ n, IsOctave L i |Sys.dirDiff ieee32 (dir n) (x (n + 1)) (x n)|) :
    ∃ (st sw : ℕ → Osc ℝ CFloat) (y : ℕ → ℝ) (t : ℕ → MipMapIndices ℝ), st 0 = o ∧
      (∀ n, (sysRnd ieee32 E ft).setWaveform (st n) (w n) = .ok (sw n)) ∧
      (∀ n, (sysRnd ieee32 E ft).process (dir n) (sw n) [x (n + 1)] [0] = .ok (st (n + 1), [y n])) ∧
      (∀ n, NextIndices (sysRnd ieee32 E ft) (sw n) (Sys.dirDiff ieee32 (dir n) (x (n + 1)) (x n)) (t n)) ∧
      ∀ n, |y n - filtered (valFilter CFloat.val (sysRnd ieee32 E ft).flt) (playedW E ws L w t
          (unwrapped (x 0) (trueStepOf ieee32 dir (x 0) fun n => x (n + 1)))) (n + 1)| ≤
        1 / 2 ^ 21 * (A + Λ) * roundoffGain (valFilter CFloat.val (sysRnd ieee32 E ft).flt) 6.4 := by
  have hok := hb.ok (E := E) (by rw [hE.fl]; exact rounding_ieee32) hE.log2
  have h := scratch_octave (x := x) (d := stepsAlong ieee32 D dir x) (num := ⌊ieee32 (dur * sr)⌋)
    rounding_ieee32 hok.L2 (hE.L100 hb) h10 (fun n => by
      cases n with
      | zero => exact hD'
      | succ n => exact hoct n)
  exact C84_builtin E hE ft ws nw L A Λ hA hΛ M0 M1 sr dur wt hb o0 o D r x hx hD hi w hw dir hstep hmin
    h.1 h.2

/-! ### the hypotheses are met -/

/-- to and fro between `8/32` and `9/32` -/
noncomputable def toAndFro (n : ℕ) : ℝ := ((8 + n % 2 : ℕ) : ℝ) / 2 ^ 5

theorem toAndFro_diff {fl : ℝ → ℝ} (hf : Rounding fl) (n : ℕ) :
    Sys.dirDiff fl .kBidirectionnal (toAndFro (n + 1)) (toAndFro n) =
      if n % 2 = 0 then 1 / 32 else -(1 / 32) := by
  have h1 : fl (1 / 32) = 1 / 32 := fl_dyadicG hf (k := 1) 5 (by norm_num) (by norm_num)
  have h2 : fl (-(1 / 32)) = -(1 / 32) := fl_dyadicG hf (k := -1) 5 (by norm_num) (by norm_num)
  unfold Sys.dirDiff Sys.biDiff toAndFro
  dsimp only
  rcases Nat.mod_two_eq_zero_or_one n with h | h
  · have h' : (n + 1) % 2 = 1 := by omega
    rw [h, h', if_pos rfl]
    rw [show (((8 + 1 : ℕ) : ℝ) / 2 ^ 5 - ((8 + 0 : ℕ) : ℝ) / 2 ^ 5) = 1 / 32 by norm_num, h1]
    norm_num
  · have h' : (n + 1) % 2 = 0 := by omega
    rw [h, h', if_neg (show ¬ (1 : ℕ) = 0 by norm_num)]
    rw [show (((8 + 0 : ℕ) : ℝ) / 2 ^ 5 - ((8 + 1 : ℕ) : ℝ) / 2 ^ 5) = -(1 / 32) by norm_num, h2]
    norm_num

/-- C84 applies, for every built-in filter and two waveforms of 32 samples in `[-1, 1]`, in IEEE floats,
to an endless run in which every other step goes backwards, the waveform changes at every sample, and a
fade from table 1 to table 0 is under way at the beginning. -/
theorem scratchExample (ft : FilterType) (ws : List ℝ) (hws : ws.length = 2 * 2 ^ 5) (hv : ∀ x ∈ ws, |x| ≤ 1) :
    ∃ (wt : WavetableData ℝ) (o : Osc ℝ CFloat) (r : ℤ) (st sw : ℕ → Osc ℝ CFloat) (y : ℕ → ℝ)
        (t : ℕ → MipMapIndices ℝ),
      Built envI ws 2 5 44100 (1 / 256) wt ∧
      (sysF ft).init (sysF ft).fresh (some wt) (toAndFro 0) (1 / 32) = .ok (o, r) ∧ st 0 = o ∧
      (∀ n, (sysF ft).setWaveform (st n) (n % 2) = .ok (sw n)) ∧
      (∀ n, (sysF ft).process .kBidirectionnal (sw n) [toAndFro (n + 1)] [0] = .ok (st (n + 1), [y n])) ∧
      ∀ n, |y n - filtered (valFilter CFloat.val (sysF ft).flt) (playedW envI ws 5 (fun n => n % 2) t
        (unwrapped (toAndFro 0) (trueStepOf ieee32 (fun _ => .kBidirectionnal) (toAndFro 0)
          (fun n => toAndFro (n + 1))))) (n + 1)| ≤
        1 / 2 ^ 21 * (1 + 64) * roundoffGain (valFilter CFloat.val (sysF ft).flt) 6.4 := by
  have hph : ∀ n, PhaseOk envI.fl (toAndFro n) := fun n =>
    phaseOk_dyadic envI_ok.1 (n := 5) (by omega) (by norm_num)
  obtain ⟨wt, hb⟩ : ∃ wt, Built envI ws 2 5 44100 (1 / 256) wt := by
    have e : (1 / 256 * 44100 : ℝ) = ((44100 : ℤ) : ℝ) / 2 ^ 8 := by norm_num
    have e2 : envI.fl (1 / 256 * 44100) = 1 / 256 * 44100 := by
      rw [e, envI_ok.1.dyadic 44100 8 (by norm_num)]
    have hr : IsRate envI.fl (44100 : ℝ) := by
      have := envI_ok.1.isRate 44100 (by norm_num); simpa using this
    obtain ⟨wt, h⟩ := C02_succeeds envI envI_ok.1 envI_ok.2.1 envI_ok.2.2 5 (by norm_num) (by norm_num) 2
      (by norm_num) ws hws 44100 (1 / 256) (by norm_num) hr (by rw [e2]; norm_num)
    exact ⟨wt, hr, by rw [e2]; norm_num, by simpa using hws, h⟩
  obtain ⟨o, r, ho⟩ : ∃ o r, (sysF ft).init (sysF ft).fresh (some wt) (toAndFro 0) (1 / 32) = .ok (o, r) := by
    have hw := hb.ok envI_ok.1 envI_ok.2.1
    obtain ⟨t, e, -⟩ := newIndices_eq (E := envI) envI_ok.1 hw.inv (abs_pos.2 (show (1 / 32 : ℝ) ≠ 0 by norm_num))
    have e1 := Sys.reset_ok (S := sysF ft) (o := { (sysF ft).fresh with wt := some wt }) envI_ok.1 rfl hw
      (hph 0) (by norm_num) e
    unfold Sys.init
    dsimp only
    rw [e1, R.ok_bind]
    exact ⟨_, _, rfl⟩
  have habs : ∀ n, |Sys.dirDiff ieee32 .kBidirectionnal (toAndFro (n + 1)) (toAndFro n)| = 1 / 32 := by
    intro n
    rw [toAndFro_diff rounding_ieee32]
    split_ifs <;> norm_num [abs_of_pos, abs_of_neg]
  have hoct : IsOctave 5 0 (1 / 32 : ℝ) := ⟨by norm_num, by norm_num, Or.inl rfl, Or.inr (by norm_num)⟩
  obtain ⟨st, sw, y, t, a1, a2, a3, -, a5⟩ := C84_octave envI ieeeHostI ft ws 2 5 1 64
    (tablesWithinI zero_le_one hv 2 5)
    (by have := slopesWithinI zero_le_one hv 2 5; norm_num at this; exact this)
    (by norm_num) (by norm_num) _ _ _ hb _ o (1 / 32) r toAndFro
    (fun n => ⟨(hph n).1, (hph n).2.1, (hph n).2.2.1, by
      right
      unfold toAndFro
      have : (1 : ℝ) ≤ ((8 + n % 2 : ℕ) : ℝ) := by exact_mod_cast (by omega : 1 ≤ 8 + n % 2)
      have h8 : (1 : ℝ) / 2 ^ 5 ≤ ((8 + n % 2 : ℕ) : ℝ) / 2 ^ 5 := by gcongr
      refine le_trans ?_ h8
      norm_num⟩)
    (by norm_num) ho (fun n => n % 2) (fun n => by omega)
    (fun _ => .kBidirectionnal)
    (fun n => by
      show toAndFro (n + 1) ≠ toAndFro n
      intro h
      have := habs n
      rw [h] at this
      unfold Sys.dirDiff Sys.biDiff at this
      dsimp only at this
      rw [sub_self, rounding_ieee32.zero] at this
      norm_num at this)
    (fun n => by rw [habs]; norm_num) 0 (Or.inl rfl)
    (by rw [abs_of_pos (by norm_num)]; exact hoct) (fun n => by rw [habs]; exact hoct)
  exact ⟨wt, o, r, st, sw, y, t, hb, ho, a1, a2, a3, a5⟩

end Adwt.Props
