import Verif.Spec.Host
import Verif.Props.FloatExamples
import Verif.Props.Slow

/-!
# C71: within the documented limit on pitch changes, in float arithmetic
-/

set_option linter.unusedSectionVars false

namespace Adwt.Props
open CrossFader WavetableData

/-- C71: C56 with every operation rounded, underflow and overflow included. A wavetable is built, an
oscillator initialised with it at the float phase `x0` and the step `D`, and then float phases are
played whose computed steps are positive (at least `2^-100`) and never less than half of one of the
`num + 1` steps before, where `num` is the number of samples of a crossfade. Then every call succeeds
and every output, forever, is the value of the continuous-time filter fed with the waveform read along
the exact unwrapped phase, with the crossfader's mixture of mipmaps, up to `ε` times the size of the
tables times a constant of the filter. -/
theorem C71_pitch_limit {C : Type} [Zero C] [Add C] [Sub C] [Mul C] [Div C]
    (S : Sys ℝ C) (val : C → ℂ) (ε : ℝ) (hS : FloatSys S val ε)
    (hl : Log2Spec S.env.log2f) (ws : List ℝ) (nw L : ℕ) (A Λ : ℝ)
    (hA : TablesWithin S.env ws nw L A) (hΛ : SlopesWithin S.env ws nw L Λ)
    (M0 : 1 / 2 ^ 40 ≤ A + Λ) (M1 : A + Λ ≤ 2 ^ 24)
    (sr dur : ℝ) (wt : WavetableData ℝ) (hb : Built S.env ws nw L sr dur wt)
    (o0 o : Osc ℝ C) (x0 D : ℝ) (r : ℤ) (hx0 : PhaseOk S.env.fl x0) (hD : 0 < D)
    (hi : S.init o0 (some wt) x0 D = .ok (o, r))
    (dir : ℕ → Sys.Direction) (p : ℕ → ℝ) (hp : ∀ n, PhaseOk S.env.fl (p n))
    (hstep : ∀ n, StepOk (dir n) (if n = 0 then x0 else p (n - 1)) (p n))
    (hpos : ∀ n, 1 / 2 ^ 100 ≤ roundedStepOf S.env.fl dir x0 p n)
    (hslow : NoFastFall ⌊S.env.fl (dur * sr)⌋ (roundedStepsFrom S.env.fl D dir x0 p))
    (hoff0 : OffDenormal (2 ^ L) x0) (hoff : ∀ n, OffDenormal (2 ^ L) (p n)) :
    ∃ (st : ℕ → Osc ℝ C) (y : ℕ → ℝ) (t : ℕ → MipMapIndices ℝ), st 0 = o ∧
      (∀ n, S.process (dir n) (st n) [p n] [0] = .ok (st (n + 1), [y n])) ∧
      (∀ n, NextIndices S (st n) (roundedStepOf S.env.fl dir x0 p n) (t n)) ∧
      (∀ m, TrackedRun S ws nw L m st dir p y t) ∧
      ∀ n, |y n - filtered (valFilter val S.flt) (played S.env ws L 0 t
          (unwrapped x0 (trueStepOf S.env.fl dir x0 p))) (n + 1)| ≤
        ε * (A + Λ) * roundoffGain (valFilter val S.flt) 6.4 := by
  classical
  set d := roundedStepsFrom S.env.fl D dir x0 p with hdd
  let x : ℕ → ℝ := fun n => if n = 0 then x0 else p (n - 1)
  have hfl := hS.fl
  have hd0 : ∀ n, 0 < d (n + 1) := fun n =>
    lt_of_lt_of_le (by positivity) (hpos n)
  obtain ⟨h0, hy0⟩ := slow_init hfl hl hb (d := d) hx0 hD hi
  have hcrt : o.crt = 0 := by
    unfold Sys.init at hi
    obtain ⟨o1, -, hi⟩ := bind_ok hi
    cases hi; rfl
  obtain ⟨num, hnum⟩ : ∃ num, num = ⌊S.env.fl (dur * sr)⌋ := ⟨_, rfl⟩
  rw [← hnum] at h0 hslow
  have ex : ∀ (n : ℕ) (o : Osc ℝ C), ∃ (r : Osc ℝ C × ℝ × MipMapIndices ℝ),
      SlowAt S ws nw L num d (x n) n o →
      S.process (dir n) o [p n] [0] = .ok (r.1, [r.2.1]) ∧
      SlowAt S ws nw L num d (x (n + 1)) (n + 1) r.1 ∧
      NextIndices S o r.1.prevPhaseDiff r.2.2 ∧ TableMove o r.2.2.idx ∧ r.2.2.idx.toNat ≤ L := by
    intro n o
    by_cases h : SlowAt S ws nw L num d (x n) n o
    · obtain ⟨o', y, t, a⟩ := slow_step hfl hS.B hl h hslow (dir := dir n) (hp n) (hstep n)
        rfl (hd0 n)
      exact ⟨(o', y, t), fun _ => a⟩
    · exact ⟨(o, 0, ⟨0, 0, 0, 0⟩), fun h' => absurd h' h⟩
  choose f hf using ex
  let st : ℕ → Osc ℝ C := fun k => Nat.rec o (fun k o => (f k o).1) k
  have hst : ∀ n, SlowAt S ws nw L num d (x n) n (st n) := by
    intro n
    induction n with
    | zero => exact h0
    | succ n ih => exact (hf n (st n) ih).2.1
  have hstx : ∀ n, (st n).prevPhase = x n := fun n => (hst n).phase
  have hrun : ∀ m, TrackedRun S ws nw L m st dir p (fun n => (f n (st n)).2.1)
      (fun n => (f n (st n)).2.2) := by
    intro m
    refine ⟨h0.plays, hy0, fun i _ => ⟨(hp i).1, (hp i).2.1⟩, ?_, ?_, ?_, ?_, ?_⟩
    · intro i _; rw [hstx]; exact hstep i
    · intro i _; exact (hf i (st i) (hst i)).1
    · intro i _; exact (hf i (st i) (hst i)).2.2.1
    · intro i _; exact (hf i (st i) (hst i)).2.2.2.1
    · intro i _
      have hx : OffDenormal (2 ^ L) (x i) := by
        cases i with
        | zero => exact hoff0
        | succ i => exact hoff i
      rw [hstx]
      exact hx.coarser (hf i (st i) (hst i)).2.2.2.2
  have hx00 : (st 0).prevPhase = x0 := h0.phase
  have hdiff : ∀ n, (st (n + 1)).prevPhaseDiff = roundedStepOf S.env.fl dir x0 p n := by
    intro n
    obtain ⟨a, -, b, -⟩ := hf n (st n) (hst n)
    obtain ⟨wt, hwt, -⟩ := (hst n).wt
    obtain ⟨v, e, -⟩ := process_one (by rw [hwt]; rfl) a
    show (f n (st n)).1.prevPhaseDiff = _
    rw [(Sys.stepDir_tables e).2.2.1, hstx]; rfl
  refine ⟨st, _, _, rfl, fun n => (hf n (st n) (hst n)).1, ?_, hrun, ?_⟩
  · intro n
    have := (hf n (st n) (hst n)).2.2.1
    rw [show (f n (st n)).1.prevPhaseDiff = _ from hdiff n] at this
    exact this
  · intro n
    have := C60_run S val ε hS hl ws nw L A Λ hA hΛ M0 M1 (n + 1) st dir p _ _ (hrun (n + 1))
      (fun i _ => (hp i).2.2) (fun i _ => by rw [hdiff]; exact (hpos i).trans (le_abs_self _)) n
      (Nat.lt_succ_self n)
    rw [hx00] at this
    rw [← hcrt]
    exact this

/-- A float phase that is zero or not subnormal is never within the smallest normal number of a
point of a mipmap table, unless it is one. -/
theorem normal_offDenormal {x : ℝ} (hx : ieee32 x = x) (h0 : 0 ≤ x) (h : x = 0 ∨ 1 / 2 ^ 126 ≤ x) {L : ℕ}
    (hL : L ≤ 100) : OffDenormal (2 ^ L) x := by
  rcases h with rfl | h
  · have := offDenormal_dyadic 0 L L hL le_rfl
    simpa using this
  have hpos : 0 < x := lt_of_lt_of_le (by positivity) h
  have e := rne24_of_ieee32 hx
  unfold rne24 at e
  obtain ⟨m, hm⟩ : ∃ m, m = roundEven (x / 2 ^ ulpExp x) := ⟨_, rfl⟩
  rw [← hm] at e
  have h2L : (2 : ℝ) ^ L ≤ 2 ^ 100 := pow_le_pow_right₀ (by norm_num) hL
  intro k
  have ez : (2 : ℝ) ^ (-126 : ℤ) = 1 / 2 ^ 126 := by
    rw [zpow_neg, one_div]; norm_cast
  rcases le_or_gt (-126) (ulpExp x) with hu | hu
  · -- both are multiples of `2^-126`
    obtain ⟨c, hc⟩ := Int.eq_ofNat_of_zero_le (show 0 ≤ ulpExp x + 126 by omega)
    obtain ⟨b, hb⟩ := Nat.exists_eq_add_of_le (hL.trans (show 100 ≤ 126 by norm_num))
    have e1 : x = ((m * 2 ^ c : ℤ) : ℝ) / 2 ^ 126 := by
      rw [← e, show ulpExp x = (c : ℤ) + -126 by omega, zpow_add₀ (by norm_num), ez]
      push_cast
      rw [zpow_natCast]; ring
    have e2 : (k : ℝ) / ((2 ^ L : ℕ) : ℝ) = ((k * 2 ^ b : ℤ) : ℝ) / 2 ^ 126 := by
      rw [hb]; push_cast; rw [pow_add]; field_simp
    rw [e2, e1, ← sub_div]
    by_cases hk : m * 2 ^ c = k * 2 ^ b
    · left; rw [hk]
    · right
      rw [abs_div, abs_of_pos (show (0 : ℝ) < 2 ^ 126 by positivity)]
      have h1 : (1 : ℝ) ≤ |((m * 2 ^ c : ℤ) : ℝ) - ((k * 2 ^ b : ℤ) : ℝ)| := by
        rw [← Int.cast_sub, ← Int.cast_abs]
        exact_mod_cast Int.one_le_abs (sub_ne_zero.2 hk)
      gcongr
  · right
    have hlog := (log_bounds hpos).2
    have hs : x < 1 / 2 ^ 102 := by
      have : (2 : ℝ) ^ (Int.log 2 x + 1) ≤ 2 ^ (-102 : ℤ) :=
        zpow_le_zpow_right₀ (by norm_num) (by
          unfold ulpExp at hu; rw [abs_of_pos hpos] at hu; omega)
      have e : (2 : ℝ) ^ (-102 : ℤ) = 1 / 2 ^ 102 := by
        rw [zpow_neg, one_div]; norm_cast
      rw [e] at this; linarith
    have hN : (0 : ℝ) < ((2 ^ L : ℕ) : ℝ) := by positivity
    rcases le_or_gt k 0 with hk | hk
    · have : (k : ℝ) / ((2 ^ L : ℕ) : ℝ) ≤ 0 :=
        div_nonpos_of_nonpos_of_nonneg (by exact_mod_cast hk) hN.le
      rw [abs_of_nonneg (by linarith)]; linarith
    · have h1 : (1 : ℝ) ≤ k := by exact_mod_cast hk
      have h3 : (1 : ℝ) / 2 ^ 100 ≤ (k : ℝ) / ((2 ^ L : ℕ) : ℝ) := by
        push_cast; gcongr
      rw [abs_sub_comm]
      refine le_trans ?_ (le_abs_self _)
      have : (1 : ℝ) / 2 ^ 126 + 1 / 2 ^ 102 ≤ 1 / 2 ^ 100 := by norm_num
      linarith

section
variable {rnd : ℝ → ℝ} [GoodRnd rnd]

/-- C71 for the library's oscillators with any good rounding (binary32 with or without subnormals). -/
theorem C71_rounded (E : Env ℝ) (hf : Rounding rnd) (hE : E.fl = rnd)
    (hdb : ∀ x, |E.dbl x - x| ≤ |x| / 2 ^ 53) (hl : Log2Spec E.log2f)
    (ft : FilterType) (ws : List ℝ) (nw L : ℕ) (A Λ : ℝ)
    (hA : TablesWithin E ws nw L A) (hΛ : SlopesWithin E ws nw L Λ)
    (M0 : 1 / 2 ^ 40 ≤ A + Λ) (M1 : A + Λ ≤ 2 ^ 24)
    (sr dur : ℝ) (wt : WavetableData ℝ) (hb : Built E ws nw L sr dur wt)
    (o0 o : Osc ℝ (CFl rnd)) (D : ℝ) (r : ℤ) (x : ℕ → ℝ)
    (hx : ∀ n, PhaseOk rnd (x n)) (hoff : ∀ n, OffDenormal (2 ^ L) (x n)) (hD : 0 < D)
    (hi : (sysRnd rnd E ft).init o0 (some wt) (x 0) D = .ok (o, r)) (dir : ℕ → Sys.Direction)
    (hstep : ∀ n, StepOk (dir n) (x n) (x (n + 1)))
    (hpos : ∀ n, 1 / 2 ^ 100 ≤ Sys.dirDiff rnd (dir n) (x (n + 1)) (x n))
    (hslow : NoFastFall ⌊rnd (dur * sr)⌋ (roundedStepsFrom rnd D dir (x 0) fun n => x (n + 1))) :
    ∃ (st : ℕ → Osc ℝ (CFl rnd)) (y : ℕ → ℝ) (t : ℕ → MipMapIndices ℝ), st 0 = o ∧
      (∀ n, (sysRnd rnd E ft).process (dir n) (st n) [x (n + 1)] [0] = .ok (st (n + 1), [y n])) ∧
      (∀ n, NextIndices (sysRnd rnd E ft) (st n) (Sys.dirDiff rnd (dir n) (x (n + 1)) (x n)) (t n)) ∧
      ∀ n, |y n - filtered (valFilter CFloat.val (sysRnd rnd E ft).flt) (played E ws L 0 t
          (unwrapped (x 0) (trueStepOf rnd dir (x 0) fun n => x (n + 1)))) (n + 1)| ≤
        1 / 2 ^ 21 * (A + Λ) * roundoffGain (valFilter CFloat.val (sysRnd rnd E ft).flt) 6.4 := by
  subst hE
  have hprev : ∀ n : ℕ, (if n = 0 then x 0 else (fun n => x (n + 1)) (n - 1)) = x n := by
    intro n
    cases n with
    | zero => rfl
    | succ n => rfl
  have hrd : ∀ n, roundedStepOf E.fl dir (x 0) (fun n => x (n + 1)) n =
      Sys.dirDiff E.fl (dir n) (x (n + 1)) (x n) := by
    intro n
    unfold roundedStepOf; rw [hprev]
  obtain ⟨st, y, t, a1, a2, a3, -, a5⟩ := C71_pitch_limit (sysRnd E.fl E ft) _ _
    (floatSysRnd (E := E) hf rfl hdb ft) hl ws nw L A Λ hA hΛ
    M0 M1 sr dur wt hb o0 o (x 0) D r (hx 0) hD hi dir
    (fun n => x (n + 1)) (fun n => hx _)
    (fun n => by rw [hprev]; exact hstep n)
    (fun n => by
      show _ ≤ roundedStepOf E.fl _ _ _ _
      rw [hrd]; exact hpos n) hslow (hoff 0) (fun n => hoff _)
  refine ⟨st, y, t, a1, a2, fun n => ?_, a5⟩
  have := a3 n
  rw [show roundedStepOf (sysRnd E.fl E ft).env.fl dir (x 0) (fun n => x (n + 1)) n = _ from hrd n] at this
  exact this

end

theorem _root_.Adwt.IeeeHost.floatSys {E : Env ℝ} (h : IeeeHost E) (ft : FilterType) :
    FloatSys (sysRnd ieee32 E ft) CFloat.val (1 / 2 ^ 21) :=
  floatSysRnd (E := E) (by rw [h.fl]; exact rounding_ieee32) h.fl h.dbl ft

theorem _root_.Adwt.IeeeHost.L100 {E : Env ℝ} (h : IeeeHost E) {ws : List ℝ} {nw L : ℕ} {sr dur : ℝ}
    {wt : WavetableData ℝ} (hb : Built E ws nw L sr dur wt) : L ≤ 100 := by
  have := (hb.ok (by rw [h.fl]; exact rounding_ieee32) h.log2).L18
  omega

theorem ieeeHostI : IeeeHost envI := ⟨rfl, log2I, rne53_rel⟩

/-- C71 for the library's oscillators on any machine with IEEE binary32 arithmetic, debug or release build,
any resampler: any built-in filter, any float phases that are
zero or not subnormal. -/
theorem C71_builtin (E : Env ℝ) (hE : IeeeHost E) (ft : FilterType) (ws : List ℝ) (nw L : ℕ) (A Λ : ℝ)
    (hA : TablesWithin E ws nw L A) (hΛ : SlopesWithin E ws nw L Λ)
    (M0 : 1 / 2 ^ 40 ≤ A + Λ) (M1 : A + Λ ≤ 2 ^ 24)
    (sr dur : ℝ) (wt : WavetableData ℝ) (hb : Built E ws nw L sr dur wt)
    (o0 o : Osc ℝ CFloat) (D : ℝ) (r : ℤ) (x : ℕ → ℝ)
    (hx : ∀ n, 0 ≤ x n ∧ x n < 1 ∧ ieee32 (x n) = x n ∧ (x n = 0 ∨ 1 / 2 ^ 126 ≤ x n)) (hD : 0 < D)
    (hi : (sysRnd ieee32 E ft).init o0 (some wt) (x 0) D = .ok (o, r)) (dir : ℕ → Sys.Direction)
    (hstep : ∀ n, StepOk (dir n) (x n) (x (n + 1)))
    (hpos : ∀ n, 1 / 2 ^ 100 ≤ Sys.dirDiff ieee32 (dir n) (x (n + 1)) (x n))
    (hslow : NoFastFall ⌊ieee32 (dur * sr)⌋ (roundedStepsFrom ieee32 D dir (x 0) fun n => x (n + 1))) :
    ∃ (st : ℕ → Osc ℝ CFloat) (y : ℕ → ℝ) (t : ℕ → MipMapIndices ℝ), st 0 = o ∧
      (∀ n, (sysRnd ieee32 E ft).process (dir n) (st n) [x (n + 1)] [0] = .ok (st (n + 1), [y n])) ∧
      (∀ n, NextIndices (sysRnd ieee32 E ft) (st n) (Sys.dirDiff ieee32 (dir n) (x (n + 1)) (x n)) (t n)) ∧
      ∀ n, |y n - filtered (valFilter CFloat.val (sysRnd ieee32 E ft).flt) (played E ws L 0 t
          (unwrapped (x 0) (trueStepOf ieee32 dir (x 0) fun n => x (n + 1)))) (n + 1)| ≤
        1 / 2 ^ 21 * (A + Λ) * roundoffGain (valFilter CFloat.val (sysRnd ieee32 E ft).flt) 6.4 :=
  C71_rounded E rounding_ieee32 hE.fl hE.dbl hE.log2 ft ws nw L A Λ hA hΛ M0 M1 sr dur wt hb o0 o D r x
    (fun n => ⟨(hx n).1, (hx n).2.1, isPhase_ieee32 (hx n).2.2.1⟩)
    (fun n => normal_offDenormal (hx n).2.2.1 (hx n).1 (hx n).2.2.2 (hE.L100 hb)) hD hi dir hstep hpos hslow

/-! ### the hypotheses are met -/

theorem zigzag_float (n : ℕ) :
    Sys.dirDiff envI.fl .kForward ((zigzag (n + 1) : ℝ) / 8) ((zigzag n : ℝ) / 8) =
      (if n % 2 = 0 then 1 / 8 else 1 / 4) := by
  rw [← (zigzag_step n).2]
  have hz : ∀ n, zigzag n < 8 := fun n => by unfold zigzag; omega
  have h1 : envI.fl ((zigzag (n + 1) : ℝ) / 8 - (zigzag n : ℝ) / 8) =
      (zigzag (n + 1) : ℝ) / 8 - (zigzag n : ℝ) / 8 := by
    refine fl_dyadic (k := (zigzag (n + 1) : ℤ) - zigzag n) 3 ?_ (by push_cast; ring)
    have := hz n; have := hz (n + 1)
    rw [abs_le]; constructor <;> push_cast <;> omega
  have h2 : envI.fl ((zigzag (n + 1) : ℝ) / 8 - (zigzag n : ℝ) / 8 + 1) =
      (zigzag (n + 1) : ℝ) / 8 - (zigzag n : ℝ) / 8 + 1 := by
    refine fl_dyadic (k := (zigzag (n + 1) : ℤ) - zigzag n + 8) 3 ?_ (by push_cast; ring)
    have := hz n; have := hz (n + 1)
    rw [abs_le]; constructor <;> push_cast <;> omega
  unfold Sys.dirDiff Sys.fwdDiff
  simp only [id, h1, h2]

/-- C71 applies, for every built-in filter and any eight samples in `[-1, 1]`, in IEEE floats, to an
endless run in which every other sample asks for another mipmap table. -/
example (ft : FilterType) (ws : List ℝ) (hws : ws.length = 2 ^ 3) (hv : ∀ x ∈ ws, |x| ≤ 1) :
    ∃ (wt : WavetableData ℝ) (o : Osc ℝ CFloat) (r : ℤ) (st : ℕ → Osc ℝ CFloat) (y : ℕ → ℝ)
        (t : ℕ → MipMapIndices ℝ),
      Built envI ws 1 3 44100 (1 / 256) wt ∧
      (sysF ft).init (sysF ft).fresh (some wt) 0 (1 / 8) = .ok (o, r) ∧ st 0 = o ∧
      (∀ n, (sysF ft).process .kForward (st n) [(zigzag (n + 1) : ℝ) / 8] [0] =
        .ok (st (n + 1), [y n])) ∧
      (∀ n, IsOctave 3 (if n % 2 = 0 then 0 else 1)
        (roundedStepOf envI.fl (fun _ => .kForward) 0 (fun n => (zigzag (n + 1) : ℝ) / 8) n)) ∧
      ∀ n, |y n - filtered (valFilter CFloat.val (sysF ft).flt) (played envI ws 3 0 t
        (unwrapped 0 (trueStepOf envI.fl (fun _ => .kForward) 0
          (fun n => (zigzag (n + 1) : ℝ) / 8)))) (n + 1)| ≤
        1 / 2 ^ 21 * (1 + 16) * roundoffGain (valFilter CFloat.val (sysF ft).flt) 6.4 := by
  obtain ⟨wt, xf, hb, hcf⟩ := builtI ws hws
  have hf : Rounding (sysF ft).env.fl := envI_ok.1
  have hl : Log2Spec (sysF ft).env.log2f := log2I
  have hz : ∀ n, zigzag n < 8 := fun n => by unfold zigzag; omega
  have hph : ∀ n, PhaseOk envI.fl ((zigzag n : ℝ) / 8) := by
    intro n
    have := phaseOk_dyadic envI_ok.1 (k := zigzag n) (n := 3) (hz n) (by norm_num)
    norm_num at this ⊢
    exact this
  have hph0 : PhaseOk envI.fl 0 := by simpa [zigzag] using hph 0
  obtain ⟨o, ho, -⟩ := at_initG (S := sysF ft) hf hl hb (p := 0) (d := 1 / 8)
    hph0 (by norm_num) (c := ⟨xf, octaveScale ℝ 3, 0, 0, 0⟩)
    (t := ⟨0, 1, 0 + 1, 0⟩) (by
      rw [hcf]; exact cf_idle (by norm_num) (by norm_num) (oct0 (by norm_num [abs_of_pos])))
  have hd : ∀ n, roundedStepOf envI.fl (fun _ => .kForward) 0 (fun n => (zigzag (n + 1) : ℝ) / 8) n =
      (if n % 2 = 0 then 1 / 8 else 1 / 4) := by
    intro n
    rw [← zigzag_float n]
    unfold roundedStepOf
    cases n with
    | zero => simp [zigzag]
    | succ n => simp
  have hoff : ∀ n, OffDenormal (2 ^ 3) ((zigzag n : ℝ) / 8) := by
    intro n
    have := offDenormal_dyadic (zigzag n) 3 3 (by norm_num) le_rfl
    norm_num at this ⊢
    exact this
  obtain ⟨st, y, t, a1, a2, -, -, a5⟩ := C71_pitch_limit _ _ _ (floatSys ft) hl ws 1 3 1 16
    (tablesWithinI zero_le_one hv 1 3)
    (by have := slopesWithinI zero_le_one hv 1 3; norm_num at this; exact this)
    (by norm_num) (by norm_num) _ _ _ hb _ o 0 (1 / 8) 0 hph0
    (by norm_num) ho (fun _ => .kForward) (fun n => (zigzag (n + 1) : ℝ) / 8)
    (fun n => hph _)
    (fun n => by
      have := (zigzag_step n).1
      cases n with
      | zero => simpa [zigzag] using this
      | succ n => simpa using this)
    (fun n => by
      show _ ≤ roundedStepOf envI.fl _ _ _ n
      rw [hd]; split_ifs <;> norm_num)
    (fun k n _ _ => by
      have hb : ∀ n, 1 / 8 ≤ roundedStepsFrom envI.fl (1 / 8) (fun _ => .kForward) 0
            (fun n => (zigzag (n + 1) : ℝ) / 8) n ∧
          roundedStepsFrom envI.fl (1 / 8) (fun _ => .kForward) 0
            (fun n => (zigzag (n + 1) : ℝ) / 8) n ≤ 1 / 4 := by
        intro n
        cases n with
        | zero => unfold roundedStepsFrom; norm_num
        | succ n => unfold roundedStepsFrom; dsimp only; rw [hd]; split_ifs <;> norm_num
      have := (hb k).2; have := (hb n).1
      show roundedStepsFrom envI.fl _ _ _ _ k / 2 ≤ roundedStepsFrom envI.fl _ _ _ _ n
      linarith)
    (by simpa [zigzag] using hoff 0) (fun n => hoff _)
  refine ⟨wt, o, 0, st, y, t, hb, ho, a1, a2, ?_, a5⟩
  intro n
  rw [hd]
  split_ifs
  · exact oct0 (by norm_num)
  · exact oct1 (by norm_num)

end Adwt.Props
