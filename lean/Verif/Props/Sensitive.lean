import Verif.Props.Scratch
import Verif.Props.Linear
import Verif.Proofs.Sensitive

/-!
# C83: small causes, small effects
-/

set_option linter.unusedSectionVars false

namespace Adwt.Props
open CrossFader WavetableData

/-- C83, exact arithmetic: two runs of any length with the same waveforms chosen and the same mipmap
tables selected, from tables whose samples differ by at most `δ`, along phases which (unwrapped, up to a
whole number of periods) differ by at most `θ`: all outputs differ by at most the filter's gain times
`δ + Λ θ`, however long the runs are. -/
theorem C83_exact (S : Sys ℝ ℂ) (hS : ExactSys S) (hl : Log2Spec S.env.log2f)
    (hz : ∀ k < S.flt.r.length, (S.flt.z.getD k 0).re < 0) (ws ws' : List ℝ) (nw L : ℕ) (δ Λ θ : ℝ)
    (hδ : TablesClose S.env ws ws' nw L δ) (hΛ : SlopesWithin S.env ws nw L Λ)
    (m : ℕ) (w : ℕ → ℤ) (t : ℕ → MipMapIndices ℝ)
    (st sw : ℕ → Osc ℝ ℂ) (dir : ℕ → Sys.Direction) (p y : ℕ → ℝ)
    (st' sw' : ℕ → Osc ℝ ℂ) (dir' : ℕ → Sys.Direction) (p' y' : ℕ → ℝ)
    (h : SwitchedRun S ws nw L m st sw w dir p y t)
    (h' : SwitchedRun S ws' nw L m st' sw' w dir' p' y' t) (c : ℤ)
    (hθ : ∀ n ≤ m, |unwrapped (st 0).prevPhase (stepOf dir (st 0).prevPhase p) n -
      (unwrapped (st' 0).prevPhase (stepOf dir' (st' 0).prevPhase p') n + c)| ≤ θ)
    (n : ℕ) (hn : n < m) :
    |y n - y' n| ≤ filterGain S.flt * (δ + Λ * θ) := by
  have hf := Sys.exact_rounding hS
  have hid : ∀ (p : ℕ → ℝ) i, i < m → IsPhase S.env.fl (p i) := fun p i _ => by
    rw [hS.fl]; exact isPhase_id _
  have := signals_near (m := n + 1) hz (κ := 1) zero_le_one (plays_length h.plays)
    (plays_length h'.plays) hδ hΛ (w := w) (fun i hi => h.wave i (by omega)) (t := t)
    (fun i hi => run_sel hf hl hS.B h (hid p)
      (fun hc _ hd _ e => (Sys.weight_one hS.fl hc hd e).1.le) (by omega))
    (fun i hi => hθ i (by omega)) (Nat.succ_pos n)
  rw [C72_switch S hS hl ws nw L m st sw w dir p y t h n hn,
    C72_switch S hS hl ws' nw L m st' sw' w dir' p' y' t h' n hn]
  push_cast at this
  rw [one_mul] at this
  exact this

/-- C83, float arithmetic: the same with every operation rounded, plus the rounding errors of the two
runs. -/
theorem C83_float {C : Type} [Zero C] [Add C] [Sub C] [Mul C] [Div C]
    (S : Sys ℝ C) (val : C → ℂ) (ε : ℝ) (hS : FloatSys S val ε) (hl : Log2Spec S.env.log2f)
    (ws ws' : List ℝ) (nw L : ℕ) (δ A Λ A' Λ' θ : ℝ)
    (hδ : TablesClose S.env ws ws' nw L δ)
    (hA : TablesWithin S.env ws nw L A) (hΛ : SlopesWithin S.env ws nw L Λ)
    (M0 : 1 / 2 ^ 40 ≤ A + Λ) (M1 : A + Λ ≤ 2 ^ 24)
    (hA' : TablesWithin S.env ws' nw L A') (hΛ' : SlopesWithin S.env ws' nw L Λ')
    (M0' : 1 / 2 ^ 40 ≤ A' + Λ') (M1' : A' + Λ' ≤ 2 ^ 24)
    (m : ℕ) (w : ℕ → ℤ) (t : ℕ → MipMapIndices ℝ)
    (st sw : ℕ → Osc ℝ C) (dir : ℕ → Sys.Direction) (p y : ℕ → ℝ)
    (st' sw' : ℕ → Osc ℝ C) (dir' : ℕ → Sys.Direction) (p' y' : ℕ → ℝ)
    (h : SwitchedRun S ws nw L m st sw w dir p y t)
    (h' : SwitchedRun S ws' nw L m st' sw' w dir' p' y' t)
    (hp : ∀ i < m, IsPhase S.env.fl (p i)) (hp' : ∀ i < m, IsPhase S.env.fl (p' i))
    (hd : ∀ i < m, 1 / 2 ^ 100 ≤ |(st (i + 1)).prevPhaseDiff|)
    (hd' : ∀ i < m, 1 / 2 ^ 100 ≤ |(st' (i + 1)).prevPhaseDiff|) (c : ℤ)
    (hθ : ∀ n ≤ m, |unwrapped (st 0).prevPhase (trueStepOf S.env.fl dir (st 0).prevPhase p) n -
      (unwrapped (st' 0).prevPhase (trueStepOf S.env.fl dir' (st' 0).prevPhase p') n + c)| ≤ θ)
    (n : ℕ) (hn : n < m) :
    |y n - y' n| ≤ filterGain (valFilter val S.flt) * (1.001 * (δ + Λ * θ)) +
      ε * ((A + Λ) + (A' + Λ')) * roundoffGain (valFilter val S.flt) 6.4 := by
  have hz : ∀ k < (valFilter val S.flt).r.length, ((valFilter val S.flt).z.getD k 0).re < 0 := by
    intro k hk
    unfold valFilter at hk ⊢
    rw [List.length_map, hS.len] at hk
    dsimp only
    rw [List.getD_eq_getElem?_getD, List.getElem?_map, List.getElem?_eq_getElem hk]
    have := (hS.poles _ (List.getElem_mem hk)).1
    show (val _).re < 0
    have h4 : (0 : ℝ) < 1 / 2 ^ 4 := by positivity
    linarith
  have := signals_near (m := n + 1) hz (κ := 1.001) (by norm_num) (plays_length h.plays)
    (plays_length h'.plays) hδ hΛ (w := w) (fun i hi => h.wave i (by omega)) (t := t)
    (fun i hi => run_sel hS.fl hl hS.B h hp
      (fun hc _ hd _ e => (Sys.weight_facts hS hc hd e).2.2.1) (by omega))
    (fun i hi => hθ i (by omega)) (Nat.succ_pos n)
  push_cast at this
  have a := C72_float S val ε hS hl ws nw L A Λ hA hΛ M0 M1 m st sw w dir p y t h hp hd n hn
  have b := C72_float S val ε hS hl ws' nw L A' Λ' hA' hΛ' M0' M1' m st' sw' w dir' p' y' t h' hp' hd' n hn
  rw [abs_sub_comm] at b
  have t1 := abs_sub_le (y n) (filtered (valFilter val S.flt) (playedW S.env ws L w t
        (unwrapped (st 0).prevPhase (trueStepOf S.env.fl dir (st 0).prevPhase p))) (n + 1)) (y' n)
  have t2 := abs_sub_le (filtered (valFilter val S.flt) (playedW S.env ws L w t
        (unwrapped (st 0).prevPhase (trueStepOf S.env.fl dir (st 0).prevPhase p))) (n + 1))
    (filtered (valFilter val S.flt) (playedW S.env ws' L w t
        (unwrapped (st' 0).prevPhase (trueStepOf S.env.fl dir' (st' 0).prevPhase p'))) (n + 1)) (y' n)
  have e : ε * ((A + Λ) + (A' + Λ')) * roundoffGain (valFilter val S.flt) 6.4 =
      ε * (A + Λ) * roundoffGain (valFilter val S.flt) 6.4 +
      ε * (A' + Λ') * roundoffGain (valFilter val S.flt) 6.4 := by ring
  rw [e]
  linarith

/-- after `init` with equally built wavetables the control states agree -/
theorem init_ctl {C : Type} [Zero C] [Add C] [Sub C] [Mul C] [Div C] {S : Sys ℝ C}
    (hf : Rounding S.env.fl) (hl : Log2Spec S.env.log2f) {ws ws' : List ℝ} {nw L : ℕ} {sr dur : ℝ}
    {wt wt' : WavetableData ℝ} (hb : Built S.env ws nw L sr dur wt)
    (hb' : Built S.env ws' nw L sr dur wt') {o0 o0' o o' : Osc ℝ C} {x D : ℝ} {r r' : ℤ}
    (hx : PhaseOk S.env.fl x) (hD : D ≠ 0) (hi : S.init o0 (some wt) x D = .ok (o, r))
    (hi' : S.init o0' (some wt') x D = .ok (o', r')) :
    Sys.Ctl o o' ∧ Plays S ws' nw L o' ∧ ∀ y ∈ o'.prevY, y = 0 := by
  have hw := hb.ok hf hl
  have hw' := hb'.ok hf hl
  obtain ⟨c, t, hn, -⟩ := Sys.find_spec (S := S) hf hw (abs_pos.2 hD)
  have hn' := hn
  rw [built_cf hf hl hb hb'] at hn'
  have e := Sys.reset_ok (S := S) (o := { o0 with wt := some wt }) hf rfl hw hx hD hn
  have e' := Sys.reset_ok (S := S) (o := { o0' with wt := some wt' }) hf rfl hw' hx hD hn'
  have hi0 := hi'
  unfold Sys.init at hi hi'
  dsimp only at hi hi'
  rw [e, R.ok_bind] at hi
  rw [e', R.ok_bind] at hi'
  cases hi
  cases hi'
  refine ⟨⟨⟨_, _, rfl, rfl, rfl⟩, rfl, rfl, rfl, rfl, rfl, rfl⟩,
    ⟨Reached.init hb' ⟨hx, hD⟩ hi0, _, _, _, _, hb', rfl, rfl⟩, ?_⟩
  intro y hy
  exact (List.mem_replicate.1 hy).2

/-- the calls determine the states and the outputs -/
theorem calls_unique {C : Type} [Zero C] [Add C] [Sub C] [Mul C] [Div C] {S : Sys ℝ C} {m : ℕ}
    {w : ℕ → ℤ} {dir : ℕ → Sys.Direction} {p : ℕ → ℝ} {st sw st' sw' : ℕ → Osc ℝ C} {y y' : ℕ → ℝ}
    (h0 : st 0 = st' 0) (hs : ∀ n < m, S.setWaveform (st n) (w n) = .ok (sw n))
    (hc : ∀ n < m, S.process (dir n) (sw n) [p n] [0] = .ok (st (n + 1), [y n]))
    (hs' : ∀ n < m, S.setWaveform (st' n) (w n) = .ok (sw' n))
    (hc' : ∀ n < m, S.process (dir n) (sw' n) [p n] [0] = .ok (st' (n + 1), [y' n])) {n : ℕ}
    (hn : n ≤ m) : st n = st' n ∧ ∀ _ : n < m, sw n = sw' n ∧ y n = y' n := by
  have one : ∀ n, n < m → st n = st' n → sw n = sw' n ∧ y n = y' n ∧ st (n + 1) = st' (n + 1) := by
    intro n hn e
    have b := hc n hn
    have b' := hc' n hn
    have hsw : sw n = sw' n := by
      have a := hs n hn
      rw [e, hs' n hn] at a
      exact (Except.ok.inj a).symm
    rw [hsw, b'] at b
    have b2 := Except.ok.inj b
    simp only [Prod.mk.injEq, List.cons.injEq, and_true] at b2
    exact ⟨hsw, b2.2.symm, b2.1.symm⟩
  induction n with
  | zero => exact ⟨h0, fun hm => ⟨(one 0 hm h0).1, (one 0 hm h0).2.1⟩⟩
  | succ n ih =>
    obtain ⟨i1, -⟩ := ih (by omega)
    have e := (one n hn i1).2.2
    exact ⟨e, fun hm => ⟨(one _ hm e).1, (one _ hm e).2.1⟩⟩

section
variable {rnd : ℝ → ℝ} [GoodRnd rnd]

/-- C83 for the library's oscillators with any good rounding (binary32 with or without subnormals). -/
theorem C83_rounded (E : Env ℝ) (hf : Rounding rnd) (hE : E.fl = rnd)
    (hdb : ∀ x, |E.dbl x - x| ≤ |x| / 2 ^ 53) (hl : Log2Spec E.log2f)
    (ft : FilterType) (ws ws' : List ℝ) (nw L : ℕ) (δ A Λ A' Λ' : ℝ)
    (hδ : TablesClose E ws ws' nw L δ)
    (hA : TablesWithin E ws nw L A) (hΛ : SlopesWithin E ws nw L Λ)
    (M0 : 1 / 2 ^ 40 ≤ A + Λ) (M1 : A + Λ ≤ 2 ^ 24)
    (hA' : TablesWithin E ws' nw L A') (hΛ' : SlopesWithin E ws' nw L Λ')
    (M0' : 1 / 2 ^ 40 ≤ A' + Λ') (M1' : A' + Λ' ≤ 2 ^ 24)
    (sr dur : ℝ) (wt wt' : WavetableData ℝ) (hb : Built E ws nw L sr dur wt)
    (hb' : Built E ws' nw L sr dur wt')
    (o0 o0' : Osc ℝ (CFl rnd)) (D : ℝ) (r r' : ℤ) (x : ℕ → ℝ)
    (hx : ∀ n, PhaseOk rnd (x n)) (hoff : ∀ n, OffDenormal (2 ^ L) (x n)) (hD : D ≠ 0)
    (w : ℕ → ℤ) (hw : ∀ n, 0 ≤ w n ∧ w n < nw) (dir : ℕ → Sys.Direction)
    (hstep : ∀ n, StepOk (dir n) (x n) (x (n + 1)))
    (hmin : ∀ n, 1 / 2 ^ 100 ≤ |Sys.dirDiff rnd (dir n) (x (n + 1)) (x n)|)
    (hslow : FallsSlowly L ⌊rnd (dur * sr)⌋ (stepsAlong rnd D dir x))
    (hclear : ClearOfChanges rnd L ⌊rnd (dur * sr)⌋ (stepsAlong rnd D dir x) x)
    (st sw st' sw' : ℕ → Osc ℝ (CFl rnd)) (y y' : ℕ → ℝ)
    (hi : (sysRnd rnd E ft).init o0 (some wt) (x 0) D = .ok (st 0, r))
    (hset : ∀ n, (sysRnd rnd E ft).setWaveform (st n) (w n) = .ok (sw n))
    (hcall : ∀ n, (sysRnd rnd E ft).process (dir n) (sw n) [x (n + 1)] [0] = .ok (st (n + 1), [y n]))
    (hi' : (sysRnd rnd E ft).init o0' (some wt') (x 0) D = .ok (st' 0, r'))
    (hset' : ∀ n, (sysRnd rnd E ft).setWaveform (st' n) (w n) = .ok (sw' n))
    (hcall' : ∀ n, (sysRnd rnd E ft).process (dir n) (sw' n) [x (n + 1)] [0] = .ok (st' (n + 1), [y' n]))
    (n : ℕ) :
    |y n - y' n| ≤ 1.001 * filterGain (valFilter CFloat.val (sysRnd rnd E ft).flt) * δ +
      1 / 2 ^ 21 * ((A + Λ) + (A' + Λ')) * roundoffGain (valFilter CFloat.val (sysRnd rnd E ft).flt) 6.4 := by
  subst hE
  have hS : FloatSys (sysRnd E.fl E ft) CFloat.val (1 / 2 ^ 21) := floatSysRnd (E := E) hf rfl hdb ft
  have hf := hS.fl
  have hB := hS.B
  have hx0 : PhaseOk (sysRnd E.fl E ft).env.fl (x 0) := hx 0
  obtain ⟨s1, w1, y1, t, a1, a2, a3, a4, a5, a6⟩ := scratch_run (S := sysRnd E.fl E ft) (w := w) (dir := dir)
    (x := x) (d := stepsAlong E.fl D dir x) hf hB hl hb hx hD hi hw hstep rfl (fun n => rfl) hslow hclear hoff
  have hph : ∀ i < n + 1, IsPhase (sysRnd E.fl E ft).env.fl ((fun n => x (n + 1)) i) :=
    fun i _ => (hx _).2.2
  obtain ⟨hc, hpl, hz⟩ := init_ctl (S := sysRnd E.fl E ft) hf hl hb hb' hx0 hD hi hi'
  rw [← a1] at hc
  obtain ⟨s2, w2, y2, b1, hr2⟩ := run_follows hf hl hB (a6 (n + 1)) hph hc hpl hz
  have u1 := (calls_unique (m := n + 1) a1.symm (fun i _ => hset i) (fun i _ => hcall i)
    (fun i _ => a3 i) (fun i _ => a4 i) (Nat.le_succ n)).2 (Nat.lt_succ_self n)
  have u2 := (calls_unique (m := n + 1) b1.symm (fun i _ => hset' i) (fun i _ => hcall' i)
    hr2.set hr2.call (Nat.le_succ n)).2 (Nat.lt_succ_self n)
  have hph0 : (s2 0).prevPhase = (s1 0).prevPhase := by rw [b1, ← hc.phase]
  have hd2 : ∀ i < n + 1, (s2 (i + 1)).prevPhaseDiff = (s1 (i + 1)).prevPhaseDiff := by
    intro i hi
    have k1 : ∀ {ws : List ℝ} {s w' : ℕ → Osc ℝ (CFl E.fl)} {y : ℕ → ℝ},
        SwitchedRun (sysRnd E.fl E ft) ws nw L (n + 1) s w' w dir (fun n => x (n + 1)) y t →
        (s (i + 1)).prevPhaseDiff = Sys.dirDiff (sysRnd E.fl E ft).env.fl (dir i) (x (i + 1)) (w' i).prevPhase := by
      intro ws s w' y h
      obtain ⟨p1, -⟩ := (run_stages hf hl hB h hph hi.le).2 hi
      obtain ⟨wt, hwt, -⟩ := (Sys.reached_play hf hl hB p1.1).wt
      obtain ⟨v, e, -⟩ := process_one (by rw [hwt]; rfl) (h.call i hi)
      exact (Sys.stepDir_tables e).2.2.1
    have k2 : ∀ {ws : List ℝ} {s w' : ℕ → Osc ℝ (CFl E.fl)} {y : ℕ → ℝ},
        SwitchedRun (sysRnd E.fl E ft) ws nw L (n + 1) s w' w dir (fun n => x (n + 1)) y t →
        (s 0).prevPhase = x 0 → ∀ j ≤ i, (w' j).prevPhase = x j := by
      intro ws s w' y h h0 j
      induction j with
      | zero =>
        intro hj
        obtain ⟨_, e⟩ := setWaveform_plays h.plays (h.wave 0 (by omega)).1 (h.wave 0 (by omega)).2 (h.set 0 (by omega))
        rw [e]; exact h0
      | succ j ih =>
        intro hj
        have hj' : j < n + 1 := by omega
        obtain ⟨p1, -⟩ := (run_stages hf hl hB h hph hj'.le).2 hj'
        obtain ⟨wt, hwt, -⟩ := (Sys.reached_play hf hl hB p1.1).wt
        obtain ⟨v, e, -⟩ := process_one (by rw [hwt]; rfl) (h.call j hj')
        have hp2 := (run_stages hf hl hB h hph (show j + 1 ≤ n + 1 by omega)).1
        obtain ⟨_, e2⟩ := setWaveform_plays hp2 (h.wave (j + 1) (by omega)).1 (h.wave (j + 1) (by omega)).2
          (h.set (j + 1) (by omega))
        rw [e2]
        exact (Sys.stepDir_tables e).2.1
    rw [k1 hr2, k1 (a6 (n + 1)), k2 hr2 (hph0.trans a2) i le_rfl, k2 (a6 (n + 1)) a2 i le_rfl]
  have hd1 : ∀ i < n + 1, 1 / 2 ^ 100 ≤ |(s1 (i + 1)).prevPhaseDiff| := by
    intro i _
    rw [a5]
    exact hmin i
  have := C83_float _ _ _ hS hl ws ws' nw L δ A Λ A' Λ' 0 hδ hA hΛ M0 M1 hA' hΛ' M0' M1'
    (n + 1) w t s1 w1 dir _ y1 s2 w2 dir _ y2 (a6 (n + 1)) hr2 hph hph hd1
    (fun i hi => by rw [hd2 i hi]; exact hd1 i hi) 0
    (fun k _ => by rw [hph0]; simp) n (Nat.lt_succ_self n)
  rw [← u1.2, ← u2.2] at this
  rw [mul_zero, add_zero] at this
  refine this.trans (le_of_eq ?_)
  ring

end

/-- C83 for the library's oscillators on any machine with IEEE binary32 arithmetic, debug or release
build, any resampler, to and fro within the limits of C84:
two wavetables built alike from samples whose tables differ by at most `δ`, two oscillators set up and
called alike. As long as anyone likes, the outputs differ by at most 1.001 times the filter's gain times
`δ`, plus the rounding errors. -/
theorem C83_builtin (E : Env ℝ) (hE : IeeeHost E) (ft : FilterType) (ws ws' : List ℝ) (nw L : ℕ) (δ A Λ A' Λ' : ℝ)
    (hδ : TablesClose E ws ws' nw L δ)
    (hA : TablesWithin E ws nw L A) (hΛ : SlopesWithin E ws nw L Λ)
    (M0 : 1 / 2 ^ 40 ≤ A + Λ) (M1 : A + Λ ≤ 2 ^ 24)
    (hA' : TablesWithin E ws' nw L A') (hΛ' : SlopesWithin E ws' nw L Λ')
    (M0' : 1 / 2 ^ 40 ≤ A' + Λ') (M1' : A' + Λ' ≤ 2 ^ 24)
    (sr dur : ℝ) (wt wt' : WavetableData ℝ) (hb : Built E ws nw L sr dur wt)
    (hb' : Built E ws' nw L sr dur wt')
    (o0 o0' : Osc ℝ CFloat) (D : ℝ) (r r' : ℤ) (x : ℕ → ℝ)
    (hx : ∀ n, 0 ≤ x n ∧ x n < 1 ∧ ieee32 (x n) = x n ∧ (x n = 0 ∨ 1 / 2 ^ 126 ≤ x n)) (hD : D ≠ 0)
    (w : ℕ → ℤ) (hw : ∀ n, 0 ≤ w n ∧ w n < nw) (dir : ℕ → Sys.Direction)
    (hstep : ∀ n, StepOk (dir n) (x n) (x (n + 1)))
    (hmin : ∀ n, 1 / 2 ^ 100 ≤ |Sys.dirDiff ieee32 (dir n) (x (n + 1)) (x n)|)
    (hslow : FallsSlowly L ⌊ieee32 (dur * sr)⌋ (stepsAlong ieee32 D dir x))
    (hclear : ClearOfChanges ieee32 L ⌊ieee32 (dur * sr)⌋ (stepsAlong ieee32 D dir x) x)
    (st sw st' sw' : ℕ → Osc ℝ CFloat) (y y' : ℕ → ℝ)
    (hi : (sysRnd ieee32 E ft).init o0 (some wt) (x 0) D = .ok (st 0, r))
    (hset : ∀ n, (sysRnd ieee32 E ft).setWaveform (st n) (w n) = .ok (sw n))
    (hcall : ∀ n, (sysRnd ieee32 E ft).process (dir n) (sw n) [x (n + 1)] [0] = .ok (st (n + 1), [y n]))
    (hi' : (sysRnd ieee32 E ft).init o0' (some wt') (x 0) D = .ok (st' 0, r'))
    (hset' : ∀ n, (sysRnd ieee32 E ft).setWaveform (st' n) (w n) = .ok (sw' n))
    (hcall' : ∀ n, (sysRnd ieee32 E ft).process (dir n) (sw' n) [x (n + 1)] [0] = .ok (st' (n + 1), [y' n]))
    (n : ℕ) :
    |y n - y' n| ≤ 1.001 * filterGain (valFilter CFloat.val (sysRnd ieee32 E ft).flt) * δ +
      1 / 2 ^ 21 * ((A + Λ) + (A' + Λ')) * roundoffGain (valFilter CFloat.val (sysRnd ieee32 E ft).flt) 6.4 :=
  C83_rounded E rounding_ieee32 hE.fl hE.dbl hE.log2 ft ws ws' nw L δ A Λ A' Λ' hδ hA hΛ M0 M1 hA' hΛ' M0' M1'
    sr dur wt wt' hb hb' o0 o0' D r r' x
    (fun n => ⟨(hx n).1, (hx n).2.1, isPhase_ieee32 (hx n).2.2.1⟩)
    (fun n => normal_offDenormal (hx n).2.2.1 (hx n).1 (hx n).2.2.2 (hE.L100 hb)) hD w hw dir hstep
    hmin hslow hclear st sw st' sw' y y' hi hset hcall hi' hset' hcall' n

/-- C83: tables of samples that differ by at most `δ` differ by at most `G² δ`, if the resampler enlarges
differences at most `G` times. -/
theorem C83_tables (E : Env ℝ) (hf : Rounding E.fl) (hl : Log2Spec E.log2f) (G δ : ℝ)
    (hE : StableSrc E G) (hG : 1 ≤ G) (hδ : 0 ≤ δ) (ws ws' : List ℝ) (h : Close δ ws ws') (nw L : ℕ)
    (sr dur : ℝ) (wt : WavetableData ℝ) (hb : Built E ws nw L sr dur wt) :
    TablesClose E ws ws' nw L (G ^ 2 * δ) :=
  tables_close hE hG hδ h nw (hb.ok hf hl).L18

/-! ### the hypotheses are met -/

/-- Taking every n-th sample is stable. -/
theorem stableSrcI : StableSrc envI 1 := by
  intro v v' δ hδ h out ratio i
  rw [one_mul]
  exact h.getD hδ (i * ratio)

/-- C83 applies, for every built-in filter and any two pairs of waveforms of eight samples in `[-1, 1]`
that differ by at most `δ`, in IEEE floats, to endless runs in which the waveform changes at every
sample, and the mipmap table asked for too. -/
example (ft : FilterType) (ws ws' : List ℝ) (hws : ws.length = 2 * 2 ^ 3) (hws' : ws'.length = 2 * 2 ^ 3)
    (hv : ∀ x ∈ ws, |x| ≤ 1) (hv' : ∀ x ∈ ws', |x| ≤ 1) (δ : ℝ) (hδ : 0 ≤ δ) (hc : Close δ ws ws') :
    ∃ (st sw st' sw' : ℕ → Osc ℝ CFloat) (y y' : ℕ → ℝ),
      (∀ n, (sysF ft).process .kForward (sw n) [(zigzag (n + 1) : ℝ) / 8] [0] = .ok (st (n + 1), [y n])) ∧
      (∀ n, (sysF ft).process .kForward (sw' n) [(zigzag (n + 1) : ℝ) / 8] [0] =
        .ok (st' (n + 1), [y' n])) ∧
      ∀ n, |y n - y' n| ≤ 1.001 * filterGain (valFilter CFloat.val (sysF ft).flt) * (1 ^ 2 * δ) +
        1 / 2 ^ 21 * ((1 + 16) + (1 + 16)) * roundoffGain (valFilter CFloat.val (sysF ft).flt) 6.4 := by
  obtain ⟨wt, o, r, st, sw, y, t, hb, ho, a1, a2, a3, -⟩ := switchExample ft ws hws hv
  obtain ⟨wt', o', r', st', sw', y', t', hb', ho', b1, b2, b3, -⟩ := switchExample ft ws' hws' hv'
  refine ⟨st, sw, st', sw', y, y', a3, b3, ?_⟩
  have hz : ∀ n, zigzag n < 8 := fun n => by unfold zigzag; omega
  have hph : ∀ n, PhaseOk envI.fl ((zigzag n : ℝ) / 8) := by
    intro n
    have := phaseOk_dyadic envI_ok.1 (k := zigzag n) (n := 3) (hz n) (by norm_num)
    norm_num at this ⊢
    exact this
  have hz0 : ((zigzag 0 : ℕ) : ℝ) / 8 = 0 := by simp [zigzag]
  have hd : ∀ n, Sys.dirDiff ieee32 .kForward ((zigzag (n + 1) : ℝ) / 8) ((zigzag n : ℝ) / 8) =
      (if n % 2 = 0 then 1 / 8 else 1 / 4) := zigzag_float
  have hd2 : ∀ n, 1 / 8 ≤ stepsAlong ieee32 (1 / 8) (fun _ => .kForward) (fun n => (zigzag n : ℝ) / 8) n ∧
      stepsAlong ieee32 (1 / 8) (fun _ => .kForward) (fun n => (zigzag n : ℝ) / 8) n ≤ 1 / 4 := by
    intro n
    cases n with
    | zero => unfold stepsAlong; norm_num
    | succ n => unfold stepsAlong; dsimp only; rw [hd]; split_ifs <;> norm_num
  have hcl := fun num => scratch_forward (fl := ieee32) (L := 3) (by norm_num) (num := num)
    (x := fun n => (zigzag n : ℝ) / 8)
    (fun n => lt_of_lt_of_le (by norm_num) (hd2 n).1) (fun k n _ _ => by
      have h1 := (hd2 k).2; have h2 := (hd2 n).1
      linarith)
  have sl : ∀ {ws : List ℝ}, (∀ x ∈ ws, |x| ≤ 1) → SlopesWithin envI ws 2 3 16 := by
    intro ws hv
    have := slopesWithinI zero_le_one hv 2 3; norm_num at this; exact this
  exact C83_builtin envI ieeeHostI ft ws ws' 2 3 _ 1 16 1 16
    (C83_tables envI envI_ok.1 log2I 1 δ stableSrcI le_rfl hδ ws ws' hc 2 3 _ _ _ hb)
    (tablesWithinI zero_le_one hv 2 3) (sl hv) (by norm_num) (by norm_num)
    (tablesWithinI zero_le_one hv' 2 3) (sl hv') (by norm_num) (by norm_num)
    _ _ wt wt' hb hb' (sysF ft).fresh (sysF ft).fresh (1 / 8) r r' (fun n => (zigzag n : ℝ) / 8)
    (fun n => ⟨(hph n).1, (hph n).2.1, (hph n).2.2.1, by
      rcases Nat.eq_zero_or_pos (zigzag n) with h | h
      · left; rw [h]; norm_num
      · right
        have : (1 : ℝ) ≤ zigzag n := by exact_mod_cast h
        have h8 : (1 : ℝ) / 8 ≤ (zigzag n : ℝ) / 8 := by gcongr
        refine le_trans ?_ h8
        norm_num⟩)
    (by norm_num) (fun n => n % 2) (fun n => by omega)
    (fun _ => .kForward) (fun n => (zigzag_step n).1)
    (fun n => by rw [hd]; split_ifs <;> norm_num) (hcl _).1 (hcl _).2
    st sw st' sw' y y' (by rw [hz0, a1]; exact ho) a2 a3 (by rw [hz0, b1]; exact ho') b2 b3

/-- C83 in exact arithmetic applies to two sounds of different samples: any built-in filter, any eight
samples each, however long they play. -/
example (ft : FilterType) (ws ws' : List ℝ) (hws : ws.length = 2 ^ 3) (hws' : ws'.length = 2 ^ 3)
    (δ Λ : ℝ) (hδ : TablesClose envX ws ws' 1 3 δ) (hΛ : SlopesWithin envX ws 1 3 Λ) (m : ℕ) :
    ∃ (st st' : ℕ → Osc ℝ ℂ) (y y' : ℕ → ℝ),
      (∀ i < m, (sysOf envX ft).process .kForward (st i) [(((i + 1) % 16 : ℕ) : ℝ) / 16] [0] =
        .ok (st (i + 1), [y i])) ∧
      (∀ i < m, (sysOf envX ft).process .kForward (st' i) [(((i + 1) % 16 : ℕ) : ℝ) / 16] [0] =
        .ok (st' (i + 1), [y' i])) ∧
      ∀ n < m, |y n - y' n| ≤ filterGain (sysOf envX ft).flt * (δ + Λ * 0) := by
  have hf : Rounding (sysOf envX ft).env.fl := Sys.exact_rounding (exactSys ft)
  obtain ⟨wt, xf, hb, hcf⟩ := builtG envX ⟨hf, log2X, pickSrc_contract⟩ ws hws
  obtain ⟨wt', xf', hb', hcf'⟩ := builtG envX ⟨hf, log2X, pickSrc_contract⟩ ws' hws'
  obtain ⟨st, y, h, h0, hd, hc, -⟩ := steadyRunF (sysOf envX ft) hf log2X (exactSys ft).B ws wt xf hb hcf m
  obtain ⟨st', y', h', h0', hd', hc', -⟩ :=
    steadyRunF (sysOf envX ft) hf log2X (exactSys ft).B ws' wt' xf' hb' hcf' m
  refine ⟨st, st', y, y', h.call, h'.call, fun n hn => ?_⟩
  have hid : ∀ i < m, IsPhase (sysOf envX ft).env.fl ((((i + 1) % 16 : ℕ) : ℝ) / 16) :=
    fun i _ => isPhase_id _
  have r1 := (h.switched hf log2X (exactSys ft).B hid).1
  have r2 := (h'.switched hf log2X (exactSys ft).B hid).1
  rw [hc] at r1
  rw [hc'] at r2
  exact C83_exact (sysOf envX ft) (exactSys ft) log2X
    (fun k hk => by
      have hk' : k < (sysOf envX ft).flt.z.length := by rw [← (exactSys ft).len]; exact hk
      rw [List.getD_eq_getElem?_getD, List.getElem?_eq_getElem hk']
      have := C39_poles ft _ (List.getElem_mem hk')
      show (_ : ℂ).re < 0
      simp only [Option.getD_some]
      linarith) ws ws' 1 3 δ Λ 0 hδ hΛ m _ _ st st _ _ y st' st' _ _ y'
    r1 r2 0 (fun k _ => by rw [h0, h0']; simp) n hn

end Adwt.Props
