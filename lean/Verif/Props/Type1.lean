import Verif.Props.Concrete
import Verif.Proofs.OffByOne
import Mathlib.Analysis.Real.Pi.Bounds

/-!
# The order-2 Butterworth filter: its impulse response is positive at first
-/

set_option linter.unusedSectionVars false

namespace Adwt.Props
open WavetableData MeasureTheory

/-- the real pole -/
noncomputable def poleA : ℝ := 1.99929732
/-- residue of `kType1` -/
noncomputable def r1 : ℂ := ⟨0, -poleA⟩
/-- pole of `kType1` -/
noncomputable def z1 : ℂ := ⟨-poleA, poleA⟩

theorem filter1 : filterX .kType1 = ⟨[r1], [z1]⟩ := by
  unfold filterX rLit zLit clit r1 z1 poleA
  simp only [List.map_cons, List.map_nil]
  norm_num

theorem poleA_pos : 0 < poleA := by unfold poleA; norm_num

/-- impulse response -/
theorem impulse1 (τ : ℝ) : (2 * r1 * Complex.exp (z1 * τ)).re =
    2 * poleA * Real.exp (-(poleA * τ)) * Real.sin (poleA * τ) := by
  have e : z1 * τ = ((-(poleA * τ) : ℝ) : ℂ) + ((poleA * τ : ℝ) : ℂ) * Complex.I := by
    apply Complex.ext <;> simp [z1]
  rw [e, Complex.exp_add, Complex.exp_mul_I, ← Complex.ofReal_exp, ← Complex.ofReal_cos,
    ← Complex.ofReal_sin]
  have e2 : 2 * r1 = ((2 * poleA : ℝ) : ℂ) * -Complex.I := by
    apply Complex.ext <;> simp [r1]
  rw [e2]
  generalize Real.exp (-(poleA * τ)) = E
  generalize Real.cos (poleA * τ) = C
  generalize Real.sin (poleA * τ) = Q
  have : ((2 * poleA : ℝ) : ℂ) * -Complex.I * ((E : ℂ) * (C + Q * Complex.I)) =
      ((2 * poleA * E * Q : ℝ) : ℂ) + ((-(2 * poleA * E * C) : ℝ) : ℂ) * Complex.I := by
    push_cast
    linear_combination (-(2 * poleA * E * Q) : ℂ) * Complex.I_sq
  rw [this]
  simp

theorem impulse1_pos {τ : ℝ} (h0 : 0 < τ) (h1 : τ ≤ 3 / 2) :
    0 < (2 * r1 * Complex.exp (z1 * τ)).re := by
  rw [impulse1]
  have := Real.pi_gt_d2
  have h : 0 < Real.sin (poleA * τ) := by
    apply Real.sin_pos_of_pos_of_lt_pi (mul_pos poleA_pos h0)
    unfold poleA; linarith
  have := poleA_pos
  positivity

/-- A positive input on part of the past gives a positive output. -/
theorem pos_output {g : ℝ → ℝ} (hg : Continuous g) {u v x d : ℝ} (hd : 0 < d) (huv : u < v)
    (hpos : ∀ s ∈ Set.Ioo u v, 0 < g s) (h0 : v ≤ x) (h1 : x - u ≤ 3 / 2 * d) :
    0 < (2 * r1 * ∫ s in u..v, Seg.f g z1 x d s).re := by
  have hc : Continuous (Seg.f g z1 x d) := by unfold Seg.f; fun_prop
  have e1 : (2 * r1 * ∫ s in u..v, Seg.f g z1 x d s) = ∫ s in u..v, 2 * r1 * Seg.f g z1 x d s := by
    rw [intervalIntegral.integral_const_mul]
  have e2 : (∫ s in u..v, 2 * r1 * Seg.f g z1 x d s).re =
      ∫ s in u..v, (2 * r1 * Seg.f g z1 x d s).re := by
    have := Complex.reCLM.intervalIntegral_comp_comm (μ := volume) (a := u) (b := v)
      (f := fun s => 2 * r1 * Seg.f g z1 x d s) ((continuous_const.mul hc).intervalIntegrable _ _)
    simpa using this.symm
  rw [e1, e2]
  apply intervalIntegral.intervalIntegral_pos_of_pos_on
  · apply Continuous.intervalIntegrable
    exact Complex.continuous_re.comp (continuous_const.mul hc)
  · intro s hs
    have e : (2 * r1 * Seg.f g z1 x d s).re =
        (2 * r1 * Complex.exp (z1 * ((x - s) / d : ℝ))).re * (g s / d) := by
      unfold Seg.f
      rw [show 2 * r1 * (Complex.exp (z1 * ((x - s) / d : ℝ)) * (g s : ℂ) / d) =
        (2 * r1 * Complex.exp (z1 * ((x - s) / d : ℝ))) * ((g s / d : ℝ) : ℂ) by
          push_cast; ring]
      rw [Complex.re_mul_ofReal]
    rw [e]
    apply mul_pos
    · apply impulse1_pos
      · apply div_pos _ hd; linarith [hs.2]
      · rw [div_le_iff₀ hd]; linarith [hs.1]
    · exact div_pos (hpos s hs) hd
  · exact huv

/-- For `kType1` an error `e` of the integral appears as `Re (2 r e)` in the output. -/
theorem out_error {a : ℕ → ℂ} {y : List ℂ} {W : ℝ → ℝ} {x d : ℝ} {e : ℂ}
    (h : a 0 = z1 ^ 2 * (response W z1 x d + e)) :
    (sysOf envX .kType1).outReal ((sysOf envX .kType1).cpxY y a) =
      output (nextMemory (sysOf envX .kType1).flt y W x d) + (2 * r1 * e).re := by
  have hS := exactSys .kType1
  have hflt : (sysOf envX .kType1).flt = ⟨[r1], [z1]⟩ := filter1
  have hn : (sysOf envX .kType1).n = 1 := by unfold Sys.n; rw [hflt]; rfl
  have hz : (sysOf envX .kType1).zA 0 = z1 := by unfold Sys.zA; rw [hflt]; rfl
  have hr : (sysOf envX .kType1).rA 0 = r1 := by unfold Sys.rA; rw [hflt]; rfl
  have hzne : z1 ≠ 0 := by rw [← hz]; exact Sys.zA_ne hS (by omega)
  rw [Sys.outReal_eq hS]
  unfold Sys.cpxY nextMemory output
  rw [hn, hflt]
  simp only [List.range_one, List.map_cons, List.map_nil, List.sum_cons, List.sum_nil, List.length_cons,
    List.length_nil, zero_add, add_zero]
  rw [Sys.expZA_eq hS (by omega), Sys.zPow2A_eq hS (by omega), hz, hr, h,
    mul_div_cancel_left₀ _ (pow_ne_zero 2 hzne), hS.ops]
  rw [← Complex.add_re]
  congr 1
  simp [copsX]
  ring

/-! ### explicit states -/

/-- An oscillator that plays `ws`, described by its crossfader, last table, last step and phase. -/
structure At {C : Type} [Zero C] [Add C] [Sub C] [Mul C] [Div C] (S : Sys ℝ C) (ws : List ℝ) (L : ℕ)
    (o : Osc ℝ C) (c : CrossFader ℝ) (mip : ℤ) (d p : ℝ) : Prop where
  plays : Plays S ws 1 L o
  cf : ∃ wt, o.wt = some wt ∧ wt.cf = c
  mip : o.prevMip = mip
  diff : o.prevPhaseDiff = d
  phase : o.prevPhase = p
  crt : o.crt = 0

/-- `init`, in any arithmetic -/
theorem at_initG {C : Type} [Zero C] [Add C] [Sub C] [Mul C] [Div C] {S : Sys ℝ C}
    (hf : Rounding S.env.fl) (hl : Log2Spec S.env.log2f) {ws : List ℝ} {L : ℕ} {sr dur : ℝ}
    {wt : WavetableData ℝ} (hb : Built S.env ws 1 L sr dur wt) {p d : ℝ}
    (hp : PhaseOk S.env.fl p) (hd : d ≠ 0) {c : CrossFader ℝ} {t : MipMapIndices ℝ}
    (hn : wt.cf.newIndices S.env |d| = .ok (c, t)) :
    ∃ o, S.init S.fresh (some wt) p d = .ok (o, 0) ∧
      At S ws L o c t.idx d p ∧ o.prevY = List.replicate S.n 0 := by
  have hw := hb.ok hf hl
  have e := Sys.reset_ok (S := S) (o := { S.fresh with wt := some wt }) hf rfl hw hp hd hn
  have hinit : ∃ o, S.init S.fresh (some wt) p d =
      .ok (o, 0) ∧ o.wt = some { wt with cf := c } ∧ o.prevMip = t.idx ∧
      o.prevPhaseDiff = d ∧ o.prevPhase = p ∧ o.crt = 0 ∧
      o.prevY = List.replicate S.n 0 := by
    unfold Sys.init
    dsimp only
    rw [e, R.ok_bind]
    exact ⟨_, rfl, rfl, rfl, rfl, rfl, rfl, rfl⟩
  obtain ⟨o, ho, a1, a2, a3, a4, a5, a6⟩ := hinit
  refine ⟨o, ho, ⟨⟨Reached.init hb ⟨hp, hd⟩ ho, _, _, _, _, hb, a1, rfl⟩, ⟨_, a1, rfl⟩, a2, a3, a4,
    a5⟩, a6⟩

/-- `init` -/
theorem at_init' (ft : FilterType) (ws : List ℝ) (L : ℕ) (h2 : 2 ≤ L) (h18 : L ≤ 18)
    (hws : ws.length = 2 ^ L) (xf : ℕ) (h1 : 1 ≤ xf) (hx : xf < 2 ^ 31) {p d : ℝ}
    (hp : 0 ≤ p ∧ p < 1) (hd : d ≠ 0) {i : ℤ} (hi : IsOctave L i (1 / 10 : ℝ)) {c : CrossFader ℝ}
    {t : MipMapIndices ℝ}
    (hn : (⟨xf, octaveScale ℝ L, 0, i, i⟩ : CrossFader ℝ).newIndices envX |d| = .ok (c, t)) :
    ∃ o, (sysOf envX ft).init (sysOf envX ft).fresh (some (wtOf envX ws 1 L xf)) p d = .ok (o, 0) ∧
      At (sysOf envX ft) ws L o c t.idx d p ∧ o.prevY = List.replicate (sysOf envX ft).n 0 := by
  have hb := builtX ws L h2 h18 hws xf h1 hx
  have hcf : (wtOf envX ws 1 L xf).cf = ⟨xf, octaveScale ℝ L, 0, i, i⟩ := by
    have e := CrossFader.findLoop_of_octave h2 hi
    show (⟨xf, octaveScale ℝ L, 0, (CrossFader.findLoop (1 / 10) (octaveScale ℝ L) : ℤ),
      (CrossFader.findLoop (1 / 10) (octaveScale ℝ L) : ℤ)⟩ : CrossFader ℝ) = _
    rw [e]
  rw [← hcf] at hn
  exact at_initG (S := sysOf envX ft) envX_ok.1 envX_ok.2.1 hb ⟨hp.1, hp.2, isPhase_id _⟩ hd hn

/-- `init` -/
theorem at_init (ft : FilterType) (ws : List ℝ) (L : ℕ) (h2 : 2 ≤ L) (h18 : L ≤ 18)
    (hws : ws.length = 2 ^ L) (xf : ℕ) (h1 : 1 ≤ xf) (hx : xf < 2 ^ 31) {p d : ℝ}
    (hp : 0 ≤ p ∧ p < 1) (hd : d ≠ 0) {i : ℤ} (hi : IsOctave L i (1 / 10 : ℝ)) {c : CrossFader ℝ}
    {t : MipMapIndices ℝ}
    (hn : (⟨xf, octaveScale ℝ L, 0, i, i⟩ : CrossFader ℝ).newIndices envX |d| = .ok (c, t)) :
    ∃ o, At (sysOf envX ft) ws L o c t.idx d p ∧ o.prevY = List.replicate (sysOf envX ft).n 0 := by
  obtain ⟨o, -, h⟩ := at_init' ft ws L h2 h18 hws xf h1 hx hp hd hi hn
  exact ⟨o, h⟩

/-- one sample, in any arithmetic -/
theorem At.stepG {C : Type} [Zero C] [Add C] [Sub C] [Mul C] [Div C] {S : Sys ℝ C}
    (hf : Rounding S.env.fl) (hl : Log2Spec S.env.log2f) (hB : 0 < S.B) {ws : List ℝ} {L : ℕ}
    {o : Osc ℝ C} {c c' : CrossFader ℝ} {mip : ℤ} {d p : ℝ} (h : At S ws L o c mip d p)
    {dir : Sys.Direction} {p' d' : ℝ} (hp' : PhaseOk S.env.fl p') (hs : StepOk dir p p')
    (hz : p ≠ 0 ∨ 0 < d) (hd : Sys.dirDiff S.env.fl dir p' p = d')
    {t : MipMapIndices ℝ} (hn : c.newIndices S.env |d'| = .ok (c', t)) :
    (∃ o' y, S.process dir o [p'] [0] = .ok (o', [y]) ∧ At S ws L o' c' t.idx d' p') ∧
    NextIndices S o d' t := by
  have hpl := Sys.reached_play hf hl hB h.plays.1
  obtain ⟨wt, hwt, hcf⟩ := h.cf
  have hsafe : OscSafe S 1 L o := ⟨hpl, fun h' => by
    rw [h.diff] at h'; rw [h.phase]
    rcases hz with hz | hz
    · exact hz
    · linarith⟩
  have hs' : StepOk dir o.prevPhase p' := by rw [h.phase]; exact hs
  rcases Sys.step_cases (S := S) hf hB hpl hp' hs' with ⟨⟨⟨o', y⟩, e, hr⟩, -⟩ | ⟨e, hh⟩
  swap
  · exfalso
    have := hh.1
    obtain ⟨⟨z1, z2⟩, -⟩ := hh
    exact hsafe.back z2 z1
  have hdd : Sys.dirDiff S.env.fl dir p' o.prevPhase = d' := by
    rw [h.phase]; exact hd
  rw [hdd] at hr
  dsimp only at hr
  have hproc : S.process dir o [p'] [0] = .ok (o', [y]) := by
    rw [Sys.process_runDir _ _ (by rw [hwt]; rfl) (show [p'].length = [(0 : ℝ)].length from rfl)]
    unfold Sys.runDir Sys.runDir
    rw [e]; rfl
  refine ⟨⟨o', y, hproc, ?_⟩, wt, { wt with cf := c' }, hwt, ?_⟩
  · obtain ⟨wt1, c1, t1, e1, -, e2, -, e3, e4⟩ := hr.find
    rw [hwt] at e1; cases e1
    have e2' : wt.cf.newIndices S.env |d'| = .ok (c1, t1) := e2
    rw [hcf, hn] at e2'
    cases e2'
    have hh : HoldsTables S ws 1 L o := h.plays.2
    refine ⟨⟨h.plays.1.process (dir := dir) (ps := [p']) (out := [0]) ⟨hp', hs', trivial⟩ rfl hproc,
      hh.same (Sys.process_tables hh.isSome hproc).1⟩, ⟨_, e3, rfl⟩, e4, hr.diff, hr.phase, ?_⟩
    rw [hr.crt, h.crt]
  · unfold findMipMapIndices
    rw [hcf, hn]; rfl

/-- one sample -/
theorem At.step {ft : FilterType} {ws : List ℝ} {L : ℕ} {o : Osc ℝ ℂ} {c c' : CrossFader ℝ}
    {mip : ℤ} {d p : ℝ} (h : At (sysOf envX ft) ws L o c mip d p) {dir : Sys.Direction} {p' d' : ℝ}
    (hp : 0 ≤ p' ∧ p' < 1) (hs : StepOk dir p p') (hz : p ≠ 0 ∨ 0 < d)
    (hd : Sys.dirDiff id dir p' p = d')
    {t : MipMapIndices ℝ} (hn : c.newIndices envX |d'| = .ok (c', t)) :
    (∃ o' y, (sysOf envX ft).process dir o [p'] [0] = .ok (o', [y]) ∧
      At (sysOf envX ft) ws L o' c' t.idx d' p') ∧
    NextIndices (sysOf envX ft) o d' t :=
   At.stepG (S := sysOf envX ft) envX_ok.1 log2X (exactSys ft).B h ⟨hp.1, hp.2, isPhase_id _⟩ hs hz hd hn

end Adwt.Props
