import Verif.Props.ExactExamples
import Verif.Props.Hold
import Mathlib.Analysis.SpecialFunctions.Integrals.Basic

/-!
# C28: a held phase between two points of the table
-/

set_option linter.unusedSectionVars false

namespace Adwt
open Seg WavetableData

namespace Sys
section
variable {K C : Type} [Field K] [LinearOrder K] [IsStrictOrderedRing K] [FloorRing K]
variable [Zero C] [Add C] [Sub C] [Mul C] [Div C]
variable {S : Sys K C} {nw L : ℕ} {o : Osc K C}

theorem irange_self (a : ℤ) : irange a a = [] := by simp [irange]

/-- without corners the sums of a table do not divide -/
theorem computeFwdI_same (hB : 0 < S.B) {wt : WavetableData K} {crt mip N : ℤ}
    {m q md qd ph : List K} (T : Tabs wt crt mip N m q md qd ph) {j : ℤ}
    (h0 : 0 ≤ j) (h1 : j < N) (d prev x : K) (a : ℕ → C) :
    Ok (S.computeFwdI wt crt prev mip j j d x a) fun a' => ∀ k < S.n,
      a' k = S.fwdVal m q md qd ph N prev j j d x k := by
  have hb : bornSup j j N = j := by unfold bornSup; rw [if_neg (lt_irrefl _), add_zero]
  unfold computeFwdI
  dsimp only
  refine Ok.bind (computeI0_spec hB T h0 h1 h0 h1 _ _ _ a) fun a1 e1 => ?_
  unfold computeISumFwd
  rw [T.len, R.ok_bind, T.emd, R.ok_bind, T.eqd, R.ok_bind, T.eph, R.ok_bind, hb, irange_self]
  refine ⟨a1, rfl, fun k hk => ?_⟩
  rw [e1 k hk]
  unfold fwdVal
  rw [hb, irange_self]; rfl

theorem fwdAt_same {wt : WavetableData K} {crt mip N : ℤ} {m q md qd ph : List K}
    (hB : 0 < S.B) (T : Tabs wt crt mip N m q md qd ph) {j : ℤ}
    (h0 : 0 ≤ j) (h1 : j < N) (d prev x : K) (a : ℕ → C) :
    Ok (S.computeFwdI wt crt prev mip j j d x a) fun a' => ∀ k < S.n,
      a' k = S.fwdAt wt crt mip N prev j j d x k := by
  have := computeFwdI_same hB T h0 h1 d prev x a
  unfold fwdAt
  rw [T.em, T.eq, T.emd, T.eqd, T.eph]
  exact this

/-- holding the phase is a forward sample with step zero -/
theorem stepDir_hold (hf : Rounding S.env.fl) (hdbg : S.env.dbg = false) {dir : Direction} :
    S.stepDir dir o o.prevPhase = S.processSampleFwd o o.prevPhase 0 := by
  cases dir with
  | kForward =>
    show S.stepFwd o o.prevPhase = _
    unfold Sys.stepFwd
    dsimp only
    rw [sub_self, hf.zero, if_neg (lt_irrefl _)]
    unfold chk
    rw [hdbg]; simp
  | kBidirectionnal =>
    show S.stepBi o o.prevPhase = _
    have : Sys.biDiff S.env.fl o.prevPhase o.prevPhase = 0 := by
      unfold Sys.biDiff
      dsimp only
      rw [sub_self, hf.zero, if_neg (by norm_num), if_neg (by norm_num)]
    unfold Sys.stepBi
    dsimp only
    rw [this, if_pos (le_refl (0 : K))]

theorem find_zero' (hf : Rounding S.env.fl) (hdbg : S.env.dbg = false) {wt : WavetableData K}
    (hw : WtOk nw L wt) :
    ∃ c t, wt.findMipMapIndices S.env 0 = .ok ({ wt with cf := c }, t) ∧
      wt.cf.newIndices S.env (1 / 2 ^ L) = .ok (c, t) ∧
      WtOk nw L { wt with cf := c } ∧ 0 ≤ t.idx ∧ t.idx < (L : ℤ) - 1 ∧
      (t.weightUp ≠ 0 → t.idxUp = t.idx + 1 ∧ t.idxUp < (L : ℤ) - 1) := by
  have hpos : (0 : K) < 1 / 2 ^ L := by positivity
  obtain ⟨c, t, hn, hfind, hw', -, h0, h1, h2⟩ := find_spec hf hw hpos
  refine ⟨c, t, ?_, hn, hw', h0, h1, h2⟩
  obtain ⟨c1, t1, e, -⟩ := find_zero (S := S) hf hdbg hw
  have e1 : CrossFader.findLoop (0 : K) wt.cf.scale = 0 := by
    rw [hw.scale]
    apply findLoop_zero
    intro s hs
    unfold octaveScale at hs
    simp only [List.mem_map] at hs
    obtain ⟨i, -, rfl⟩ := hs
    positivity
  have e2 : CrossFader.findLoop ((1 : K) / 2 ^ L) wt.cf.scale = 0 := by
    have : (CrossFader.findLoop ((1 : K) / 2 ^ L) wt.cf.scale : ℤ) = 0 := by
      rw [hw.scale]
      apply CrossFader.findLoop_of_octave hw.L2
      have := hw.L2
      refine ⟨le_rfl, by omega, Or.inl rfl, Or.inr ?_⟩
      exact div_lt_div_of_pos_right (by norm_num) (by positivity)
    exact_mod_cast this
  unfold WavetableData.findMipMapIndices at hfind ⊢
  rw [newIndices_congr hdbg wt.cf (e1.trans e2.symm)]
  exact hfind

/-- a held sample, when the position is carried over in its own segment -/
theorem hold_eq (hf : Rounding S.env.fl) (hB : 0 < S.B) (hdbg : S.env.dbg = false)
    {wt : WavetableData K} (hwt : o.wt = some wt) (hw : WtOk nw L wt)
    (ho : OscPlay S nw L o) {c : CrossFader K} {t : MipMapIndices K}
    (hfind : wt.findMipMapIndices S.env 0 = .ok ({ wt with cf := c }, t))
    (hw' : WtOk nw L { wt with cf := c }) (ht0 : 0 ≤ t.idx) (ht1 : t.idx < (L : ℤ) - 1)
    (htu : t.weightUp ≠ 0 → t.idxUp = t.idx + 1 ∧ t.idxUp < (L : ℤ) - 1)
    (hsafe : o.prevPhaseDiff < 0 → t.idx < o.prevMip → 1 ≤ o.jRed)
    (hj : (S.prevJF o (L - t.idx.toNat) t.idx - 1) % 2 ^ (L - t.idx.toNat) =
      ⌊o.prevPhase * 2 ^ (L - t.idx.toNat)⌋) :
    S.processSampleFwd o o.prevPhase 0 = .ok
      ({ wt := some { wt with cf := c },
         prevY := S.cpxY o.prevY (S.accF wt L o t o.prevPhase 0), prevPhase := o.prevPhase,
         prevPhaseRed := o.prevPhase, prevPhaseDiff := 0, prevMip := t.idx,
         jRed := ⌊o.prevPhase * 2 ^ (L - t.idx.toNat)⌋,
         prevJRed := S.prevJF o (L - t.idx.toNat) t.idx, crt := o.crt },
       S.outReal (S.cpxY o.prevY (S.accF wt L o t o.prevPhase 0))) := by
  have hchk : ∀ p : Prop, ∀ [Decidable p], chk S.env.dbg p = .ok () := by
    intro p _; unfold chk; rw [hdbg]; simp
  have hL := hw.L18
  set n := L - t.idx.toNat with hnn
  have hn18 : n ≤ 18 := by omega
  have hn2 : 2 ≤ n := by omega
  obtain ⟨hj0, hj1⟩ := floor_range hn18 ho.p0 ho.p1
  obtain ⟨m, q, md, qd, T⟩ := hw'.tabs o.crt t.idx ho.crt0 ho.crt1 ht0 ht1
  rw [← hnn] at T
  have hlo := fwdAt_same hB T hj0 hj1 0 o.prevPhaseRed o.prevPhase (fun _ => (0 : C))
  rw [(fwd_pre hf hwt ho.toOscOk ho.p0 ho.p1 ho.fl.1 (d := 0) (hchk _) hfind hw' ht0 ht1 hsafe).2.2.2]
  dsimp only
  rw [← hnn, hj]
  obtain ⟨a, ea, ha⟩ := hlo
  rw [ea, R.ok_bind]
  by_cases hup : t.weightUp ≠ 0
  · unfold withUpper
    rw [if_pos hup]
    obtain ⟨hu1, hu2⟩ := htu hup
    obtain ⟨e4, e5, e6⟩ := half_range (by omega) hj0 hj1
    obtain ⟨m', q', md', qd', T'⟩ := hw'.tabs o.crt t.idxUp ho.crt0 ho.crt1 (by omega) hu2
    have hnu : L - t.idxUp.toNat = n - 1 := by omega
    rw [hnu] at T'
    obtain ⟨b, eb, hb⟩ := fwdAt_same hB T' e5 e6 0 o.prevPhaseRed o.prevPhase (fun _ => (0 : C))
    rw [e4, eb, R.ok_bind]
    simp only [R.pure_eq, R.ok_bind]
    have : S.cpxY o.prevY (S.crossfade t.weight t.weightUp a b) =
        S.cpxY o.prevY (S.accF wt L o t o.prevPhase 0) := by
      apply cpxY_congr
      intro k hk
      unfold accF mix
      rw [← hnn, hj, if_pos hup]
      unfold crossfade
      have hupper := (upper_ge S.n S.B hB).2.2
      rw [if_pos (by split <;> [exact lt_of_lt_of_le hk hupper; exact hk]), ha k hk, hb k hk]
      rfl
    rw [this]
  · unfold withUpper
    rw [if_neg hup]
    simp only [R.pure_eq, R.ok_bind]
    have : S.cpxY o.prevY a = S.cpxY o.prevY (S.accF wt L o t o.prevPhase 0) := by
      apply cpxY_congr
      intro k hk
      unfold accF mix
      rw [← hnn, hj, if_neg hup, ha k hk]
      rfl
    rw [this]

theorem hold_ok (dir : Direction) (hf : Rounding S.env.fl) (hB : 0 < S.B)
    (hdbg : S.env.dbg = false)
    {wt : WavetableData K} (hwt : o.wt = some wt) (hw : WtOk nw L wt)
    (ho : OscPlay S nw L o) {c : CrossFader K} {t : MipMapIndices K}
    (hfind : wt.findMipMapIndices S.env 0 = .ok ({ wt with cf := c }, t))
    (hw' : WtOk nw L { wt with cf := c }) (ht0 : 0 ≤ t.idx) (ht1 : t.idx < (L : ℤ) - 1)
    (htu : t.weightUp ≠ 0 → t.idxUp = t.idx + 1 ∧ t.idxUp < (L : ℤ) - 1)
    (hsafe : o.prevPhaseDiff < 0 → t.idx < o.prevMip → 1 ≤ o.jRed)
    (hj : (S.prevJF o (L - t.idx.toNat) t.idx - 1) % 2 ^ (L - t.idx.toNat) =
      ⌊o.prevPhase * 2 ^ (L - t.idx.toNat)⌋) :
    ∃ o', S.stepDir dir o o.prevPhase = .ok (o', S.outReal o'.prevY) ∧
      o'.prevY = S.cpxY o.prevY (S.accF wt L o t o.prevPhase 0) ∧ o'.prevPhase = o.prevPhase ∧
      o'.prevPhaseRed = o.prevPhase ∧ o'.prevPhaseDiff = 0 ∧ o'.prevMip = t.idx ∧
      o'.jRed = ⌊o.prevPhase * 2 ^ (L - t.idx.toNat)⌋ ∧ o'.crt = o.crt ∧
      o'.wt = some { wt with cf := c } := by
  exact ⟨_, (stepDir_hold hf hdbg).trans
    (hold_eq hf hB hdbg hwt hw ho hfind hw' ht0 ht1 htu hsafe hj),
    rfl, rfl, rfl, rfl, rfl, rfl, rfl, rfl⟩
end

variable {S : Sys ℝ ℂ} {nw L : ℕ} {o : Osc ℝ ℂ} {ws : List ℝ}

/-- off the grid, the position is carried over in its own segment -/
theorem hold_segment (hf : Rounding S.env.fl) (ho : OscPlay S nw L o) {mip : ℤ} (h0 : 0 ≤ mip)
    (h1 : mip < (L : ℤ) - 1) (hm : TableMove o mip)
    (hx : OffDenormal (2 ^ (L - mip.toNat)) o.prevPhase)
    (hoff : ∀ k : ℤ, o.prevPhase ≠ k / 2 ^ (L - mip.toNat)) :
    (S.prevJF o (L - mip.toNat) mip - 1) % 2 ^ (L - mip.toNat) =
      ⌊o.prevPhase * 2 ^ (L - mip.toNat)⌋ := by
  have hne : o.prevPhase ≠ 0 := by simpa using hoff 0
  obtain ⟨a, b⟩ := prevJF_in hf ho.toOscOk h0 h1 hm (fun _ _ => hne) hx
  set n := L - mip.toNat with hn
  generalize (S.prevJF o n mip - 1) % 2 ^ n = j at a b
  have hp : (0 : ℝ) < ((2 ^ n : ℕ) : ℝ) := by positivity
  unfold bar at a b
  rw [if_neg hne, add_zero] at a b
  have b' : o.prevPhase < ((j : ℝ) + 1) / ((2 ^ n : ℕ) : ℝ) := by
    refine lt_of_le_of_ne b ?_
    have := hoff (j + 1)
    push_cast at this ⊢
    exact this
  rw [div_le_iff₀ hp] at a
  rw [lt_div_iff₀ hp] at b'
  push_cast at a b'
  exact (Int.floor_eq_iff.2 ⟨a, b'⟩).symm

/-- the response to a constant -/
theorem response_zero (W : ℝ → ℝ) {z : ℂ} (hz : z ≠ 0) (x : ℝ) :
    z ^ 2 * response W z x 0 = z * (Complex.exp z - 1) * (W x : ℂ) := by
  have e : response W z x 0 = (∫ t in (0 : ℝ)..1, Complex.exp (z * ((1 - t : ℝ) : ℂ))) * (W x : ℂ) := by
    unfold response
    rw [← intervalIntegral.integral_mul_const]
    congr 1; funext t
    rw [mul_zero, add_zero]; push_cast; rfl
  rw [e, intervalIntegral.integral_comp_sub_left (fun t : ℝ => Complex.exp (z * (t : ℂ))) 1,
    sub_self, sub_zero, integral_exp_mul_complex hz]
  push_cast
  rw [mul_one, mul_zero, Complex.exp_zero]
  field_simp

/-- one table at a held phase -/
theorem fwdVal_hold (hS : ExactSys S) {N : ℕ} {Y : ℤ → ℝ} {m q md qd ph : List ℝ}
    (T0 : Lines N Y m q md qd ph) {j : ℤ} (h0 : 0 ≤ j) (h1 : j < N) {x : ℝ} (hx : x ≠ 0)
    (hin : In N j x) {k : ℕ} (hk : k < S.n) :
    S.fwdVal m q md qd ph N x j j 0 x k =
      S.zA k ^ 2 * response (Seg.W N Y) (S.zA k) x 0 := by
  have hN : (0 : ℝ) < N := by
    have : 0 < N := by omega
    exact_mod_cast this
  have hb : bornSup j j N = j := by unfold bornSup; rw [if_neg (lt_irrefl _), add_zero]
  unfold fwdVal
  rw [hb, irange_self, List.foldl_nil, i0Val_exact hS hk, T0.m _ h0 h1, T0.q _ h0 h1,
    response_zero _ (zA_ne hS hk), W_eq hN hin.1 hin.2, hS.fl]
  unfold ofBool line
  simp only [hx, decide_false, id]
  push_cast
  simp
  ring

theorem accF_hold (hS : ExactSys S) {wt : WavetableData ℝ} (ho : OscPlay S nw L o)
    (hlin : HasLines S.env ws nw L wt) {t : MipMapIndices ℝ} (ht0 : 0 ≤ t.idx)
    (ht1 : t.idx < (L : ℤ) - 1)
    (htu : t.weightUp ≠ 0 → t.idxUp = t.idx + 1 ∧ t.idxUp < (L : ℤ) - 1)
    (hw : t.weightUp = 0 → t.weight = 1) (hne : o.prevPhase ≠ 0)
    (hj : (S.prevJF o (L - t.idx.toNat) t.idx - 1) % 2 ^ (L - t.idx.toNat) =
      ⌊o.prevPhase * 2 ^ (L - t.idx.toNat)⌋) {k : ℕ} (hk : k < S.n) :
    S.accF wt L o t o.prevPhase 0 k =
      S.zA k ^ 2 * response (mixture S.env ws L o.crt t) (S.zA k) o.prevPhase 0 := by
  unfold accF
  set n := L - t.idx.toNat with hn
  rw [hj]
  have hn2 : 2 ≤ n := by omega
  have hn18 : n ≤ 18 := by
    obtain ⟨wt, -, h⟩ := ho.wt
    have := h.L18; omega
  obtain ⟨hj0, hj1⟩ := floor_range hn18 ho.p0 ho.p1
  obtain ⟨hv, hv'⟩ := floor_in (n := n) o.prevPhase
  set j := ⌊o.prevPhase * 2 ^ n⌋ with hjx
  apply mix_exact hS hw
  · have hlen := hlin.len o.crt t.idx ho.crt0 ho.crt1 ht0 ht1
    have hl := hlin.lines o.crt t.idx ho.crt0 ho.crt1 ht0 ht1
    unfold waveAt
    rw [interp_eq, hlen]
    rw [← hn] at hlen hl ⊢
    unfold fwdAt
    rw [ho.red]
    have key := fwdVal_hold hS (N := 2 ^ n) hl hj0 (by push_cast; exact hj1) hne
      (in_of' (by positivity) hv hv'.le) hk
    push_cast at key ⊢
    exact key
  · intro hup
    obtain ⟨hu1, hu2⟩ := htu hup
    have hnu : L - t.idxUp.toNat = n - 1 := by omega
    have hlen := hlin.len o.crt t.idxUp ho.crt0 ho.crt1 (by omega) hu2
    have hl := hlin.lines o.crt t.idxUp ho.crt0 ho.crt1 (by omega) hu2
    unfold waveAt
    rw [interp_eq, hlen]
    rw [hnu] at hlen hl ⊢
    unfold fwdAt
    rw [ho.red]
    obtain ⟨-, e5, e6⟩ := half_range (n := n) (by omega) hj0 hj1
    have hv2 := half_le (n := n) (by omega) hv
    have hv2' := half_gt (n := n) (by omega) hv'
    have key := fwdVal_hold hS (N := 2 ^ (n - 1)) hl e5 (by push_cast; exact e6) hne
      (in_of' (by positivity) hv2 hv2'.le) hk
    push_cast at key ⊢
    exact key

end Sys

namespace Props
variable {S : Sys ℝ ℂ} {ws : List ℝ} {nw L : ℕ} {o o' : Osc ℝ ℂ}

/-- C28, the part that holds: in a release build, with any rounding, a held phase which is not a
point of the selected table's grid is processed without a fault, from every reached state, if the
position is carried over to this table. -/
theorem C28_off_grid (S : Sys ℝ ℂ) (hf : Rounding S.env.fl) (hl : Log2Spec S.env.log2f)
    (hB : 0 < S.B) (hdbg : S.env.dbg = false) (nw L : ℕ) (o : Osc ℝ ℂ) (ho : Reached S nw L o)
    (dir : Sys.Direction) (b : ℝ) (t : MipMapIndices ℝ) (ht : NextIndices S o 0 t)
    (hm : TableMove o t.idx) (hx : OffDenormal (2 ^ (L - t.idx.toNat)) o.prevPhase)
    (hoff : ∀ k : ℤ, o.prevPhase ≠ k / 2 ^ (L - t.idx.toNat)) :
    ∃ o' y, S.process dir o [o.prevPhase] [b] = .ok (o', [y]) ∧ o'.prevPhase = o.prevPhase ∧
      o'.prevMip = t.idx := by
  have hs := Sys.reached_play hf hl hB ho
  obtain ⟨wt, hwt, hw⟩ := hs.wt
  obtain ⟨c, t', hfind, -, hw', ht0, ht1, htu⟩ := Sys.find_zero' (S := S) hf hdbg hw
  obtain ⟨wt1, wt2, hwt1, hf1⟩ := ht
  rw [hwt] at hwt1; cases hwt1
  rw [abs_zero, hfind] at hf1
  simp only [Except.ok.injEq, Prod.mk.injEq] at hf1
  obtain ⟨-, rfl⟩ := hf1
  have hne : o.prevPhase ≠ 0 := by simpa using hoff 0
  obtain ⟨o', e, -, e1, -, -, e2, -⟩ := Sys.hold_ok dir hf hB hdbg hwt hw hs hfind hw' ht0 ht1 htu
    (fun h1 _ => hs.jb h1 hne) (Sys.hold_segment hf hs ht0 ht1 hm hx hoff)
  refine ⟨o', S.outReal o'.prevY, ?_, e1, e2⟩
  rw [Sys.process_runDir S dir (by rw [hwt]; rfl)
    (show [o.prevPhase].length = [b].length from rfl)]
  unfold Sys.runDir
  rw [e]
  rfl

/-- C28, the value: in exact arithmetic such a sample is the filtered integral of the constant
value of the selected tables at this phase. -/
theorem C28_off_grid_value (S : Sys ℝ ℂ) (hS : ExactSys S) (hl : Log2Spec S.env.log2f)
    (hdbg : S.env.dbg = false) (ws : List ℝ) (nw L : ℕ) (o : Osc ℝ ℂ) (ho : Plays S ws nw L o)
    (dir : Sys.Direction) (b : ℝ) (t : MipMapIndices ℝ) (ht : NextIndices S o 0 t)
    (hm : TableMove o t.idx) (hx : OffDenormal (2 ^ (L - t.idx.toNat)) o.prevPhase)
    (hoff : ∀ k : ℤ, o.prevPhase ≠ k / 2 ^ (L - t.idx.toNat)) :
    ∃ o', S.process dir o [o.prevPhase] [b] = .ok (o', [output o'.prevY]) ∧
      o'.prevY = nextMemory S.flt o.prevY (mixture S.env ws L o.crt t) o.prevPhase 0 := by
  have hf := Sys.exact_rounding hS
  have hs := Sys.reached_play hf hl hS.B ho.1
  obtain ⟨wt0, hwt0, hlin⟩ := ho.lines hS.fl hl
  obtain ⟨wt, hwt, hw⟩ := hs.wt
  rw [hwt] at hwt0; cases hwt0
  obtain ⟨c, t', hfind, hn, hw', ht0, ht1, htu⟩ := Sys.find_zero' (S := S) hf hdbg hw
  obtain ⟨wt1, wt2, hwt1, hf1⟩ := ht
  rw [hwt] at hwt1; cases hwt1
  rw [abs_zero, hfind] at hf1
  simp only [Except.ok.injEq, Prod.mk.injEq] at hf1
  obtain ⟨-, rfl⟩ := hf1
  have hne : o.prevPhase ≠ 0 := by simpa using hoff 0
  have hj := Sys.hold_segment hf hs ht0 ht1 hm hx hoff
  obtain ⟨o', e, e0, -⟩ := Sys.hold_ok dir hf hS.B hdbg hwt hw hs hfind hw' ht0 ht1 htu
    (fun h1 _ => hs.jb h1 hne) hj
  have hw1 := Sys.weight_one hS.fl hw.inv (by positivity) hn
  refine ⟨o', ?_, ?_⟩
  · rw [Sys.process_runDir S dir (by rw [hwt]; rfl)
    (show [o.prevPhase].length = [b].length from rfl)]
    unfold Sys.runDir
    rw [e, Sys.outReal_eq hS]
    rfl
  · rw [e0]
    exact Sys.cpxY_exact hS _ fun k hk => Sys.accF_hold hS hs hlin ht0 ht1 htu
      (fun h => by have := hw1.1; rw [h, add_zero] at this; exact this) hne hj hk

/-- Release builds: IEEE rounding and exact arithmetic. -/
noncomputable def envIR : Env ℝ := { envI with dbg := false }
noncomputable def envXR : Env ℝ := { envX with dbg := false }

theorem exactSysR (t : FilterType) : ExactSys (sysOf envXR t) :=
  ⟨rfl, rfl, (exactSys t).B, (exactSys t).len, (exactSys t).z0⟩

/-- An initialised oscillator in a release build: eight samples, phase k/16, step 1/16. -/
theorem exampleRelease (E : Env ℝ) (hE : Rounding E.fl ∧ Log2Spec E.log2f ∧ SrcContract E.src) (t : FilterType) (ws : List ℝ)
    (h : ws.length = 8) (k : ℕ) (hk : k < 2 ^ 4) :
    ∃ o, Reached (sysOf E t) 1 3 o ∧ o.prevPhase = k / 2 ^ 4 ∧
      o.prevPhaseDiff = 1 / 16 ∧ ∃ wt wt0, o.wt = some wt ∧ Built E ws 1 3 44100 (1 / 256) wt0 ∧
        tablesOf wt = tablesOf wt0 := by
  have hok := hE
  have h44 : IsRate E.fl 44100 := by
    have := hok.1.isRate 44100 (by norm_num); simpa using this
  have hd : E.fl (1 / 256 * 44100) = 1 / 256 * 44100 := by
    have e : (1 / 256 * 44100 : ℝ) = ((44100 : ℤ) : ℝ) / 2 ^ 8 := by norm_num
    rw [e, hok.1.dyadic 44100 8 (by norm_num)]
  obtain ⟨wt, hw⟩ := C02_succeeds E hok.1 hok.2.1 hok.2.2 3 (by norm_num) (by norm_num) 1
    (by norm_num) ws (by simpa using h) 44100 (1 / 256) (by norm_num) h44 (by rw [hd]; norm_num)
  have hb : Built E ws 1 3 44100 (1 / 256) wt :=
    ⟨h44, by rw [hd]; norm_num, by simpa using h, hw⟩
  have hp := phaseOk_dyadic hok.1 (k := k) (n := 4) hk (by norm_num)
  have hi : InitOk E.fl (k / 2 ^ 4) (1 / 16) := ⟨hp, by norm_num⟩
  obtain ⟨⟨o, r⟩, e, -, h1, h2, -⟩ := Sys.init_play (S := sysOf E t) hok.1 (sysOf E t).fresh
    (hb.ok hok.1 hok.2.1) hi.1 hi.2
  dsimp only at h1 h2 e
  obtain ⟨wt1, e1, e2⟩ := Sys.init_tables e
  exact ⟨o, Reached.init hb hi e, h1, h2, wt1, wt, e1, hb, e2⟩

/-- With eight samples and a forward step before, the position is always carried over. -/
theorem example_hold (E : Env ℝ) (hE : Rounding E.fl ∧ Log2Spec E.log2f ∧ SrcContract E.src)
    (hdbg : E.dbg = false) (t : FilterType) (ws : List ℝ) (h : ws.length = 8) : ∃ o ti, Reached (sysOf E t) 1 3 o ∧
      (E = envXR → Plays (sysOf E t) ws 1 3 o) ∧
      NextIndices (sysOf E t) o 0 ti ∧ TableMove o ti.idx ∧
      OffDenormal (2 ^ (3 - ti.idx.toNat)) o.prevPhase ∧
      ∀ k : ℤ, o.prevPhase ≠ k / 2 ^ (3 - ti.idx.toNat) := by
  obtain ⟨o, ho, h1, h2, wt1, wt0, hw1, hb, ht⟩ := exampleRelease E hE t ws h 11
    (by norm_num)
  have h1 : o.prevPhase = 11 / 16 := by rw [h1]; norm_num
  have hok := hE
  have hs := Sys.reached_play (S := sysOf E t) hok.1 hok.2.1 (by norm_num [sysOf]) ho
  obtain ⟨wt, hwt, hw⟩ := hs.wt
  obtain ⟨c, ti, hfind, -, hw', ht0, ht1, -⟩ := Sys.find_zero' (S := sysOf E t) hok.1 hdbg hw
  have h0 := hs.mip0
  have h3 := hs.mip1
  have hk : ti.idx = 0 ∨ ti.idx = 1 := by push_cast at ht1; omega
  have hni : NextIndices (sysOf E t) o 0 ti := ⟨wt, _, hwt, by rw [abs_zero]; exact hfind⟩
  refine ⟨o, ti, ho, fun _ => ⟨ho, _, _, _, _, hb, hw1, ht⟩, hni, ?_, ?_, ?_⟩
  · unfold TableMove
    rw [h2]
    push_cast at h3
    rcases hk with hk | hk
    · omega
    · by_cases ho : o.prevMip = 1
      · left; omega
      · right; left; exact ⟨by norm_num, by omega⟩
  · rw [h1]
    rcases hk with hk | hk
    · have := offDenormal_dyadic 11 4 3 (by norm_num) (by norm_num)
      rw [hk]; norm_num at this ⊢; exact this
    · have := offDenormal_dyadic 11 4 2 (by norm_num) (by norm_num)
      rw [hk]; norm_num at this ⊢; exact this
  · intro k
    rw [h1]
    intro hc
    have hc2 : (11 : ℝ) * 2 ^ (3 - ti.idx.toNat) = 16 * k := by
      rw [eq_div_iff (by positivity)] at hc; linarith
    have : (11 : ℤ) * 2 ^ (3 - ti.idx.toNat) = 16 * k := by exact_mod_cast hc2
    rcases hk with hk | hk
    · rw [hk] at this; norm_num at this; omega
    · rw [hk] at this; norm_num at this; omega

/-- C28_off_grid applies, under IEEE rounding, with every filter. -/
example (t : FilterType) (ws : List ℝ) (h : ws.length = 8) (dir : Sys.Direction) :
    ∃ o o' y, Reached (sysOf envIR t) 1 3 o ∧
      (sysOf envIR t).process dir o [o.prevPhase] [0] = .ok (o', [y]) := by
  obtain ⟨o, ti, h1, -, h2, h3, h4, h5⟩ := example_hold envIR envI_ok rfl t ws h
  obtain ⟨o', y, e, -⟩ := C28_off_grid (sysOf envIR t) envI_ok.1 envI_ok.2.1 (by norm_num [sysOf])
    rfl 1 3 o h1 dir 0 ti h2 h3 h4 h5
  exact ⟨o, o', y, h1, e⟩

/-- C28_off_grid_value applies. -/
example (t : FilterType) (ws : List ℝ) (h : ws.length = 8) (dir : Sys.Direction) :
    ∃ o o' ti, Plays (sysOf envXR t) ws 1 3 o ∧
      (sysOf envXR t).process dir o [o.prevPhase] [0] = .ok (o', [output o'.prevY]) ∧
      o'.prevY = nextMemory (filterX t) o.prevY (mixture envXR ws 3 o.crt ti) o.prevPhase 0 := by
  obtain ⟨o, ti, -, h1, h2, h3, h4, h5⟩ := example_hold envXR envX_ok rfl t ws h
  obtain ⟨o', e, e'⟩ := C28_off_grid_value (sysOf envXR t) (exactSysR t) log2X rfl ws 1 3 o (h1 rfl)
    dir 0 ti h2 h3 h4 h5
  exact ⟨o, o', ti, h1 rfl, e, e'⟩

/-- C28_release_divides_by_zero applies: a release build, a held phase on the grid. -/
example (t : FilterType) (ws : List ℝ) (h : ws.length = 8) : ∃ o,
    Reached (sysOf envIR t) 1 3 o ∧ o.prevPhase = ((0 : ℤ) : ℝ) / 4 := by
  obtain ⟨o, h1, h2, -⟩ := exampleRelease envIR envI_ok t ws h 0 (by norm_num)
  exact ⟨o, h1, by rw [h2]; simp⟩

end Props
end Adwt
