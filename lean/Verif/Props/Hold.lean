import Verif.Props.Safety

/-!
# C28 - C30, C49, C50: held phases, waveform selection, integer ranges, progress, missing `init`
-/

set_option linter.unusedSectionVars false

namespace Adwt
variable {K C : Type} [Field K] [LinearOrder K] [IsStrictOrderedRing K] [FloorRing K]
variable [Zero C] [Add C] [Sub C] [Mul C] [Div C]

namespace Sys
variable {S : Sys K C} {nw L : ℕ} {o : Osc K C}

theorem findLoop_zero {l : List K} (h : ∀ s ∈ l, 0 < s) : CrossFader.findLoop 0 l = 0 := by
  match l, h with
  | [], _ => rfl
  | [_], _ => rfl
  | s :: s' :: r, h =>
    unfold CrossFader.findLoop
    rw [if_pos (h s (by simp))]

/-- in release builds the crossfader only looks at the octave of the step -/
theorem newIndices_congr {E : Env K} (hdbg : E.dbg = false) (c : CrossFader K) {d d' : K}
    (h : CrossFader.findLoop d c.scale = CrossFader.findLoop d' c.scale) :
    c.newIndices E d = c.newIndices E d' := by
  unfold CrossFader.newIndices CrossFader.findMipMapIndex
  rw [h]
  simp [chk, hdbg]

theorem find_zero (hf : Rounding S.env.fl) (hdbg : S.env.dbg = false) {wt : WavetableData K}
    (hw : WtOk nw L wt) :
    ∃ c t, wt.findMipMapIndices S.env 0 = .ok ({ wt with cf := c }, t) ∧
      WtOk nw L { wt with cf := c } ∧ 0 ≤ t.idx ∧ t.idx < (L : ℤ) - 1 := by
  have hpos : (0 : K) < 1 / 2 ^ L := by positivity
  obtain ⟨c, t, hn, hfind, hw', -, h0, h1, -⟩ := find_spec hf hw hpos
  refine ⟨c, t, ?_, hw', h0, h1⟩
  have e1 : CrossFader.findLoop (0 : K) wt.cf.scale = 0 := by
    rw [hw.scale]
    apply findLoop_zero
    intro s hs
    unfold octaveScale at hs
    simp only [List.mem_map] at hs
    obtain ⟨i, -, rfl⟩ := hs
    positivity
  have e2 : CrossFader.findLoop ((1 : K) / 2 ^ L) wt.cf.scale = 0 := by
    have : (CrossFader.findLoop ((1 : K) / 2 ^ L) wt.cf.scale : ℤ) = 0 := by
      rw [hw.scale]
      apply CrossFader.findLoop_of_octave hw.L2
      have := hw.L2
      refine ⟨le_rfl, by omega, Or.inl rfl, Or.inr ?_⟩
      exact div_lt_div_of_pos_right (by norm_num) (by positivity)
    exact_mod_cast this
  unfold WavetableData.findMipMapIndices at hfind ⊢
  rw [newIndices_congr hdbg wt.cf (e1.trans e2.symm)]
  exact hfind

theorem irange_cons {a b : ℤ} (h : a < b) : irange a b = a :: irange (a + 1) b := by
  unfold irange
  have : (b - a).toNat = (b - (a + 1)).toNat + 1 := by omega
  rw [this, List.range_succ_eq_map]
  simp only [List.map_cons, List.map_map, Nat.cast_zero, add_zero]
  congr 1
  apply List.map_congr_left
  intro k _
  simp only [Function.comp, Nat.succ_eq_add_one]
  push_cast; ring

/-- a corner with step zero -/
theorem computeISumFwd_zero {wt : WavetableData K} {crt mip N : ℤ} {m q md qd ph : List K}
    (T : Tabs wt crt mip N m q md qd ph) {jmin jmax : ℤ}
    (h0 : 0 ≤ jmin) (h1 : jmin < N) (hlt : jmin < bornSup jmin jmax N) (x : K) (a : ℕ → C) :
    S.computeISumFwd wt crt mip jmin jmax 0 x a = .error .divByZero := by
  unfold computeISumFwd
  rw [T.len, R.ok_bind, T.emd, R.ok_bind, T.eqd, R.ok_bind, T.eph, R.ok_bind, irange_cons hlt,
    List.foldlM_cons]
  obtain ⟨hr, hr0, hr1⟩ := reduceI_red (dbg := S.env.dbg) (i := jmin) (N := N) h0 (by omega)
  unfold iSumFwdStep
  dsimp only
  rw [hr, R.ok_bind, rd_getD' (by omega) (by rw [T.lph]; omega), R.ok_bind]
  unfold fdiv
  rw [if_pos rfl]; rfl

/-- On a point of the grids of all tables the inherited position is exact, whatever the table
change. -/
theorem adj_quarter (ho : OscOk S nw L o) {m : ℤ} (hm : o.prevPhase * 4 = m) {mip : ℤ}
    (hm0 : 0 ≤ mip) (hm1 : mip < (L : ℤ) - 1) :
    adj (L - mip.toNat) mip o.prevMip o.jRed o.prevPhaseDiff o.prevPhaseRed =
      m * 2 ^ (L - mip.toNat - 2) := by
  have hx : o.prevPhase = (m : K) / 4 := by rw [← hm]; ring
  have h4 : ∀ n : ℕ, 2 ≤ n → o.prevPhase * 2 ^ n = ((m * 2 ^ (n - 2) : ℤ) : K) := by
    intro n hn
    rw [hx]
    have : (2 : K) ^ n = 2 ^ (n - 2) * 4 := by
      conv_lhs => rw [show n = n - 2 + 2 by omega, pow_add]
      norm_num
    rw [this]; push_cast; ring
  have hj : o.jRed = m * 2 ^ (L - o.prevMip.toNat - 2) := by
    have h0 := ho.mip0
    have h1 := ho.mip1
    rcases lt_or_gt_of_ne ho.diff with h | h
    · rw [ho.posB h, h4 _ (by omega), Int.ceil_intCast]
    · rw [ho.posF h, h4 _ (by omega), Int.floor_intCast]
  have h0 := ho.mip0
  have h1 := ho.mip1
  have hgrid : ((m * 2 ^ (L - mip.toNat - 2) : ℤ) : K) / 2 ^ (L - mip.toNat) = o.prevPhase := by
    rw [← h4 _ (by omega)]; field_simp
  unfold adj
  rw [ho.red]
  by_cases c1 : mip > o.prevMip
  · rw [if_pos c1, hj]
    have : (2 : ℤ) ^ (L - o.prevMip.toNat - 2) =
        2 ^ (L - mip.toNat - 2) * 2 ^ (mip - o.prevMip).toNat := by
      rw [← pow_add]; congr 1; omega
    rw [this, ← mul_assoc, Int.mul_ediv_cancel _ (by positivity)]
  · rw [if_neg c1]
    by_cases c2 : mip < o.prevMip
    · have e : o.jRed * 2 ^ (o.prevMip - mip).toNat = m * 2 ^ (L - mip.toNat - 2) := by
        rw [hj, mul_assoc, ← pow_add]; congr 2; omega
      rw [if_pos c2, e]
      have hp : (0 : K) < 2 ^ (L - mip.toNat) := by positivity
      have n1 : ¬ ((m * 2 ^ (L - mip.toNat - 2) + 1 : ℤ) : K) / 2 ^ (L - mip.toNat) < o.prevPhase := by
        rw [← hgrid]
        apply not_lt.2
        apply div_le_div_of_nonneg_right _ hp.le
        push_cast; linarith
      have n2 : ¬ ((m * 2 ^ (L - mip.toNat - 2) - 1 : ℤ) : K) / 2 ^ (L - mip.toNat) > o.prevPhase := by
        rw [← hgrid]
        apply not_lt.2
        apply div_le_div_of_nonneg_right _ hp.le
        push_cast; linarith
      rw [if_neg n1, if_neg n2]
      split <;> omega
    · rw [if_neg c2, hj]
      have : mip = o.prevMip := by omega
      rw [this]

/-- a held phase on the grid, release build -/
theorem hold_quarter (hf : Rounding S.env.fl) (hB : 0 < S.B) (hdbg : S.env.dbg = false)
    (ho : OscPlay S nw L o) {m : ℤ} (hm : o.prevPhase * 4 = m) :
    S.processSampleFwd o o.prevPhase 0 = .error .divByZero ∨
    (AtZeroBackward o ∧ S.processSampleFwd o o.prevPhase 0 = .error .outOfBounds) := by
  obtain ⟨wt, hwt, hw⟩ := ho.wt
  obtain ⟨c, t, hfind, hw', ht0, ht1⟩ := find_zero hf hdbg hw
  have hchk : ∀ p : Prop, ∀ [Decidable p], chk S.env.dbg p = .ok () := by
    intro p _; unfold chk; rw [hdbg]; simp
  by_cases hz : AtZeroBackward o ∧ t.idx < o.prevMip
  · right
    refine ⟨hz.1, ?_⟩
    unfold processSampleFwd
    dsimp only
    rw [hchk, R.ok_bind, hwt]
    dsimp only
    rw [hfind, R.ok_bind]
    dsimp only
    rw [hw'.phaseSpan ht0 ht1, R.ok_bind, Maths.reduceF_unit hf ho.p0 ho.p1, R.ok_bind,
      hw'.waveformLen ht0 ht1, R.ok_bind, adjustJ_oob hz.2 hz.1.2 (jRed_zero ho.toOscOk hz.1)]
    rfl
  · left
    have hL := hw.L18
    obtain ⟨⟨x, hx, hx0, hx1⟩, hj0, hj1, e⟩ := fwd_pre hf hwt ho.toOscOk ho.p0 ho.p1 ho.fl.1
      (d := 0) (hchk _) hfind hw' ht0 ht1 (safe_of ho.toOscOk hz)
    rw [e]
    dsimp only
    rw [← hx]
    set n := L - t.idx.toNat with hn
    have hadj := adj_quarter ho.toOscOk hm ht0 ht1
    rw [← hn] at hadj
    have hn2 : 2 ≤ n := by omega
    have hpow : (2 : K) ^ n = 2 ^ (n - 2) * 4 := by
      conv_lhs => rw [show n = n - 2 + 2 by omega, pow_add]
      norm_num
    have hpos : o.prevPhase * 2 ^ n = ((m * 2 ^ (n - 2) : ℤ) : K) := by
      rw [hpow]; push_cast; rw [← hm]; ring
    have hfl : ⌊o.prevPhase * 2 ^ n⌋ = m * 2 ^ (n - 2) := by rw [hpos, Int.floor_intCast]
    have hpj : S.prevJF o n t.idx = m * 2 ^ (n - 2) := by
      unfold prevJF
      dsimp only
      rw [hadj]
      split
      · have : o.prevPhaseRed - ((m * 2 ^ (n - 2) : ℤ) : K) / 2 ^ n = 0 := by
          rw [← hpos, ho.red]; field_simp; ring
        rw [this, hf.zero]
        have : Maths.sign (0 : K) = 0 := by
          unfold Maths.sign Maths.kMin
          rw [if_pos (by rw [abs_zero]; positivity)]
        rw [this, add_zero]
      · rfl
    rw [hfl] at hj0 hj1 ⊢
    rw [hpj] at hx
    have hlt : x < bornSup x (m * 2 ^ (n - 2)) (2 ^ n) := by
      unfold bornSup
      have hN := (hw.len_pos ht0 ht1).1
      rw [← hn] at hN
      generalize m * 2 ^ (n - 2) = g at *
      generalize (2 : ℤ) ^ n = N at *
      rcases lt_or_ge g 1 with h | h
      · have : g = 0 := by omega
        subst this
        have : x = N - 1 := by
          have e : ((0 : ℤ) - 1) % N = (N - 1) % N := by
            rw [show N - 1 = 0 - 1 + N * 1 by ring, Int.add_mul_emod_self_left]
          rw [hx, e, Int.emod_eq_of_lt (by omega) (by omega)]
        rw [if_pos (by omega)]; omega
      · have : x = g - 1 := by rw [hx, Int.emod_eq_of_lt (by omega) (by omega)]
        rw [if_neg (by omega)]; omega
    obtain ⟨m', q, md, qd, T⟩ := hw'.tabs o.crt t.idx ho.crt0 ho.crt1 ht0 ht1
    rw [← hn] at T
    obtain ⟨a1, ea1, -⟩ := computeI0_spec hB T hx0 hx1 hj0 hj1 0
      (S.env.fl (o.prevPhaseRed + ofBool (decide (o.prevPhaseRed = 0)))) o.prevPhase (fun _ => 0)
    have : S.computeFwdI { wt with cf := c } o.crt o.prevPhaseRed t.idx x (m * 2 ^ (n - 2)) 0
        o.prevPhase (fun _ => 0) = .error .divByZero := by
      unfold computeFwdI
      dsimp only
      rw [ea1, R.ok_bind, computeISumFwd_zero T hx0 hx1 hlt]
    rw [this]; rfl

/-- the first access to the rows of a waveform that does not exist -/
theorem mSpan_oob {wt : WavetableData K} (hr : (wt.m.length : ℤ) = nw) {i : ℤ}
    (hi : i < 0 ∨ (nw : ℤ) ≤ i) (mip : ℤ) : wt.mSpan i mip = .error .outOfBounds := by
  unfold WavetableData.mSpan WavetableData.rd2 rd
  rcases hi with hi | hi
  · rw [if_neg (by omega)]; rfl
  · by_cases h : 0 ≤ i
    · rw [if_pos h, List.getElem?_eq_none (by omega)]; rfl
    · rw [if_neg h]; rfl

theorem sample_oob (hf : Rounding S.env.fl) (ho : OscOk S nw L o)
    (hc : o.crt < 0 ∨ (nw : ℤ) ≤ o.crt) {p d : K} (hp : PhaseOk S.env.fl p) :
    ((0 < d ∧ d ≤ 1 / 2) → S.processSampleFwd o p d = .error .outOfBounds) ∧
    ((d < 0 ∧ -(1 / 2) ≤ d) → S.processSampleBwd o p d = .error .outOfBounds) := by
  obtain ⟨wt, hwt, hw⟩ := ho.wt
  constructor
  · rintro ⟨hd0, hd1⟩
    obtain ⟨c, t, hn, hfind, hw', hcs, ht0, ht1, htu⟩ := find_spec hf hw hd0
    by_cases hs : AtZeroBackward o ∧ t.idx < o.prevMip
    · unfold processSampleFwd
      dsimp only
      rw [chk_true ⟨hd0, hd1⟩, R.ok_bind, hwt]
      dsimp only
      rw [hfind, R.ok_bind]
      dsimp only
      rw [hw'.phaseSpan ht0 ht1, R.ok_bind, Maths.reduceF_unit hf hp.1 hp.2.1, R.ok_bind,
        hw'.waveformLen ht0 ht1, R.ok_bind, adjustJ_oob hs.2 hs.1.2 (jRed_zero ho hs.1)]
      rfl
    · rw [(fwd_pre hf hwt ho hp.1 hp.2.1 hp.2.2.1 (chk_true ⟨hd0, hd1⟩) hfind hw' ht0 ht1
        (safe_of ho hs)).2.2.2]
      dsimp only
      unfold computeFwdI computeI0
      dsimp only
      rw [mSpan_oob (nw := nw) hw'.rows hc]
      rfl
  · rintro ⟨hd0, hd1⟩
    obtain ⟨c, t, hn, hfind, hw', hcs, ht0, ht1, htu⟩ := find_spec hf hw (abs_pos.2 hd0.ne)
    by_cases hs : AtZeroBackward o ∧ t.idx < o.prevMip
    · unfold processSampleBwd
      dsimp only
      rw [chk_true ⟨hd0, hd1⟩, R.ok_bind, hwt]
      dsimp only
      rw [hfind, R.ok_bind]
      dsimp only
      rw [hw'.phaseSpan ht0 ht1, R.ok_bind, Maths.reduceF_unit hf hp.1 hp.2.1, R.ok_bind,
        hw'.waveformLen ht0 ht1, R.ok_bind, adjustJ_oob hs.2 hs.1.2 (jRed_zero ho hs.1)]
      rfl
    · rw [bwd_pre hf hwt ho hp.1 hp.2.1 hp.2.2.1 (chk_true ⟨hd0, hd1⟩) hfind hw' ht0 ht1
        (safe_of ho hs)]
      dsimp only
      unfold computeBwdI computeI0
      dsimp only
      rw [chk_true hd0, R.ok_bind, mSpan_oob (nw := nw) hw'.rows hc]
      rfl

end Sys

namespace Props
open WavetableData

/-! ### C28 -/

/-- C28 is false in debug builds: holding the phase aborts, in both modes, whatever the state of the
oscillator. -/
theorem C28_debug_aborts (S : Sys K C) (hf : Rounding S.env.fl) (hdbg : S.env.dbg = true)
    (dir : Sys.Direction) (o : Osc K C) (hw : o.wt.isSome = true) (ps out : List K)
    (hlen : ps.length + 1 = out.length) :
    S.process dir o (o.prevPhase :: ps) out = .error .assertFail := by
  rw [Sys.process_runDir S dir hw (by simpa using hlen)]
  unfold Sys.runDir
  have hc : ∀ p : Prop, ∀ [Decidable p], ¬ p → chk S.env.dbg p = .error .assertFail := by
    intro p _ hp; unfold chk; rw [if_pos ⟨hdbg, hp⟩]
  cases dir with
  | kForward =>
    show (S.stepFwd o o.prevPhase >>= _) = _
    unfold Sys.stepFwd
    dsimp only
    rw [sub_self, hf.zero, if_neg (lt_irrefl _), hc _ (by simp)]
    rfl
  | kBidirectionnal =>
    show (S.stepBi o o.prevPhase >>= _) = _
    have : Sys.biDiff S.env.fl o.prevPhase o.prevPhase = 0 := by
      unfold Sys.biDiff
      dsimp only
      rw [sub_self, hf.zero, if_neg (by norm_num), if_neg (by norm_num)]
    unfold Sys.stepBi
    dsimp only
    rw [this, if_pos (le_refl (0 : K))]
    unfold Sys.processSampleFwd
    dsimp only
    rw [hc _ (by simp)]
    rfl

/-- C28 is false in release builds: holding a phase that is a multiple of 1/4 (a point of the grid
of every mipmap table) divides by zero, whatever was played before; after a backward step that ended
at phase 0 it may instead access a table out of bounds. -/
theorem C28_release_divides_by_zero (S : Sys K C) (hf : Rounding S.env.fl)
    (hl : Log2Spec S.env.log2f) (hB : 0 < S.B) (hdbg : S.env.dbg = false) (nw L : ℕ) (o : Osc K C)
    (ho : Reached S nw L o) (m : ℤ) (hm : o.prevPhase = (m : K) / 4) (dir : Sys.Direction)
    (ps out : List K) (hlen : ps.length + 1 = out.length) :
    S.process dir o (o.prevPhase :: ps) out = .error .divByZero ∨
    (AtZeroBackward o ∧ S.process dir o (o.prevPhase :: ps) out = .error .outOfBounds) := by
  have hs := Sys.reached_play hf hl hB ho
  obtain ⟨wt, hwt, hw⟩ := hs.wt
  rw [Sys.process_runDir S dir (by rw [hwt]; rfl) (by simpa using hlen)]
  unfold Sys.runDir
  have hstep : S.stepDir dir o o.prevPhase = S.processSampleFwd o o.prevPhase 0 := by
    cases dir with
    | kForward =>
      show S.stepFwd o o.prevPhase = _
      unfold Sys.stepFwd
      dsimp only
      rw [sub_self, hf.zero, if_neg (lt_irrefl _)]
      unfold chk
      rw [hdbg]; simp
    | kBidirectionnal =>
      show S.stepBi o o.prevPhase = _
      have : Sys.biDiff S.env.fl o.prevPhase o.prevPhase = 0 := by
        unfold Sys.biDiff
        dsimp only
        rw [sub_self, hf.zero, if_neg (by norm_num), if_neg (by norm_num)]
      unfold Sys.stepBi
      dsimp only
      rw [this, if_pos (le_refl (0 : K))]
  rw [hstep]
  rcases Sys.hold_quarter hf hB hdbg hs (m := m) (by rw [hm]; ring) with e | ⟨h, e⟩
  · left; rw [e]; rfl
  · right; exact ⟨h, by rw [e]; rfl⟩

/-- C28: the usage example of the README. A new oscillator, `init` with any built wavetable at
phase 0 and a positive step (0.4 by default), then a block of zero phases: the debug build aborts,
the release build divides by zero. -/
theorem C28_readme_example (S : Sys K C) (hf : Rounding S.env.fl) (hl : Log2Spec S.env.log2f)
    (hB : 0 < S.B) (ws : List K) (nw L : ℕ) (sr dur : K) (wt : WavetableData K)
    (hb : Built S.env ws nw L sr dur wt) (d : K) (hd : 0 < d) (dir : Sys.Direction) (n : ℕ)
    (out : List K) (hn : n + 1 = out.length) :
    ∃ o, S.init S.fresh (some wt) 0 d = .ok (o, 0) ∧
      S.process dir o (List.replicate (n + 1) 0) out =
        .error (if S.env.dbg then .assertFail else .divByZero) := by
  have hp : PhaseOk S.env.fl 0 := ⟨le_rfl, by norm_num, hf.zero_ph⟩
  obtain ⟨⟨o, r⟩, e, h1, h2, h3, -, rfl, -⟩ := Sys.init_play hf S.fresh (hb.ok hf hl) hp hd.ne'
  dsimp only at h1 h2 h3 e
  refine ⟨o, e, ?_⟩
  have hr : List.replicate (n + 1) (0 : K) = o.prevPhase :: List.replicate n 0 := by
    rw [h2]; rfl
  rw [hr]
  obtain ⟨wt', hwt, -⟩ := h1.wt
  cases hdbg : S.env.dbg with
  | true =>
    exact C28_debug_aborts S hf hdbg dir o (by rw [hwt]; rfl) _ out (by simpa using hn)
  | false =>
    rcases C28_release_divides_by_zero S hf hl hB hdbg nw L o (Reached.init hb ⟨hp, hd.ne'⟩ e) 0
      (by rw [h2]; simp) dir (List.replicate n 0) out (by simpa using hn) with h | ⟨h, -⟩
    · exact h
    · exact absurd h.2 (by rw [h3]; exact not_lt.2 hd.le)

/-- The hypotheses hold for the default oscillator in both arithmetics. -/
example (t : FilterType) : ∃ o, Reached (sysOf envI t) 1 3 o ∧ o.prevPhase = ((0 : ℤ) : ℝ) / 4 := by
  obtain ⟨o, h, h0, -⟩ := exampleReached envI envI_ok t [1, 2, 3, 4, 5, 6, 7, 8] rfl
  exact ⟨o, h, by rw [h0]; simp⟩

/-! ### C29 -/

/-- C29: `setWaveform` accepts any index. -/
theorem C29_set_accepts_all (S : Sys K C) (o : Osc K C) (hw : o.wt.isSome = true) (i : ℤ) :
    S.setWaveform o i = .ok { o with crt := i } := by
  unfold Sys.setWaveform
  rw [chk_true hw, R.ok_bind]; rfl

/-- C29: with an index outside the waveforms, the next legal block is an access out of bounds,
whatever was played before, in both modes and both builds. -/
theorem C29_out_of_range (S : Sys K C) (hf : Rounding S.env.fl) (hl : Log2Spec S.env.log2f)
    (hB : 0 < S.B) (nw L : ℕ) (o : Osc K C) (ho : Reached S nw L o) (i : ℤ)
    (hi : i < 0 ∨ (nw : ℤ) ≤ i) (dir : Sys.Direction) (p : K) (ps out : List K)
    (hp : PhaseOk S.env.fl p) (hs : StepOk dir o.prevPhase p) (hlen : ps.length + 1 = out.length) :
    ∃ o', S.setWaveform o i = .ok o' ∧ S.process dir o' (p :: ps) out = .error .outOfBounds := by
  have hpl := Sys.reached_play hf hl hB ho
  obtain ⟨wt, hwt, hw⟩ := hpl.wt
  refine ⟨_, C29_set_accepts_all S o (by rw [hwt]; rfl) i, ?_⟩
  rw [Sys.process_runDir S dir (by show o.wt.isSome = true; rw [hwt]; rfl) (by simpa using hlen)]
  have hok : OscOk S nw L { o with crt := i } := ⟨hpl.wt, hpl.mip0, hpl.mip1, hpl.j0, hpl.j1,
    hpl.jf, hpl.jb, hpl.p0, hpl.p1, hpl.red, hpl.fl, hpl.diff, hpl.posF, hpl.posB⟩
  unfold Sys.runDir
  suffices h : S.stepDir dir { o with crt := i } p = .error .outOfBounds by rw [h]; rfl
  cases dir with
  | kForward =>
    show S.stepFwd _ p = _
    rw [Sys.stepFwd_eq hf hok hp hs]
    exact (Sys.sample_oob hf hok hi hp).1 (Sys.fwdDiff_range hf hok.phase hp hs)
  | kBidirectionnal =>
    show S.stepBi _ p = _
    obtain ⟨a, b, c⟩ := Sys.biDiff_range hf hok.phase hp
    unfold Sys.stepBi
    dsimp only at a b c ⊢
    have hne : Sys.biDiff S.env.fl p o.prevPhase ≠ 0 := fun e => hs (c.1 e)
    split
    · rename_i hg
      exact (Sys.sample_oob hf hok hi hp).1 ⟨lt_of_le_of_ne hg (Ne.symm hne), b⟩
    · rename_i hg
      exact (Sys.sample_oob hf hok hi hp).2 ⟨not_le.1 hg, a⟩

/-- C29: with an index inside the waveforms, the next legal sample succeeds (in the states from
which playback is safe, see C27). -/
theorem C29_in_range (S : Sys K C) (hf : Rounding S.env.fl) (hl : Log2Spec S.env.log2f)
    (hB : 0 < S.B) (nw L : ℕ) (o : Osc K C) (ho : Reached S nw L o) (hz : ¬ AtZeroBackward o) (i : ℤ)
    (h0 : 0 ≤ i) (h1 : i < nw) (dir : Sys.Direction) (ps out : List K)
    (hp : BlockSafe S.env.fl dir o.prevPhase ps) (hlen : ps.length = out.length) :
    ∃ o' o'' ys, S.setWaveform o i = .ok o' ∧ S.process dir o' ps out = .ok (o'', ys) := by
  have hpl := Sys.reached_play hf hl hB ho
  obtain ⟨wt, hwt, hw⟩ := hpl.wt
  have hset := C29_set_accepts_all S o (by rw [hwt]; rfl) i
  have hs := Sys.reached_safe hf hl hB (Reached.setWaveform ho h0 h1 hset) hz
  obtain ⟨⟨o'', ys⟩, e, -⟩ := Sys.run_ok hf hB hs hp
  refine ⟨_, o'', ys, hset, ?_⟩
  rw [Sys.process_runDir S dir (by show o.wt.isSome = true; rw [hwt]; rfl) hlen, e]

/-! ### C30 -/

/-- C30: the integers kept between calls stay in small ranges in every reached state: the table
index, the position in the table, the selected waveform, the crossfade counter. -/
theorem C30_state (S : Sys K C) (hf : Rounding S.env.fl) (hl : Log2Spec S.env.log2f)
    (hB : 0 < S.B) (nw L : ℕ) (o : Osc K C) (ho : Reached S nw L o) :
    (0 ≤ o.prevMip ∧ o.prevMip < (L : ℤ) - 1 ∧ L ≤ 18) ∧
    (∃ wt len, o.wt = some wt ∧ wt.waveformLen o.prevMip = .ok len ∧ len ≤ 2 ^ 18 ∧
      0 ≤ o.jRed ∧ o.jRed ≤ len ∧
      0 ≤ wt.cf.samplesLeft ∧ wt.cf.samplesLeft ≤ wt.cf.numSamples ∧ wt.cf.numSamples < 2 ^ 31) ∧
    0 ≤ o.crt ∧ o.crt < nw := by
  have h := Sys.reached_play hf hl hB ho
  obtain ⟨wt, hwt, hw⟩ := h.wt
  refine ⟨⟨h.mip0, h.mip1, hw.L18⟩, ⟨wt, _, hwt, hw.waveformLen h.mip0 h.mip1,
    (hw.len_pos h.mip0 h.mip1).2, h.j0, h.j1, hw.inv.left0, hw.inv.left1, hw.num31⟩, h.crt0, h.crt1⟩

/-- C30: the integers computed while moving the position to another table: the shift amount is
below 18, and the shifted position stays in the new table (so that `+1` and `-1` cannot overflow
either). -/
theorem C30_shifts (S : Sys K C) (hf : Rounding S.env.fl) (hl : Log2Spec S.env.log2f)
    (hB : 0 < S.B) (nw L : ℕ) (o : Osc K C) (ho : Reached S nw L o) (mip : ℤ) (h0 : 0 ≤ mip)
    (h1 : mip < (L : ℤ) - 1) :
    |mip - o.prevMip| < 18 ∧
    (mip ≤ o.prevMip → ∃ wt len, o.wt = some wt ∧ wt.waveformLen mip = .ok len ∧ len ≤ 2 ^ 18 ∧
      0 ≤ o.jRed * 2 ^ (o.prevMip - mip).toNat ∧ o.jRed * 2 ^ (o.prevMip - mip).toNat ≤ len) := by
  have h := Sys.reached_play hf hl hB ho
  obtain ⟨wt, hwt, hw⟩ := h.wt
  have hL := hw.L18
  have hm0 := h.mip0
  have hm1 := h.mip1
  refine ⟨by rw [abs_lt]; omega, fun hm => ⟨wt, _, hwt, hw.waveformLen h0 h1, (hw.len_pos h0 h1).2,
    mul_nonneg h.j0 (by positivity), ?_⟩⟩
  have e : (2 : ℤ) ^ (L - mip.toNat) = 2 ^ (L - o.prevMip.toNat) * 2 ^ (o.prevMip - mip).toNat := by
    rw [← pow_add]; congr 1; omega
  rw [e]
  exact mul_le_mul_of_nonneg_right h.j1 (by positivity)

/-- C30: after a legal sample that succeeds, the kept segment index is between `-1` and one past the
table, and for table positions the bounds of the corner loop and all of its indices are below twice
the table length. -/
theorem C30_after_sample (S : Sys K C) (hf : Rounding S.env.fl) (hl : Log2Spec S.env.log2f)
    (hB : 0 < S.B) (nw L : ℕ) (o : Osc K C) (ho : Reached S nw L o) (dir : Sys.Direction) (p b y : K)
    (hp : PhaseOk S.env.fl p) (hs : StepOk dir o.prevPhase p) (o' : Osc K C)
    (h : S.process dir o [p] [b] = .ok (o', [y])) :
    ∃ wt len, o'.wt = some wt ∧ wt.waveformLen o'.prevMip = .ok len ∧ len ≤ 2 ^ 18 ∧
      -1 ≤ o'.prevJRed ∧ o'.prevJRed ≤ len + 1 ∧
      ∀ jmin jmax : ℤ, 0 ≤ jmin → jmin < len → 0 ≤ jmax → jmax < len →
        0 ≤ Sys.bornSup jmin jmax len ∧ Sys.bornSup jmin jmax len < 2 * len := by
  have hs' := Sys.reached_play hf hl hB ho
  obtain ⟨wt, hwt, -⟩ := hs'.wt
  rw [Sys.process_runDir S dir (by rw [hwt]; rfl) (show [p].length = [b].length from rfl)] at h
  unfold Sys.runDir at h
  rcases Sys.step_cases hf hB hs' hp hs with ⟨⟨⟨o1, y1⟩, e, hr⟩, -⟩ | ⟨e, -⟩
  swap
  · rw [e] at h; cases h
  rw [e] at h
  have heq : o1 = o' := by
    have := Except.ok.inj h
    exact congrArg Prod.fst this
  subst heq
  dsimp only at hr
  obtain ⟨wt', hwt', hw'⟩ := hr.ok.wt
  have hlen := hw'.len_pos hr.ok.mip0 hr.ok.mip1
  refine ⟨wt', _, hwt', hw'.waveformLen hr.ok.mip0 hr.ok.mip1, hlen.2, hr.pj0, hr.pj1, ?_⟩
  intro jmin jmax a0 a1 b0 b1
  unfold Sys.bornSup
  split <;> omega

/-! ### C49: progress -/

/-- C49: in every reached state every legal call other than `process` succeeds and leads to a
reached state: `init` and `swapWavetable` with a built wavetable, `resetInternals`, `setWaveform` in
range, and, with a resampler that honours its contract, `updateSamplerate` to a positive samplerate
at which 5 ms are at least one sample and fewer than 2^31. (For `process` see C26 and C27.) -/
theorem C49_progress (S : Sys K C) (hf : Rounding S.env.fl) (hl : Log2Spec S.env.log2f)
    (hB : 0 < S.B) (hsrc : SrcContract S.env.src) (nw L : ℕ) (o : Osc K C) (ho : Reached S nw L o) :
    (∀ ws nw' L' sr dur wt p d, Built S.env ws nw' L' sr dur wt → InitOk S.env.fl p d →
      (∃ o', S.init o (some wt) p d = .ok (o', 0) ∧ Reached S nw' L' o') ∧
      (∃ o', S.swapWavetable o (some wt) p d = .ok (o', o.wt) ∧ Reached S nw' L' o')) ∧
    (∀ p d, InitOk S.env.fl p d → ∃ o', S.resetInternals o p d = .ok o' ∧ Reached S nw L o') ∧
    (∀ i : ℤ, 0 ≤ i → i < nw → ∃ o', S.setWaveform o i = .ok o' ∧ Reached S nw L o') ∧
    (∀ sr, 0 < sr → IsRate S.env.fl sr → 1 ≤ S.env.fl (defaultDuration S.env * sr) →
      S.env.fl (defaultDuration S.env * sr) < 2 ^ 31 →
      ∃ o', S.updateSamplerate o sr = .ok o' ∧ Reached S nw L o') := by
  have h := Sys.reached_play hf hl hB ho
  obtain ⟨wt0, hwt, hw⟩ := h.wt
  refine ⟨?_, ?_, ?_, ?_⟩
  · intro ws nw' L' sr dur wt p d hb hi
    constructor
    · obtain ⟨⟨o', r⟩, e, -, -, -, -, rfl, -⟩ := Sys.init_play hf o (hb.ok hf hl) hi.1 hi.2
      exact ⟨o', e, Reached.init hb hi e⟩
    · obtain ⟨⟨o', r⟩, e, -, -, -, -, rfl, -⟩ := Sys.swap_play hf o (hb.ok hf hl) hi
      exact ⟨o', e, Reached.swap ho hb hi e⟩
  · intro p d hi
    obtain ⟨o', e, -⟩ := Sys.reset_play hf hwt hw hi.1 hi.2 h.crt0 h.crt1
    exact ⟨o', e, Reached.reset ho hi e⟩
  · intro i h0 h1
    have e := C29_set_accepts_all S o (by rw [hwt]; rfl) i
    exact ⟨_, e, Reached.setWaveform ho h0 h1 e⟩
  · intro sr hs0 hs hx hx2
    obtain ⟨wt', e⟩ := hw.update_ok hf hl hsrc hs hs0 (dur := defaultDuration S.env)
      ⟨le_trans (by norm_num) hx, hx2⟩
    have e' : S.updateSamplerate o sr = .ok { o with wt := some wt' } := by
      unfold Sys.updateSamplerate
      rw [hwt]
      dsimp only
      rw [e]; rfl
    exact ⟨_, e', Reached.updateSamplerate ho hs hx e'⟩

/-! ### C50: calls before `init` -/

/-- C50: an oscillator whose `init` was never called successfully: `process`, `resetInternals`,
`updateSamplerate`, `setWaveform` and `numWaveforms` abort in debug builds; in release builds they
dereference null, except `setWaveform` and an empty `process`. -/
theorem C50_uninitialised (S : Sys K C) (o : Osc K C) (hw : o.wt = none) (dir : Sys.Direction)
    (ps out : List K) (hlen : ps.length = out.length) (hps : ps ≠ []) (p d sr : K) (i : ℤ) :
    (S.env.dbg = true → S.process dir o ps out = .error .assertFail ∧
      S.resetInternals o p d = .error .assertFail ∧ S.updateSamplerate o sr = .error .assertFail ∧
      S.setWaveform o i = .error .assertFail ∧ S.numWaveforms o = .error .assertFail) ∧
    (S.env.dbg = false → S.process dir o ps out = .error .nullDeref ∧
      S.resetInternals o p d = .error .nullDeref ∧ S.updateSamplerate o sr = .error .nullDeref ∧
      S.setWaveform o i = .ok { o with crt := i } ∧ S.numWaveforms o = .error .nullDeref) := by
  constructor
  · intro hd
    unfold Sys.process Sys.resetInternals Sys.updateSamplerate Sys.setWaveform Sys.numWaveforms chk
    simp [hw, hd, bind, Except.bind]
  · intro hd
    refine ⟨?_, ?_, ?_, ?_, ?_⟩
    · unfold Sys.process
      obtain ⟨q, qs, rfl⟩ := List.exists_cons_of_ne_nil hps
      have hstep : S.stepDir dir o q = .error .nullDeref := by
        cases dir with
        | kForward =>
          show S.stepFwd o q = _
          unfold Sys.stepFwd Sys.processSampleFwd chk
          simp [hw, hd, bind, Except.bind]
        | kBidirectionnal =>
          show S.stepBi o q = _
          unfold Sys.stepBi Sys.processSampleFwd Sys.processSampleBwd chk
          simp [hw, hd, bind, Except.bind]
      rw [← hlen, List.take_length]
      unfold Sys.runDir
      rw [hstep]
      simp [hw, hd, chk, bind, Except.bind]
    · unfold Sys.resetInternals chk
      simp [hw, hd, bind, Except.bind]
    · unfold Sys.updateSamplerate chk
      simp [hw, hd, bind, Except.bind]
    · unfold Sys.setWaveform chk
      simp [hw, hd, bind, Except.bind, pure, Except.pure]
    · unfold Sys.numWaveforms chk
      simp [hw, hd, bind, Except.bind]

/-- A new oscillator is such a state. -/
example (S : Sys K C) : S.fresh.wt = none := rfl

end Props
end Adwt
