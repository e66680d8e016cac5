import Verif.Proofs.History
import Verif.Spec.Reached

/-!
# Reached states are safe
-/

set_option linter.unusedSectionVars false

namespace Adwt
variable {K C : Type} [Field K] [LinearOrder K] [IsStrictOrderedRing K] [FloorRing K]
variable [Zero C] [Add C] [Sub C] [Mul C] [Div C]

theorem toInt_ge_one {x : K} {n : ℤ} (h : toInt x = .ok n) (hx : 1 ≤ x) : 1 ≤ n := by
  unfold toInt at h
  split at h
  · cases h
    unfold trunc
    rw [if_pos (by linarith), Int.le_floor]
    exact_mod_cast hx
  · cases h

theorem pow_inj_of_mul {nw L L' : ℕ} (h0 : 0 < nw) (h : nw * 2 ^ L = nw * 2 ^ L') : L = L' :=
  Nat.pow_right_injective (le_refl 2) (Nat.eq_of_mul_eq_mul_left h0 h)

theorem Built.ok {E : Env K} (hf : Rounding E.fl) (hl : Log2Spec E.log2f) {ws : List K} {nw L : ℕ}
    {sr dur : K} {wt : WavetableData K} (h : Built E ws nw L sr dur wt) : WtOk nw L wt := by
  obtain ⟨hs, hx, hlen, h⟩ := h
  obtain ⟨L', xf, h2, h18, hn, hs0, hlen', hxf, rfl⟩ := WavetableData.build_some hf hl hs h
  obtain ⟨L'', hw, hlen''⟩ := WtOk.of_build hf hl hs h (toInt_ge_one hxf hx)
  have e : ((nw : ℤ)).toNat = nw := by simp
  rw [e] at hw hlen'' hlen' ⊢
  have : L'' = L := pow_inj_of_mul (by omega) (hlen''.symm.trans hlen)
  subst this
  exact hw

/-- the samples recovered from the tables have the right shape -/
theorem WtOk.rebuild {E : Env K} {nw L : ℕ} {wt : WavetableData K} (h : WtOk nw L wt) :
    Ok (WavetableData.rebuildWaveforms E wt) fun ws => ws.length = nw * 2 ^ L := by
  have hL := h.L2
  have hnw := h.nw0
  have hwl := h.waveformLen (i := 0) le_rfl (by omega)
  have hph := h.phaseSpan (i := 0) le_rfl (by omega)
  have hne : wt.phases ≠ [] := by
    intro e
    unfold WavetableData.phaseSpan rd at hph
    rw [e] at hph; simp at hph
  unfold WavetableData.rebuildWaveforms
  rw [chk_true hne, R.ok_bind, hwl, R.ok_bind]
  have hml : wt.m.length = nw := by exact_mod_cast h.rows
  rw [hml]
  refine Ok.bind (Ok.mapM (Q := fun _ (r : List K) => r.length = 2 ^ L) fun w hw => ?_) fun ws hws => ?_
  · have hw' := List.mem_range.1 hw
    obtain ⟨m, q, md, qd, T⟩ := h.tabs w 0 (by omega) (by exact_mod_cast hw') le_rfl (by omega)
    rw [T.em, R.ok_bind, T.eq, R.ok_bind, T.eph, R.ok_bind]
    refine Ok.pure ?_
    have l1 := T.lm
    have l2 := T.lq
    have l3 := T.lph
    have e : (2 : ℤ) ^ (L - (0 : ℤ).toNat) = ((2 ^ L : ℕ) : ℤ) := by simp
    rw [e] at l1 l2 l3
    unfold WavetableData.rebuildOne
    simp only [List.length_zipWith, List.length_zip]
    omega
  · refine Ok.pure ?_
    have hlen : ws.length = nw := by
      have := hws.length_eq
      simpa using this.symm
    have hall : ∀ r ∈ ws, r.length = 2 ^ L := by
      intro r hr
      obtain ⟨k, hk, rfl⟩ := List.getElem_of_mem hr
      exact hws.get (i := k) (by simpa [hlen] using hk) hk
    rw [List.length_flatten, List.map_congr_left (g := fun _ => 2 ^ L) hall]
    simp [hlen]

theorem WtOk.update {E : Env K} (hf : Rounding E.fl) (hl : Log2Spec E.log2f) {nw L : ℕ}
    {wt wt' : WavetableData K} (h : WtOk nw L wt) {sr dur : K} (hs : IsRate E.fl sr)
    (hx : 1 ≤ E.fl (dur * sr)) (e : wt.updateSamplerate E sr dur = .ok wt') : WtOk nw L wt' := by
  obtain ⟨ws, ews, hws⟩ := h.rebuild (E := E)
  unfold WavetableData.updateSamplerate at e
  rw [ews, R.ok_bind] at e
  obtain ⟨nd, hnd, e⟩ := bind_ok e
  cases nd with
  | none => cases e
  | some d =>
    cases e
    have : wt.numWaveforms = nw := h.rows
    rw [this] at hnd
    exact Built.ok hf hl ⟨hs, hx, hws, hnd⟩

theorem WtOk.update_ok {E : Env K} (hf : Rounding E.fl) (hl : Log2Spec E.log2f)
    (hc : SrcContract E.src) {nw L : ℕ}
    {wt : WavetableData K} (h : WtOk nw L wt) {sr dur : K} (hs : IsRate E.fl sr) (hs0 : 0 < sr)
    (hx : -2 ^ 31 ≤ E.fl (dur * sr) ∧ E.fl (dur * sr) < 2 ^ 31) :
    ∃ wt', wt.updateSamplerate E sr dur = .ok wt' := by
  obtain ⟨ws, ews, hws⟩ := h.rebuild (E := E)
  have hrows : wt.numWaveforms = nw := h.rows
  unfold WavetableData.updateSamplerate
  rw [ews, R.ok_bind, hrows]
  rcases WavetableData.build_spec hf hl h.L2 h.L18 h.nw0 hws hs0 hs (toInt_ok hx.1 hx.2) with
    hb | ⟨hb, _⟩
  · rw [hb]; exact ⟨_, rfl⟩
  · exact absurd hc hb

namespace Sys
variable {S : Sys K C} {nw L : ℕ} {o : Osc K C}

theorem swap_play (hf : Rounding S.env.fl) (o : Osc K C) {wt : WavetableData K}
    (hw : WtOk nw L wt) {p d : K} (hi : InitOk S.env.fl p d) :
    Ok (S.swapWavetable o (some wt) p d) fun r => OscPlay S nw L r.1 ∧ r.1.prevPhase = p ∧
      r.1.prevPhaseDiff = d ∧ r.1.crt = 0 ∧ r.2 = o.wt ∧ r.1.prevY = List.replicate S.n 0 := by
  obtain ⟨⟨o', r⟩, h1, h2, h3, h4, h5, h6, h7⟩ := init_play hf o hw hi.1 hi.2
  unfold init at h1
  unfold swapWavetable
  dsimp only at h1 ⊢
  obtain ⟨o1, e1, e2⟩ := bind_ok h1
  cases e2
  rw [e1, R.ok_bind]
  exact Ok.pure ⟨h2, h3, h4, h5, rfl, h7⟩

theorem runDir_length {dir : Direction} {ps : List K} {o o' : Osc K C} {ys : List K}
    (h : S.runDir dir o ps = .ok (o', ys)) : ys.length = ps.length := by
  induction ps generalizing o o' ys with
  | nil => cases h; rfl
  | cons p ps ih =>
    unfold runDir at h
    obtain ⟨⟨o1, y⟩, h1, h⟩ := bind_ok h
    obtain ⟨⟨o2, ys'⟩, h2, h⟩ := bind_ok h
    cases h
    simp [ih h2]

theorem process_runDir (S : Sys K C) (dir : Direction) {o : Osc K C} (hw : o.wt.isSome = true)
    {ps out : List K} (hl : ps.length = out.length) :
    S.process dir o ps out = S.runDir dir o ps := by
  unfold process
  have : o.wt.isNone = false := by
    rw [← Option.not_isSome, hw]; rfl
  rw [this]
  simp only [Bool.false_eq_true, if_false, chk_true hl, R.pure_eq, R.ok_bind]
  rw [← hl, List.take_length]
  cases h : S.runDir dir o ps with
  | error e => rfl
  | ok r =>
    rw [R.ok_bind]
    have := runDir_length h
    simp [this, hl]

/-- invariant -/
theorem reached_play (hf : Rounding S.env.fl) (hl : Log2Spec S.env.log2f) (hB : 0 < S.B)
    (h : Reached S nw L o) : OscPlay S nw L o := by
  induction h with
  | init hb hi h => exact ((init_play hf _ (hb.ok hf hl) hi.1 hi.2).elim h).1
  | swap ho hb hi h ih => exact ((swap_play hf _ (hb.ok hf hl) hi).elim h).1
  | swapUsed ho h2 hw hi h ih ih2 =>
    obtain ⟨wt, e, hok⟩ := ih2.wt
    rw [hw] at e; cases e
    exact ((swap_play hf _ hok hi).elim h).1
  | process ho hp hl h ih =>
    obtain ⟨wt, hwt, -⟩ := ih.wt
    rcases run_cases hf hB ih hp with ⟨⟨o1, ys⟩, e, a, b, -, d⟩ | e
    · have := process_eq hwt _ hl e d
      rw [h] at this; cases this
      exact a
    · rw [process_runDir S _ (by rw [hwt]; rfl) hl, e] at h
      cases h
  | setWaveform ho h0 h1 h ih =>
    unfold Sys.setWaveform at h
    obtain ⟨_, _, h⟩ := bind_ok h
    cases h
    exact ⟨⟨ih.wt, ih.mip0, ih.mip1, ih.j0, ih.j1, ih.jf, ih.jb, ih.p0, ih.p1, ih.red,
          ih.fl, ih.diff, ih.posF, ih.posB⟩, h0, h1⟩
  | reset ho hi h ih =>
    obtain ⟨wt, hwt, hw⟩ := ih.wt
    exact ((reset_play hf hwt hw hi.1 hi.2 ih.crt0 ih.crt1).elim h).1
  | updateSamplerate ho hs hx h ih =>
    obtain ⟨wt, hwt, hw⟩ := ih.wt
    unfold Sys.updateSamplerate at h
    rw [hwt] at h
    dsimp only at h
    obtain ⟨wt', e, h⟩ := bind_ok h
    cases h
    exact ⟨⟨⟨_, rfl, hw.update hf hl hs hx e⟩, ih.mip0, ih.mip1, ih.j0, ih.j1, ih.jf, ih.jb, ih.p0,
      ih.p1, ih.red, ih.fl, ih.diff, ih.posF, ih.posB⟩, ih.crt0, ih.crt1⟩

theorem reached_safe (hf : Rounding S.env.fl) (hl : Log2Spec S.env.log2f) (hB : 0 < S.B)
    (h : Reached S nw L o) (hz : ¬ AtZeroBackward o) : OscSafe S nw L o :=
  ⟨reached_play hf hl hB h, fun h1 h2 => hz ⟨h2, h1⟩⟩

end Sys
end Adwt
