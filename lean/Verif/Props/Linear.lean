import Verif.Props.Decay
import Verif.Proofs.LinearRun

/-!
# C40: the output is linear in the waveform
-/

set_option linter.unusedSectionVars false

namespace Adwt.Props
open WavetableData

theorem built_cf {E : Env ℝ} (hf : Rounding E.fl) (hl : Log2Spec E.log2f) {ws1 ws2 : List ℝ}
    {nw L : ℕ} {sr dur : ℝ} {wt1 wt2 : WavetableData ℝ} (h1 : Built E ws1 nw L sr dur wt1)
    (h2 : Built E ws2 nw L sr dur wt2) : wt1.cf = wt2.cf := by
  have aux : ∀ {ws wt}, Built E ws nw L sr dur wt →
      ∃ xf, toInt (E.fl (dur * sr)) = .ok xf ∧ wt.cf = (wtOf E ws nw L xf).cf := by
    intro ws wt h
    obtain ⟨hs, hx, hlen, h⟩ := h
    obtain ⟨L', xf, h2, h18, hn, hs0, hlen', hxf, rfl⟩ := build_some hf hl hs h
    have e : ((nw : ℤ)).toNat = nw := by simp
    rw [e] at hlen' ⊢
    have : L' = L := pow_inj_of_mul (by omega) (hlen'.symm.trans hlen)
    subst this
    exact ⟨xf, hxf, rfl⟩
  obtain ⟨x1, a1, b1⟩ := aux h1
  obtain ⟨x2, a2, b2⟩ := aux h2
  rw [a1] at a2
  cases a2
  rw [b1, b2]
  rfl

theorem init_form {S : Sys ℝ ℂ} (hf : Rounding S.env.fl) {nw L : ℕ} {o o' : Osc ℝ ℂ}
    {wt : WavetableData ℝ} (hw : WtOk nw L wt) {p d : ℝ} (hp : PhaseOk S.env.fl p) (hd : d ≠ 0)
    {r : ℤ} (h : S.init o (some wt) p d = .ok (o', r)) {c : CrossFader ℝ} {t : MipMapIndices ℝ}
    (hn : wt.cf.newIndices S.env |d| = .ok (c, t)) :
    o' =
    { wt := some { wt with cf := c }, prevY := List.replicate S.n 0, prevPhase := p,
      prevPhaseRed := p, prevPhaseDiff := d, prevMip := t.idx,
      jRed := if d ≥ 0 then ⌊p * 2 ^ (L - t.idx.toNat)⌋ else ⌈p * 2 ^ (L - t.idx.toNat)⌉,
      prevJRed := o.prevJRed, crt := 0 } := by
  unfold Sys.init at h
  dsimp only at h
  rw [Sys.reset_ok (o := { o with wt := some wt }) hf rfl hw hp hd hn, R.ok_bind] at h
  cases h
  rfl

/-- C40: three oscillators, whatever they did before, are initialised at the same phase and step
with wavetables built from `ws1`, `ws2` and `a ws1 + b ws2`, and get the same legal calls. If the
calls succeed for the first they do for all, and the third's output is `a` times the first's plus
`b` times the second's. (No assumption about position tracking.) -/
theorem C40_linear (S : Sys ℝ ℂ) (hS : ExactSys S) (hl : Log2Spec S.env.log2f)
    (hr : LinearResampler S.env) (a b : ℝ) (nw L : ℕ) (ws1 ws2 : List ℝ) (sr dur : ℝ)
    (wt1 wt2 wt3 : WavetableData ℝ) (h1 : Built S.env ws1 nw L sr dur wt1)
    (h2 : Built S.env ws2 nw L sr dur wt2)
    (h3 : Built S.env (List.zipWith (fun x y => a * x + b * y) ws1 ws2) nw L sr dur wt3)
    (p d : ℝ) (hi : InitOk S.env.fl p d) (q1 q2 q3 o1 o2 o3 : Osc ℝ ℂ) (r1 r2 r3 : ℤ)
    (i1 : S.init q1 (some wt1) p d = .ok (o1, r1)) (i2 : S.init q2 (some wt2) p d = .ok (o2, r2))
    (i3 : S.init q3 (some wt3) p d = .ok (o3, r3)) (ops : List (Op ℝ))
    (hops : HistoryOk S.env.fl nw p ops) (o1' : Osc ℝ ℂ) (ys1 : List ℝ)
    (h : runOps S o1 ops = .ok (o1', ys1)) :
    ∃ o2' ys2 o3' ys3, runOps S o2 ops = .ok (o2', ys2) ∧ runOps S o3 ops = .ok (o3', ys3) ∧
      ys2.length = ys1.length ∧ ys3 = List.zipWith (fun x y => a * x + b * y) ys1 ys2 := by
  have hf := Sys.exact_rounding hS
  have w1 := h1.ok hf hl
  have w2 := h2.ok hf hl
  have w3 := h3.ok hf hl
  obtain ⟨c, t, hn, -⟩ := Sys.find_spec hf w1 (abs_pos.2 hi.2)
  have f1 := init_form hf w1 hi.1 hi.2 i1 hn
  have f2 := init_form hf w2 hi.1 hi.2 i2 (built_cf hf hl h1 h2 ▸ hn)
  have f3 := init_form hf w3 hi.1 hi.2 i3 (built_cf hf hl h1 h3 ▸ hn)
  have p1 := ((Sys.init_play hf q1 w1 hi.1 hi.2).elim i1).1
  have p2 := ((Sys.init_play hf q2 w2 hi.1 hi.2).elim i2).1
  have p3 := ((Sys.init_play hf q3 w3 hi.1 hi.2).elim i3).1
  have e1 : o1.prevPhase = p := by rw [f1]
  have e2 : o2.prevPhase = p := by rw [f2]
  have e3 : o3.prevPhase = p := by rw [f3]
  rw [Sys.runOps_atoms hf hS.B p1 (by rw [e1]; exact hops)] at h
  rw [Sys.runOps_atoms hf hS.B p2 (by rw [e2]; exact hops),
    Sys.runOps_atoms hf hS.B p3 (by rw [e3]; exact hops)]
  have l1 := (built_lines hS.fl hl h1 rfl).with_cf c
  have l2 := (built_lines hS.fl hl h2 rfl).with_cf c
  have l3 := (built_lines hS.fl hl h3 rfl).with_cf c
  refine Sys.lin_atoms (ws1 := ws1) (ws2 := ws2) hS ?_ p1 p2 p3 ⟨?_, ?_, ?_⟩
    ⟨⟨_, by rw [f1], l1⟩, ⟨_, by rw [f2], l2⟩, ⟨_, by rw [f3], l3⟩⟩
    (Sys.atomsOk_history.2 (by rw [e1]; exact hops)) h
  · intro w i j b0 b1 b2 b3
    unfold Sys.tabY
    have g1 := l1.len w i b0 b1 b2 b3
    have g2 := l2.len w i b0 b1 b2 b3
    have hlen : (waveformOf ws1 (2 ^ L) w.toNat).length = (waveformOf ws2 (2 ^ L) w.toNat).length := by
      rw [waveformOf_length h1.2.2.1 (by omega), waveformOf_length h2.2.2.1 (by omega)]
    rw [waveformOf_zip, mip_zip hr a b hlen, cyc_zip a b (by rw [g1, g2]) (by rw [g1]; positivity)]
  · rw [f1, f2]
    exact ⟨⟨_, _, rfl, rfl, rfl⟩, rfl, rfl, rfl, rfl, rfl, rfl⟩
  · rw [f1, f3]
    exact ⟨⟨_, _, rfl, rfl, rfl⟩, rfl, rfl, rfl, rfl, rfl, rfl⟩
  · intro k hk
    rw [f1, f2, f3]
    have : (List.replicate S.n (0 : ℂ)).getD k 0 = 0 := by
      rw [List.getD_eq_getElem?_getD, List.getElem?_replicate]; split <;> rfl
    simp only [this]; simp

/-! ### the hypotheses are met -/

theorem linearX : LinearResampler envX := by
  intro a b v w r hl
  unfold decimate
  rw [List.length_zipWith, ← hl, min_self]
  apply List.ext_getElem
  · simp
  · intro i h1 h2
    have hi : i < v.length / r := by simpa using h1
    have hr : 0 < r := Nat.pos_of_ne_zero fun h => by simp [h] at hi
    have hle : v.length / r * r ≤ v.length := Nat.div_mul_le_self _ r
    have hlt : (2 * (v.length / r) + i) * r < v.length + v.length + v.length := by
      have : (2 * (v.length / r) + i + 1) * r ≤ 3 * (v.length / r) * r :=
        Nat.mul_le_mul_right _ (by omega)
      nlinarith
    simp only [List.getElem_zipWith, List.getElem_map, List.getElem_range]
    have hz : ∀ z : List ℝ, (envX.src z (5 * (v.length / r)) r).data (2 * (v.length / r) + i) =
        z.getD ((2 * (v.length / r) + i) * r) 0 := fun z => rfl
    rw [hz, hz, hz, ← List.zipWith_append (by simpa using hl), ← List.zipWith_append (by simp [hl]),
      ← List.zipWith_append (by simp [hl]), ← List.zipWith_append (by simp [hl])]
    generalize (2 * (v.length / r) + i) * r = k at hlt
    have k1 : k < (v ++ v ++ v ++ v ++ v).length := by simp; omega
    have k2 : k < (w ++ w ++ w ++ w ++ w).length := by simp; omega
    simp only [List.getD_eq_getElem?_getD, List.getElem?_zipWith, List.getElem?_eq_getElem k1,
      List.getElem?_eq_getElem k2, Option.getD_some]

/-- C40 applies to every built-in filter, any two waveforms of eight samples, and a history in both
modes, which yields four samples. -/
example (ft : FilterType) (a b : ℝ) (ws1 ws2 : List ℝ) (h1 : ws1.length = 8) (h2 : ws2.length = 8) :
    ∃ wt1 wt2 wt3 o1 o2 o3 o1' ys1, Built envX ws1 1 3 44100 (1 / 256) wt1 ∧
      Built envX ws2 1 3 44100 (1 / 256) wt2 ∧
      Built envX (List.zipWith (fun x y => a * x + b * y) ws1 ws2) 1 3 44100 (1 / 256) wt3 ∧
      InitOk envX.fl 0 (1 / 16) ∧
      (sysOf envX ft).init (sysOf envX ft).fresh (some wt1) 0 (1 / 16) = .ok (o1, 0) ∧
      (sysOf envX ft).init (sysOf envX ft).fresh (some wt2) 0 (1 / 16) = .ok (o2, 0) ∧
      (sysOf envX ft).init (sysOf envX ft).fresh (some wt3) 0 (1 / 16) = .ok (o3, 0) ∧
      HistoryOk envX.fl 1 0 exampleOps ∧ runOps (sysOf envX ft) o1 exampleOps = .ok (o1', ys1) ∧
      ys1.length = 4 := by
  have hS := exactSys ft
  have hf := Sys.exact_rounding hS
  obtain ⟨wt1, b1⟩ := exampleWt envX envX_ok ws1 h1
  obtain ⟨wt2, b2⟩ := exampleWt envX envX_ok ws2 h2
  obtain ⟨wt3, b3⟩ := exampleWt envX envX_ok (List.zipWith (fun x y => a * x + b * y) ws1 ws2)
    (by simp [h1, h2])
  have hi : InitOk envX.fl 0 (1 / 16) := ⟨⟨le_rfl, by norm_num, isPhase_id _⟩, by norm_num⟩
  have key : ∀ {ws wt}, Built envX ws 1 3 44100 (1 / 256) wt →
      ∃ o, (sysOf envX ft).init (sysOf envX ft).fresh (some wt) 0 (1 / 16) = .ok (o, 0) ∧
        o.prevPhase = 0 ∧ o.prevPhaseDiff = 1 / 16 ∧ Reached (sysOf envX ft) 1 3 o := by
    intro ws wt hb
    obtain ⟨⟨o, r⟩, e, -, h1, h2, -, h3, -⟩ := Sys.init_play (S := sysOf envX ft) hf
      (sysOf envX ft).fresh (hb.ok hf log2X) hi.1 hi.2
    have h3 : r = 0 := h3
    subst h3
    exact ⟨o, e, h1, h2, Reached.init hb hi e⟩
  obtain ⟨o1, i1, s1, d1, ho1⟩ := key b1
  obtain ⟨o2, i2, -⟩ := key b2
  obtain ⟨o3, i3, -⟩ := key b3
  have hz : ¬ AtZeroBackward o1 := fun hz => by
    have := hz.2; rw [d1] at this; norm_num at this
  obtain ⟨⟨o', ys⟩, e, -⟩ := Sys.history_ok hf hS.B (Sys.reached_safe hf log2X hS.B ho1 hz)
    (by rw [s1]; exact exampleOps_safe)
  refine ⟨wt1, wt2, wt3, o1, o2, o3, o', ys, b1, b2, b3, hi, i1, i2, i3, exampleOps_ok, e, ?_⟩
  rw [Sys.runOps_atoms hf hS.B (Sys.reached_play hf log2X hS.B ho1) (by rw [s1]; exact exampleOps_ok)] at e
  rw [Sys.atoms_length e]; rfl

end Adwt.Props
