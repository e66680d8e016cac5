import Verif.Props.ExactExamples

/-!
# C48: phases below the smallest normal float
-/

set_option linter.unusedSectionVars false

namespace Adwt.Props
open WavetableData MeasureTheory Seg Sys

/-- the value of a forward sample of a `kType1` oscillator whose sums are off by `e` -/
theorem sample_value {ws : List ℝ} {L : ℕ} {o : Osc ℝ ℂ} {c c' : CrossFader ℝ} {mip : ℤ} {d x : ℝ}
    (h : At (sysOf envX .kType1) ws L o c mip d x) {p d' : ℝ} (hp : 0 ≤ p ∧ p < 1)
    (hpx : p = x + d') (hd0 : 0 < d') (hd1 : d' ≤ 1 / 2)
    (hx : x ≠ 0) {t : MipMapIndices ℝ}
    (hn : c.newIndices envX |d'| = .ok (c', t)) {W : ℝ → ℝ} {e : ℂ}
    (hacc : ∀ wt, o.wt = some wt → HasLines envX ws 1 L wt →
      (sysOf envX .kType1).accF wt L o t p d' 0 = z1 ^ 2 * (response W z1 x d' + e)) :
    ∃ o' ys, (sysOf envX .kType1).process .kBidirectionnal o [p] [0] = .ok (o', ys) ∧
      o'.prevPhaseDiff = d' ∧ NextIndices (sysOf envX .kType1) o d' t ∧
      ys = [output (nextMemory (sysOf envX .kType1).flt o.prevY W x d') + (2 * r1 * e).re] := by
  have hS := exactSys .kType1
  have hs : StepOk .kBidirectionnal x p := (by intro h; linarith : p ≠ x)
  have hdd : Sys.dirDiff id .kBidirectionnal p x = d' := by
    have e : p - x = d' := by linarith
    unfold Sys.dirDiff Sys.biDiff
    simp only [id, e]
    rw [if_neg (by linarith), if_neg (by linarith)]
  obtain ⟨⟨o', y, hproc, hat⟩, hni⟩ := h.step hp hs (Or.inl hx) hdd hn
  refine ⟨o', [y], hproc, hat.diff, hni, ?_⟩
  have hpl := Sys.reached_play (S := sysOf envX .kType1) envX_ok.1 log2X hS.B h.plays.1
  obtain ⟨wt, hwt, hlin⟩ := h.plays.lines rfl log2X
  have hw : WtOk 1 L wt := by
    obtain ⟨wt', e', h'⟩ := hpl.wt
    rw [hwt] at e'; cases e'; exact h'
  obtain ⟨wt2, e2, hcf⟩ := h.cf
  rw [hwt] at e2; cases e2
  obtain ⟨y', es, hy⟩ := process_one (by rw [hwt]; rfl) hproc
  cases hy
  have es : (sysOf envX .kType1).stepBi o p = .ok (o', y) := es
  unfold Sys.stepBi at es
  dsimp only at es
  have hbi : Sys.biDiff (sysOf envX .kType1).env.fl p o.prevPhase = d' := by
    rw [h.phase]; exact hdd
  rw [hbi, if_pos hd0.le] at es
  rw [abs_of_pos hd0, ← hcf] at hn
  have hsafe : o.prevPhaseDiff < 0 → t.idx < o.prevMip → 1 ≤ o.jRed :=
    fun q1 _ => hpl.jb q1 (by rw [h.phase]; exact hx)
  rw [Sys.fwd_eq (S := sysOf envX .kType1) envX_ok.1 hS.B hwt hpl.toOscOk hw hpl.crt0 hpl.crt1 hp.1
    hp.2 rfl hd0 hd1 hn hsafe] at es
  cases es
  rw [out_error (hacc wt hwt hlin)]

/-- `Re (2 r e^z / z)` is not zero for `kType1`. -/
theorem type1_gain : (2 * r1 * (Complex.exp z1 / z1)).re ≠ 0 := by
  have hz : z1 ≠ 0 := by
    intro h
    have := congrArg Complex.re h
    have := poleA_pos
    simp [z1] at *
    linarith
  have e1 : 2 * r1 * (Complex.exp z1 / z1) = (2 * r1 / z1) * Complex.exp z1 := by ring
  have e2 : 2 * r1 / z1 = (-1 : ℂ) + Complex.I := by
    rw [div_eq_iff hz]
    apply Complex.ext <;> simp [r1, z1] <;> ring
  have e3 : Complex.exp z1 = ((Real.exp (-poleA) * Real.cos poleA : ℝ) : ℂ) +
      ((Real.exp (-poleA) * Real.sin poleA : ℝ) : ℂ) * Complex.I := by
    have : z1 = ((-poleA : ℝ) : ℂ) + ((poleA : ℝ) : ℂ) * Complex.I := by
      apply Complex.ext <;> simp [z1]
    rw [this, Complex.exp_add, Complex.exp_mul_I, ← Complex.ofReal_exp, ← Complex.ofReal_cos,
      ← Complex.ofReal_sin]
    push_cast; ring
  rw [e1, e2, e3]
  generalize hE : Real.exp (-poleA) = E
  have hEp : 0 < E := by rw [← hE]; exact Real.exp_pos _
  have hr : (((-1 : ℂ) + Complex.I) * (((E * Real.cos poleA : ℝ) : ℂ) +
      ((E * Real.sin poleA : ℝ) : ℂ) * Complex.I)).re =
      -(E * (Real.cos poleA + Real.sin poleA)) := by
    simp only [Complex.mul_re, Complex.add_re, Complex.add_im, Complex.mul_im, Complex.ofReal_re,
      Complex.ofReal_im, Complex.I_re, Complex.I_im, Complex.neg_re, Complex.neg_im,
      Complex.one_re, Complex.one_im]
    ring
  rw [hr, neg_ne_zero]
  apply mul_ne_zero hEp.ne'
  have hs : 0 < Real.sin (poleA + Real.pi / 4) := by
    have := Real.pi_gt_d2
    apply Real.sin_pos_of_pos_of_lt_pi
    · have := poleA_pos; linarith
    · unfold poleA; linarith
  rw [Real.sin_add, Real.cos_pi_div_four, Real.sin_pi_div_four, ← add_mul] at hs
  have := pos_of_mul_pos_left hs (by positivity)
  linarith

/-- C48, what agrees: for a phase that is 0 or normal, the sign test used for position tracking
reports 0 exactly when the phase is 0. -/
theorem C48_agree (x : ℝ) (h : x = 0 ∨ 1 / 2 ^ 126 ≤ |x|) : Maths.sign x = 0 ↔ x = 0 := by
  unfold Maths.sign Maths.kMin
  rcases h with h | h
  · subst h
    rw [if_pos (by rw [abs_zero]; positivity)]; simp
  · rw [if_neg (not_lt.2 h)]
    have : x ≠ 0 := by
      rintro rfl
      rw [abs_zero] at h
      have : (0 : ℝ) < 1 / 2 ^ 126 := by positivity
      linarith
    constructor
    · intro h'; split_ifs at h' <;> cases h'
    · intro h'; exact absurd h' this

/-- C48 is false: for every positive phase `x` below the smallest normal float there is a state with
that phase, reached by a legal call, whose next sample (a legal step to phase 1/16, no table change)
is not the filtered integral. -/
theorem C48_false (x : ℝ) (hx0 : 0 < x) (hx1 : x < 1 / 2 ^ 126) :
    ∃ (ws : List ℝ) (o o' : Osc ℝ ℂ) (ys : List ℝ) (t : MipMapIndices ℝ),
    Plays (sysOf envX .kType1) ws 1 3 o ∧ o.prevPhase = x ∧
    (sysOf envX .kType1).process .kBidirectionnal o [1 / 16] [0] = .ok (o', ys) ∧
    NextIndices (sysOf envX .kType1) o o'.prevPhaseDiff t ∧ t.idx = o.prevMip ∧
    ys ≠ [output (nextMemory (filterX .kType1) o.prevY (mixture envX ws 3 o.crt t) o.prevPhase
      o'.prevPhaseDiff)] := by
  have hsmall : (1 : ℝ) / 2 ^ 126 < 1 / 1000 := by norm_num
  obtain ⟨o, h, -⟩ := at_init .kType1 [0, 1, 0, 0, 0, 0, 0, -1] 3 (by norm_num) (by norm_num) rfl 1
    le_rfl (by norm_num) (p := x) (d := 1 / 16) ⟨hx0.le, by linarith⟩ (by norm_num) (i := 0)
    (oct0 (by norm_num))
    (cf_idle (by norm_num) (by norm_num) (oct0 (by norm_num [abs_of_pos])))
  have hS := exactSys .kType1
  have hpl := Sys.reached_play (S := sysOf envX .kType1) envX_ok.1 log2X hS.B h.plays.1
  have hj : o.jRed = 0 := by
    rw [hpl.posF (by rw [h.diff]; norm_num), h.phase, h.mip, Int.floor_eq_iff]
    norm_num
    constructor <;> linarith
  have hz0 : (sysOf envX .kType1).zA 0 = z1 := by
    unfold Sys.zA; rw [show (sysOf envX .kType1).flt = ⟨[r1], [z1]⟩ from filter1]; rfl
  have hn1 : (sysOf envX .kType1).n = 1 := by
    unfold Sys.n; rw [show (sysOf envX .kType1).flt = ⟨[r1], [z1]⟩ from filter1]; rfl
  have hzne : z1 ≠ 0 := by rw [← hz0]; exact Sys.zA_ne hS (by omega)
  have hd' : |(1 / 16 - x : ℝ)| = 1 / 16 - x := abs_of_pos (by linarith)
  have hn := cf_idle (E := envX) (n := 1) (i := 0) (L := 3) (d := |(1 / 16 - x : ℝ)|) (by norm_num)
    (by rw [hd']; linarith) (oct0 (by rw [hd']; linarith))
  obtain ⟨o', ys, a1, a2, a3, a4⟩ := sample_value h (p := 1 / 16) (d' := 1 / 16 - x)
    (by norm_num) (by ring) (by linarith) (by linarith) hx0.ne' hn
    (W := waveAt envX [0, 1, 0, 0, 0, 0, 0, -1] 3 0 0) (e := -8 * (Complex.exp z1 / z1))
    (by
      intro wt _ hlin
      have hl := hlin.lines 0 0 le_rfl (by norm_num) le_rfl (by norm_num)
      have hlen := hlin.len 0 0 le_rfl (by norm_num) le_rfl (by norm_num)
      have hs : Maths.sign x = 0 := by
        unfold Maths.sign Maths.kMin
        rw [if_pos (by rw [abs_of_pos hx0]; exact hx1)]
      have hp : (sysOf envX .kType1).prevJF o 3 0 = 0 := by
        unfold Sys.prevJF Sys.adj
        rw [h.mip, hj, h.diff, hpl.red, h.phase]
        have : (sysOf envX .kType1).env.fl (x - ((0 : ℤ) : ℝ) / 2 ^ 3) = x := by
          show x - ((0 : ℤ) : ℝ) / 2 ^ 3 = x
          simp
        norm_num at this ⊢
        rw [this, hs]
      have hm : ⌊(1 / 16 : ℝ) * 2 ^ 3⌋ = 0 := by rw [Int.floor_eq_iff]; norm_num
      unfold Sys.accF Sys.mix
      dsimp only
      rw [if_neg (by simp), hpl.red, h.phase, h.crt, show 3 - (0 : ℤ).toNat = 3 from rfl, hp, hm]
      unfold Sys.fwdAt
      have hY : ∀ k : ℤ, 0 ≤ k → k < 8 →
          cyc (mipSamples envX (waveformOf [0, 1, 0, 0, 0, 0, 0, -1] (2 ^ 3) (0 : ℤ).toNat)
            (0 : ℤ).toNat) k = ([0, 1, 0, 0, 0, 0, 0, -1] : List ℝ).getD k.toNat 0 := by
        intro k k0 k1
        have e : mipSamples envX (waveformOf [0, 1, 0, 0, 0, 0, 0, -1] (2 ^ 3) (0 : ℤ).toNat)
            (0 : ℤ).toNat = [0, 1, 0, 0, 0, 0, 0, -1] := by
          unfold mipSamples waveformOf
          simp
        rw [e]
        unfold cyc
        rw [Int.emod_eq_of_lt k0 (by simpa using k1)]
      have hW : waveAt envX [0, 1, 0, 0, 0, 0, 0, -1] 3 0 0 = W (8 : ℕ)
          (cyc (mipSamples envX (waveformOf [0, 1, 0, 0, 0, 0, 0, -1] (2 ^ 3) (0 : ℤ).toNat)
            (0 : ℤ).toNat)) := by
        unfold waveAt
        rw [interp_eq]
        have e8 : (mipSamples envX (waveformOf [0, 1, 0, 0, 0, 0, 0, -1] (2 ^ 3) (0 : ℤ).toNat)
            (0 : ℤ).toNat).length = 8 := hlen
        rw [e8]
      rw [hW]
      have hYN : ∀ i : ℤ, cyc (mipSamples envX (waveformOf [0, 1, 0, 0, 0, 0, 0, -1] (2 ^ 3)
          (0 : ℤ).toNat) (0 : ℤ).toNat) (i + (8 : ℕ)) = cyc (mipSamples envX (waveformOf
            [0, 1, 0, 0, 0, 0, 0, -1] (2 ^ 3) (0 : ℤ).toNat) (0 : ℤ).toNat) i := by
        intro i
        have e8 : (mipSamples envX (waveformOf [0, 1, 0, 0, 0, 0, 0, -1] (2 ^ 3) (0 : ℤ).toNat)
            (0 : ℤ).toNat).length = 8 := hlen
        rw [← e8]; exact cyc_period _ i
      have hl : Lines 8 (cyc (mipSamples envX (waveformOf [0, 1, 0, 0, 0, 0, 0, -1] (2 ^ 3)
          (0 : ℤ).toNat) (0 : ℤ).toNat)) _ _ _ _ _ := hl
      generalize cyc (mipSamples envX (waveformOf [0, 1, 0, 0, 0, 0, 0, -1] (2 ^ 3)
          (0 : ℤ).toNat) (0 : ℤ).toNat) = Y at hl hYN hY ⊢
      have y0 : Y 0 = 0 := hY 0 (by norm_num) (by norm_num)
      have y1 : Y 1 = 1 := hY 1 (by norm_num) (by norm_num)
      have y7 : Y 7 = -1 := hY 7 (by norm_num) (by norm_num)
      have y8 : Y 8 = 0 := by have := hYN 0; rw [y0] at this; simpa using this
      have y9 : Y 9 = 1 := by have := hYN 1; rw [y1] at this; simpa using this
      -- the true start
      have hb : bar x = x := by unfold bar; rw [if_neg hx0.ne', add_zero]
      have key := Sys.fwdVal_exact hS hYN hl (jmin := 0) (jmax := 0) le_rfl (by norm_num) le_rfl
        (by norm_num) (prev := x) (x := 1 / 16) (d := 1 / 16 - x) (by intro h; linarith)
        (by rw [hb]; constructor <;> norm_num <;> linarith) (by constructor <;> norm_num)
        (by rw [hb]; simp) (k := 0) (by omega)
      rw [hz0] at key
      rw [mul_add, ← key]
      unfold Sys.fwdVal
      have e7 : ((0 : ℤ) - 1) % 2 ^ 3 = 7 := by norm_num
      have hb7 : Sys.bornSup 7 0 (2 ^ 3) = 8 := by unfold Sys.bornSup; norm_num
      have hb0 : Sys.bornSup 0 0 ((8 : ℕ) : ℤ) = 0 := by unfold Sys.bornSup; norm_num
      have i7 : irange 7 8 = [7] := by unfold irange; simp
      have i0 : irange 0 0 = [] := by unfold irange; simp
      have r7 : Sys.red 7 (2 ^ 3) = 7 := by unfold Sys.red; norm_num
      rw [e7, hb7, hb0, i7, i0]
      simp only [List.foldl_cons, List.foldl_nil]
      rw [r7, Sys.cornF_exact hS (hl.qd 7 (by norm_num) (by norm_num)),
        hl.md 7 (by norm_num) (by norm_num), Sys.i0Val_exact hS (by omega),
        Sys.i0Val_exact hS (by omega), hl.m 7 (by norm_num) (by norm_num),
        hl.q 7 (by norm_num) (by norm_num), hl.m 0 (by norm_num) (by norm_num),
        hl.q 0 (by norm_num) (by norm_num), hz0]
      have eb : (sysOf envX .kType1).env.fl (x + ofBool (decide (x = 0))) = x := by
        show x + ofBool (decide (x = 0)) = x
        unfold ofBool; simp [hx0.ne']
      rw [eb]
      have m8 : M ((8 : ℕ) : ℝ) Y (7 + 1) - M ((8 : ℕ) : ℝ) Y 7 = 0 := by
        unfold M; norm_num [y7, y8, y9]
      rw [m8]
      unfold M
      norm_num [y0, y1, y7, y8, y9]
      field_simp
      ring)
  refine ⟨_, o, o', ys, _, h.plays, h.phase, a1, by rw [a2]; exact a3, h.mip.symm, ?_⟩
  rw [a4, a2, h.crt, h.phase]
  have em : mixture envX [0, 1, 0, 0, 0, 0, 0, -1] 3 0 ⟨0, 1, 0 + 1, 0⟩ =
      waveAt envX [0, 1, 0, 0, 0, 0, 0, -1] 3 0 0 := by
    funext u; unfold mixture; simp
  rw [em]
  intro hc
  have hc := List.head_eq_of_cons_eq hc
  have hc : (2 * r1 * (-8 * (Complex.exp z1 / z1))).re = 0 := by
    have : (sysOf envX .kType1).flt = filterX .kType1 := rfl
    rw [this] at hc
    linarith
  rw [show 2 * r1 * (-8 * (Complex.exp z1 / z1)) = ((-8 : ℝ) : ℂ) * (2 * r1 * (Complex.exp z1 / z1)) by
    push_cast; ring, Complex.re_ofReal_mul] at hc
  have := type1_gain
  rcases mul_eq_zero.1 hc with h' | h'
  · norm_num at h'
  · exact this h'

end Adwt.Props
