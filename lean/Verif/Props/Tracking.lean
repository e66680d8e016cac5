import Verif.Props.Exact
import Verif.Props.Type1
import Mathlib.Data.List.GetD

/-!
# C36: the position is lost on some table changes
-/

set_option linter.unusedSectionVars false

namespace Adwt.Props
open WavetableData MeasureTheory Seg

/-- the difference of two adjacent lines of the interpolation -/
theorem line_diff {N : ℕ} (hN : 0 < N) (Y : ℤ → ℝ) (a : ℤ) (s : ℝ) :
    line N Y a s - line N Y (a - 1) s = (Y (a + 1) - 2 * Y a + Y (a - 1)) * (s * N - a) := by
  unfold line M
  rw [sub_add_cancel]
  push_cast
  ring

theorem out_error_ne {ws : List ℝ} {L : ℕ} {o : Osc ℝ ℂ} {c c' : CrossFader ℝ} {mip : ℤ} {d x : ℝ}
    (h : At (sysOf envX .kType1) ws L o c mip d x) {p d' : ℝ} (hp : 0 ≤ p ∧ p < 1)
    (hpx : p = x + d') (hd0 : 0 < d') (hd1 : d' ≤ 1 / 2) (hx : x ≠ 0)
    (hz : x ≠ 0 ∨ 0 < d) {t : MipMapIndices ℝ}
    (hn : c.newIndices envX |d'| = .ok (c', t))
    (i : ℤ) (N : ℕ) (a jmax : ℤ) (Y : ℤ → ℝ) (hi0 : 0 ≤ i) (hi1 : i < (L : ℤ) - 1)
    (hN : N = 2 ^ (L - i.toNat))
    (hY : Y = cyc (mipSamples envX (waveformOf ws (2 ^ L) 0) i.toNat))
    (hmix : ∀ wt, o.wt = some wt → (sysOf envX .kType1).accF wt L o t p d' 0 =
      (sysOf envX .kType1).fwdAt wt o.crt i N x (a - 1) jmax d' p 0)
    (hmixture : mixture envX ws L 0 t = waveAt envX ws L 0 i)
    (h0 : 1 ≤ a) (h1 : a ≤ jmax) (h3 : jmax < N) (hu : In N a x) (hv : In N jmax p)
    (hc : (a / N : ℝ) < x) (hτ : p - a / N ≤ 3 / 2 * d')
    (hconv : 0 < Y (a + 1) - 2 * Y a + Y (a - 1)) :
    ∃ o' ys, (sysOf envX .kType1).process .kBidirectionnal o [p] [0] = .ok (o', ys) ∧
      o'.prevPhaseDiff = d' ∧ NextIndices (sysOf envX .kType1) o d' t ∧
      ys ≠ [output (nextMemory (sysOf envX .kType1).flt o.prevY (mixture envX ws L o.crt t)
        o.prevPhase o'.prevPhaseDiff)] := by
  have hS := exactSys .kType1
  have hs : StepOk .kBidirectionnal x p := (by intro h; linarith : p ≠ x)
  have hdd : Sys.dirDiff id .kBidirectionnal p x = d' := by
    have e : p - x = d' := by linarith
    unfold Sys.dirDiff Sys.biDiff
    simp only [id, e]
    rw [if_neg (by linarith), if_neg (by linarith)]
  obtain ⟨⟨o', y, hproc, hat⟩, hni⟩ := h.step hp hs hz hdd hn
  refine ⟨o', [y], hproc, hat.diff, hni, ?_⟩
  have hpl := Sys.reached_play (S := sysOf envX .kType1) envX_ok.1 log2X hS.B h.plays.1
  obtain ⟨wt, hwt, hlin⟩ := h.plays.lines rfl log2X
  have hw : WtOk 1 L wt := by
    obtain ⟨wt', e', h'⟩ := hpl.wt
    rw [hwt] at e'; cases e'; exact h'
  obtain ⟨wt2, e2, hcf⟩ := h.cf
  rw [hwt] at e2; cases e2
  obtain ⟨y', e, hy⟩ := process_one (by rw [hwt]; rfl) hproc
  cases hy
  have e : (sysOf envX .kType1).stepBi o p = .ok (o', y) := e
  unfold Sys.stepBi at e
  dsimp only at e
  have hbi : Sys.biDiff (sysOf envX .kType1).env.fl p o.prevPhase = d' := by
    rw [h.phase]; exact hdd
  rw [hbi, if_pos hd0.le] at e
  rw [abs_of_pos hd0, ← hcf] at hn
  have hsafe : o.prevPhaseDiff < 0 → t.idx < o.prevMip → 1 ≤ o.jRed :=
    fun q1 _ => hpl.jb q1 (by rw [h.phase]; exact hx)
  rw [Sys.fwd_eq (S := sysOf envX .kType1) envX_ok.1 hS.B hwt hpl.toOscOk hw hpl.crt0 hpl.crt1 hp.1 hp.2 rfl hd0 hd1 hn
    hsafe] at e
  cases e
  rw [h.crt, hmixture]
  have hl := hlin.lines 0 i le_rfl (by norm_num) hi0 hi1
  have hlen := hlin.len 0 i le_rfl (by norm_num) hi0 hi1
  have hmix' := hmix wt hwt
  unfold Sys.fwdAt at hmix'
  rw [h.crt] at hmix'
  have hYN : ∀ i, Y (i + N) = Y i := by
    intro j; subst hY; rw [hN, ← hlen]; exact cyc_period _ j
  have hz0 : (sysOf envX .kType1).zA 0 = z1 := by
    unfold Sys.zA; rw [show (sysOf envX .kType1).flt = ⟨[r1], [z1]⟩ from filter1]; rfl
  have hn1 : (sysOf envX .kType1).n = 1 := by
    unfold Sys.n; rw [show (sysOf envX .kType1).flt = ⟨[r1], [z1]⟩ from filter1]; rfl
  rw [← hN] at hl
  simp only [Int.toNat_zero] at hl
  have hY' : cyc (mipSamples (sysOf envX .kType1).env (waveformOf ws (2 ^ L) 0) i.toNat) = Y := hY.symm
  rw [hY'] at hl
  have key := Sys.fwdVal_low hS hYN hl h0 h1 h3 (prev := x) (x := p) hd0.ne' hx (by linarith) hu hv
    (k := 0) (by rw [hn1]; norm_num)
  rw [key, hz0] at hmix'
  have hW : W N Y = waveAt envX ws L 0 i := by
    unfold waveAt
    rw [interp_eq]
    have : (mipSamples envX (waveformOf ws (2 ^ L) (0:ℤ).toNat) i.toNat).length = N := by
      rw [hN]; exact hlen
    rw [this, hY]; rfl
  rw [hW] at hmix'
  have e3 := out_error (y := o.prevY) hmix'
  rw [h.phase]
  intro hcon
  have hcon := List.head_eq_of_cons_eq hcon
  rw [e3] at hcon
  have hN0 : 0 < N := by rw [hN]; positivity
  have hNr : (0 : ℝ) < N := by exact_mod_cast hN0
  have : 0 < (2 * r1 * ∫ s in (a / N : ℝ)..x,
      f (fun s => line N Y a s - line N Y (a - 1) s) z1 p d' s).re := by
    apply pos_output _ hd0 hc
    · intro s hs
      rw [line_diff hN0]
      apply mul_pos hconv
      have := (div_lt_iff₀ hNr).1 hs.1
      linarith
    · linarith
    · exact hτ
    · exact (line_continuous _).sub (line_continuous _)
  linarith

theorem tn2 : Int.toNat 2 = 2 := rfl
theorem tn3 : Int.toNat 3 = 3 := rfl
theorem tn4 : Int.toNat 4 = 4 := rfl

/-- every second sample -/
theorem mip_one (ws : List ℝ) (L n : ℕ) (hL : 2 ^ L = 2 * n) (hw : ws.length = 2 ^ L) :
    mipSamples envX (waveformOf ws (2 ^ L) 0) 1 = (List.range n).map fun i => ws.getD (2 * i) 0 := by
  have e : waveformOf ws (2 ^ L) 0 = ws := by
    unfold waveformOf
    rw [zero_mul, List.drop_zero, ← hw, List.take_length]
  rw [e]
  unfold mipSamples
  rw [if_neg (by norm_num), if_pos (by norm_num)]
  unfold decimate
  have hn : ws.length / 2 ^ 1 = n := by rw [hw, hL, pow_one]; omega
  rw [hn]
  apply List.map_congr_left
  intro i hi
  have hi : i < n := List.mem_range.1 hi
  show (ws ++ ws ++ ws ++ ws ++ ws).getD ((2 * n + i) * 2 ^ 1) 0 = _
  rw [List.getD_append _ _ _ _ (by simp; omega), List.getD_append _ _ _ _ (by simp; omega),
    List.append_assoc, List.getD_append_right _ _ _ _ (by omega),
    List.getD_append_right _ _ _ _ (by omega)]
  congr 1
  omega

/-- C36 is false upward after a backward step: there are eight samples, a legal history and a legal
next sample on which the lower table moves up one octave after a backward step, and whose output is
not the filtered integral. (The position is rounded down when it is carried over, although after a
backward step it is the index of the next grid point above, not below.) -/
theorem C36_false_up : ∃ (ws : List ℝ) (o o' : Osc ℝ ℂ) (p : ℝ) (ys : List ℝ) (t : MipMapIndices ℝ),
    Plays (sysOf envX .kType1) ws 1 3 o ∧ 0 ≤ p ∧ p < 1 ∧ p ≠ o.prevPhase ∧
    (sysOf envX .kType1).process .kBidirectionnal o [p] [0] = .ok (o', ys) ∧
    NextIndices (sysOf envX .kType1) o o'.prevPhaseDiff t ∧
    t.idx = o.prevMip + 1 ∧ o.prevPhaseDiff < 0 ∧
    OffDenormal (2 ^ (3 - t.idx.toNat)) o.prevPhase ∧
    ys ≠ [output (nextMemory (filterX .kType1) o.prevY (mixture envX ws 3 o.crt t) o.prevPhase
      o'.prevPhaseDiff)] := by
  have oct1 : IsOctave 3 1 (3 / 8 : ℝ) := by
    refine ⟨by norm_num, by norm_num, ?_, Or.inl (by norm_num)⟩
    right; norm_num
  obtain ⟨o1, h1, -⟩ := at_init .kType1 [0, 0, 0, 0, 1, 0, 0, 0] 3 (by norm_num) (by norm_num) rfl 1
    le_rfl (by norm_num) (p := 11 / 16) (d := -(1 / 16)) (by norm_num) (by norm_num) (i := 0)
    (by refine ⟨le_rfl, by norm_num, Or.inl rfl, Or.inr ?_⟩; norm_num)
    (cf_idle (by norm_num) (by norm_num)
      (by refine ⟨le_rfl, by norm_num, Or.inl rfl, Or.inr ?_⟩; norm_num [abs_of_pos]))
  obtain ⟨⟨o2, y2, -, h2⟩, -⟩ := h1.step (dir := .kBidirectionnal) (p' := 5 / 16) (d' := -(3 / 8))
    (by norm_num) (show (5 / 16 : ℝ) ≠ 11 / 16 by norm_num) (Or.inl (by norm_num))
    (by unfold Sys.dirDiff Sys.biDiff; norm_num)
    (cf_up (by norm_num) (by norm_num) (by norm_num) (k := 1)
      (by rw [show |(-(3 / 8) : ℝ)| = 3 / 8 by norm_num [abs_of_pos]]; exact oct1) (by norm_num))
  have hpl := Sys.reached_play (S := sysOf envX .kType1) envX_ok.1 log2X (exactSys .kType1).B h2.plays.1
  have hj : o2.jRed = 3 := by
    rw [hpl.posB (by rw [h2.diff]; norm_num), h2.phase, h2.mip, Int.ceil_eq_iff]
    norm_num
  have hn := cf_last (n := 1) (i := 0) (k := 1) (L := 3) (d := |(3 / 8 : ℝ)|) (by norm_num) (by norm_num) (by norm_num)
    (by norm_num) (by rw [show |(3 / 8 : ℝ)| = 3 / 8 by norm_num [abs_of_pos]]; exact oct1)
  obtain ⟨o3, ys, a1, a2, a3, a4⟩ := out_error_ne h2 (p := 11 / 16) (d' := 3 / 8) (by norm_num)
    (by norm_num) (by norm_num) (by norm_num) (by norm_num) (Or.inl (by norm_num)) hn 1 4 1 2 _
    (by norm_num) (by norm_num) (by norm_num) rfl
    (by
      intro wt _
      have hp : (sysOf envX .kType1).prevJF o2 2 1 = 1 := by
        unfold Sys.prevJF Sys.adj
        rw [h2.mip, hj, h2.diff]
        norm_num
      have hm : ⌊(11 / 16 : ℝ) * 2 ^ 2⌋ = 2 := by rw [Int.floor_eq_iff]; norm_num
      unfold Sys.accF Sys.mix
      dsimp only
      rw [if_neg (by simp), hpl.red, h2.phase]
      rw [show 3 - (1 : ℤ).toNat = 2 from rfl, hp, hm]
      norm_num)
    (by funext u; unfold mixture; simp)
    (by norm_num) (by norm_num) (by norm_num) (by constructor <;> norm_num)
    (by constructor <;> norm_num) (by norm_num) (by norm_num)
    (by
      rw [show (1 : ℤ).toNat = 1 from rfl, mip_one _ 3 4 (by norm_num) rfl]
      norm_num [cyc, List.range, List.range.loop, tn2])
  refine ⟨_, o2, o3, 11 / 16, ys, _, h2.plays, by norm_num, by norm_num, by rw [h2.phase]; norm_num, a1,
    by rw [a2]; exact a3, by rw [h2.mip]; norm_num, by rw [h2.diff]; norm_num, ?_, a4⟩
  rw [h2.phase]
  have := offDenormal_dyadic 5 4 2 (by norm_num) (by norm_num)
  norm_num at this ⊢
  exact this

/-- C36 is false downward by more than one octave: there are sixteen samples, a legal history and a
legal next sample on which the lower table moves down two octaves, and whose output is not the
filtered integral. (The position is corrected by at most one grid point of the new table, but a
move over two octaves can be off by three.) -/
theorem C36_false_down : ∃ (ws : List ℝ) (o o' : Osc ℝ ℂ) (p : ℝ) (ys : List ℝ) (t : MipMapIndices ℝ),
    Plays (sysOf envX .kType1) ws 1 4 o ∧ 0 ≤ p ∧ p < 1 ∧ p ≠ o.prevPhase ∧
    (sysOf envX .kType1).process .kBidirectionnal o [p] [0] = .ok (o', ys) ∧
    NextIndices (sysOf envX .kType1) o o'.prevPhaseDiff t ∧
    t.idx = o.prevMip - 2 ∧ 0 < o.prevPhaseDiff ∧
    OffDenormal (2 ^ (4 - t.idx.toNat)) o.prevPhase ∧
    ys ≠ [output (nextMemory (filterX .kType1) o.prevY (mixture envX ws 4 o.crt t) o.prevPhase
      o'.prevPhaseDiff)] := by
  have oct2 : IsOctave 4 2 (3 / 8 : ℝ) := by
    refine ⟨by norm_num, by norm_num, ?_, Or.inl (by norm_num)⟩
    right; norm_num [tn2]
  have e38 : |(3 / 8 : ℝ)| = 3 / 8 := by norm_num [abs_of_pos]
  obtain ⟨o1, h1, -⟩ := at_init .kType1 [0, 0, 0, 0, 0, 0, 0, 0, 1, 0, 0, 0, 0, 0, 0, 0] 4 (by norm_num)
    (by norm_num) rfl 1 le_rfl (by norm_num) (p := 1 / 32) (d := 3 / 8) (by norm_num) (by norm_num)
    (i := 0) (by refine ⟨le_rfl, by norm_num, Or.inl rfl, Or.inr ?_⟩; norm_num)
    (cf_up (by norm_num) (by norm_num) (by norm_num) (k := 2) (by rw [e38]; exact oct2) (by norm_num))
  obtain ⟨⟨o2, y2, -, h2⟩, -⟩ := h1.step (dir := .kBidirectionnal) (p' := 13 / 32) (d' := 3 / 8)
    (by norm_num) (show (13 / 32 : ℝ) ≠ 1 / 32 by norm_num) (Or.inl (by norm_num))
    (by unfold Sys.dirDiff Sys.biDiff; norm_num)
    (cf_last (n := 1) (i := 1) (by norm_num) (by norm_num) (by norm_num) (k := 2)
      (by norm_num) (by rw [e38]; exact oct2))
  have hpl := Sys.reached_play (S := sysOf envX .kType1) envX_ok.1 log2X (exactSys .kType1).B h2.plays.1
  have hj : o2.jRed = 1 := by
    rw [hpl.posF (by rw [h2.diff]; norm_num), h2.phase, h2.mip, Int.floor_eq_iff]
    norm_num [tn2]
  have hn := cf_down (n := 1) (i := 2) (k := 0) (L := 4) (d := |(3 / 32 : ℝ)|) (by norm_num) (by norm_num)
    (by norm_num)
    (by rw [show |(3 / 32 : ℝ)| = 3 / 32 by norm_num [abs_of_pos]]
        refine ⟨le_rfl, by norm_num, Or.inl rfl, Or.inr ?_⟩; norm_num) (by norm_num)
  obtain ⟨o3, ys, a1, a2, a3, a4⟩ := out_error_ne h2 (p := 1 / 2) (d' := 3 / 32) (by norm_num)
    (by norm_num) (by norm_num) (by norm_num) (by norm_num) (Or.inl (by norm_num)) hn 1 8 3 4 _
    (by norm_num) (by norm_num) (by norm_num) rfl
    (by
      intro wt _
      have hs : Maths.sign ((3 : ℝ) / 32) = 1 := by
        unfold Maths.sign Maths.kMin
        rw [if_neg, if_neg (by norm_num)]
        rw [abs_of_pos (by norm_num)]; norm_num
      have ha : Sys.adj 4 0 o2.prevMip o2.jRed o2.prevPhaseDiff o2.prevPhaseRed = 5 := by
        unfold Sys.adj
        rw [h2.mip, hj, h2.diff, hpl.red, h2.phase]
        norm_num [tn2]
      have hp : (sysOf envX .kType1).prevJF o2 4 0 = 6 := by
        unfold Sys.prevJF
        rw [ha, h2.diff, hpl.red, h2.phase]
        dsimp only
        rw [if_pos (by norm_num)]
        have : (sysOf envX .kType1).env.fl ((13 : ℝ) / 32 - ((5 : ℤ) : ℝ) / 2 ^ 4) = 3 / 32 := by
          show ((13 : ℝ) / 32 - ((5 : ℤ) : ℝ) / 2 ^ 4) = 3 / 32
          norm_num
        rw [this, hs]; norm_num
      have hm : ⌊(1 / 2 : ℝ) * 2 ^ 4⌋ = 8 := by rw [Int.floor_eq_iff]; norm_num
      unfold Sys.accF Sys.mix
      dsimp only
      rw [if_pos (by simp), hpl.red, h2.phase]
      rw [show 4 - (0 : ℤ).toNat = 4 from rfl, hp, hm]
      show _ * ((0 : ℝ) : ℂ) + _ * ((1 : ℝ) : ℂ) = _
      norm_num)
    (by funext u; unfold mixture; simp)
    (by norm_num) (by norm_num) (by norm_num) (by constructor <;> norm_num)
    (by constructor <;> norm_num) (by norm_num) (by norm_num)
    (by
      rw [show (1 : ℤ).toNat = 1 from rfl, mip_one _ 4 8 (by norm_num) rfl]
      norm_num [cyc, List.range, List.range.loop, tn2, tn3, tn4])
  refine ⟨_, o2, o3, 1 / 2, ys, _, h2.plays, by norm_num, by norm_num, by rw [h2.phase]; norm_num, a1,
    by rw [a2]; exact a3, by rw [h2.mip]; norm_num, by rw [h2.diff]; norm_num, ?_, a4⟩
  rw [h2.phase]
  have := offDenormal_dyadic 13 5 4 (by norm_num) (by norm_num)
  norm_num at this ⊢
  exact this

end Adwt.Props
