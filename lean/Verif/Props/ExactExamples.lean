import Verif.Props.Tracking

/-!
# The hypotheses of C33 to C36 are met
-/

set_option linter.unusedSectionVars false

namespace Adwt.Props
open WavetableData

theorem oct0 {d : ℝ} (h : d < 1 / 4) : IsOctave 3 0 d := by
  refine ⟨le_rfl, by norm_num, Or.inl rfl, Or.inr ?_⟩
  norm_num; linarith

theorem oct1 {d : ℝ} (h : 1 / 4 ≤ d) : IsOctave 3 1 d := by
  refine ⟨by norm_num, by norm_num, Or.inr ?_, Or.inl (by norm_num)⟩
  norm_num; linarith

/-- the middle of a fade of two samples -/
theorem cf_mid {i : ℤ} {L : ℕ} {d : ℝ} (hL : 2 ≤ L) (hd : 0 < d) (h : IsOctave L (i + 1) d) :
    (⟨2, octaveScale ℝ L, 2, i, i + 1⟩ : CrossFader ℝ).newIndices envX d =
      .ok (⟨2, octaveScale ℝ L, 1, i, i + 1⟩, ⟨i, 1 / 2, i + 1, 1 / 2⟩) := by
  unfold CrossFader.newIndices
  rw [CrossFader.findMipMapIndex_eq hd, R.ok_bind]
  dsimp only
  rw [CrossFader.findLoop_of_octave hL h, if_pos (by simp), chk_true (by omega), R.ok_bind]
  unfold CrossFader.continueFade
  dsimp only
  have h1 : ¬ (i + 1 ≠ i + 1 ∧ i + 1 ≠ i) := fun h => h.1 rfl
  simp only [if_neg h1]
  rw [show (2 : ℤ) - 1 = 1 by norm_num, if_neg (by norm_num)]
  unfold CrossFader.fadeTuple
  rw [fadeX _ (by norm_num), R.ok_bind]
  dsimp only
  rw [if_pos (by omega)]
  have : envX.fl (1 - ((1 : ℤ) : ℝ) / ((2 : ℤ) : ℝ)) = 1 / 2 := by
    show (1 - ((1 : ℤ) : ℝ) / ((2 : ℤ) : ℝ)) = 1 / 2
    norm_num
  rw [this]
  norm_num

/-- C33, C34: any filter, any eight samples; init at phase 11/16, then one sample forward to 3/4 or
backward to 5/8. -/
theorem example_steps (ft : FilterType) (ws : List ℝ) (hws : ws.length = 2 ^ 3) (fwd : Bool) :
    ∃ o p o' ys t, Plays (sysOf envX ft) ws 1 3 o ∧ (0 ≤ p ∧ p < 1) ∧ p ≠ o.prevPhase ∧
      (sysOf envX ft).process .kBidirectionnal o [p] [0] = .ok (o', ys) ∧
      (if fwd then 0 < o'.prevPhaseDiff else o'.prevPhaseDiff < 0) ∧
      NextIndices (sysOf envX ft) o o'.prevPhaseDiff t ∧ t.weightUp = 0 ∧ TableMove o t.idx ∧
      OffDenormal (2 ^ (3 - t.idx.toNat)) o.prevPhase := by
  obtain ⟨o1, h1, -⟩ := at_init ft ws 3 (by norm_num) (by norm_num) hws 1
    le_rfl (by norm_num) (p := 11 / 16) (d := -(1 / 16)) (by norm_num) (by norm_num) (i := 0)
    (oct0 (by norm_num))
    (cf_idle (by norm_num) (by norm_num) (oct0 (by norm_num [abs_of_pos])))
  have hx : OffDenormal (2 ^ 3) o1.prevPhase := by
    rw [h1.phase]
    have := offDenormal_dyadic 11 4 3 (by norm_num) (by norm_num)
    norm_num at this ⊢
    exact this
  cases fwd
  · obtain ⟨⟨o2, y2, e, h2⟩, hn⟩ := h1.step (dir := .kBidirectionnal) (p' := 5 / 8) (d' := -(1 / 16))
      (by norm_num) (show (5 / 8 : ℝ) ≠ 11 / 16 by norm_num) (Or.inl (by norm_num))
      (by unfold Sys.dirDiff Sys.biDiff; norm_num)
      (cf_idle (by norm_num) (by norm_num) (oct0 (by norm_num [abs_of_pos])))
    refine ⟨o1, 5 / 8, o2, _, _, h1.plays, by norm_num, by rw [h1.phase]; norm_num, e,
      by rw [h2.diff]; norm_num, by rw [h2.diff]; exact hn, rfl, Or.inl h1.mip.symm, hx⟩
  · obtain ⟨⟨o2, y2, e, h2⟩, hn⟩ := h1.step (dir := .kBidirectionnal) (p' := 3 / 4) (d' := 1 / 16)
      (by norm_num) (show (3 / 4 : ℝ) ≠ 11 / 16 by norm_num) (Or.inl (by norm_num))
      (by unfold Sys.dirDiff Sys.biDiff; norm_num)
      (cf_idle (by norm_num) (by norm_num) (oct0 (by norm_num [abs_of_pos])))
    refine ⟨o1, 3 / 4, o2, _, _, h1.plays, by norm_num, by rw [h1.phase]; norm_num, e,
      by rw [h2.diff]; norm_num, by rw [h2.diff]; exact hn, rfl, Or.inl h1.mip.symm, hx⟩

/-- C33 applies. -/
example (ft : FilterType) (ws : List ℝ) (hws : ws.length = 2 ^ 3) : ∃ o p o' ys t,
    p ≠ o.prevPhase ∧ (sysOf envX ft).process .kBidirectionnal o [p] [0] = .ok (o', ys) ∧
    0 < o'.prevPhaseDiff ∧
    o'.prevY = nextMemory (filterX ft) o.prevY (waveAt envX ws 3 o.crt t) o.prevPhase
      o'.prevPhaseDiff := by
  obtain ⟨o, p, o', ys, t, h1, h2, h3, h4, h5, h6, h7, h8, h9⟩ := example_steps ft ws hws true
  exact ⟨o, p, o', ys, t.idx, h3, h4, h5, (C33_forward _ (exactSys ft) log2X ws 1 3 o h1 .kBidirectionnal p 0 h2
    h3 o' ys h4 h5 t h6 h7 h8 h9).1⟩

/-- C34 applies. -/
example (ft : FilterType) (ws : List ℝ) (hws : ws.length = 2 ^ 3) : ∃ o p o' ys t,
    p ≠ o.prevPhase ∧ (sysOf envX ft).process .kBidirectionnal o [p] [0] = .ok (o', ys) ∧
    o'.prevPhaseDiff < 0 ∧
    o'.prevY = nextMemory (filterX ft) o.prevY (waveAt envX ws 3 o.crt t) o.prevPhase
      o'.prevPhaseDiff := by
  obtain ⟨o, p, o', ys, t, h1, h2, h3, h4, h5, h6, h7, h8, h9⟩ := example_steps ft ws hws false
  exact ⟨o, p, o', ys, t.idx, h3, h4, h5, (C34_backward _ (exactSys ft) log2X ws 1 3 o h1 p 0 h2
    h3 o' ys h4 h5 t h6 h7 h8 h9).1⟩

/-- C35 applies in the middle of a fade: a fade of two samples from table 0 to table 1, started by
`init`; the next sample is half table 0, half table 1. -/
example (ft : FilterType) (ws : List ℝ) (hws : ws.length = 2 ^ 3) : ∃ o p o' ys t,
    p ≠ o.prevPhase ∧ (sysOf envX ft).process .kBidirectionnal o [p] [0] = .ok (o', ys) ∧
    t = ⟨0, 1 / 2, 1, 1 / 2⟩ ∧
    o'.prevY = nextMemory (filterX ft) o.prevY (mixture envX ws 3 o.crt t) o.prevPhase
      o'.prevPhaseDiff := by
  have e38 : |(3 / 8 : ℝ)| = 3 / 8 := by norm_num [abs_of_pos]
  have oc : IsOctave 3 (0 + 1) |(3 / 8 : ℝ)| := by rw [e38]; exact oct1 (by norm_num)
  obtain ⟨o1, h1, -⟩ := at_init ft ws 3 (by norm_num) (by norm_num) hws 2
    (by norm_num) (by norm_num) (p := 1 / 16) (d := 3 / 8) (by norm_num) (by norm_num) (i := 0)
    (oct0 (by norm_num))
    (cf_up (by norm_num) (by norm_num) (by norm_num) (k := 1) oc (by norm_num))
  obtain ⟨⟨o2, y2, e, h2⟩, hn⟩ := h1.step (dir := .kBidirectionnal) (p' := 7 / 16) (d' := 3 / 8)
    (by norm_num) (show (7 / 16 : ℝ) ≠ 1 / 16 by norm_num) (Or.inl (by norm_num))
    (by unfold Sys.dirDiff Sys.biDiff; norm_num)
    (cf_mid (i := 0) (by norm_num) (by norm_num) oc)
  have hx : OffDenormal (2 ^ 3) o1.prevPhase := by
    rw [h1.phase]
    have := offDenormal_dyadic 1 4 3 (by norm_num) (by norm_num)
    norm_num at this ⊢
    exact this
  rw [← h2.diff] at hn
  have hs : StepOk .kBidirectionnal o1.prevPhase (7 / 16) := by
    rw [h1.phase]; exact (by norm_num : (7 / 16 : ℝ) ≠ 1 / 16)
  exact ⟨o1, 7 / 16, o2, _, _, by rw [h1.phase]; norm_num, e, rfl, (C35_mixture _ (exactSys ft) log2X ws
    1 3 o1 h1.plays .kBidirectionnal (7 / 16) 0 (by norm_num) hs o2 _ e _ hn
    (Or.inl h1.mip.symm) hx).1⟩

/-- C36 applies: the sample that ends a fade up, after forward steps. -/
example (ft : FilterType) (ws : List ℝ) (hws : ws.length = 2 ^ 3) : ∃ o p o' ys t,
    p ≠ o.prevPhase ∧ (sysOf envX ft).process .kBidirectionnal o [p] [0] = .ok (o', ys) ∧
    t.idx = o.prevMip + 1 ∧
    ys = [output (nextMemory (filterX ft) o.prevY (mixture envX ws 3 o.crt t) o.prevPhase
      o'.prevPhaseDiff)] := by
  have e38 : |(3 / 8 : ℝ)| = 3 / 8 := by norm_num [abs_of_pos]
  have oc : IsOctave 3 1 |(3 / 8 : ℝ)| := by rw [e38]; exact oct1 (by norm_num)
  obtain ⟨o1, h1, -⟩ := at_init ft ws 3 (by norm_num) (by norm_num) hws 1
    (by norm_num) (by norm_num) (p := 1 / 16) (d := 3 / 8) (by norm_num) (by norm_num) (i := 0)
    (oct0 (by norm_num))
    (cf_up (by norm_num) (by norm_num) (by norm_num) (k := 1) oc (by norm_num))
  obtain ⟨⟨o2, y2, e, h2⟩, hn⟩ := h1.step (dir := .kBidirectionnal) (p' := 7 / 16) (d' := 3 / 8)
    (by norm_num) (show (7 / 16 : ℝ) ≠ 1 / 16 by norm_num) (Or.inl (by norm_num))
    (by unfold Sys.dirDiff Sys.biDiff; norm_num)
    (cf_last (n := 1) (i := 0) (k := 1) (by norm_num) (by norm_num) (by norm_num) (by norm_num) oc)
  have hx : OffDenormal (2 ^ (3 - 1)) o1.prevPhase := by
    rw [h1.phase]
    have := offDenormal_dyadic 1 4 2 (by norm_num) (by norm_num)
    norm_num at this ⊢
    exact this
  rw [← h2.diff] at hn
  have hs : StepOk .kBidirectionnal o1.prevPhase (7 / 16) := by
    rw [h1.phase]; exact (by norm_num : (7 / 16 : ℝ) ≠ 1 / 16)
  exact ⟨o1, 7 / 16, o2, _, _, by rw [h1.phase]; norm_num, e, by rw [h1.mip]; norm_num,
    C36_change _ (exactSys ft) log2X ws
    1 3 o1 h1.plays .kBidirectionnal (7 / 16) 0 (by norm_num) hs o2 _ e _ hn
    (Or.inl ⟨by rw [h1.mip]; norm_num, by rw [h1.diff]; norm_num⟩) hx⟩

end Adwt.Props
