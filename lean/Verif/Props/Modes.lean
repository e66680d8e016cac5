import Verif.Props.Hold

/-!
# C31, C32: the two playing modes
-/

set_option linter.unusedSectionVars false

namespace Adwt.Props
open WavetableData
variable {K C : Type} [Field K] [LinearOrder K] [IsStrictOrderedRing K] [FloorRing K]
variable [Zero C] [Add C] [Sub C] [Mul C] [Div C]

/-! ### C31 -/

/-- C31, range, under any rounding: the step reported after a bidirectional sample is in
`[-1/2, 1/2]` and not zero. -/
theorem C31_range (S : Sys K C) (hf : Rounding S.env.fl) (hl : Log2Spec S.env.log2f)
    (hB : 0 < S.B) (nw L : ℕ) (o : Osc K C) (ho : Reached S nw L o) (p b : K)
    (hp : PhaseOk S.env.fl p) (hs : p ≠ o.prevPhase) (o' : Osc K C) (ys : List K)
    (h : S.process .kBidirectionnal o [p] [b] = .ok (o', ys)) :
    -(1 / 2) ≤ o'.prevPhaseDiff ∧ o'.prevPhaseDiff ≤ 1 / 2 ∧ o'.prevPhaseDiff ≠ 0 := by
  have hs' := Sys.reached_play hf hl hB ho
  obtain ⟨wt, hwt, -⟩ := hs'.wt
  rw [Sys.process_runDir S _ (by rw [hwt]; rfl) (show [p].length = [b].length from rfl)] at h
  unfold Sys.runDir at h
  rcases Sys.step_cases hf hB hs' hp (dir := .kBidirectionnal) hs with ⟨⟨⟨o1, y1⟩, e, hr⟩, -⟩ | ⟨e, -⟩
  swap
  · rw [e] at h; cases h
  rw [e] at h
  have heq : o1 = o' := congrArg Prod.fst (Except.ok.inj h)
  subst heq
  dsimp only at hr
  rw [hr.diff]
  obtain ⟨a, b, c⟩ := Sys.biDiff_range hf hs'.phase hp
  exact ⟨a, b, fun e => hs (c.1 e)⟩

/-- C31, exact arithmetic: the step is congruent to the phase difference modulo 1, and it is a
shortest one: no other difference modulo 1 is smaller in magnitude. -/
theorem C31_shortest (S : Sys K C) (hid : S.env.fl = id) (hl : Log2Spec S.env.log2f)
    (hB : 0 < S.B) (nw L : ℕ) (o : Osc K C) (ho : Reached S nw L o) (p b : K)
    (hp : 0 ≤ p ∧ p < 1) (hs : p ≠ o.prevPhase) (o' : Osc K C) (ys : List K)
    (h : S.process .kBidirectionnal o [p] [b] = .ok (o', ys)) :
    (∃ k : ℤ, o'.prevPhaseDiff = p - o.prevPhase + k) ∧
    ∀ k : ℤ, |o'.prevPhaseDiff| ≤ |p - o.prevPhase + k| := by
  have hf : Rounding S.env.fl := by rw [hid]; exact rounding_id
  have hp' : PhaseOk S.env.fl p := ⟨hp.1, hp.2, by rw [hid]; exact isPhase_id _⟩
  obtain ⟨h1, h2, -⟩ := C31_range S hf hl hB nw L o ho p b hp' hs o' ys h
  have hs' := Sys.reached_play hf hl hB ho
  obtain ⟨wt, hwt, -⟩ := hs'.wt
  rw [Sys.process_runDir S _ (by rw [hwt]; rfl) (show [p].length = [b].length from rfl)] at h
  unfold Sys.runDir at h
  rcases Sys.step_cases hf hB hs' hp' (dir := .kBidirectionnal) hs with ⟨⟨⟨o1, y1⟩, e, hr⟩, -⟩ | ⟨e, -⟩
  swap
  · rw [e] at h; cases h
  rw [e] at h
  have heq : o1 = o' := congrArg Prod.fst (Except.ok.inj h)
  subst heq
  dsimp only at hr
  have hk : ∃ k : ℤ, o1.prevPhaseDiff = p - o.prevPhase + k := by
    rw [hr.diff]
    show ∃ k : ℤ, Sys.biDiff _ _ _ = _
    unfold Sys.biDiff
    rw [hid]
    dsimp only [id]
    split
    · exact ⟨1, by push_cast; ring⟩
    · split
      · exact ⟨-1, by push_cast; ring⟩
      · exact ⟨0, by push_cast; ring⟩
  refine ⟨hk, fun k => ?_⟩
  obtain ⟨k0, hk0⟩ := hk
  have e : p - o.prevPhase + k = o1.prevPhaseDiff + ((k - k0 : ℤ) : K) := by
    rw [hk0]; push_cast; ring
  rw [e]
  generalize o1.prevPhaseDiff = d at h1 h2
  have hd : |d| ≤ 1 / 2 := abs_le.2 ⟨h1, h2⟩
  rcases eq_or_ne (k - k0) 0 with h0 | h0
  · rw [h0]; simp
  · have h3 : (1 : K) ≤ |((k - k0 : ℤ) : K)| := by
      rw [← Int.cast_abs]
      exact_mod_cast Int.one_le_abs h0
    have h4 := abs_sub_abs_le_abs_sub (((k - k0 : ℤ) : K)) (-d)
    rw [abs_neg, sub_neg_eq_add, add_comm _ d] at h4
    linarith

/-- C31, direction: a bidirectional sample with a step that is not negative is processed by the
forward code and one with a negative step by the backward code, with exactly this step. -/
theorem C31_direction (S : Sys K C) (o : Osc K C) (hw : o.wt.isSome = true) (p b : K) :
    let d := Sys.biDiff S.env.fl p o.prevPhase
    (0 ≤ d → S.process .kBidirectionnal o [p] [b] =
      (S.processSampleFwd o p d).map fun r => (r.1, [r.2])) ∧
    (d < 0 → S.process .kBidirectionnal o [p] [b] =
      (S.processSampleBwd o p d).map fun r => (r.1, [r.2])) := by
  intro d
  rw [Sys.process_runDir S _ hw (show [p].length = [b].length from rfl)]
  unfold Sys.runDir
  show (0 ≤ d → (S.stepBi o p >>= _) = _) ∧ (d < 0 → (S.stepBi o p >>= _) = _)
  unfold Sys.stepBi
  dsimp only
  constructor
  · intro h
    rw [if_pos (show d ≥ 0 from h)]
    cases S.processSampleFwd o p d <;> rfl
  · intro h
    rw [if_neg (show ¬ d ≥ 0 from not_le.2 h)]
    cases S.processSampleBwd o p d <;> rfl

/-- the hypotheses can be met -/
example (t : FilterType) : ∃ o o' ys, Reached (sysOf envX t) 1 3 o ∧ o.prevPhase = 0 ∧
    (sysOf envX t).process .kBidirectionnal o [3 / 4] [0] = .ok (o', ys) := by
  obtain ⟨o, h, h0, h1⟩ := exampleReached envX envX_ok t [1, 2, 3, 4, 5, 6, 7, 8] rfl
  have hs := Sys.reached_safe envX_ok.1 envX_ok.2.1 (by norm_num [sysOf]) h
    (fun hz => absurd hz.2 (by rw [h1]; norm_num))
  obtain ⟨⟨o', ys⟩, e, -⟩ := Sys.run_ok (S := sysOf envX t) envX_ok.1 (by norm_num [sysOf]) hs
    (dir := .kBidirectionnal) (ps := [3 / 4])
    (by
      refine ⟨?_, ⟨by rw [h0]; norm_num, fun h => by norm_num at h⟩, trivial⟩
      have := phaseOk_dyadic envX_ok.1 (k := 3) (n := 2) (by norm_num) (by norm_num)
      norm_num at this; exact this)
  obtain ⟨wt, hwt, -⟩ := hs.wt
  refine ⟨o, o', ys, h, h0, ?_⟩
  rw [Sys.process_runDir _ _ (by rw [hwt]; rfl) (show [(3 / 4 : ℝ)].length = [(0 : ℝ)].length from rfl)]
  exact e

/-! ### C32 -/

/-- A block of forward steps (of at most half a cycle) after `prev` in which no difference of
consecutive phases, as computed, is exactly `-1/2`. -/
def ForwardBlock (fl : K → K) : K → List K → Prop
  | _, [] => True
  | prev, p :: ps =>
    PhaseOk fl p ∧ Forward prev p ∧ fl (p - prev) ≠ -(1 / 2) ∧ ForwardBlock fl p ps

/-- Phases in `[0,1)` that advance by strictly more than 0 and strictly less than half a cycle. -/
def StrictForward : K → List K → Prop
  | _, [] => True
  | prev, p :: ps => (0 ≤ p ∧ p < 1) ∧
    ((prev < p ∧ p - prev < 1 / 2) ∨ (p < prev ∧ p - prev + 1 < 1 / 2)) ∧ StrictForward p ps

theorem stepDir_agree {S : Sys K C} (hf : Rounding S.env.fl) {o : Osc K C} {p : K}
    (h0 : PhaseOk S.env.fl o.prevPhase) (hp : PhaseOk S.env.fl p)
    (h : Forward o.prevPhase p) (hne : S.env.fl (p - o.prevPhase) ≠ -(1 / 2)) :
    S.stepFwd o p = S.stepBi o p := by
  obtain ⟨r0, r1⟩ := Sys.raw_range hf h0 hp
  obtain ⟨f0, f1⟩ := Sys.fwdDiff_range hf h0 hp h
  have hd : Sys.biDiff S.env.fl p o.prevPhase = Sys.fwdDiff S.env.fl p o.prevPhase := by
    unfold Sys.biDiff Sys.fwdDiff
    dsimp only
    rcases h with ⟨ha, hb⟩ | ⟨ha, hb⟩
    · have h0 : 0 ≤ S.env.fl (p - o.prevPhase) := hf.nonneg (by linarith)
      have h1 : S.env.fl (p - o.prevPhase) ≤ 1 / 2 := hf.le_of_le hf.half hb
      rw [if_neg (by linarith), if_neg (not_lt.2 h1), if_neg (not_lt.2 h0)]
    · have h1 : S.env.fl (p - o.prevPhase) ≤ -(1 / 2) := hf.le_of_le hf.neg_half (by linarith)
      have h2 : S.env.fl (p - o.prevPhase) < -(1 / 2) := lt_of_le_of_ne h1 hne
      rw [if_pos h2, if_pos (by linarith)]
  unfold Sys.stepBi Sys.stepFwd
  dsimp only
  rw [hd, if_pos (show Sys.fwdDiff S.env.fl p o.prevPhase ≥ 0 from f0.le)]
  unfold Sys.fwdDiff at f0 f1 ⊢
  dsimp only at f0 f1 ⊢
  rw [chk_true ⟨f0, f1⟩, R.ok_bind]

theorem runDir_agree {S : Sys K C} (hf : Rounding S.env.fl) (hB : 0 < S.B) {nw L : ℕ} {o : Osc K C}
    (ho : OscPlay S nw L o) {ps : List K} (h : ForwardBlock S.env.fl o.prevPhase ps) :
    S.runDir .kForward o ps = S.runDir .kBidirectionnal o ps := by
  induction ps generalizing o with
  | nil => rfl
  | cons p ps ih =>
    obtain ⟨h1, h2, h3, h4⟩ := h
    unfold Sys.runDir
    have e : S.stepDir .kForward o p = S.stepDir .kBidirectionnal o p :=
      stepDir_agree hf ho.phase h1 h2 h3
    rcases Sys.step_cases hf hB ho h1 (dir := .kForward) h2 with ⟨⟨⟨o1, y1⟩, e1, hr⟩, -⟩ | ⟨e1, -⟩
    · rw [← e, e1, R.ok_bind, R.ok_bind]
      dsimp only at hr ⊢
      rw [ih hr.ok (by rw [hr.phase]; exact h4)]
    · rw [← e, e1]; rfl

/-- C32, under any rounding: from every reached state both modes give the same outputs and the same
final state on forward material, provided that no computed phase difference is exactly `-1/2`. -/
theorem C32_agree (S : Sys K C) (hf : Rounding S.env.fl) (hl : Log2Spec S.env.log2f)
    (hB : 0 < S.B) (nw L : ℕ) (o : Osc K C) (ho : Reached S nw L o) (ps out : List K)
    (hlen : ps.length = out.length) (h : ForwardBlock S.env.fl o.prevPhase ps) :
    S.process .kForward o ps out = S.process .kBidirectionnal o ps out := by
  have hs := Sys.reached_play hf hl hB ho
  obtain ⟨wt, hwt, -⟩ := hs.wt
  rw [Sys.process_runDir S _ (by rw [hwt]; rfl) hlen, Sys.process_runDir S _ (by rw [hwt]; rfl) hlen,
    runDir_agree hf hB hs h]

/-- C32, exact arithmetic: both modes agree for steps strictly between 0 and 1/2. -/
theorem C32_agree_exact (S : Sys K C) (hid : S.env.fl = id) (hl : Log2Spec S.env.log2f)
    (hB : 0 < S.B) (nw L : ℕ) (o : Osc K C) (ho : Reached S nw L o) (ps out : List K)
    (hlen : ps.length = out.length) (h : StrictForward o.prevPhase ps) :
    S.process .kForward o ps out = S.process .kBidirectionnal o ps out := by
  have hf : Rounding S.env.fl := by rw [hid]; exact rounding_id
  apply C32_agree S hf hl hB nw L o ho ps out hlen
  clear hlen ho
  generalize o.prevPhase = prev at h
  induction ps generalizing prev with
  | nil => trivial
  | cons p ps ih =>
    obtain ⟨h1, h2, h3⟩ := h
    refine ⟨⟨h1.1, h1.2, by rw [hid]; exact isPhase_id _⟩, ?_, ?_, ih p h3⟩
    · rcases h2 with ⟨a, b⟩ | ⟨a, b⟩
      · exact Or.inl ⟨a, b.le⟩
      · exact Or.inr ⟨a, b.le⟩
    · rw [hid]
      dsimp only [id]
      rcases h2 with ⟨a, b⟩ | ⟨a, b⟩ <;> intro e <;> linarith

/-- A forward block with a wrap. -/
example : StrictForward (0 : ℝ) [1 / 8, 1 / 2, 7 / 8, 1 / 4] := by
  refine ⟨by norm_num, Or.inl (by norm_num), by norm_num, Or.inl (by norm_num), by norm_num,
    Or.inl (by norm_num), by norm_num, Or.inr (by norm_num), trivial⟩

/-- C32 fails when the computed difference is exactly `-1/2`: then forward mode steps by `+1/2` and
bidirectional mode by `-1/2`. In particular from phase 3/4 to 1/4, a forward step of 1/2. -/
theorem C32_differ (S : Sys K C) (hf : Rounding S.env.fl) (hl : Log2Spec S.env.log2f)
    (hB : 0 < S.B) (nw L : ℕ) (o : Osc K C) (ho : Reached S nw L o) (p b : K)
    (hp : PhaseOk S.env.fl p) (hfw : Forward o.prevPhase p)
    (he : S.env.fl (p - o.prevPhase) = -(1 / 2)) :
    ∃ o1 y1 o2 y2, S.process .kForward o [p] [b] = .ok (o1, [y1]) ∧
      S.process .kBidirectionnal o [p] [b] = .ok (o2, [y2]) ∧
      o1.prevPhaseDiff = 1 / 2 ∧ o2.prevPhaseDiff = -(1 / 2) := by
  have hs := Sys.reached_play hf hl hB ho
  have hne : o.prevPhase ≠ 0 := by
    intro h0
    rw [h0, sub_zero, hp.2.2.1] at he
    have := hp.1
    linarith
  have hpne : p ≠ o.prevPhase := by
    intro h0; rw [h0, sub_self, hf.zero] at he; norm_num at he
  obtain ⟨wt, hwt, -⟩ := hs.wt
  have hz := Sys.reached_safe hf hl hB ho (fun h => hne h.1)
  obtain ⟨⟨o1, y1⟩, e1, r1⟩ := Sys.step_ok hf hB hz hp (dir := .kForward) hfw
  obtain ⟨⟨o2, y2⟩, e2, r2⟩ := Sys.step_ok hf hB hz hp (dir := .kBidirectionnal) hpne
  refine ⟨o1, y1, o2, y2, ?_, ?_, ?_, ?_⟩
  · rw [Sys.process_runDir S _ (by rw [hwt]; rfl) (show [p].length = [b].length from rfl)]
    unfold Sys.runDir Sys.runDir
    rw [e1]; rfl
  · rw [Sys.process_runDir S _ (by rw [hwt]; rfl) (show [p].length = [b].length from rfl)]
    unfold Sys.runDir Sys.runDir
    rw [e2]; rfl
  · have := r1.diff
    dsimp only at this
    rw [this]
    show Sys.fwdDiff _ _ _ = _
    unfold Sys.fwdDiff
    dsimp only
    rw [he, if_pos (by norm_num), show (-(1 / 2) + 1 : K) = 1 / 2 by norm_num, hf.half]
  · have := r2.diff
    dsimp only at this
    rw [this]
    show Sys.biDiff _ _ _ = _
    unfold Sys.biDiff
    dsimp only
    rw [he, if_neg (lt_irrefl _), if_neg (by norm_num)]

theorem rne24_half_up : rne24 (-(1 / 2) - 1 / 2 ^ 48 : ℝ) = -(1 / 2) := by
  have e : (-(1 / 2) - 1 / 2 ^ 48 : ℝ) = -(1 / 2 + 1 / 2 ^ 48) := by ring
  rw [e, rne24_neg]
  congr 1
  have hx : (0 : ℝ) < 1 / 2 + 1 / 2 ^ 48 := by positivity
  have hlog : Int.log 2 (1 / 2 + 1 / 2 ^ 48 : ℝ) = -1 := by
    obtain ⟨h1, h2⟩ := log_bounds hx
    set l := Int.log 2 (1 / 2 + 1 / 2 ^ 48 : ℝ) with hl
    have hle : l ≤ -1 := by
      by_contra h
      have : (2 : ℝ) ^ (0 : ℤ) ≤ 2 ^ l := zpow_le_zpow_right₀ (by norm_num) (by omega)
      have h3 := le_trans this h1
      norm_num at h3
    have hge : -1 ≤ l := by
      by_contra h
      have : (2 : ℝ) ^ (l + 1) ≤ 2 ^ (-1 : ℤ) := zpow_le_zpow_right₀ (by norm_num) (by omega)
      have h3 := lt_of_lt_of_le h2 this
      norm_num at h3
    omega
  have hu : ulpExp (1 / 2 + 1 / 2 ^ 48 : ℝ) = -24 := by
    unfold ulpExp
    rw [abs_of_pos hx, hlog]; norm_num
  unfold rne24
  rw [hu]
  have hr : roundEven ((1 / 2 + 1 / 2 ^ 48 : ℝ) / 2 ^ (-24 : ℤ)) = 2 ^ 23 := by
    have h := roundEven_err ((1 / 2 + 1 / 2 ^ 48 : ℝ) / 2 ^ (-24 : ℤ))
    set r := roundEven ((1 / 2 + 1 / 2 ^ 48 : ℝ) / 2 ^ (-24 : ℤ)) with hr
    have ev : (1 / 2 + 1 / 2 ^ 48 : ℝ) / 2 ^ (-24 : ℤ) = 2 ^ 23 + 1 / 2 ^ 24 := by norm_num
    rw [ev, abs_le] at h
    have h1 : (r : ℝ) < ((2 ^ 23 + 1 : ℤ) : ℝ) := by push_cast; norm_num at h ⊢; linarith [h.2]
    have h2 : ((2 ^ 23 - 1 : ℤ) : ℝ) < (r : ℝ) := by push_cast; norm_num at h ⊢; linarith [h.1]
    have h1' := Int.cast_lt.1 h1
    have h2' := Int.cast_lt.1 h2
    omega
  rw [hr]; norm_num

/-- C32: in float arithmetic the two modes can differ although the step is strictly less than 1/2:
going from `1/2 + 2^-24` to `2^-24 - 2^-48` is a forward step of `1/2 - 2^-48`. -/
example : Forward (1 / 2 + 1 / 2 ^ 24 : ℝ) (1 / 2 ^ 24 - 1 / 2 ^ 48) ∧
    (1 / 2 ^ 24 - 1 / 2 ^ 48) - (1 / 2 + 1 / 2 ^ 24) + 1 < (1 / 2 : ℝ) ∧
    PhaseOk envI.fl (1 / 2 + 1 / 2 ^ 24) ∧ PhaseOk envI.fl (1 / 2 ^ 24 - 1 / 2 ^ 48) ∧
    envI.fl ((1 / 2 ^ 24 - 1 / 2 ^ 48) - (1 / 2 + 1 / 2 ^ 24)) = -(1 / 2) := by
  refine ⟨Or.inr (by norm_num), by norm_num, ⟨by norm_num, by norm_num, ?_⟩,
    ⟨by norm_num, by norm_num, ?_⟩, ?_⟩
  · have e : (1 / 2 + 1 / 2 ^ 24 : ℝ) = ((2 ^ 23 + 1 : ℤ) : ℝ) / 2 ^ 24 := by push_cast; norm_num
    rw [e]; exact isPhase_ieee32 (envI_ok.1.dyadic _ _ (by norm_num))
  · have e : (1 / 2 ^ 24 - 1 / 2 ^ 48 : ℝ) = ((2 ^ 24 - 1 : ℤ) : ℝ) / 2 ^ 48 := by push_cast; norm_num
    rw [e]; exact isPhase_ieee32 (envI_ok.1.dyadic _ _ (by norm_num))
  · have e : (1 / 2 ^ 24 - 1 / 2 ^ 48 - (1 / 2 + 1 / 2 ^ 24) : ℝ) = -(1 / 2) - 1 / 2 ^ 48 := by ring
    rw [e]
    show ieee32 _ = _
    rw [ieee32_normal (Or.inr ?_) ?_, rne24_half_up]
    · rw [abs_of_neg (by norm_num)]; norm_num
    · rw [abs_of_neg (by norm_num)]; norm_num

end Adwt.Props
