import Verif.Props.Convolution
import Verif.Proofs.WorkTrack

/-!
# C43: the work per sample
-/

set_option linter.unusedSectionVars false

namespace Adwt.Props
open WavetableData Sys

section any
variable {K C : Type} [Field K] [LinearOrder K] [IsStrictOrderedRing K] [FloorRing K]
variable [Zero C] [Add C] [Sub C] [Mul C] [Div C]

/-- C43: `processW` is `process` with counters: forgetting the counters gives `process`, for every
state and every input, including the failing ones; and it counts each processed sample. -/
theorem C43_erase (S : Sys K C) (dir : Direction) (o : Osc K C) (ps out : List K) :
    (S.processW dir o ps out).map Prod.fst = S.process dir o ps out ∧
    ∀ r, S.processW dir o ps out = .ok r → r.2.length = min ps.length out.length := by
  have h := process_erase (S := S) dir o ps out
  cases e1 : S.process dir o ps out with
  | error e =>
    cases e2 : S.processW dir o ps out with
    | error e' =>
      rw [e1, e2] at h
      have h : e = e' := h
      subst h
      exact ⟨rfl, fun r hr => by cases hr⟩
    | ok r => rw [e1, e2] at h; exact h.elim
  | ok r =>
    cases e2 : S.processW dir o ps out with
    | error e' => rw [e1, e2] at h; exact h.elim
    | ok s =>
      rw [e1, e2] at h
      exact ⟨congrArg Except.ok h.1, fun r hr => by cases hr; exact h.2⟩

theorem processW_runDirW {S : Sys K C} {dir : Direction} {o : Osc K C} (hw : o.wt.isSome = true)
    {ps out : List K} (hl : ps.length = out.length) {r : (Osc K C × List K) × List (ℕ × ℕ)}
    (h : S.processW dir o ps out = .ok r) :
    ∃ s, S.runDirW dir o ps = .ok s ∧ s.2 = r.2 ∧ s.1.1 = r.1.1 := by
  unfold processW at h
  have : o.wt.isNone = false := by rw [← Option.not_isSome, hw]; rfl
  rw [this] at h
  simp only [Bool.false_eq_true, if_false, chk_true hl, R.pure_eq, R.ok_bind] at h
  rw [← hl, List.take_length] at h
  obtain ⟨s, e, h⟩ := bind_ok h
  cases h
  exact ⟨s, e, rfl, rfl⟩

theorem runDirW_cons {S : Sys K C} {dir : Direction} {o : Osc K C} {p : K} {ps : List K}
    {r : (Osc K C × List K) × List (ℕ × ℕ)} (h : S.runDirW dir o (p :: ps) = .ok r) :
    ∃ o1 y w s, S.stepDirW dir o p = .ok ((o1, y), w) ∧ S.runDirW dir o1 ps = .ok s ∧
      r.2 = w :: s.2 := by
  unfold runDirW at h
  obtain ⟨⟨⟨o1, y⟩, w⟩, h1, h⟩ := bind_ok h
  obtain ⟨⟨⟨o2, ys⟩, ws⟩, h2, h⟩ := bind_ok h
  cases h
  exact ⟨o1, y, w, _, h1, h2, rfl⟩

theorem runDirW_length {S : Sys K C} (hf : Rounding S.env.fl) (hB : 0 < S.B) {nw L : ℕ}
    {dir : Direction} {ps : List K} {o : Osc K C} (ho : OscPlay S nw L o)
    (hp : BlockOk S.env.fl dir o.prevPhase ps) {r : (Osc K C × List K) × List (ℕ × ℕ)}
    (h : S.runDirW dir o ps = .ok r) : ∀ w ∈ r.2, w.1 < 2 ^ L ∧ w.2 < 2 ^ (L - 1) := by
  induction ps generalizing o r with
  | nil => cases h; simp
  | cons p ps ih =>
    obtain ⟨o1, y, w, s, h1, h2, e⟩ := runDirW_cons h
    obtain ⟨wt, hwt, hw⟩ := ho.wt
    obtain ⟨e1, c, t, -, -, -, b0, b1, b2, jmin, jmax, -, -, m0, m1, x0, x1, w1, w2⟩ :=
      step_count hf hB ho hwt hp.1 hp.2.1 h1
    have hpost : OscPlay S nw L o1 ∧ o1.prevPhase = p := by
      have := atom_play hf hB ho (a := .sample dir p) (o' := o1) (ys := [y]) ⟨hp.1, hp.2.1⟩
        (by unfold atom; dsimp only; rw [e1]; rfl)
      exact this
    have hL := hw.L18
    have le1 : (2 : ℤ) ^ (L - t.idx.toNat) ≤ 2 ^ L := pow_le_pow_right₀ (by norm_num) (by omega)
    have le2 : (2 : ℤ) ^ (L - t.idx.toNat - 1) ≤ 2 ^ (L - 1) :=
      pow_le_pow_right₀ (by norm_num) (by omega)
    rw [e]
    intro v hv
    rcases List.mem_cons.1 hv with rfl | hv
    · refine ⟨?_, ?_⟩
      · have := corners_lt m0 x0 x1
        rw [← w1] at this
        exact_mod_cast lt_of_lt_of_le this le1
      · rcases w2 with ⟨-, w2⟩ | ⟨hu, w2⟩
        · rw [w2]; positivity
        · have q1 := half_range (n := L - t.idx.toNat) (by omega) m0 m1
          have q2 := half_range (n := L - t.idx.toNat) (by omega) x0 x1
          have := corners_lt q1.2.1 q2.2.1 q2.2.2
          rw [← w2] at this
          exact_mod_cast lt_of_lt_of_le this le2
    · exact ih hpost.1 (by rw [hpost.2]; exact hp.2.2) h2 v hv

/-- C43: in every state reached by legal calls, for every rounding mode, every sample of a legal
block that is processed visits fewer corners than the tables have samples (no assumption about
position tracking). -/
theorem C43_table_length (S : Sys K C) (hf : Rounding S.env.fl) (hl : Log2Spec S.env.log2f)
    (hB : 0 < S.B) (nw L : ℕ) (o : Osc K C) (ho : Reached S nw L o) (dir : Direction)
    (ps out : List K) (hp : BlockOk S.env.fl dir o.prevPhase ps) (hlen : ps.length = out.length)
    (r : Osc K C × List K) (ws : List (ℕ × ℕ)) (h : S.processW dir o ps out = .ok (r, ws)) :
    ∀ w ∈ ws, w.1 < 2 ^ L ∧ w.2 < 2 ^ (L - 1) := by
  have hpl := reached_play hf hl hB ho
  obtain ⟨wt, hwt, -⟩ := hpl.wt
  obtain ⟨s, e, e2, -⟩ := processW_runDirW (by rw [hwt]; rfl) hlen h
  dsimp only at e2
  rw [← e2]
  exact runDirW_length hf hB hpl hp e

end any

/-- C43: for every rounding mode, in every state reached by legal calls: while the position is
carried over correctly (cf. C36, C48), every sample of a legal block of any length visits at most 5
corners of the lower table and at most 3 of the upper one. -/
theorem C43_tracked (S : Sys ℝ ℂ) (hf : Rounding S.env.fl) (hl : Log2Spec S.env.log2f)
    (hB : 0 < S.B) (nw L : ℕ) (o : Osc ℝ ℂ) (ho : Reached S nw L o) (dir : Direction)
    (ps out : List ℝ) (hp : BlockOk S.env.fl dir o.prevPhase ps) (hlen : ps.length = out.length)
    (hT : Tracked S L o [.process dir ps])
    (r : Osc ℝ ℂ × List ℝ) (ws : List (ℕ × ℕ)) (h : S.processW dir o ps out = .ok (r, ws)) :
    ∀ w ∈ ws, w.1 ≤ 5 ∧ w.2 ≤ 3 := by
  have hpl := reached_play hf hl hB ho
  obtain ⟨wt, hwt, -⟩ := hpl.wt
  obtain ⟨s, e, e2, -⟩ := processW_runDirW (by rw [hwt]; rfl) hlen h
  dsimp only at e2
  rw [← e2]
  clear h e2 hlen ho hwt
  induction ps generalizing o s with
  | nil => cases e; simp
  | cons p ps ih =>
    obtain ⟨o1, y, w, s', h1, h2, e⟩ := runDirW_cons e
    obtain ⟨wt, hwt, hw⟩ := hpl.wt
    cases hT with
    | sample hpr ht hm hx hr =>
      rename_i o2 ys t
      obtain ⟨y2, e2, -⟩ := process_one (by rw [hwt]; rfl) hpr
      have e1 := (step_count hf hB hpl hwt hp.1 hp.2.1 h1).1
      rw [e1] at e2
      cases e2
      have hpost : OscPlay S nw L o1 ∧ o1.prevPhase = p :=
        atom_play hf hB hpl (a := .sample dir p) (o' := o1) (ys := [y]) ⟨hp.1, hp.2.1⟩
          (by unfold atom; dsimp only; rw [e1]; rfl)
      rw [e]
      intro v hv
      rcases List.mem_cons.1 hv with rfl | hv
      · obtain ⟨wt1, wt2, q1, q2⟩ := ht
        rw [hwt] at q1; cases q1
        rw [(Sys.stepDir_tables e1).2.2.1] at q2
        exact tracked_count hf hB hpl hwt hp.1 hp.2.1 h1 q2 hm hx
      · exact ih o1 (by rw [hpost.2]; exact hp.2.2) hr hpost.1 s' h2 v hv

/-- the count of a forward sample from an explicit state -/
theorem At.count {ft : FilterType} {ws : List ℝ} {L : ℕ} {o : Osc ℝ ℂ} {c c' : CrossFader ℝ}
    {mip : ℤ} {d p : ℝ} (h : At (sysOf envX ft) ws L o c mip d p) {p' d' : ℝ}
    (hp : 0 ≤ p' ∧ p' < 1) (hs : p' = p + d') (h0 : 0 < d') (h1 : d' ≤ 1 / 2) (hz : p ≠ 0 ∨ 0 < d)
    {t : MipMapIndices ℝ} (hn : c.newIndices envX |d'| = .ok (c', t)) :
    ∃ r w, (sysOf envX ft).processW .kForward o [p'] [0] = .ok (r, [w]) ∧
      w.1 = corners (((sysOf envX ft).prevJF o (L - t.idx.toNat) t.idx - 1) % 2 ^ (L - t.idx.toNat))
        ⌊p' * 2 ^ (L - t.idx.toNat)⌋ (2 ^ (L - t.idx.toNat)) := by
  have hS := exactSys ft
  have hst : StepOk .kForward p p' := Or.inl ⟨by linarith, by linarith⟩
  have hdd : Sys.dirDiff id .kForward p' p = d' := by
    unfold Sys.dirDiff Sys.fwdDiff
    simp only [id]
    rw [if_neg (by linarith)]; linarith
  obtain ⟨⟨o', y, hproc, -⟩, -⟩ := h.step hp hst hz hdd hn
  have her := C43_erase (sysOf envX ft) .kForward o [p'] [0]
  rw [hproc] at her
  cases e : (sysOf envX ft).processW .kForward o [p'] [0] with
  | error e' => rw [e] at her; cases her.1
  | ok r =>
  obtain ⟨r, vs⟩ := r
  have hpl := Sys.reached_play (S := sysOf envX ft) envX_ok.1 log2X hS.B h.plays.1
  obtain ⟨wt, hwt, hcf⟩ := h.cf
  obtain ⟨s, e1, e2, -⟩ := processW_runDirW (ps := [p']) (out := [0]) (by rw [hwt]; rfl) rfl e
  obtain ⟨o1, y1, w, s1, h1, h2, h3⟩ := runDirW_cons e1
  cases h2
  refine ⟨r, w, by rw [← h3, e2], ?_⟩
  have hst' : StepOk .kForward o.prevPhase p' := by rw [h.phase]; exact hst
  have hdd' : Sys.dirDiff (sysOf envX ft).env.fl .kForward p' o.prevPhase = d' := by
    rw [h.phase]; exact hdd
  obtain ⟨-, c1, t1, q1, -, -, -, -, -, jmin, jmax, q2, q3, -, -, -, -, q4, -⟩ :=
    step_count (S := sysOf envX ft) envX_ok.1 hS.B hpl hwt ⟨hp.1, hp.2, isPhase_id _⟩ hst' h1
  rw [hdd'] at q1 q2 q3
  have q1' : wt.cf.newIndices envX |d'| = .ok (c1, t1) := q1
  rw [hcf, hn] at q1'
  cases q1'
  unfold firstSeg at q2
  unfold lastSeg at q3
  rw [if_pos h0] at q2 q3
  rw [q4, q2, q3]

/-- The bound 5 is attained: eight samples, from phase 0 a step of 1/2. -/
example (ft : FilterType) (ws : List ℝ) (hws : ws.length = 2 ^ 3) :
    ∃ o r w, Plays (sysOf envX ft) ws 1 3 o ∧ Tracked (sysOf envX ft) 3 o [.process .kForward [1 / 2]] ∧
      (sysOf envX ft).processW .kForward o [1 / 2] [0] = .ok (r, [w]) ∧ w.1 = 5 := by
  have oct1 : IsOctave 3 1 |(1 / 2 : ℝ)| := by
    refine ⟨by norm_num, by norm_num, Or.inr ?_, Or.inl (by norm_num)⟩
    rw [abs_of_pos (by norm_num)]; norm_num
  obtain ⟨o, h, -⟩ := at_init ft ws 3 (by norm_num) (by norm_num) hws 1
    le_rfl (by norm_num) (p := 0) (d := 1 / 16) (by norm_num) (by norm_num) (i := 0)
    (oct0 (by norm_num))
    (cf_idle (by norm_num) (by norm_num) (oct0 (by norm_num [abs_of_pos])))
  have hn := cf_up (n := 1) (i := 0) (k := 1) (L := 3) (d := |(1 / 2 : ℝ)|) (by norm_num) (by norm_num)
    (by norm_num) oct1 (by norm_num)
  have hpl := Sys.reached_play (S := sysOf envX ft) envX_ok.1 log2X (exactSys ft).B h.plays.1
  obtain ⟨r, w, e, hw⟩ := h.count (p' := 1 / 2) (by norm_num) (by norm_num) (by norm_num) (by norm_num)
    (Or.inr (by norm_num)) hn
  obtain ⟨⟨o2, y2, e2, h2⟩, hni⟩ := h.step (dir := .kForward) (p' := 1 / 2) (d' := 1 / 2) (by norm_num)
    (Or.inl (by norm_num)) (Or.inr (by norm_num))
    (by unfold Sys.dirDiff Sys.fwdDiff; norm_num) hn
  refine ⟨o, r, w, h.plays, ?_, e, ?_⟩
  · refine .sample e2 (by rw [h2.diff]; exact hni) (Or.inl (by rw [h.mip]; norm_num)) ?_ (.block .done)
    rw [h.phase]
    intro k
    by_cases hk : k = 0
    · left; rw [hk]; norm_num
    · right
      have : (1 : ℝ) ≤ |(k : ℝ)| := by exact_mod_cast Int.one_le_abs hk
      rw [zero_sub, abs_neg, abs_div]
      norm_num
      rw [le_div_iff₀ (by norm_num)]
      have : (2 ^ 126 : ℝ)⁻¹ * 8 ≤ 1 := by norm_num
      norm_num at this
      linarith
  · have hj : o.jRed = 0 := by
      rw [hpl.posF (by rw [h.diff]; norm_num), h.phase]
      simp
    have hp : (sysOf envX ft).prevJF o 3 0 = 0 := by
      unfold Sys.prevJF Sys.adj
      rw [h.mip, hj, h.diff, hpl.red, h.phase]
      norm_num
      show Maths.sign (0 : ℝ) = 0
      norm_num [Maths.sign, Maths.kMin]
    have hm : ⌊(1 / 2 : ℝ) * 2 ^ 3⌋ = 4 := by rw [Int.floor_eq_iff]; norm_num
    rw [hw]
    show corners (((sysOf envX ft).prevJF o 3 0 - 1) % 2 ^ 3) ⌊(1 / 2 : ℝ) * 2 ^ 3⌋ (2 ^ 3) = 5
    rw [hp, hm]
    decide

/-- C43 without the tracking assumption: the work of one sample grows linearly with the waveform
length. For every waveform of `2^L` samples (any built-in filter) there is a legal forward history
after which one legal forward sample, with a step of half a sample of the original waveform, visits
`2^(L-2) - 1` corners: a jump down over more than one octave, see C36. -/
theorem C43_spike (ft : FilterType) (L : ℕ) (h4 : 4 ≤ L) (h18 : L ≤ 18) (ws : List ℝ)
    (hws : ws.length = 2 ^ L) : ∃ o p r w, Plays (sysOf envX ft) ws 1 L o ∧
      0 < o.prevPhaseDiff ∧ 0 ≤ p ∧ p < 1 ∧ p = o.prevPhase + 1 / 2 ^ (L + 1) ∧
      (sysOf envX ft).processW .kForward o [p] [0] = .ok (r, [w]) ∧ w.1 = 2 ^ (L - 2) - 1 := by
  obtain ⟨l, rfl⟩ : ∃ l, L = l + 4 := ⟨L - 4, by omega⟩
  set ε : ℝ := 1 / 2 ^ (l + 4 + 1) with hε
  have hP : (1 : ℝ) ≤ 2 ^ l := one_le_pow₀ (by norm_num)
  have e32 : ε = 1 / (32 * 2 ^ l) := by rw [hε]; congr 1; rw [pow_add, pow_add]; ring
  have ε0 : 0 < ε := by positivity
  have ε1 : ε ≤ 1 / 32 := by
    rw [e32, div_le_div_iff₀ (by positivity) (by norm_num)]; linarith
  have hk : (((l + 4 : ℕ) : ℤ) - 2).toNat = l + 2 := by omega
  have oct2 : IsOctave (l + 4) (((l + 4 : ℕ) : ℤ) - 2) |(3 / 8 : ℝ)| := by
    refine ⟨by push_cast; omega, le_rfl, Or.inr ?_, Or.inl rfl⟩
    rw [abs_of_pos (by norm_num), hk, pow_add, pow_add, div_le_iff₀ (by positivity)]
    norm_num; nlinarith
  obtain ⟨o1, h1, -⟩ := at_init ft ws (l + 4) (by omega) (by omega) hws 1
    le_rfl (by norm_num) (p := 7 / 8 - ε) (d := 3 / 8) ⟨by linarith, by linarith⟩ (by norm_num)
    (i := l) (by
      refine ⟨by omega, by push_cast; omega, Or.inr ?_, Or.inr ?_⟩
      · rw [Int.toNat_natCast, pow_add, div_le_iff₀ (by positivity)]; norm_num; nlinarith
      · rw [Int.toNat_natCast, pow_add, pow_add, lt_div_iff₀ (by positivity)]; norm_num; nlinarith)
    (cf_up (by omega) (by norm_num) (by norm_num) oct2 (by push_cast; omega))
  obtain ⟨⟨o2, y2, -, h2⟩, -⟩ := h1.step (dir := .kForward) (p' := 1 / 4 - ε) (d' := 3 / 8)
    ⟨by linarith, by linarith⟩ (Or.inr ⟨by linarith, by linarith⟩) (Or.inr (by norm_num))
    (by
      unfold Sys.dirDiff Sys.fwdDiff
      simp only [id]
      rw [if_pos (by linarith)]; ring)
    (cf_last (n := 1) (by omega) (by norm_num) (by norm_num) (by omega) oct2)
  have hpl := Sys.reached_play (S := sysOf envX ft) envX_ok.1 log2X (exactSys ft).B h2.plays.1
  have hn := cf_down (n := 1) (i := ((l + 4 : ℕ) : ℤ) - 2) (k := 0) (L := l + 4) (d := |ε|) (by omega)
    (by norm_num) (abs_pos.2 ε0.ne')
    (by
      refine ⟨le_rfl, by push_cast; omega, Or.inl rfl, Or.inr ?_⟩
      have e4 : (2 : ℝ) ^ (l + 4) = 16 * 2 ^ l := by rw [pow_add]; ring
      rw [abs_of_pos ε0, e32, Int.toNat_zero, e4, div_lt_div_iff₀ (by positivity) (by positivity)]
      norm_num; linarith)
    (by push_cast; omega)
  obtain ⟨r, w, e, hw⟩ := h2.count (p' := 1 / 4) (by norm_num) (by linarith) ε0 (by linarith)
    (Or.inr (by norm_num)) hn
  refine ⟨o2, 1 / 4, r, w, h2.plays, by rw [h2.diff]; norm_num, by norm_num, by norm_num,
    by rw [h2.phase]; linarith, e, ?_⟩
  have hj : o2.jRed = 0 := by
    rw [hpl.posF (by rw [h2.diff]; norm_num), h2.phase, h2.mip, Int.floor_eq_iff]
    dsimp only
    rw [hk, show l + 4 - (l + 2) = 2 by omega]
    norm_num
    constructor <;> linarith
  have e1 : (((0 : ℤ) * 2 ^ (((l + 4 : ℕ) : ℤ) - 2 - 0).toNat + 1 : ℤ) : ℝ) / 2 ^ (l + 4) = 2 * ε := by
    rw [e32, pow_add]; push_cast; field_simp; norm_num
  have ha : Sys.adj (l + 4) 0 o2.prevMip o2.jRed o2.prevPhaseDiff o2.prevPhaseRed = 1 := by
    unfold Sys.adj
    rw [h2.mip, hj, h2.diff, hpl.red, h2.phase]
    dsimp only
    rw [if_neg (by push_cast; omega), if_pos (by push_cast; omega), if_pos (by norm_num), e1,
      if_pos (by linarith)]
    ring
  have hp : (sysOf envX ft).prevJF o2 (l + 4) 0 = 2 := by
    unfold Sys.prevJF
    rw [ha, h2.diff, hpl.red, h2.phase]
    dsimp only
    rw [if_pos (by norm_num)]
    have : (sysOf envX ft).env.fl (1 / 4 - ε - ((1 : ℤ) : ℝ) / 2 ^ (l + 4)) = 1 / 4 - 3 * ε := by
      show 1 / 4 - ε - ((1 : ℤ) : ℝ) / 2 ^ (l + 4) = 1 / 4 - 3 * ε
      rw [e32, pow_add]; push_cast; field_simp; ring
    rw [this]
    have hpos : (1 / 8 : ℝ) ≤ 1 / 4 - 3 * ε := by linarith
    unfold Maths.sign
    rw [if_neg, if_neg (by linarith)]
    · norm_num
    · rw [abs_of_pos (by linarith), not_lt]
      refine le_trans ?_ hpos
      norm_num [Maths.kMin]
  have hm : ⌊(1 / 4 : ℝ) * 2 ^ (l + 4)⌋ = 2 ^ (l + 2) := by
    have : (1 / 4 : ℝ) * 2 ^ (l + 4) = ((2 ^ (l + 2) : ℤ) : ℝ) := by
      push_cast; rw [pow_add, pow_add]; ring
    rw [this, Int.floor_intCast]
  rw [hw]
  show corners (((sysOf envX ft).prevJF o2 (l + 4) 0 - 1) % 2 ^ (l + 4))
    ⌊(1 / 4 : ℝ) * 2 ^ (l + 4)⌋ (2 ^ (l + 4)) = _
  have hP' : (1 : ℤ) ≤ 2 ^ l := one_le_pow₀ (by norm_num)
  have q1 : (2 : ℤ) ^ (l + 4) = 16 * 2 ^ l := by rw [pow_add]; ring
  have q2 : (2 : ℤ) ^ (l + 2) = 4 * 2 ^ l := by rw [pow_add]; ring
  rw [hp, hm, show (2 : ℤ) - 1 = 1 by norm_num, Int.emod_eq_of_lt (by norm_num) (by omega)]
  unfold corners bornSup
  rw [if_neg (by omega)]
  have : (2 : ℕ) ^ (l + 4 - 2) = 2 ^ (l + 2) := by congr 1
  rw [this]
  have q3 : ((2 ^ (l + 2) : ℕ) : ℤ) = 2 ^ (l + 2) := by push_cast; rfl
  rw [← q3]
  omega

/-! ### C51 -/

/-- C51: in every reachable crossfader state, for every rounding mode: the tables that are given a
nonzero weight for a step `d` are at most one octave away from the octave `i` of `d`, even when the
steps jump over many octaves and while a crossfade is running. -/
theorem C51_near {K : Type} [Field K] [LinearOrder K] [IsStrictOrderedRing K] [FloorRing K]
    (E : Env K) (hf : Rounding E.fl) (hl : Log2Spec E.log2f) (L : ℕ) (num : ℤ) (hn : 1 ≤ num)
    (c : CrossFader K) (hc : CrossFader.Reachable E L num c) (d : K) (hd : 0 < d) (i : ℤ)
    (hi : IsOctave L i d) : ∃ c' t, c.newIndices E d = .ok (c', t) ∧
      ∀ k, t.weightOf k ≠ 0 → i - 1 ≤ k ∧ k ≤ i + 1 := by
  obtain ⟨hinv, hs, -⟩ := hc.inv hf hl hn
  obtain ⟨t, e, -⟩ := CrossFader.newIndices_eq hf hinv hd
  refine ⟨_, t, e, fun k hk => ?_⟩
  obtain ⟨a1, a2, a3⟩ := CrossFader.near_octave hf hinv hd e
  rw [hs, CrossFader.findLoop_of_octave hc.1 hi] at a1 a2 a3
  obtain ⟨-, -, b1, -⟩ := CrossFader.tuple_facts hf hinv hd e
  unfold MipMapIndices.weightOf at hk
  by_cases h1 : t.idx = k
  · omega
  · rw [if_neg h1, zero_add] at hk
    by_cases h2 : t.idxUp = k
    · rw [if_pos h2] at hk
      have := a3 hk
      have := b1 hk
      omega
    · rw [if_neg h2] at hk; exact absurd rfl hk

/-- C51 applies in the middle of a crossfade: eight samples, float arithmetic. -/
example : ∃ c : CrossFader ℝ, CrossFader.Reachable ieeeEnv 3 3 c ∧ c.samplesLeft = 3 ∧
    IsOctave 3 0 (1 / 10 : ℝ) := by
  obtain ⟨-, c, -, -, -, h, h3, -⟩ := reachable_example
  exact ⟨c, h, h3, by refine ⟨le_rfl, by norm_num, Or.inl rfl, Or.inr ?_⟩; norm_num⟩

end Adwt.Props
