import Verif.Spec.Drivers
import Verif.Proofs.Accum
import Verif.Proofs.Shadow

/-!
# Tones played by the tones generator
-/

set_option linter.unusedSectionVars false

namespace Adwt
variable {K C : Type} [Field K] [LinearOrder K] [IsStrictOrderedRing K] [FloorRing K]
variable [Zero C] [Add C] [Sub C] [Mul C] [Div C]

namespace CrossFader

/-- the lower of the two tables -/
def low (c : CrossFader K) : ℤ := min c.prevIdx c.nextIdx

/-- One call with a step of octave `b`, when the crossfader is not leaving `b`: from then on it goes
to `b`, and never to a lower table than before. -/
theorem toward_step {E : Env K} (hf : Rounding E.fl) {L : ℕ} (hL : 2 ≤ L) {c : CrossFader K} (h : c.Inv)
    (hs : c.scale = octaveScale K L) {d : K} (hd : 0 < d) {b : ℤ} (hb : IsOctave L b d)
    (hl : c.samplesLeft = 0 ∨ c.prevIdx ≠ b) :
    ∃ t, c.newIndices E d = .ok (c.stepD d, t) ∧ (c.stepD d).nextIdx = b ∧ t.idx = low (c.stepD d) ∧
      (c.nextIdx = b → low c ≤ low (c.stepD d) ∧ (c.stepD d).samplesLeft = max 0 (c.samplesLeft - 1)) := by
  have hoct : (findLoop d c.scale : ℤ) = b := by rw [hs]; exact findLoop_of_octave hL hb
  obtain ⟨t, e, ht⟩ := newIndices_eq hf h hd
  have hn := h.next0
  obtain ⟨a1, a2, a3, a4, a5, a6, a7, a8, a9, a10⟩ := stepD_inv h d
  refine ⟨t, e, ?_, ?_, ?_⟩
  · unfold stepD
    rw [hoct]
    unfold nextState continueFade updateIndices
    dsimp only
    have := h.idle
    split_ifs <;> (try dsimp only at *) <;> omega
  · rcases ht with ⟨h1, h2, rfl⟩ | ⟨-, f, -, rfl⟩
    · have e2 : c.stepD d = c := by
        unfold stepD nextState; rw [if_neg (by simpa using h1), if_pos h2]
      unfold low
      rw [e2, h.idle h1, min_self]
    · show _ = low (c.nextState _)
      unfold low
      split_ifs with hg
      · exact (min_eq_left hg.le).symm
      · exact (min_eq_right (not_lt.1 hg)).symm
  · intro hnb
    have hi := h.idle
    have hfd := h.fading
    have h0 := h.left0
    unfold low stepD
    rw [hoct]
    unfold nextState continueFade updateIndices
    dsimp only
    split_ifs <;> (try dsimp only at *) <;> omega

end CrossFader

/-- the crossfader goes to table `b`, and the last sample was read from its lower table -/
def Toward (b : ℤ) (o : Osc K C) : Prop :=
  ∀ wt, o.wt = some wt → wt.cf.nextIdx = b ∧ o.prevMip = wt.cf.low

namespace Sys
variable {S : Sys K C} {nw L : ℕ}

theorem not_drop (hf : Rounding S.env.fl) {o : Osc K C} (ho : OscOk S nw L o) {b : ℤ} (ht : Toward b o)
    {d : K} (hd : d ≠ 0) (hb : IsOctave L b |d|) : ¬ DropsTable S o d := by
  rintro ⟨wt, wt', t, hw, hfind, hlt⟩
  obtain ⟨wt2, hw2, hok⟩ := ho.wt
  rw [hw] at hw2; cases hw2
  obtain ⟨h1, h2⟩ := ht wt hw
  have hne : wt.cf.samplesLeft = 0 ∨ wt.cf.prevIdx ≠ b := by
    have := hok.inv.fading
    by_cases h0 : wt.cf.samplesLeft = 0
    · exact Or.inl h0
    · right; have := this h0; omega
  obtain ⟨t', e, -, h3, h4⟩ := CrossFader.toward_step (E := S.env) hf hok.L2 hok.inv hok.scale
    (abs_pos.2 hd) hb hne
  unfold WavetableData.findMipMapIndices at hfind
  rw [e, R.ok_bind] at hfind
  cases hfind
  have := (h4 h1).1
  omega

theorem toward_post (hf : Rounding S.env.fl) {o o' : Osc K C} {p d : K} {b : ℤ} (ht : Toward b o)
    (hd : d ≠ 0) (hb : IsOctave L b |d|) (h : StepPost S nw L o p d o') :
    Toward b o' ∧ ∀ wt wt', o.wt = some wt → o'.wt = some wt' →
      wt'.cf.samplesLeft = max 0 (wt.cf.samplesLeft - 1) ∧ wt'.cf.numSamples = wt.cf.numSamples := by
  obtain ⟨wt, c, t, hw, hok, hn, hc, hw', hm⟩ := h.find
  obtain ⟨h1, h2⟩ := ht wt hw
  have hne : wt.cf.samplesLeft = 0 ∨ wt.cf.prevIdx ≠ b := by
    have := hok.inv.fading
    by_cases h0 : wt.cf.samplesLeft = 0
    · exact Or.inl h0
    · right; have := this h0; omega
  obtain ⟨t', e, h5, h3, h4⟩ := CrossFader.toward_step (E := S.env) hf hok.L2 hok.inv hok.scale
    (abs_pos.2 hd) hb hne
  rw [hn] at e
  cases e
  refine ⟨?_, ?_⟩
  · intro wt2 hw2
    rw [hw'] at hw2; cases hw2
    exact ⟨h5, by rw [hm, h3]⟩
  · intro wt1 wt2 hw1 hw2
    rw [hw] at hw1; cases hw1
    rw [hw'] at hw2; cases hw2
    exact ⟨(h4 h1).2, (CrossFader.stepD_const _ _).2⟩

end Sys

namespace Drivers
variable {S : Sys K C} {nw L : ℕ}

/-- the state between two tones: all but the unreduced phase is as after legal calls -/
def Calm (S : Sys K C) (nw L : ℕ) (o : Osc K C) : Prop := OscPlay S nw L (o.at o.prevPhaseRed)

/-- the samples left of the crossfade, and its length -/
def left (o : Osc K C) : ℤ := match o.wt with | none => 0 | some wt => wt.cf.samplesLeft
def fadeLen (o : Osc K C) : ℤ := match o.wt with | none => 0 | some wt => wt.cf.numSamples

/-- the steps of a list are fast and slow enough, and stay in octave `b` under all roundings -/
def StepsIn (L : ℕ) (b : ℤ) (ss : List K) : Prop :=
  ∀ s ∈ ss, 1 / 2 ^ 25 < s ∧ s ≤ 1 / 2 - 1 / 2 ^ 23 ∧ ∀ d, |d - s| ≤ 1 / 2 ^ 23 → IsOctave L b d

theorem small24 : (1 : K) / 2 ^ 24 < 1 / 2 ^ 23 := by norm_num

theorem left_post {o o' : Osc K C} {p d : K} (h : Sys.StepPost S nw L o p d o')
    (h2 : ∀ wt wt', o.wt = some wt → o'.wt = some wt' →
      wt'.cf.samplesLeft = max 0 (wt.cf.samplesLeft - 1) ∧ wt'.cf.numSamples = wt.cf.numSamples) :
    left o' = max 0 (left o - 1) ∧ fadeLen o' = fadeLen o := by
  obtain ⟨wt, c, t, hw, hok, hn, hc, hw', hm⟩ := h.find
  unfold left fadeLen
  obtain ⟨a, b⟩ := h2 _ _ hw hw'
  rw [hw, hw']
  exact ⟨a, b⟩

/-- forward tone -/
theorem run_up (he : S.env.fl = ieee32) (hB : 0 < S.B) {b : ℤ} {ss : List K} (hss : StepsIn L b ss)
    {o : Osc K C} (ho : OscSafe S nw L o) (ht : Toward b o) :
    Ok (S.runDir .kBidirectionnal o (accumulate ieee32 o.prevPhase ss)) fun r =>
      OscSafe S nw L r.1 ∧ Toward b r.1 ∧ r.2.length = ss.length ∧
        left r.1 ≤ max 0 (left o - ss.length) ∧ fadeLen r.1 = fadeLen o := by
  have hf : Rounding S.env.fl := by rw [he]; exact rounding_ieee32
  induction ss generalizing o with
  | nil =>
    refine Ok.ok ⟨ho, ht, rfl, ?_, rfl⟩
    simp
  | cons s ss ih =>
    obtain ⟨h0, h1, h2⟩ := hss s List.mem_cons_self
    have hx : PhaseOk ieee32 o.prevPhase := by have := ho.phase; rwa [he] at this
    obtain ⟨w, hw⟩ := accum_step hx h0 (lt_of_le_of_lt h1 (by linarith [small24 (K := K)]))
    obtain ⟨d0, d1, d2⟩ := hw.diff hx h0 h1 .kBidirectionnal
    have hsafe := hw.safe hx (lt_of_le_of_lt h1 (by linarith [small24 (K := K)])) .kBidirectionnal
    have hoct := h2 _ d2
    unfold accumulate Sys.runDir
    generalize fmod1 (ieee32 (o.prevPhase + s)) = p at *
    have hp : PhaseOk S.env.fl p := by rw [he]; exact hw.ok
    refine Ok.bind (Sys.step_ok hf hB ho hp (Sys.stepSafe_ok hsafe)) fun r hr => ?_
    obtain ⟨o1, y⟩ := r
    dsimp only at hr ⊢
    rw [he] at hr
    obtain ⟨t1, t2⟩ := Sys.toward_post hf ht d0.ne' (by rw [abs_of_pos d0]; exact hoct) hr
    have hl := left_post hr t2
    rw [← hr.phase]
    refine Ok.bind (ih (fun s hs => hss s (List.mem_cons_of_mem _ hs))
      (hr.safe fun h => absurd h (not_lt.2 d0.le)) t1) fun r2 hr2 => ?_
    obtain ⟨o2, ys⟩ := r2
    obtain ⟨c1, c2, c3, c4, c5⟩ := hr2
    dsimp only at c1 c2 c3 c4 c5
    refine Ok.pure ⟨c1, c2, by simp [c3], ?_, by rw [c5, hl.2]⟩
    dsimp only
    rw [hl.1] at c4
    rw [List.length_cons]
    push_cast
    omega

/-! ### negative phases -/

theorem fmod1_neg (x : K) : fmod1 (-x) = -fmod1 x := by
  unfold fmod1
  have : trunc (-x) = -trunc x := by
    unfold trunc
    rcases lt_trichotomy x 0 with h | rfl | h
    · rw [if_pos (by linarith), if_neg (by linarith), Int.floor_neg]
    · simp
    · rw [if_neg (by linarith), if_pos (by linarith), Int.ceil_neg]
  rw [this]; push_cast; ring

theorem accumulate_neg (x : K) (ss : List K) :
    accumulate ieee32 (-x) (ss.map fun s => -s) = (accumulate ieee32 x ss).map fun p => -p := by
  induction ss generalizing x with
  | nil => rfl
  | cons s ss ih =>
    simp only [List.map_cons, accumulate]
    have e : fmod1 (ieee32 (-x + -s)) = -fmod1 (ieee32 (x + s)) := by
      rw [← neg_add, ieee32_neg, fmod1_neg]
    rw [e, ih]

theorem biDiff_neg (p x : K) : Sys.biDiff ieee32 (-p) (-x) = -Sys.biDiff ieee32 p x := by
  unfold Sys.biDiff
  dsimp only
  have e : ieee32 (-p - -x) = -ieee32 (p - x) := by rw [← ieee32_neg]; congr 1; ring
  rw [e]
  generalize ieee32 (p - x) = d
  rcases lt_trichotomy d (-(1 / 2)) with h | h | h
  · rw [if_neg (by linarith), if_pos (by linarith), if_pos h, ← ieee32_neg]; congr 1; ring
  · subst h; norm_num
  · rcases le_or_gt d (1 / 2) with h2 | h2
    · rw [if_neg (by linarith), if_neg (by linarith), if_neg (by linarith), if_neg (by linarith)]
    · rw [if_pos (by linarith), if_neg (by linarith), if_pos h2, ← ieee32_neg]; congr 1; ring

/-- not so close to zero that `1 - x` would round to 1 -/
def Clear (x : K) : Prop := x = 0 ∨ 1 / 2 ^ 25 < x

theorem accum_clear {x s : K} (hx : PhaseOk ieee32 x) (h0 : 1 / 2 ^ 25 < s)
    (h1 : s < 1 / 2 - 1 / 2 ^ 24) (hs : ieee32 s = s) : Clear (fmod1 (ieee32 (x + s))) := by
  have hf := rounding_ieee32 (K := K)
  obtain ⟨x0, x1, xf⟩ := hx
  rcases lt_or_ge (x + s) 1 with h | h
  · have hge : s ≤ ieee32 (x + s) := hf.ge_of_ge hs (by linarith)
    have hle : ieee32 (x + s) ≤ 1 := hf.le_of_le hf.one h.le
    have hp : (0 : K) < 1 / 2 ^ 25 := by positivity
    rcases hle.lt_or_eq with hl | hl
    · right
      unfold fmod1
      rw [trunc_zero (by linarith) hl, Int.cast_zero, sub_zero]
      linarith
    · left
      unfold fmod1
      rw [hl, trunc_one le_rfl (by norm_num), Int.cast_one, sub_self]
  · obtain ⟨k, k0, k1, hk⟩ := ieee32_one_two h (by linarith [show (0 : K) < 1 / 2 ^ 24 by positivity])
    rcases k1.lt_or_eq with k1 | k1
    · have hk1 : (k : K) / 2 ^ 23 < 1 := by
        rw [div_lt_one (by positivity)]; exact_mod_cast k1
      have hk0 : (0 : K) ≤ (k : K) / 2 ^ 23 := by
        have : (0 : K) ≤ k := by exact_mod_cast k0
        positivity
      unfold fmod1
      rw [hk, trunc_one (by linarith) (by linarith), Int.cast_one, add_sub_cancel_left]
      rcases k0.lt_or_eq with k0 | k0
      · right
        have : (1 : K) ≤ k := by exact_mod_cast k0
        calc (1 : K) / 2 ^ 25 < 1 / 2 ^ 23 := by norm_num
          _ ≤ _ := by gcongr
      · left; rw [← k0]; simp
    · left
      unfold fmod1
      have : (1 : K) + k / 2 ^ 23 = 2 := by rw [k1]; norm_num
      rw [hk, this]
      have : trunc (2 : K) = 2 := by
        unfold trunc; rw [if_pos (by norm_num), Int.floor_eq_iff]; constructor <;> push_cast <;> linarith
      rw [this]; simp

/-- the phase to which a negative phase is reduced -/
def upPhase (q : K) : K := if q = 0 then 0 else ieee32 (1 - q)

theorem upPhase_ok {q : K} (hq : PhaseOk ieee32 q) (hc : Clear q) : PhaseOk ieee32 (upPhase q) := by
  have hf := rounding_ieee32 (K := K)
  unfold upPhase
  split
  · exact ⟨le_rfl, by norm_num, hf.zero_ph⟩
  · rename_i hne
    have hq2 : 1 / 2 ^ 25 < q := hc.resolve_left hne
    refine ⟨hf.nonneg (by linarith [hq.2.1]), ?_, isPhase_ieee32 (hf.idem _)⟩
    rcases lt_or_ge q (1 / 2) with h | h
    · have he := ieee32_err_below (x := 1 - q) 0 (by
        linarith [show (1 : K) / 2 ^ 126 ≤ 1 / 2 by norm_num]) (by
        rw [zpow_zero]; linarith [hq.1, show (0 : K) < 1 / 2 ^ 25 by positivity]) (by norm_num)
      rw [show (0 - 25 : ℤ) = -25 by norm_num,
        show (2 : K) ^ (-25 : ℤ) = 1 / 2 ^ 25 by rw [zpow_neg, one_div]; norm_cast] at he
      have := (abs_le.1 he).2
      linarith
    · have := hf.le_of_le hf.half (show 1 - q ≤ 1 / 2 by linarith)
      linarith

theorem upPhase_reduce {E : Env K} (he : E.fl = ieee32) {q : K} (hq : PhaseOk ieee32 q) :
    Maths.reduceF E (-q) 1 = .ok (upPhase q) := by
  have hf : Rounding E.fl := by rw [he]; exact rounding_ieee32
  have h2 : (0 : K) ≤ E.fl (2 * 1) := hf.nonneg (by norm_num)
  unfold Maths.reduceF
  rw [chk_true (by norm_num), R.ok_bind, chk_true ⟨by linarith [hq.1], by linarith [hq.2.1]⟩, R.ok_bind]
  unfold upPhase
  rw [if_neg (by linarith [hq.1])]
  by_cases h : q = 0
  · rw [if_pos h, if_neg (by rw [h]; simp), h, neg_zero]; rfl
  · rw [if_neg h, if_pos (by linarith [lt_of_le_of_ne hq.1 (Ne.symm h)]), he, neg_add_eq_sub]; rfl

theorem at_self (o : Osc K C) : o.at o.prevPhase = o := rfl
theorem at_at (o : Osc K C) (x y : K) : (o.at x).at y = o.at y := rfl

/-- one sample of a backward tone -/
theorem step_down (he : S.env.fl = ieee32) (hB : 0 < S.B) {b : ℤ} {s x : K} (h0 : 1 / 2 ^ 25 < s)
    (h1 : s ≤ 1 / 2 - 1 / 2 ^ 23) (hoct : ∀ d, |d - s| ≤ 1 / 2 ^ 23 → IsOctave L b d)
    (hs : ieee32 s = s) {o : Osc K C} (ho : Calm S nw L o) (ht : Toward b o) (hx : PhaseOk ieee32 x)
    (hox : o.prevPhase = -x) :
    Ok (S.stepDir .kBidirectionnal o (-fmod1 (ieee32 (x + s)))) fun r =>
      Calm S nw L r.1 ∧ Toward b r.1 ∧ r.1.prevPhase = -fmod1 (ieee32 (x + s)) ∧
        left r.1 = max 0 (left o - 1) ∧ fadeLen r.1 = fadeLen o := by
  have hf : Rounding S.env.fl := by rw [he]; exact rounding_ieee32
  have h1' : s < 1 / 2 - 1 / 2 ^ 24 := lt_of_le_of_lt h1 (by linarith [small24 (K := K)])
  obtain ⟨w, hw⟩ := accum_step hx h0 h1'
  obtain ⟨d0, d1, d2⟩ := hw.diff hx h0 h1 .kBidirectionnal
  have hc := accum_clear hx h0 h1' hs
  generalize fmod1 (ieee32 (x + s)) = q at *
  have hr := upPhase_ok hw.ok hc
  have hr2 : PhaseOk S.env.fl (upPhase q) := by rw [he]; exact hr
  change 0 < Sys.biDiff ieee32 q x at d0
  change Sys.biDiff ieee32 q x ≤ 1 / 2 at d1
  change |Sys.biDiff ieee32 q x - s| ≤ 1 / 2 ^ 23 at d2
  have hoct := hoct _ d2
  have hstep : S.stepDir .kBidirectionnal o (-q) = S.processSampleBwd o (-q) (-Sys.biDiff ieee32 q x) := by
    show S.stepBi o (-q) = _
    unfold Sys.stepBi
    dsimp only
    rw [he, hox, biDiff_neg, if_neg (by linarith)]
  have hb : IsOctave L b |-Sys.biDiff ieee32 q x| := by rw [abs_neg, abs_of_pos d0]; exact hoct
  have hat := Sys.bwd_at (S := S) (o.at o.prevPhaseRed) o.prevPhase (d := -Sys.biDiff ieee32 q x)
    (Maths.reduceF_unit hf hr2.1 hr2.2.1) (upPhase_reduce he hw.ok)
  rw [at_at, at_self] at hat
  rw [hstep, hat]
  have ht' : Toward b (o.at o.prevPhaseRed) := ht
  rcases Sys.sampleBwd_cases hf hB ho hr2 (neg_lt_zero.2 d0) (neg_le_neg d1) with h | ⟨-, -, h⟩
  · obtain ⟨⟨⟨o1, y⟩, e, hp⟩, -⟩ := h
    rw [e]
    refine ⟨_, rfl, ?_⟩
    dsimp only at hp ⊢
    obtain ⟨t1, t2⟩ := Sys.toward_post hf ht' (neg_ne_zero.2 d0.ne') hb hp
    have hl := left_post hp t2
    refine ⟨?_, t1, rfl, hl.1, hl.2⟩
    unfold Calm
    rw [at_at]
    show OscPlay S nw L (o1.at o1.prevPhaseRed)
    rw [hp.ok.red, at_self]
    exact hp.ok
  · exact absurd h (Sys.not_drop hf ho.toOscOk ht' (neg_ne_zero.2 d0.ne') hb)

/-- backward tone -/
theorem run_down (he : S.env.fl = ieee32) (hB : 0 < S.B) {b : ℤ} {ss : List K} (hss : StepsIn L b ss)
    (hfl : ∀ s ∈ ss, ieee32 s = s) {o : Osc K C} (ho : Calm S nw L o) (ht : Toward b o) {x : K}
    (hx : PhaseOk ieee32 x) (hox : o.prevPhase = -x) :
    Ok (S.runDir .kBidirectionnal o ((accumulate ieee32 x ss).map fun p => -p)) fun r =>
      Calm S nw L r.1 ∧ Toward b r.1 ∧ r.2.length = ss.length ∧
        left r.1 ≤ max 0 (left o - ss.length) ∧ fadeLen r.1 = fadeLen o := by
  induction ss generalizing o x with
  | nil =>
    refine Ok.ok ⟨ho, ht, rfl, ?_, rfl⟩
    simp
  | cons s ss ih =>
    obtain ⟨h0, h1, h2⟩ := hss s List.mem_cons_self
    obtain ⟨w, hw⟩ := accum_step hx h0 (lt_of_le_of_lt h1 (by linarith [small24 (K := K)]))
    have hst := step_down he hB h0 h1 h2 (hfl s List.mem_cons_self) ho ht hx hox
    unfold accumulate
    rw [List.map_cons]
    unfold Sys.runDir
    refine Ok.bind hst fun r hr => ?_
    obtain ⟨o1, y⟩ := r
    obtain ⟨a1, a2, a3, a4, a5⟩ := hr
    dsimp only at a1 a2 a3 a4 a5 ⊢
    refine Ok.bind (ih (fun s hs => hss s (List.mem_cons_of_mem _ hs))
      (fun s hs => hfl s (List.mem_cons_of_mem _ hs)) a1 a2 hw.ok a3) fun r2 hr2 => ?_
    obtain ⟨o2, ys⟩ := r2
    obtain ⟨c1, c2, c3, c4, c5⟩ := hr2
    dsimp only at c1 c2 c3 c4 c5
    refine Ok.pure ⟨c1, c2, by simp [c3], ?_, by rw [c5, a5]⟩
    dsimp only
    rw [a4] at c4
    rw [List.length_cons]
    push_cast
    omega

/-! ### whole tones -/

theorem free_of_left {b : ℤ} {o : Osc K C} (h : left o ≤ 0) (ho : Calm S nw L o) : NotLeaving b o := by
  intro wt hw
  obtain ⟨wt', hw', hok⟩ := ho.wt
  have hw' : o.wt = some wt' := hw'
  rw [hw] at hw'; cases hw'
  have := hok.inv.left0
  unfold left at h
  rw [hw] at h
  left
  exact le_antisymm h this

theorem reset_toward (he : S.env.fl = ieee32) {b : ℤ} {d : K} (hd : d ≠ 0) (hb : IsOctave L b |d|)
    {o : Osc K C} (ho : Calm S nw L o) (hfree : NotLeaving b o) :
    Ok (S.resetInternals o 0 d) fun o' => OscPlay S nw L o' ∧ o'.prevPhase = 0 ∧
      o'.prevPhaseDiff = d ∧ Toward b o' ∧ left o' ≤ fadeLen o' ∧ fadeLen o' = fadeLen o := by
  have hf : Rounding S.env.fl := by rw [he]; exact rounding_ieee32
  obtain ⟨wt, hw, hok⟩ := ho.wt
  have hw : o.wt = some wt := hw
  have h0 : PhaseOk S.env.fl (0 : K) := ⟨le_rfl, by norm_num, hf.zero_ph⟩
  obtain ⟨t, e, h5, h3, -⟩ := CrossFader.toward_step (E := S.env) hf hok.L2 hok.inv hok.scale
    (abs_pos.2 hd) hb (hfree wt hw)
  obtain ⟨o', e1, p1, p2, p3, -, -⟩ := Sys.reset_play hf hw hok h0 hd ho.crt0 ho.crt1
  have e2 := Sys.reset_ok hf hw hok h0 hd e
  rw [e1] at e2
  injection e2 with e2
  refine ⟨o', e1, p1, p2, p3, ?_⟩
  have hw' : o'.wt = some { wt with cf := wt.cf.stepD |d| } := by rw [e2]
  have hm : o'.prevMip = t.idx := by rw [e2]
  refine ⟨?_, ?_, ?_⟩
  · intro wt2 h2
    rw [hw'] at h2; cases h2
    exact ⟨h5, by rw [hm, h3]⟩
  · unfold left fadeLen
    rw [hw']
    exact (CrossFader.stepD_inv hok.inv _).left1
  · unfold fadeLen
    rw [hw', hw]
    exact (CrossFader.stepD_const _ _).2

theorem ho_wt {o : Osc K C} (ho : Calm S nw L o) : o.wt.isSome = true := by
  obtain ⟨wt, hw, -⟩ := ho.wt
  have hw : o.wt = some wt := hw
  rw [hw]; rfl

theorem replicate_in {n : ℕ} {b : ℤ} {s : K} (h0 : 1 / 2 ^ 25 < s) (h1 : s ≤ 1 / 2 - 1 / 2 ^ 23)
    (h2 : ∀ d, |d - s| ≤ 1 / 2 ^ 23 → IsOctave L b d) : StepsIn L b (List.replicate n s) := by
  intro x hx
  rw [(List.mem_replicate.1 hx).2]
  exact ⟨h0, h1, h2⟩

/-- a tone in either direction -/
theorem tone_run (he : S.env.fl = ieee32) (hB : 0 < S.B) {b : ℤ} {freq s : K} (n : ℕ)
    (hs : ieee32 (freq / kSamplerate) = s ∨ ieee32 (freq / kSamplerate) = -s)
    (h0 : 1 / 2 ^ 25 < s) (h1 : s ≤ 1 / 2 - 1 / 2 ^ 23)
    (h2 : ∀ d, |d - s| ≤ 1 / 2 ^ 23 → IsOctave L b d) {o : Osc K C} (ho : Calm S nw L o)
    (hfree : NotLeaving b o) :
    Ok (generateTone S o freq n) fun r => Calm S nw L r.1 ∧ Toward b r.1 ∧ r.2.length = n ∧
      left r.1 ≤ max 0 (fadeLen o - n) ∧ fadeLen r.1 = fadeLen o := by
  have hf := rounding_ieee32 (K := K)
  have hp : (0 : K) < 1 / 2 ^ 25 := by positivity
  have hb0 : IsOctave L b s := h2 s (by rw [sub_self, abs_zero]; positivity)
  have h00 : PhaseOk ieee32 (0 : K) := ⟨le_rfl, by norm_num, hf.zero_ph⟩
  have hfl : ieee32 s = s := by
    rcases hs with hs | hs
    · rw [← hs]; exact hf.idem _
    · have : s = ieee32 (-(freq / kSamplerate)) := by rw [ieee32_neg, hs, neg_neg]
      rw [this]; exact hf.idem _
  have hin := replicate_in (n := n) h0 h1 h2
  unfold generateTone
  dsimp only
  unfold generateTonePhase
  rw [he]
  rcases hs with hs | hs <;> rw [hs]
  · refine Ok.bind (reset_toward he (b := b) (by linarith : s ≠ 0) (by rwa [abs_of_pos (by linarith)])
      ho hfree) fun o1 hr => ?_
    obtain ⟨a1, a2, a3, a4, a5, a6⟩ := hr
    have hsafe : OscSafe S nw L o1 := ⟨a1, fun h => absurd h (by rw [a3]; linarith)⟩
    obtain ⟨⟨o2, ys⟩, e, c1, c2, c3, c4, c5⟩ := run_up he hB hin hsafe a4
    rw [a2] at e
    dsimp only at c1 c2 c3 c4 c5
    obtain ⟨wt, hw, -⟩ := a1.wt
    rw [Sys.process_eq hw _ (by simp [accumulate_length]) e (by rw [c3, accumulate_length]), R.ok_bind]
    refine Ok.pure ⟨?_, c2, by simp [c3], ?_, by rw [c5, a6]⟩
    · unfold Calm; dsimp only; rw [c1.red, at_self]; exact c1.toOscPlay
    · dsimp only; rw [List.length_replicate] at c4; omega
  · refine Ok.bind (reset_toward he (b := b) (by linarith : -s ≠ 0)
      (by rwa [abs_neg, abs_of_pos (by linarith)]) ho hfree) fun o1 hr => ?_
    obtain ⟨a1, a2, a3, a4, a5, a6⟩ := hr
    have hcalm : Calm S nw L o1 := by unfold Calm; rw [a1.red, at_self]; exact a1
    obtain ⟨⟨o2, ys⟩, e, c1, c2, c3, c4, c5⟩ := run_down he hB hin
      (fun x hx => by rw [(List.mem_replicate.1 hx).2]; exact hfl) hcalm a4 h00 (by rw [a2, neg_zero])
    rw [← accumulate_neg, neg_zero, List.map_replicate] at e
    dsimp only at c1 c2 c3 c4 c5
    obtain ⟨wt, hw, -⟩ := a1.wt
    rw [Sys.process_eq hw _ (by simp [accumulate_length]) e (by simp [c3, accumulate_length]), R.ok_bind]
    refine Ok.pure ⟨c1, c2, by simp [c3], ?_, by rw [c5, a6]⟩
    dsimp only; rw [List.length_replicate] at c4; omega

theorem tonesLoop_ok (he : S.env.fl = ieee32) (hB : 0 < S.B) {n : ℕ} {freqs : List K}
    (hfr : ∀ f ∈ freqs, ∃ b, ToneOk L b f) {o : Osc K C} (ho : Calm S nw L o)
    (hn : fadeLen o ≤ n) (hfree : ∀ f ∈ freqs.head?, ∀ b, ToneOk L b f → NotLeaving b o) :
    Ok (tonesLoop S n o freqs) fun r => r.2.length = 2 * freqs.length ∧ ∀ file ∈ r.2, file.length = n := by
  induction freqs generalizing o with
  | nil => exact Ok.ok ⟨rfl, by simp⟩
  | cons f fs ih =>
    obtain ⟨b, hb⟩ := hfr f List.mem_cons_self
    have hfr0 := hfree f rfl b hb
    have e1 : ieee32 (ieee32 (f * -1) / kSamplerate) = -ieee32 (f / kSamplerate) := by
      rw [mul_neg_one, ieee32_neg, hb.fl, neg_div, ieee32_neg]
    have e2 : ieee32 (ieee32 (f * 1) / kSamplerate) = ieee32 (f / kSamplerate) := by
      rw [mul_one, hb.fl]
    unfold tonesLoop
    rw [he]
    refine Ok.bind (tone_run he hB n (Or.inr e1) hb.lo hb.hi hb.oct ho hfr0) fun r hr => ?_
    obtain ⟨o1, a⟩ := r
    obtain ⟨a1, a2, a3, a4, a5⟩ := hr
    dsimp only at a1 a2 a3 a4 a5 ⊢
    refine Ok.bind (tone_run he hB n (Or.inl e2) hb.lo hb.hi hb.oct a1
      (free_of_left (by omega) a1)) fun r hr => ?_
    obtain ⟨o2, a'⟩ := r
    obtain ⟨b1, b2, b3, b4, b5⟩ := hr
    dsimp only at b1 b2 b3 b4 b5 ⊢
    refine Ok.bind (ih (fun f hf => hfr f (List.mem_cons_of_mem _ hf)) b1 (by omega)
      (fun f _ b _ => free_of_left (by omega) b1)) fun r hr => ?_
    obtain ⟨o3, rest⟩ := r
    obtain ⟨c1, c2⟩ := hr
    dsimp only at c1 c2 ⊢
    refine Ok.pure ⟨by simp [c1]; ring, ?_⟩
    intro file hfile
    rcases List.mem_cons.1 hfile with rfl | hfile
    · exact a3
    · rcases List.mem_cons.1 hfile with rfl | hfile
      · exact b3
      · exact c2 file hfile

/-- after `init` of a new wavetable with the default initial state, the crossfader is idle or going
from table `L - 3` to table `L - 2` -/
theorem init_free (he : S.env.fl = ieee32) (hl : Log2Spec S.env.log2f) {ws : List K} {sr dur : K}
    {wt : WavetableData K} (hb : Built S.env ws nw L sr dur wt) :
    Ok (S.init S.fresh (some wt) 0 (ieee32 (2 / 5))) fun r => r.2 = 0 ∧ Calm S nw L r.1 ∧
      (∀ b : ℤ, b ≠ (L : ℤ) - 3 → NotLeaving b r.1) ∧ toInt (S.env.fl (dur * sr)) = .ok (fadeLen r.1) := by
  have hf : Rounding S.env.fl := by rw [he]; exact rounding_ieee32
  have hg := rounding_ieee32 (K := K)
  have hok := hb.ok hf hl
  have h0 : PhaseOk S.env.fl (0 : K) := ⟨le_rfl, by norm_num, hf.zero_ph⟩
  have h14 : ieee32 (1 / 4 : K) = 1 / 4 := by
    have := hg.dyadic 1 2 (by norm_num); norm_num at this ⊢; exact this
  have d1 : (1 : K) / 4 ≤ ieee32 (2 / 5) := hg.ge_of_ge h14 (by norm_num)
  have d2 : ieee32 (1 / 10 : K) < 1 / 4 := by
    have h18 : ieee32 (1 / 8 : K) = 1 / 8 := by
      have := hg.dyadic 1 3 (by norm_num); norm_num at this ⊢; exact this
    have := hg.le_of_le h18 (show (1 / 10 : K) ≤ 1 / 8 by norm_num)
    linarith [show (1 : K) / 8 < 1 / 4 by norm_num]
  have hd : ieee32 (2 / 5 : K) ≠ 0 := by linarith
  have hL2 := hok.L2
  have hoct : IsOctave L ((L : ℤ) - 2) |ieee32 (2 / 5 : K)| := by
    rw [abs_of_pos (by linarith)]
    refine ⟨by omega, le_rfl, Or.inr ?_, Or.inl rfl⟩
    rw [show ((L : ℤ) - 2).toNat = L - 2 by omega, div_le_iff₀ (by positivity)]
    calc (2 : K) ^ (L - 2) = 1 / 4 * 2 ^ L := by
          obtain ⟨k, rfl⟩ := Nat.exists_eq_add_of_le hL2
          rw [show 2 + k - 2 = k by omega, pow_add]; ring
      _ ≤ _ := by gcongr
  obtain ⟨c, t, hn, -, -, hcs, -⟩ := Sys.find_spec (S := S) hf hok (abs_pos.2 hd)
  obtain ⟨⟨o, r⟩, e, h1, h2, -, -, h3, -⟩ := Sys.init_play hf S.fresh hok h0 hd
  dsimp only at h1 h2 h3
  refine ⟨_, e, h3, ?_, ?_, ?_⟩
  · unfold Calm; dsimp only; rw [h1.red, at_self]; exact h1
  all_goals
    have hw : o.wt = some { wt with cf := wt.cf.stepD |ieee32 (2 / 5)| } := by
      unfold Sys.init at e
      dsimp only at e
      rw [Sys.reset_ok (o := { S.fresh with wt := some wt }) hf rfl hok h0 hd hn, R.ok_bind] at e
      cases e
      rw [hcs]
    obtain ⟨L', xf, -, -, -, -, hlen, hxf, ewt⟩ := WavetableData.build_some hf hl hb.1 hb.2.2.2
    have hLL : L' = L := by
      have := hb.2.2.1
      rw [hlen] at this
      exact pow_inj_of_mul (by have := hok.nw0; omega) (by simpa using this)
    subst hLL
  · intro b hbne wt2 hw2
    rw [hw] at hw2; cases hw2
    show (wt.cf.stepD _).samplesLeft = 0 ∨ (wt.cf.stepD _).prevIdx ≠ b
    have hloop : (CrossFader.findLoop |ieee32 (2 / 5 : K)| wt.cf.scale : ℤ) = (L' : ℤ) - 2 := by
      rw [hok.scale]; exact CrossFader.findLoop_of_octave hL2 hoct
    have hidle : wt.cf.samplesLeft = 0 := by rw [ewt]; rfl
    have hprev := hok.inv.prev1
    rw [hok.scale, CrossFader.octaveScale_length] at hprev
    have hnext := hok.inv.idle hidle
    unfold CrossFader.stepD
    rw [hloop]
    unfold CrossFader.nextState CrossFader.updateIndices
    rw [if_neg (by simpa using hidle)]
    split_ifs with h4 h5
    · exact Or.inl hidle
    · right; dsimp only; omega
    · exfalso; dsimp only at h5; omega
  · rw [hxf]
    unfold fadeLen
    dsimp only
    rw [hw]
    dsimp only
    rw [(CrossFader.stepD_const _ _).2, ewt]
    rfl

end Drivers
end Adwt
