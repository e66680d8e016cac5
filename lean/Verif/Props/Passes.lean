import Verif.Props.RealSweep

/-!
# C61, C67: the benchmarks beyond their first pass

Google Benchmark runs the measured loop many times; the oscillator is not reset, so each pass starts with
the jump from the last phase of the sweep back to phase 0.
-/

set_option linter.unusedSectionVars false

namespace Adwt.Props
open Drivers
variable {K C : Type} [Field K] [LinearOrder K] [IsStrictOrderedRing K] [FloorRing K]
variable [Zero C] [Add C] [Sub C] [Mul C] [Div C]

theorem sweep_forward {x : K} (hx : 1 / 2 ≤ x) {ss : List K} (h : ∀ s ∈ ss, StepRange s) :
    BlockSafe ieee32 .kForward x (0 :: accumulate ieee32 0 ss) := by
  have hf := rounding_ieee32 (K := K)
  have h0 : PhaseOk ieee32 (0 : K) := ⟨le_rfl, by norm_num, hf.zero_ph⟩
  refine ⟨h0, ?_, accumulate_safe h0 h .kForward⟩
  right
  have : (0 : K) < 1 / 2 := by norm_num
  constructor <;> linarith

/-- the passes, one after the other -/
theorem benchPasses_ok {S : Sys K C} {nw L : ℕ} (he : S.env.fl = ieee32) (hB : 0 < S.B) {ss : List K}
    (h : ∀ s ∈ ss, StepRange s) {bs blocks : ℕ} (hpos : 0 < blocks * bs)
    (hlen : blocks * bs ≤ ss.length + 1)
    (hlast : 1 / 2 ≤ ((0 :: accumulate ieee32 0 ss).take (blocks * bs)).getLastD 0) {o : Osc K C}
    (ho : OscSafe S nw L o) (h0 : 1 / 2 ≤ o.prevPhase) (k : ℕ) :
    Ok (benchPasses S o (0 :: accumulate ieee32 0 ss) bs blocks k) fun r => OscSafe S nw L r.1 ∧
      1 / 2 ≤ r.1.prevPhase ∧ r.2.length = k * (blocks * bs) := by
  have hf : Rounding S.env.fl := by rw [he]; exact rounding_ieee32
  induction k with
  | zero => exact Ok.ok ⟨ho, h0, by simp⟩
  | succ k ih =>
    unfold benchPasses
    refine Ok.bind ih fun r hr => ?_
    obtain ⟨o1, ys⟩ := r
    obtain ⟨a1, a2, a3⟩ := hr
    dsimp only at a1 a2 a3 ⊢
    refine Ok.bind (benchLoop_ok hf hB a1 (by rw [he]; exact sweep_forward a2 h) blocks (bs := bs)
      (by simpa [accumulate_length] using hlen)) fun r hr => ?_
    obtain ⟨o2, zs⟩ := r
    obtain ⟨b1, b2, b3⟩ := hr
    dsimp only at b1 b2 b3 ⊢
    refine Ok.pure ⟨b1, ?_, by simp [a3, b3]; ring⟩
    dsimp only
    rw [b2]
    obtain ⟨m, hm⟩ := Nat.exists_eq_succ_of_ne_zero hpos.ne'
    rw [hm, List.take_succ_cons, List.getLastD_cons] at hlast ⊢
    exact hlast

/-- C61: a benchmark whose sweep ends, with the last complete block, at a phase of at least 1/2 can be
repeated any number of times. -/
theorem C61_passes (S : Sys K C) (he : S.env.fl = ieee32) (hl : Log2Spec S.env.log2f) (hB : 0 < S.B)
    (nw L : ℕ) (ws : List K) (bsr dur : K) (wt : WavetableData K) (hb : Built S.env ws nw L bsr dur wt)
    (p0 d0 : K) (hp : PhaseOk ieee32 p0) (hp2 : 1 / 2 ≤ p0) (hd : 0 < d0) (sr : K) (hsr : 0 < sr)
    (n : ℕ) (bs : ℕ) (hbs : 0 < bs) (hbn : bs ≤ n + 1)
    (hup : 0 ≤ ieee32 (ieee32 (ieee32 (sr / 2) - ieee32 20) / ieee32 ((n + 1 : ℕ) : K)))
    (h0 : StepRange (ieee32 (ieee32 20 / sr)))
    (h1 : ∀ f ∈ (ramp ieee32 (ieee32 (ieee32 (ieee32 (sr / 2) - ieee32 20) / ieee32 ((n + 1 : ℕ) : K)))
      (ieee32 20) n).getLast?, StepRange (ieee32 (f / sr))) (phases : List K)
    (hph : generateLinearSweepPhase ieee32 (ieee32 20) (ieee32 (sr / 2)) sr (n + 1) = .ok phases)
    (hlast : 1 / 2 ≤ (phases.take ((n + 1) / bs * bs)).getLastD 0) (passes : ℕ) :
    ∃ o ys, benchRun S (some wt) p0 d0 sr (n + 1) bs passes = .ok (o, ys) ∧
      ys.length = passes * ((n + 1) / bs * bs) := by
  have hf : Rounding S.env.fl := by rw [he]; exact rounding_ieee32
  have hp' : PhaseOk S.env.fl p0 := by rw [he]; exact hp
  obtain ⟨⟨o, r⟩, e, i1, i2, i3, -, -, -⟩ := Sys.init_play hf S.fresh (hb.ok hf hl) hp' hd.ne'
  dsimp only at e i1 i2 i3
  have hsafe : OscSafe S nw L o := ⟨i1, fun h => absurd h (by rw [i3]; exact not_lt.2 hd.le)⟩
  unfold benchRun
  rw [e, R.ok_bind]
  dsimp only
  rw [he, hph, R.ok_bind]
  unfold generateLinearSweepPhase at hph
  cases hph
  have hsw := linear_range ((rounding_ieee32 (K := K)).idem _) hsr hup n h0 h1
  have hpos : 0 < (n + 1) / bs * bs := Nat.mul_pos (Nat.div_pos hbn hbs) hbs
  obtain ⟨⟨o', ys⟩, e2, -, -, b3⟩ := benchPasses_ok (S := S) he hB hsw hpos
    (by rw [List.length_map, ramp_length]; exact Nat.div_mul_le_self _ _) hlast hsafe
    (by rw [i2]; exact hp2) passes
  exact ⟨o', ys, e2, b3⟩

/-- C67: a benchmark whose sweep ends at a phase below `1/2 - 2^-25` aborts at the beginning of its second
pass in a build with assertions: from there to phase 0 is more than half a cycle. -/
theorem C67_second_pass (S : Sys K C) (he : S.env.fl = ieee32) (hl : Log2Spec S.env.log2f) (hB : 0 < S.B)
    (hdbg : S.env.dbg = true)
    (nw L : ℕ) (ws : List K) (bsr dur : K) (wt : WavetableData K) (hb : Built S.env ws nw L bsr dur wt)
    (p0 d0 : K) (hp : PhaseOk ieee32 p0) (hp2 : 1 / 2 ≤ p0) (hd : 0 < d0) (sr : K) (hsr : 0 < sr)
    (n : ℕ) (bs : ℕ) (hbs : 0 < bs) (hbn : bs ≤ n + 1)
    (hup : 0 ≤ ieee32 (ieee32 (ieee32 (sr / 2) - ieee32 20) / ieee32 ((n + 1 : ℕ) : K)))
    (h0 : StepRange (ieee32 (ieee32 20 / sr)))
    (h1 : ∀ f ∈ (ramp ieee32 (ieee32 (ieee32 (ieee32 (sr / 2) - ieee32 20) / ieee32 ((n + 1 : ℕ) : K)))
      (ieee32 20) n).getLast?, StepRange (ieee32 (f / sr))) (phases : List K)
    (hph : generateLinearSweepPhase ieee32 (ieee32 20) (ieee32 (sr / 2)) sr (n + 1) = .ok phases)
    (hlast : (phases.take ((n + 1) / bs * bs)).getLastD 0 < 1 / 2 - 1 / 2 ^ 25) (passes : ℕ)
    (hpass : 2 ≤ passes) :
    benchRun S (some wt) p0 d0 sr (n + 1) bs passes = .error .assertFail := by
  have hg := rounding_ieee32 (K := K)
  have hf : Rounding S.env.fl := by rw [he]; exact hg
  have hp' : PhaseOk S.env.fl p0 := by rw [he]; exact hp
  obtain ⟨⟨o, r⟩, e, i1, i2, i3, -, -, -⟩ := Sys.init_play hf S.fresh (hb.ok hf hl) hp' hd.ne'
  dsimp only at e i1 i2 i3
  have hsafe : OscSafe S nw L o := ⟨i1, fun h => absurd h (by rw [i3]; exact not_lt.2 hd.le)⟩
  unfold benchRun
  rw [e, R.ok_bind]
  dsimp only
  rw [he, hph, R.ok_bind]
  unfold generateLinearSweepPhase at hph
  cases hph
  have hsw := linear_range (hg.idem _) hsr hup n h0 h1
  have hpos : 0 < (n + 1) / bs * bs := Nat.mul_pos (Nat.div_pos hbn hbs) hbs
  obtain ⟨⟨o1, ys⟩, e2, b1, b2, -⟩ := benchLoop_ok hf hB hsafe (by rw [he, i2]; exact sweep_forward hp2 hsw)
    ((n + 1) / bs) (bs := bs) (by
      simp only [List.length_cons, accumulate_length, List.length_map, ramp_length]
      exact Nat.div_mul_le_self _ _)
  dsimp only at b1 b2
  generalize hss : (ramp (ieee32 : K → K) _ _ n).map (fun f => ieee32 (f / sr)) = ss at hlast e2 b2 hsw ⊢
  have hsl : ss.length = n := by rw [← hss, List.length_map, ramp_length]
  obtain ⟨m, hm⟩ := Nat.exists_eq_succ_of_ne_zero hpos.ne'
  have hlt : o1.prevPhase < 1 / 2 - 1 / 2 ^ 25 := by
    rw [b2]
    rw [hm, List.take_succ_cons, List.getLastD_cons] at hlast ⊢
    exact hlast
  -- the first sample of the second pass
  have hfirst : ∀ ps out : List K, ps.length + 1 = out.length →
      S.process .kForward o1 (0 :: ps) out = .error .assertFail := by
    intro ps out hlen
    obtain ⟨wt', hw, -⟩ := b1.wt
    rw [Sys.process_runDir S .kForward (by rw [hw]; rfl) (by simpa using hlen)]
    unfold Sys.runDir
    show (S.stepFwd o1 0 >>= _) = _
    unfold Sys.stepFwd
    dsimp only
    have hph := b1.phase
    rw [he] at hph ⊢
    have hc : ∀ p : Prop, ∀ [Decidable p], ¬ p → chk S.env.dbg p = .error .assertFail := by
      intro p _ hp; unfold chk; rw [if_pos ⟨hdbg, hp⟩]
    rw [zero_sub, hg.symm _ hph.2.2.1]
    split_ifs with hneg
    · rw [hc]
      · rfl
      · rintro ⟨-, h2⟩
        have e25 : (2 : K) ^ (0 - 25 : ℤ) = 1 / 2 ^ 25 := by
          rw [show (0 - 25 : ℤ) = -(25 : ℕ) by norm_num, zpow_neg, zpow_natCast, one_div]
        have herr := ieee32_err_below (x := -o1.prevPhase + 1) 0 (by
          have : (1 : K) / 2 ^ 126 ≤ 1 / 2 := by norm_num
          have : (0 : K) < 1 / 2 ^ 25 := by positivity
          linarith) (by rw [zpow_zero]; linarith) (by norm_num)
        rw [e25] at herr
        have := (abs_le.1 herr).1
        linarith
    · rw [hc]
      · rfl
      · rintro ⟨h2, -⟩
        exact not_lt.2 (neg_nonpos.2 hph.1) h2
  have hloop : benchLoop S o1 (0 :: accumulate ieee32 0 ss) bs ((n + 1) / bs) = .error .assertFail := by
    obtain ⟨b, hb⟩ := Nat.exists_eq_succ_of_ne_zero hbs.ne'
    obtain ⟨k, hk⟩ := Nat.exists_eq_succ_of_ne_zero (Nat.div_pos hbn hbs).ne'
    rw [hk]
    clear hk e2 b2 hm hpos
    induction k with
    | zero =>
      unfold benchLoop benchLoop
      rw [R.ok_bind]
      dsimp only
      rw [Nat.zero_mul, List.drop_zero, hb, List.take_succ_cons, hfirst _ _ (by
        simp [accumulate_length, hsl]; omega)]
      rfl
    | succ k ih =>
      unfold benchLoop
      rw [ih]; rfl
  obtain ⟨q, rfl⟩ := Nat.exists_eq_add_of_le' hpass
  have hall : ∀ q, benchPasses S o (0 :: accumulate ieee32 0 ss) bs ((n + 1) / bs) (q + 2) =
      .error .assertFail := by
    intro q
    induction q with
    | zero =>
      unfold benchPasses benchPasses benchPasses
      rw [R.ok_bind]
      dsimp only
      rw [e2, R.ok_bind]
      dsimp only
      rw [show (pure (o1, [] ++ ys) : R (Osc K C × List K)) = .ok (o1, [] ++ ys) from rfl, R.ok_bind]
      dsimp only
      rw [hloop]; rfl
    | succ q ih =>
      unfold benchPasses
      rw [ih]; rfl
  exact hall q

/-! ### concrete cases -/

theorem blockSafe_last {fl : K → K} {dir : Sys.Direction} {x : K} (hx : PhaseOk fl x) {ps : List K}
    (h : BlockSafe fl dir x ps) : PhaseOk fl (ps.getLastD x) := by
  induction ps generalizing x with
  | nil => exact hx
  | cons p ps ih => rw [List.getLastD_cons]; exact ih h.1 h.2.2

theorem fl_nat {m : ℕ} (h : m ≤ 2 ^ 24) : ieee32 (m : ℝ) = m := rounding_ieee32.natCast m h

/-- a quotient by the samplerate -/
theorem fl_quot {f : ℝ} (h0 : 20 ≤ f) (h1 : f ≤ 20000) :
    |ieee32 (f / 44100) - f / 44100| ≤ 1 / 2 ^ 24 := by
  have hz : 0 ≤ f / 44100 := by positivity
  have h2 : f / 44100 ≤ 1 := by rw [div_le_one (by norm_num)]; linarith
  refine (ieee32_err (by rw [abs_of_nonneg hz]; exact h2.trans (by norm_num))).trans ?_
  rw [abs_of_nonneg hz]
  refine (mul_le_mul_of_nonneg_left (max_le h2 (by norm_num)) (by positivity)).trans ?_
  norm_num

/-- A sweep of five samples ends at phase 0.6: it can be repeated for ever. -/
example (t : FilterType) (ws : List ℝ) (h : ws.length = 8) (passes : ℕ) : ∃ wt o ys,
    Built envI ws 1 3 44100 (1 / 256) wt ∧
    benchRun (sysOf envI t) (some wt) (3 / 4) (1 / 2 ^ 6) 44100 5 5 passes = .ok (o, ys) ∧
      ys.length = passes * 5 := by
  obtain ⟨wt, hb⟩ := exampleWt envI envI_ok ws h
  have hg := rounding_ieee32 (K := ℝ)
  have e1 : ieee32 ((44100 : ℝ) / 2) = 22050 := by
    have := fl_nat (m := 22050) (by norm_num); norm_num at this ⊢; exact this
  have e2 : ieee32 (20 : ℝ) = 20 := by have := fl_nat (m := 20) (by norm_num); norm_num at this ⊢; exact this
  have e3 : ieee32 ((22050 : ℝ) - 20) = 22030 := by
    have := fl_nat (m := 22030) (by norm_num); norm_num at this ⊢; exact this
  have e4 : ieee32 (((4 + 1 : ℕ) : ℕ) : ℝ) = 5 := by
    have := fl_nat (m := 5) (by norm_num); norm_num at this ⊢; exact this
  have e5 : ieee32 ((22030 : ℝ) / 5) = 4406 := by
    have := fl_nat (m := 4406) (by norm_num); norm_num at this ⊢; exact this
  have f1 : ieee32 ((20 : ℝ) + 4406) = 4426 := by
    have := fl_nat (m := 4426) (by norm_num); norm_num at this ⊢; exact this
  have f2 : ieee32 ((4426 : ℝ) + 4406) = 8832 := by
    have := fl_nat (m := 8832) (by norm_num); norm_num at this ⊢; exact this
  have f3 : ieee32 ((8832 : ℝ) + 4406) = 13238 := by
    have := fl_nat (m := 13238) (by norm_num); norm_num at this ⊢; exact this
  have hr : ramp ieee32 (4406 : ℝ) 20 4 = [20, 4426, 8832, 13238] := by
    simp only [ramp, f1, f2, f3]
  have q1 := abs_le.1 (fl_quot (f := 20) (by norm_num) (by norm_num))
  have q2 := abs_le.1 (fl_quot (f := 4426) (by norm_num) (by norm_num))
  have q3 := abs_le.1 (fl_quot (f := 8832) (by norm_num) (by norm_num))
  have q4 := abs_le.1 (fl_quot (f := 13238) (by norm_num) (by norm_num))
  norm_num at q1 q2 q3 q4
  have hz : PhaseOk ieee32 (0 : ℝ) := ⟨le_rfl, by norm_num, hg.zero_ph⟩
  have hst : ∀ s ∈ [ieee32 ((20 : ℝ) / 44100), ieee32 (4426 / 44100), ieee32 (8832 / 44100),
      ieee32 (13238 / 44100)], StepRange s := by
    intro s hs
    simp only [List.mem_cons, List.not_mem_nil, or_false] at hs
    rcases hs with rfl | rfl | rfl | rfl <;> constructor <;> norm_num <;> linarith
  have hlast : 1 / 2 ≤ (accumulate ieee32 (0 : ℝ) [ieee32 (20 / 44100), ieee32 (4426 / 44100),
      ieee32 (8832 / 44100), ieee32 (13238 / 44100)]).getLastD 0 := by
    obtain ⟨c, hc⟩ := C61_drift 0 hz _ hst
    have hsafe := C61_legal 0 hz _ hst .kForward
    have hok := blockSafe_last hz hsafe
    generalize (accumulate ieee32 (0 : ℝ) _).getLastD 0 = x at hc hok
    have hc := abs_le.1 hc
    norm_num at hc
    have c0 : c = 0 := by
      by_contra hne
      have : (1 : ℝ) ≤ c := by exact_mod_cast Nat.one_le_iff_ne_zero.2 hne
      linarith [hok.1]
    rw [c0] at hc
    norm_num at hc ⊢
    linarith
  obtain ⟨o, ys, h1, h2⟩ := C61_passes (sysOf envI t) rfl envI_ok.2.1 (by norm_num [sysOf]) 1 3 ws 44100 (1 / 256)
    wt hb (3 / 4) (1 / 2 ^ 6) (by have := phaseOk_dyadic hg (k := 3) (n := 2) (by norm_num) (by norm_num); norm_num at this; exact this)
    (by norm_num) (by norm_num) 44100 (by norm_num) 4 5 (by norm_num) (by norm_num)
    (by rw [e1, e2, e3, e4, e5]; norm_num) (by rw [e2]; exact hst _ (by simp))
    (by rw [e1, e2, e3, e4, e5, hr]; intro f hf; simp at hf; rw [← hf]; exact hst _ (by simp)) _ rfl
    (by
      rw [e1, e2, e3, e4, e5, hr]
      simpa [accumulate] using hlast) passes
  exact ⟨wt, o, ys, hb, h1, h2⟩

/-- A sweep of two samples ends at phase 0.0005: with assertions its second pass aborts. -/
example (t : FilterType) (ws : List ℝ) (h : ws.length = 8) : ∃ wt, Built envI ws 1 3 44100 (1 / 256) wt ∧
    benchRun (sysOf envI t) (some wt) (3 / 4) (1 / 2 ^ 6) 44100 2 1 2 = .error .assertFail := by
  obtain ⟨wt, hb⟩ := exampleWt envI envI_ok ws h
  have hg := rounding_ieee32 (K := ℝ)
  have e1 : ieee32 ((44100 : ℝ) / 2) = 22050 := by
    have := fl_nat (m := 22050) (by norm_num); norm_num at this ⊢; exact this
  have e2 : ieee32 (20 : ℝ) = 20 := by have := fl_nat (m := 20) (by norm_num); norm_num at this ⊢; exact this
  have e3 : ieee32 ((22050 : ℝ) - 20) = 22030 := by
    have := fl_nat (m := 22030) (by norm_num); norm_num at this ⊢; exact this
  have e4 : ieee32 (((1 + 1 : ℕ) : ℕ) : ℝ) = 2 := by
    have := fl_nat (m := 2) (by norm_num); norm_num at this ⊢; exact this
  have e5 : ieee32 ((22030 : ℝ) / 2) = 11015 := by
    have := fl_nat (m := 11015) (by norm_num); norm_num at this ⊢; exact this
  have q1 := abs_le.1 (fl_quot (f := 20) (by norm_num) (by norm_num))
  norm_num at q1
  have hst : StepRange (ieee32 ((20 : ℝ) / 44100)) := by constructor <;> norm_num <;> linarith
  refine ⟨wt, hb, C67_second_pass (sysOf envI t) rfl envI_ok.2.1 (by norm_num [sysOf]) rfl 1 3 ws 44100 (1 / 256)
    wt hb (3 / 4) (1 / 2 ^ 6) (by have := phaseOk_dyadic hg (k := 3) (n := 2) (by norm_num) (by norm_num); norm_num at this; exact this)
    (by norm_num) (by norm_num) 44100 (by norm_num) 1 1 (by norm_num) (by norm_num)
    (by rw [e1, e2, e3, e4, e5]; norm_num) (by rw [e2]; exact hst)
    (by rw [e1, e2, e3, e4, e5]; intro f hf; simp [ramp] at hf; rw [← hf]; exact hst) _ rfl ?_ 2 le_rfl⟩
  rw [e1, e2, e3, e4, e5]
  have hs0 : 0 ≤ ieee32 ((20 : ℝ) / 44100) := hg.nonneg (by norm_num)
  have ht : fmod1 (ieee32 ((20 : ℝ) / 44100)) = ieee32 ((20 : ℝ) / 44100) := by
    unfold fmod1
    rw [trunc_zero hs0 (by linarith), Int.cast_zero, sub_zero]
  have : ((0 : ℝ) :: accumulate ieee32 0 ((ramp ieee32 11015 20 1).map fun freq => ieee32 (freq / 44100))).take
      ((1 + 1) / 1 * 1) = [0, ieee32 (20 / 44100)] := by
    simp [ramp, accumulate, hg.idem, ht]
  rw [this]
  norm_num
  linarith

end Adwt.Props
