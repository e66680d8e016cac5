import Verif.Props.Calls
import Verif.Props.CrossFader

/-!
# C26 - C30: which calls stay inside the tables

An execution that fails any assertion, reads or writes outside a table, dereferences null, divides
by zero or overflows a conversion is an `.error` of the model; `.ok` means none of this happened.
All theorems hold for debug and release builds (`S.env.dbg`) unless said otherwise.
-/

set_option linter.unusedSectionVars false

namespace Adwt.Props
open WavetableData
variable {K C : Type} [Field K] [LinearOrder K] [IsStrictOrderedRing K] [FloorRing K]
variable [Zero C] [Add C] [Sub C] [Mul C] [Div C]

/-! ### C26 -/

/-- C26: `init` a new oscillator with any built wavetable, any phase and any positive step, then
play forward in blocks of any size, change waveforms and reset in any order: everything succeeds. -/
theorem C26_forward (S : Sys K C) (hf : Rounding S.env.fl) (hl : Log2Spec S.env.log2f)
    (hB : 0 < S.B) (ws : List K) (nw L : ℕ) (sr dur : K) (wt : WavetableData K)
    (hb : Built S.env ws nw L sr dur wt) (p d : K) (hp : PhaseOk S.env.fl p) (hd : 0 < d)
    (ops : List (Op K)) (hops : ForwardHistory S.env.fl nw p ops) :
    ∃ o o' ys, S.init S.fresh (some wt) p d = .ok (o, 0) ∧ runOps S o ops = .ok (o', ys) := by
  obtain ⟨⟨o, r⟩, e, h1, h2, h3, -, rfl, -⟩ :=
    Sys.init_play hf S.fresh (hb.ok hf hl) hp hd.ne'
  obtain ⟨⟨o', ys⟩, e', -⟩ := Sys.history_ok hf hB (o := o)
    ⟨h1, fun h => absurd h (by rw [h3]; exact not_lt.2 hd.le)⟩ (by rw [h2]; exact Sys.ForwardHistory.ok hops)
  exact ⟨o, o', ys, e, e'⟩

/-- C26: the same from every state reached by any sequence of legal calls (samplerate changes,
exchanged wavetables, bidirectional playback included), unless the last step was a backward one
that ended at phase 0 (see C27). -/
theorem C26_from_any (S : Sys K C) (hf : Rounding S.env.fl) (hl : Log2Spec S.env.log2f)
    (hB : 0 < S.B) (nw L : ℕ) (o : Osc K C) (ho : Reached S nw L o) (hz : ¬ AtZeroBackward o)
    (ops : List (Op K)) (hops : ForwardHistory S.env.fl nw o.prevPhase ops) :
    ∃ o' ys, runOps S o ops = .ok (o', ys) := by
  obtain ⟨⟨o', ys⟩, e', -⟩ := Sys.history_ok hf hB (Sys.reached_safe hf hl hB ho hz)
    (Sys.ForwardHistory.ok hops)
  exact ⟨o', ys, e'⟩

/-- A forward history with a wrap, a waveform change and a reset. -/
example : ForwardHistory envI.fl 2 0
    [.process .kForward [1 / 8, 1 / 2, 3 / 4], .setWaveform 1, .process .kForward [1 / 8],
      .reset (3 / 8) (1 / 100), .process .kForward [1 / 2]] := by
  have key : ∀ k : ℕ, k < 8 → PhaseOk envI.fl ((k : ℝ) / 2 ^ 3) := fun k hk =>
    phaseOk_dyadic envI_ok.1 (by norm_num; exact hk) (by norm_num)
  have k1 := key 1 (by norm_num); have k3 := key 3 (by norm_num)
  have k4 := key 4 (by norm_num); have k6 := key 6 (by norm_num)
  norm_num at k1 k3 k4 k6
  refine ⟨rfl, ⟨k1, ?_, k4, ?_, k6, ?_, trivial⟩, by norm_num, by norm_num, rfl, ⟨k1, ?_, trivial⟩,
    k3, by norm_num, rfl, ⟨k4, ?_, trivial⟩, trivial⟩
  · left; norm_num
  · left; norm_num
  · left; norm_num
  · right; norm_num
  · left; norm_num

/-! ### C27 -/

/-- C27, the part that is true: histories of calls in both modes that never put the oscillator at
phase 0 with a negative step (by a backward step to 0, or by a reset) succeed. Missing: phase 0
reached backwards, for which the property is false (`C27_false`). -/
theorem C27_safe_histories (S : Sys K C) (hf : Rounding S.env.fl) (hl : Log2Spec S.env.log2f)
    (hB : 0 < S.B) (nw L : ℕ) (o : Osc K C) (ho : Reached S nw L o) (hz : ¬ AtZeroBackward o)
    (ops : List (Op K)) (hops : HistorySafe S.env.fl nw o.prevPhase ops) :
    ∃ o' ys, runOps S o ops = .ok (o', ys) := by
  obtain ⟨⟨o', ys⟩, e', -⟩ := Sys.history_ok hf hB (Sys.reached_safe hf hl hB ho hz) hops
  exact ⟨o', ys, e'⟩

/-- C27, exactly: from every reached state, a sample of a legal step fails if and only if the last
step was a backward one that ended at phase 0 and the new sample uses a lower table than the last
one; the failure is an access out of bounds. -/
theorem C27_exact (S : Sys K C) (hf : Rounding S.env.fl) (hl : Log2Spec S.env.log2f)
    (hB : 0 < S.B) (nw L : ℕ) (o : Osc K C) (ho : Reached S nw L o) (dir : Sys.Direction) (p b : K)
    (hp : PhaseOk S.env.fl p) (hs : StepOk dir o.prevPhase p) :
    ((∃ o' y, S.process dir o [p] [b] = .ok (o', [y])) ∨
      S.process dir o [p] [b] = .error .outOfBounds) ∧
    (S.process dir o [p] [b] = .error .outOfBounds ↔
      AtZeroBackward o ∧ DropsTable S o (Sys.dirDiff S.env.fl dir p o.prevPhase)) := by
  have hs' := Sys.reached_play hf hl hB ho
  obtain ⟨wt, hwt, -⟩ := hs'.wt
  rw [Sys.process_runDir S dir (by rw [hwt]; rfl) (show [p].length = [b].length from rfl)]
  unfold Sys.runDir
  rcases Sys.step_cases hf hB hs' hp hs with ⟨⟨⟨o1, y⟩, e, -⟩, hn⟩ | ⟨e, h⟩
  · rw [e]
    refine ⟨Or.inl ⟨o1, y, rfl⟩, ⟨fun h => (by cases h), fun h => absurd h hn⟩⟩
  · rw [e]
    exact ⟨Or.inr rfl, ⟨fun _ => h, fun _ => rfl⟩⟩

/-- C27: for waveforms of four samples, which have a single table, bidirectional playback is always
safe. -/
theorem C27_single_table (S : Sys K C) (hf : Rounding S.env.fl) (hl : Log2Spec S.env.log2f)
    (hB : 0 < S.B) (nw : ℕ) (o : Osc K C) (ho : Reached S nw 2 o) (dir : Sys.Direction)
    (ps out : List K) (hp : BlockOk S.env.fl dir o.prevPhase ps) (hlen : ps.length = out.length) :
    ∃ o' ys, S.process dir o ps out = .ok (o', ys) := by
  have hs := Sys.reached_play hf hl hB ho
  obtain ⟨wt, hwt, -⟩ := hs.wt
  rw [Sys.process_runDir S dir (by rw [hwt]; rfl) hlen]
  clear hwt hlen ho
  induction ps generalizing o with
  | nil => exact ⟨o, [], rfl⟩
  | cons p ps ih =>
    obtain ⟨h1, h2, h3⟩ := hp
    unfold Sys.runDir
    rcases Sys.step_cases hf hB hs h1 h2 with ⟨⟨⟨o1, y⟩, e, hr⟩, hn⟩ | ⟨e, h, wt1, wt', t, hw1, ht, h0⟩
    · obtain ⟨o2, ys, e2⟩ := ih o1 (by dsimp only at hr; rw [hr.phase]; exact h3) hr.ok
      rw [e, R.ok_bind]
      dsimp only
      rw [e2]
      exact ⟨_, _, rfl⟩
    · exfalso
      obtain ⟨wt2, hw2, hok⟩ := hs.wt
      rw [hw1] at hw2; cases hw2
      have hd : Sys.dirDiff S.env.fl dir p o.prevPhase ≠ 0 := by
        cases dir with
        | kForward => exact (Sys.fwdDiff_range hf hs.phase h1 h2).1.ne'
        | kBidirectionnal => exact fun e => h2 ((Sys.biDiff_range hf hs.phase h1).2.2.1 e)
      obtain ⟨c, t', hn, hfind, -, -, ht0, ht1, -⟩ := Sys.find_spec hf hok (abs_pos.2 hd)
      rw [hfind] at ht; cases ht
      have := hs.mip1
      push_cast at this
      omega

/-- phases `x/8`, going back by 3/8 at each step -/
def walk : ℕ → ℕ → List K
  | _, 0 => []
  | x, n + 1 => (((x + 5) % 8 : ℕ) : K) / 2 ^ 3 :: walk ((x + 5) % 8) n

theorem phaseOk_eighth {fl : K → K} (hf : Rounding fl) {x : ℕ} (h : x < 8) :
    PhaseOk fl ((x : K) / 2 ^ 3) := by
  refine ⟨by positivity, ?_, ?_⟩
  · rw [div_lt_one (by positivity)]; norm_num; exact_mod_cast h
  · exact hf.dyadic_ph x 3 (by omega)

theorem biDiff_walk {fl : K → K} (hf : Rounding fl) {x : ℕ} (h : x < 8) :
    Sys.biDiff fl ((((x + 5) % 8 : ℕ) : K) / 2 ^ 3) ((x : K) / 2 ^ 3) = -(3 / 8) := by
  have h38 : fl (-(3 / 8) : K) = -(3 / 8) := by
    have := hf.dyadic (-3) 3 (by norm_num)
    have e : (((-3 : ℤ) : K) / 2 ^ 3) = -(3 / 8) := by norm_num
    rwa [e] at this
  have h58 : fl (5 / 8 : K) = 5 / 8 := by
    have := hf.dyadic 5 3 (by norm_num)
    have e : (((5 : ℤ) : K) / 2 ^ 3) = 5 / 8 := by norm_num
    rwa [e] at this
  unfold Sys.biDiff
  dsimp only
  by_cases hx : x < 3
  · have e : (((x + 5) % 8 : ℕ) : K) / 2 ^ 3 - (x : K) / 2 ^ 3 = 5 / 8 := by
      rw [Nat.mod_eq_of_lt (by omega)]; push_cast; ring
    rw [e, h58, if_neg (by norm_num), if_pos (by norm_num)]
    rw [show (5 / 8 - 1 : K) = -(3 / 8) by norm_num, h38]
  · have e : (((x + 5) % 8 : ℕ) : K) / 2 ^ 3 - (x : K) / 2 ^ 3 = -(3 / 8) := by
      have : (x + 5) % 8 = x - 3 := by omega
      rw [this, Nat.cast_sub (by omega)]; push_cast; ring
    rw [e, h38, if_neg (by norm_num), if_neg (by norm_num)]

/-- calls until the crossfader uses the last table only -/
def settleOf (L : ℕ) (o : Osc K C) : ℤ :=
  match o.wt with
  | none => 0
  | some wt => settleTime wt.cf ((L : ℤ) - 2)

theorem settle_one {L nw : ℕ} {wt : WavetableData K} (hw : WtOk nw L wt) :
    settleTime (wt.cf.stepD (3 / 8)) ((L : ℤ) - 2) ≤ max 0 (settleTime wt.cf ((L : ℤ) - 2) - 1) := by
  have hL := hw.L2
  have hoct : IsOctave L ((L : ℤ) - 2) (3 / 8 : K) := by
    refine ⟨by omega, le_rfl, Or.inr ?_, Or.inl rfl⟩
    have e : (L : ℤ) - 2 = ((L - 2 : ℕ) : ℤ) := by omega
    rw [e, Int.toNat_natCast]
    have e2 : (2 : K) ^ L = 2 ^ (L - 2) * 4 := by
      conv_lhs => rw [show L = L - 2 + 2 by omega, pow_add]
      norm_num
    rw [e2, div_le_iff₀ (by positivity)]
    have : (0 : K) < 2 ^ (L - 2) := by positivity
    linarith
  have e : wt.cf.stepD (3 / 8) = wt.cf.nextState ((L : ℤ) - 2) := by
    unfold CrossFader.stepD
    rw [hw.scale, CrossFader.findLoop_of_octave hL hoct]
  rw [e]
  exact (settle_step hw.inv _).2

theorem walk_ok {fl : K → K} (hf : Rounding fl) {x : ℕ} (hx : x < 8) (n : ℕ) :
    BlockOk fl .kBidirectionnal ((x : K) / 2 ^ 3) (walk x n) := by
  induction n generalizing x with
  | zero => trivial
  | succ n ih =>
    refine ⟨phaseOk_eighth hf (Nat.mod_lt _ (by norm_num)), ?_, ih (Nat.mod_lt _ (by norm_num))⟩
    intro h
    have := (Sys.biDiff_range hf (phaseOk_eighth hf hx)
      (phaseOk_eighth hf (x := (x + 5) % 8) (Nat.mod_lt _ (by norm_num)))).2.2.2 h
    rw [biDiff_walk hf hx] at this
    norm_num at this

theorem walk_run {S : Sys K C} (hf : Rounding S.env.fl) (hB : 0 < S.B) {nw L : ℕ} (n : ℕ)
    {o : Osc K C} {x : ℕ} (hx : x < 8) (ho : OscPlay S nw L o) (hp : o.prevPhase = (x : K) / 2 ^ 3) :
    S.runDir .kBidirectionnal o (walk x n) = .error .outOfBounds ∨
    ∃ o' ys, S.runDir .kBidirectionnal o (walk x n) = .ok (o', ys) ∧ OscPlay S nw L o' ∧
      o'.prevPhase = (((x + 5 * n) % 8 : ℕ) : K) / 2 ^ 3 ∧
      settleOf L o' ≤ max 0 (settleOf L o - n) := by
  induction n generalizing o x with
  | zero =>
    right
    refine ⟨o, [], rfl, ho, ?_, by simp⟩
    rw [hp]; congr 2; omega
  | succ n ih =>
    unfold walk Sys.runDir
    have hx' : (x + 5) % 8 < 8 := Nat.mod_lt _ (by norm_num)
    have hstep : StepOk .kBidirectionnal o.prevPhase ((((x + 5) % 8 : ℕ) : K) / 2 ^ 3) := by
      rw [hp]; exact (walk_ok hf hx 1).2.1
    rcases Sys.step_cases hf hB ho (phaseOk_eighth hf hx') hstep with ⟨⟨⟨o1, y⟩, e, hr⟩, -⟩ | ⟨e, -⟩
    swap
    · left; rw [e]; rfl
    rw [e, R.ok_bind]
    dsimp only at hr ⊢
    obtain ⟨wt, c, t, hw, hok, hn, hc, hw', -⟩ := hr.find
    have hset : settleOf L o1 ≤ max 0 (settleOf L o - 1) := by
      unfold settleOf
      rw [hw, hw', hc]
      dsimp only [Sys.dirDiff]
      rw [hp, biDiff_walk hf hx, abs_neg, abs_of_pos (by norm_num)]
      exact settle_one hok
    rcases ih hx' hr.ok hr.phase with e2 | ⟨o2, ys, e2, h1, h2, h3⟩
    · left; rw [e2]; rfl
    · right
      rw [e2]
      refine ⟨o2, y :: ys, rfl, h1, ?_, ?_⟩
      · rw [h2]; congr 2; omega
      · push_cast; omega

/-- C27 is false: whatever was played before, whatever the wavetable (of at least 8 samples per
waveform) contains, whatever the crossfade length, in debug and release builds, there is a block of
bidirectional phases in `[0,1)`, consecutive ones distinct, that makes `process` access a table out
of bounds. -/
theorem C27_false (S : Sys K C) (hf : Rounding S.env.fl) (hl : Log2Spec S.env.log2f)
    (hB : 0 < S.B) (nw L : ℕ) (hL : 3 ≤ L) (o : Osc K C) (ho : Reached S nw L o) :
    ∃ ps, BlockOk S.env.fl .kBidirectionnal o.prevPhase ps ∧
      S.process .kBidirectionnal o ps (List.replicate ps.length 0) = .error .outOfBounds := by
  have hs := Sys.reached_play hf hl hB ho
  obtain ⟨wt0, hwt0, hok0⟩ := hs.wt
  have hL18 := hok0.L18
  -- go to phase `x/8`, different from the present one
  obtain ⟨x, hx, hne⟩ : ∃ x : ℕ, x < 8 ∧ ((x : ℕ) : K) / 2 ^ 3 ≠ o.prevPhase := by
    by_cases h : o.prevPhase = 0
    · exact ⟨1, by norm_num, by rw [h]; norm_num⟩
    · exact ⟨0, by norm_num, by rw [Nat.cast_zero, zero_div]; exact Ne.symm h⟩
  have hx1 := phaseOk_eighth hf hx
  have hproc : ∀ ps : List K, S.process .kBidirectionnal o ps (List.replicate ps.length 0) =
      S.runDir .kBidirectionnal o ps := fun ps =>
    Sys.process_runDir S _ (by rw [hwt0]; rfl) (by simp)
  rcases Sys.step_cases hf hB hs hx1 (dir := .kBidirectionnal) hne with ⟨⟨⟨o1, y1⟩, e1, hr1⟩, -⟩ | ⟨e1, -⟩
  swap
  · refine ⟨[(x : K) / 2 ^ 3], ⟨hx1, hne, trivial⟩, ?_⟩
    rw [hproc]
    unfold Sys.runDir
    rw [e1]; rfl
  dsimp only at hr1
  -- walk until settled, one more step, ending at phase 0 backwards
  obtain ⟨n, hn0, hn1⟩ : ∃ n : ℕ, settleOf L o1 ≤ n ∧ (x + 5 * (n + 1)) % 8 = 0 := by
    obtain ⟨m, hm⟩ := Int.eq_ofNat_of_zero_le (le_max_left 0 (settleOf L o1))
    have : settleOf L o1 ≤ m := by rw [← hm]; exact le_max_right _ _
    exact ⟨8 * m + (7 + 3 * x) % 8, by push_cast; omega, by omega⟩
  -- the last step
  have hq : PhaseOk S.env.fl ((1 : K) / 2 ^ L) := by
    refine ⟨by positivity, ?_, ?_⟩
    · rw [div_lt_one (by positivity)]; exact one_lt_pow₀ (by norm_num) (by omega)
    · have := hf.dyadic_ph 1 L (by norm_num); simpa using this
  refine ⟨(x : K) / 2 ^ 3 :: (walk x n ++ (walk ((x + 5 * n) % 8) 1 ++ [1 / 2 ^ L])),
    ⟨hx1, hne, ?_⟩, ?_⟩
  · -- legality
    have happ : ∀ (a b : List K) (prev : K), BlockOk S.env.fl .kBidirectionnal prev a →
        BlockOk S.env.fl .kBidirectionnal (a.getLastD prev) b →
        BlockOk S.env.fl .kBidirectionnal prev (a ++ b) := by
      intro a
      induction a with
      | nil => intro b prev _ h; exact h
      | cons q a ih =>
        intro b prev h1 h2
        rw [List.getLastD_cons] at h2
        exact ⟨h1.1, h1.2.1, ih b q h1.2.2 h2⟩
    have hlast : ∀ (n x : ℕ), x < 8 →
        (walk x n).getLastD ((x : K) / 2 ^ 3) = (((x + 5 * n) % 8 : ℕ) : K) / 2 ^ 3 := by
      intro n
      induction n with
      | zero => intro x hx; simp [walk, Nat.mod_eq_of_lt hx]
      | succ n ih =>
        intro x hx
        unfold walk
        rw [List.getLastD_cons, ih _ (Nat.mod_lt _ (by norm_num))]
        congr 2; omega
    apply happ _ _ _ (walk_ok hf hx n)
    rw [hlast n x hx]
    apply happ _ _ _ (walk_ok hf (Nat.mod_lt _ (by norm_num)) 1)
    rw [hlast 1 _ (Nat.mod_lt _ (by norm_num))]
    have e0 : ((x + 5 * n) % 8 + 5 * 1) % 8 = 0 := by omega
    rw [e0]
    refine ⟨hq, ?_, trivial⟩
    show (1 : K) / 2 ^ L ≠ _
    have : (0 : K) < 1 / 2 ^ L := by positivity
    simpa using this.ne'
  · rw [hproc]
    unfold Sys.runDir
    rw [e1, R.ok_bind]
    dsimp only
    suffices h : S.runDir .kBidirectionnal o1
        (walk x n ++ (walk ((x + 5 * n) % 8) 1 ++ [1 / 2 ^ L])) = .error .outOfBounds by
      rw [h]; rfl
    rw [runDir_append]
    rcases walk_run hf hB n hx hr1.ok hr1.phase with e2 | ⟨o2, y2, e2, h1, h2, h3⟩
    · rw [e2]; rfl
    rw [e2, R.ok_bind]
    dsimp only
    suffices h : S.runDir .kBidirectionnal o2
        (walk ((x + 5 * n) % 8) 1 ++ [1 / 2 ^ L]) = .error .outOfBounds by
      rw [h]; rfl
    unfold walk walk
    rw [List.cons_append, List.nil_append]
    unfold Sys.runDir
    have hz : (x + 5 * n) % 8 < 8 := Nat.mod_lt _ (by norm_num)
    have hstep := (walk_ok hf hz 1).2.1
    rw [← h2] at hstep
    rcases Sys.step_cases hf hB h1 (phaseOk_eighth hf (x := ((x + 5 * n) % 8 + 5) % 8)
      (Nat.mod_lt _ (by norm_num))) hstep with ⟨⟨⟨o3, y3⟩, e3, hr3⟩, -⟩ | ⟨e3, -⟩
    swap
    · rw [e3]; rfl
    rw [e3, R.ok_bind]
    dsimp only at hr3 ⊢
    -- now at phase 0, backwards, on the last table, no crossfade running
    have hd3 : Sys.dirDiff S.env.fl .kBidirectionnal
        (((((x + 5 * n) % 8 + 5) % 8 : ℕ) : K) / 2 ^ 3) o2.prevPhase = -(3 / 8) := by
      show Sys.biDiff _ _ _ = _
      rw [h2, biDiff_walk hf hz]
    obtain ⟨wt2, c, t, hw2, hok2, hn2, hc, hw3, hmip⟩ := hr3.find
    rw [hd3, abs_neg, abs_of_pos (by norm_num)] at hn2 hc
    have hset2 : settleTime wt2.cf ((L : ℤ) - 2) ≤ 0 := by
      have e : settleOf L o2 = settleTime wt2.cf ((L : ℤ) - 2) := by unfold settleOf; rw [hw2]
      rw [e] at h3
      omega
    have hidle : wt2.cf.samplesLeft = 0 ∧ wt2.cf.nextIdx = (L : ℤ) - 2 := by
      have := hok2.inv.left0; have := hok2.inv.num
      unfold settleTime at hset2
      split_ifs at hset2 <;> constructor <;> omega
    have hoct : (CrossFader.findLoop (3 / 8 : K) wt2.cf.scale : ℤ) = (L : ℤ) - 2 := by
      rw [hok2.scale]
      apply CrossFader.findLoop_of_octave hok2.L2
      refine ⟨by omega, le_rfl, Or.inr ?_, Or.inl rfl⟩
      have e : (L : ℤ) - 2 = ((L - 2 : ℕ) : ℤ) := by omega
      rw [e, Int.toNat_natCast]
      have e2 : (2 : K) ^ L = 2 ^ (L - 2) * 4 := by
        conv_lhs => rw [show L = L - 2 + 2 by omega, pow_add]
        norm_num
      rw [e2, div_le_iff₀ (by positivity)]
      have : (0 : K) < 2 ^ (L - 2) := by positivity
      linarith
    have hstate : wt2.cf.stepD (3 / 8) = wt2.cf := by
      unfold CrossFader.stepD CrossFader.nextState
      rw [if_neg (by simpa using hidle.1), if_pos (by rw [hoct, hidle.2])]
    have hmip3 : o3.prevMip = (L : ℤ) - 2 := by
      obtain ⟨t', e', ht⟩ := CrossFader.newIndices_eq hf hok2.inv (d := 3 / 8) (by norm_num)
      rw [hn2] at e'
      have htt : t = t' := congrArg (fun x => x.2) (Except.ok.inj e')
      rw [hmip, htt]
      rcases ht with ⟨-, -, ht⟩ | ⟨hne, -⟩
      · rw [ht, ← hidle.2]
      · exact absurd ⟨hidle.1, by rw [hoct, hidle.2]⟩ hne
    have hph3 : o3.prevPhase = 0 := by
      rw [hr3.phase]
      have e0 : ((x + 5 * n) % 8 + 5) % 8 = 0 := by omega
      rw [e0]; simp
    have hpos : (0 : K) < 1 / 2 ^ L := by positivity
    have hle8 : (1 : K) / 2 ^ L ≤ 1 / 8 := by
      have : (2 : K) ^ 3 ≤ 2 ^ L := pow_le_pow_right₀ (by norm_num) hL
      have := one_div_le_one_div_of_le (by positivity) this
      norm_num at this ⊢; exact this
    have hd4 : Sys.biDiff S.env.fl (1 / 2 ^ L) o3.prevPhase = 1 / 2 ^ L := by
      unfold Sys.biDiff
      dsimp only
      rw [hph3, sub_zero, hq.2.2.1, if_neg (by linarith), if_neg (by linarith)]
    rcases Sys.step_cases hf hB hr3.ok hq (dir := .kBidirectionnal)
      (show (1 : K) / 2 ^ L ≠ o3.prevPhase by rw [hph3]; exact hpos.ne') with ⟨-, hno⟩ | ⟨e4, -⟩
    · exfalso
      apply hno
      refine ⟨⟨hph3, by rw [hr3.diff, hd3]; norm_num⟩, ?_⟩
      show DropsTable S o3 (Sys.biDiff _ _ _)
      rw [hd4]
      have hw3' : WtOk nw L { wt2 with cf := c } := by
        obtain ⟨w, hw, hk⟩ := hr3.ok.wt
        rw [hw3] at hw; cases hw; exact hk
      obtain ⟨c4, t4, hn4, hfind4, -⟩ := Sys.find_spec hf hw3' (abs_pos.2 hpos.ne')
      refine ⟨_, _, _, hw3, hfind4, ?_⟩
      rw [hmip3]
      obtain ⟨t', e', ht⟩ := CrossFader.newIndices_eq hf hw3'.inv (abs_pos.2 hpos.ne')
      rw [hn4] at e'
      have htt : t4 = t' := congrArg (fun x => x.2) (Except.ok.inj e')
      have hl0 : (CrossFader.findLoop |(1 : K) / 2 ^ L| c.scale : ℤ) = 0 := by
        have : c.scale = octaveScale K L := hw3'.scale
        rw [this, abs_of_pos hpos]
        apply CrossFader.findLoop_of_octave hok2.L2
        refine ⟨le_rfl, by omega, Or.inl rfl, Or.inr ?_⟩
        exact div_lt_div_of_pos_right (by norm_num) (by positivity)
      rw [hstate] at hc
      subst hc
      dsimp only at ht
      rw [htt]
      rcases ht with ⟨-, h', -⟩ | ⟨-, f, -, ht⟩
      · exfalso; rw [hl0, hidle.2] at h'; omega
      · rw [hl0] at ht
        have hst : wt2.cf.nextState 0 =
            { wt2.cf with samplesLeft := wt2.cf.numSamples, prevIdx := 1, nextIdx := 0 } := by
          have := hok2.inv.idle hidle.1
          unfold CrossFader.nextState CrossFader.updateIndices
          rw [if_neg (fun h => h hidle.1), if_neg (by rw [hidle.2]; omega)]
          dsimp only
          rw [if_neg (by omega)]; rfl
        rw [hst] at ht
        dsimp only at ht
        rw [if_neg (by norm_num)] at ht
        rw [ht]
        dsimp only
        omega
    · show (do let r ← S.runDir .kBidirectionnal o3 [1 / 2 ^ L]; pure (r.1, y3 :: r.2)) = _
      unfold Sys.runDir
      rw [e4]; rfl

end Adwt.Props
