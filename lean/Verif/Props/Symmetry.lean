import Verif.Proofs.Symmetry
import Verif.Spec.Symmetry

/-!
# C69: reversal and rotation
-/

set_option linter.unusedSectionVars false

namespace Adwt.Props
variable {nw L m : ℕ} {ws : List ℝ} {st : ℕ → Osc ℝ ℂ}
  {dir : ℕ → Sys.Direction} {p y : ℕ → ℝ} {t : ℕ → MipMapIndices ℝ}

/-- the phase before sample `i` -/
theorem stepOf_int (S : Sys ℝ ℂ) (hS : ExactSys S) (dir : ℕ → Sys.Direction) (x0 : ℝ) (p : ℕ → ℝ) (i : ℕ) :
    ∃ k : ℤ, stepOf dir x0 p i = p i - (if i = 0 then x0 else p (i - 1)) + k := by
  unfold stepOf
  have := Sys.dirDiff_exact hS (dir i) (p i) (if i = 0 then x0 else p (i - 1))
  rw [hS.fl] at this
  rcases this with e | e | ⟨e, -⟩ <;> rw [e]
  · exact ⟨0, by simp⟩
  · exact ⟨1, by push_cast; ring⟩
  · exact ⟨-1, by push_cast; ring⟩

theorem fract01 (x : ℝ) : 0 ≤ Int.fract x ∧ Int.fract x < 1 := ⟨Int.fract_nonneg x, Int.fract_lt_one x⟩

theorem prev01 {x0 : ℝ} {p : ℕ → ℝ} (i : ℕ) (f : ℝ → ℝ) (g : ℕ → ℝ) (hg : ∀ i, g i = Int.fract (f (p i))) :
    0 ≤ (if i = 0 then Int.fract (f x0) else g (i - 1)) ∧
      (if i = 0 then Int.fract (f x0) else g (i - 1)) < 1 := by
  split_ifs
  · exact fract01 _
  · rw [hg]; exact fract01 _

theorem prev_int {x0 : ℝ} {p : ℕ → ℝ} (i : ℕ) (f : ℝ → ℝ) (g : ℕ → ℝ) (hg : ∀ i, g i = Int.fract (f (p i))) :
    ∃ k : ℤ, (if i = 0 then Int.fract (f x0) else g (i - 1)) = f (if i = 0 then x0 else p (i - 1)) + k := by
  split_ifs
  · exact ⟨-⌊f x0⌋, by unfold Int.fract; push_cast; ring⟩
  · rw [hg]; exact ⟨-⌊f (p (i - 1))⌋, by unfold Int.fract; push_cast; ring⟩

/-- C69, general form: if position `a u + c` of one waveform (`a = 1` or `a = -1`) is position `u` of
another, at every mipmap level, and the crossfaders start in the same state, then the first, played
from the corresponding phase with steps `a d`, gives the same output as the second with steps `d`. -/
theorem C69_symmetry (S : Sys ℝ ℂ) (hS : ExactSys S) (hl : Log2Spec S.env.log2f) (nw nw' L m : ℕ)
    (ws ws' : List ℝ) (st st' : ℕ → Osc ℝ ℂ) (dir dir' : ℕ → Sys.Direction) (p p' y y' : ℕ → ℝ)
    (t t' : ℕ → MipMapIndices ℝ) (h : TrackedRun S ws nw L m st dir p y t)
    (h' : TrackedRun S ws' nw' L m st' dir' p' y' t') (hcf : SameFader (st' 0) (st 0)) (a c : ℝ)
    (ha : a = 1 ∨ a = -1) (hx : ∃ k : ℤ, (st' 0).prevPhase = a * (st 0).prevPhase + c + k)
    (hd : ∀ i < m, stepOf dir' (st' 0).prevPhase p' i = a * stepOf dir (st 0).prevPhase p i)
    (hw : ∀ i : ℕ, i + 1 < L → ∀ u, waveAt S.env ws' L (st' 0).crt i (a * u + c) =
      waveAt S.env ws L (st 0).crt i u) : ∀ n < m, y' n = y n := by
  obtain ⟨k, hx⟩ := hx
  exact fun n hn => Sys.symmetric_runs hS hl h h' hcf a c ha k hx hd hw hn

theorem reverse_steps (S : Sys ℝ ℂ) (hS : ExactSys S) {dir : ℕ → Sys.Direction} {x0 : ℝ} {p p' : ℕ → ℝ}
    (hp : ∀ i, p' i = Int.fract (-p i)) (i : ℕ) :
    ∃ k : ℤ, -stepOf dir x0 p i = p' i - (if i = 0 then Int.fract (-x0) else p' (i - 1)) + k := by
  obtain ⟨k1, e1⟩ := stepOf_int S hS dir x0 p i
  obtain ⟨k2, e2⟩ := prev_int (x0 := x0) i (fun x => -x) p' hp
  rw [e1, e2, hp]
  refine ⟨-k1 + ⌊-p i⌋ + k2, ?_⟩
  unfold Int.fract
  push_cast
  ring

/-- C69: reversal. Playing a waveform in bidirectional mode through any phases is playing the
reversed waveform through the phases `-p` (modulo 1). -/
theorem C69_reverse (S : Sys ℝ ℂ) (hS : ExactSys S) (hl : Log2Spec S.env.log2f) (nw nw' L m : ℕ)
    (ws ws' : List ℝ) (st st' : ℕ → Osc ℝ ℂ) (p p' y y' : ℕ → ℝ) (t t' : ℕ → MipMapIndices ℝ)
    (h : TrackedRun S ws nw L m st (fun _ => .kBidirectionnal) p y t)
    (h' : TrackedRun S ws' nw' L m st' (fun _ => .kBidirectionnal) p' y' t')
    (hcf : SameFader (st' 0) (st 0)) (hx : (st' 0).prevPhase = Int.fract (-(st 0).prevPhase))
    (hp : ∀ i, p' i = Int.fract (-p i))
    (hd : ∀ i < m, |stepOf (fun _ => .kBidirectionnal) (st 0).prevPhase p i| < 1 / 2)
    (hw : ReversedTables S.env L ws' (st' 0).crt ws (st 0).crt) : ∀ n < m, y' n = y n := by
  refine C69_symmetry S hS hl nw nw' L m ws ws' st st' _ _ p p' y y' t t' h h' hcf (-1) 0 (Or.inr rfl)
    ⟨-⌊-(st 0).prevPhase⌋, by rw [hx]; unfold Int.fract; push_cast; ring⟩ (fun i hi => ?_)
    (fun i hi u => ?_)
  · rw [neg_one_mul, hx]
    refine bi_step_unique ?_ (prev01 i (fun x => -x) p' hp) (by rw [abs_neg]; exact hd i hi)
      (reverse_steps S hS hp i)
    rw [hp]; exact fract01 _
  · rw [neg_one_mul, add_zero]
    exact interp_reverse (hw i hi).1 (hw i hi).2 u

/-- C69: so backward playback in bidirectional mode is forward playback, in forward mode, of the
reversed waveform. -/
theorem C69_backward (S : Sys ℝ ℂ) (hS : ExactSys S) (hl : Log2Spec S.env.log2f) (nw nw' L m : ℕ)
    (ws ws' : List ℝ) (st st' : ℕ → Osc ℝ ℂ) (p p' y y' : ℕ → ℝ) (t t' : ℕ → MipMapIndices ℝ)
    (h : TrackedRun S ws nw L m st (fun _ => .kBidirectionnal) p y t)
    (h' : TrackedRun S ws' nw' L m st' (fun _ => .kForward) p' y' t')
    (hcf : SameFader (st' 0) (st 0)) (hx : (st' 0).prevPhase = Int.fract (-(st 0).prevPhase))
    (hp : ∀ i, p' i = Int.fract (-p i))
    (hd : ∀ i < m, stepOf (fun _ => .kBidirectionnal) (st 0).prevPhase p i < 0)
    (hw : ReversedTables S.env L ws' (st' 0).crt ws (st 0).crt) : ∀ n < m, y' n = y n := by
  refine C69_symmetry S hS hl nw nw' L m ws ws' st st' _ _ p p' y y' t t' h h' hcf (-1) 0 (Or.inr rfl)
    ⟨-⌊-(st 0).prevPhase⌋, by rw [hx]; unfold Int.fract; push_cast; ring⟩ (fun i hi => ?_)
    (fun i hi u => ?_)
  · rw [neg_one_mul, hx]
    have h1 := hd i hi
    have h2 : -1 < stepOf (fun _ => .kBidirectionnal) (st 0).prevPhase p i := by
      unfold stepOf Sys.dirDiff Sys.biDiff
      simp only [id]
      have q := h.phase i hi
      have x01 : 0 ≤ (if i = 0 then (st 0).prevPhase else p (i - 1)) ∧
          (if i = 0 then (st 0).prevPhase else p (i - 1)) < 1 := by
        split_ifs
        · have := Sys.reached_play (Sys.exact_rounding hS) hl hS.B h.plays.1
          exact ⟨this.p0, this.p1⟩
        · exact h.phase (i - 1) (by omega)
      generalize (if i = 0 then (st 0).prevPhase else p (i - 1)) = x at x01
      split_ifs <;> linarith
    refine fwd_step_unique ?_ (prev01 i (fun x => -x) p' hp) ⟨by linarith, by linarith⟩
      (reverse_steps S hS hp i)
    rw [hp]; exact fract01 _
  · rw [neg_one_mul, add_zero]
    exact interp_reverse (hw i hi).1 (hw i hi).2 u

/-- C69: rotation. If the tables of one waveform are those of another shifted by `c` cycles, playing
the first through the phases `p + c` (modulo 1) is playing the second through the phases `p`. -/
theorem C69_rotate (S : Sys ℝ ℂ) (hS : ExactSys S) (hl : Log2Spec S.env.log2f) (nw nw' L m : ℕ)
    (ws ws' : List ℝ) (st st' : ℕ → Osc ℝ ℂ) (dir : ℕ → Sys.Direction) (p p' y y' : ℕ → ℝ)
    (t t' : ℕ → MipMapIndices ℝ) (h : TrackedRun S ws nw L m st dir p y t)
    (h' : TrackedRun S ws' nw' L m st' dir p' y' t') (hcf : SameFader (st' 0) (st 0)) (c : ℝ)
    (hx : (st' 0).prevPhase = Int.fract ((st 0).prevPhase + c)) (hp : ∀ i, p' i = Int.fract (p i + c))
    (hd : ∀ i < m, dir i = .kBidirectionnal → |stepOf dir (st 0).prevPhase p i| < 1 / 2)
    (hw : ∀ i : ℕ, i + 1 < L → ∀ u, waveAt S.env ws' L (st' 0).crt i (u + c) =
      waveAt S.env ws L (st 0).crt i u) : ∀ n < m, y' n = y n := by
  refine C69_symmetry S hS hl nw nw' L m ws ws' st st' _ _ p p' y y' t t' h h' hcf 1 c (Or.inl rfl)
    ⟨-⌊(st 0).prevPhase + c⌋, by rw [hx]; unfold Int.fract; push_cast; ring⟩ (fun i hi => ?_)
    (fun i hi u => by rw [one_mul]; exact hw i hi u)
  rw [one_mul, hx]
  obtain ⟨k1, e1⟩ := stepOf_int S hS dir (st 0).prevPhase p i
  obtain ⟨k2, e2⟩ := prev_int (x0 := (st 0).prevPhase) i (fun x => x + c) p' hp
  have hk : ∃ k : ℤ, stepOf dir (st 0).prevPhase p i =
      p' i - (if i = 0 then Int.fract ((st 0).prevPhase + c) else p' (i - 1)) + k := by
    rw [e1, e2, hp]
    refine ⟨k1 + ⌊p i + c⌋ + k2, ?_⟩
    unfold Int.fract
    push_cast
    ring
  have hp' : 0 ≤ p' i ∧ p' i < 1 := by rw [hp]; exact fract01 _
  have hq := prev01 (x0 := (st 0).prevPhase) i (fun x => x + c) p' hp
  unfold stepOf at hk hd ⊢
  cases hdir : dir i with
  | kBidirectionnal =>
    have hh := hd i hi hdir
    rw [hdir] at hk hh
    exact bi_step_unique hp' hq hh hk
  | kForward =>
    rw [hdir] at hk
    refine fwd_step_unique hp' hq ?_ hk
    have q := h.phase i hi
    have x01 : 0 ≤ (if i = 0 then (st 0).prevPhase else p (i - 1)) ∧
        (if i = 0 then (st 0).prevPhase else p (i - 1)) < 1 := by
      split_ifs
      · have := Sys.reached_play (Sys.exact_rounding hS) hl hS.B h.plays.1
        exact ⟨this.p0, this.p1⟩
      · exact h.phase (i - 1) (by omega)
    generalize (if i = 0 then (st 0).prevPhase else p (i - 1)) = x at x01
    unfold Sys.dirDiff Sys.fwdDiff
    simp only [id]
    constructor <;> split_ifs <;> linarith

/-! ### the hypotheses are met -/

/-- Any built-in filter, any eight samples: a run of any length at a steady step of size 1/16, in
either mode and direction. -/
theorem steadyRunG (ft : FilterType) (ws : List ℝ) (hws : ws.length = 2 ^ 3) (m : ℕ)
    (dir : Sys.Direction) (d : ℝ) (hd : |d| = 1 / 16) (q : ℕ → ℝ) (hq : ∀ k, 0 ≤ q k ∧ q k < 1)
    (hdy : ∀ k, ∃ j : ℕ, q k = j / 2 ^ 5) (hs : ∀ k, StepOk dir (q k) (q (k + 1)))
    (hdiff : ∀ k, Sys.dirDiff id dir (q (k + 1)) (q k) = d) (hz : ∀ k, q k ≠ 0 ∨ 0 < d) :
    ∃ st y, TrackedRun (sysOf envX ft) ws 1 3 m st (fun _ => dir) (fun i => q (i + 1)) y
      (fun _ => ⟨0, 1, 0 + 1, 0⟩) ∧ (st 0).prevPhase = q 0 ∧ (st 0).crt = 0 ∧
      ∃ wt, (st 0).wt = some wt ∧ wt.cf = ⟨1, octaveScale ℝ 3, 0, 0, 0⟩ := by
  have d0 : d ≠ 0 := by intro h; rw [h] at hd; norm_num at hd
  have hidle : (⟨((1 : ℕ) : ℤ), octaveScale ℝ 3, 0, 0, 0⟩ : CrossFader ℝ).newIndices envX |d| =
      .ok (⟨((1 : ℕ) : ℤ), octaveScale ℝ 3, 0, 0, 0⟩, ⟨0, 1, 0 + 1, 0⟩) :=
    cf_idle (by norm_num) (by rw [hd]; norm_num) (oct0 (by rw [hd]; norm_num))
  obtain ⟨o, h1, hy⟩ := at_init ft ws 3 (by norm_num) (by norm_num) hws 1
    le_rfl (by norm_num) (p := q 0) (d := d) (hq 0) d0 (i := 0) (oct0 (by norm_num)) hidle
  have ex : ∀ (k : ℕ) (o : Osc ℝ ℂ), ∃ (r : Osc ℝ ℂ × ℝ),
      At (sysOf envX ft) ws 3 o ⟨1, octaveScale ℝ 3, 0, 0, 0⟩ 0 d (q k) →
      (sysOf envX ft).process dir o [q (k + 1)] [0] = .ok (r.1, [r.2]) ∧
      At (sysOf envX ft) ws 3 r.1 ⟨1, octaveScale ℝ 3, 0, 0, 0⟩ 0 d (q (k + 1)) ∧
      NextIndices (sysOf envX ft) o r.1.prevPhaseDiff ⟨0, 1, 0 + 1, 0⟩ := by
    intro k o
    by_cases h : At (sysOf envX ft) ws 3 o ⟨1, octaveScale ℝ 3, 0, 0, 0⟩ 0 d (q k)
    · obtain ⟨⟨o2, y2, e, h2⟩, hn⟩ := h.step (dir := dir) (hq (k + 1)) (hs k) (hz k) (hdiff k) hidle
      refine ⟨(o2, y2), fun _ => ⟨e, h2, ?_⟩⟩
      rw [h2.diff]; exact hn
    · exact ⟨(o, 0), fun h' => absurd h' h⟩
  choose f hf using ex
  let st : ℕ → Osc ℝ ℂ := fun k => Nat.rec o (fun k o => (f k o).1) k
  have hst : ∀ k, At (sysOf envX ft) ws 3 (st k) ⟨1, octaveScale ℝ 3, 0, 0, 0⟩ 0 d (q k) := by
    intro k
    induction k with
    | zero => exact h1
    | succ k ih => exact (hf k (st k) ih).2.1
  refine ⟨st, fun k => (f k (st k)).2, ?_, (hst 0).phase, (hst 0).crt, (hst 0).cf⟩
  refine ⟨h1.plays, ?_, fun i _ => hq _, ?_, ?_, ?_, ?_, ?_⟩
  · intro y hy'
    have hy' : y ∈ o.prevY := hy'
    rw [hy] at hy'
    exact (List.mem_replicate.1 hy').2
  · intro i _
    rw [(hst i).phase]
    exact hs i
  · intro i _
    exact (hf i (st i) (hst i)).1
  · intro i _
    exact (hf i (st i) (hst i)).2.2
  · intro i _
    exact Or.inl (hst i).mip.symm
  · intro i _
    rw [(hst i).phase]
    obtain ⟨j, hj⟩ := hdy i
    rw [hj]
    have := offDenormal_dyadic (j : ℤ) 5 3 (by norm_num) (by norm_num)
    norm_num at this ⊢
    exact this

/-- odd multiples of 1/32, backward and forward -/
noncomputable def down (k : ℕ) : ℝ := ((31 + 30 * k) % 32 : ℕ) / 32
noncomputable def up (k : ℕ) : ℝ := ((1 + 2 * k) % 32 : ℕ) / 32

theorem down_up (k : ℕ) : down k = 1 - up k := by
  unfold down up
  have : (31 + 30 * k) % 32 + (1 + 2 * k) % 32 = 32 := by omega
  have : (((31 + 30 * k) % 32 : ℕ) : ℝ) + ((1 + 2 * k) % 32 : ℕ) = 32 := by exact_mod_cast this
  linarith

theorem up_range (k : ℕ) : 1 / 32 ≤ up k ∧ up k ≤ 31 / 32 := by
  unfold up
  have h1 : 1 ≤ (1 + 2 * k) % 32 := by omega
  have h2 : (1 + 2 * k) % 32 ≤ 31 := by omega
  have h1 : (1 : ℝ) ≤ ((1 + 2 * k) % 32 : ℕ) := by exact_mod_cast h1
  have h2 : (((1 + 2 * k) % 32 : ℕ) : ℝ) ≤ 31 := by exact_mod_cast h2
  constructor <;> linarith

theorem up_succ (k : ℕ) : up (k + 1) = up k + 1 / 16 ∨ up (k + 1) = up k + 1 / 16 - 1 := by
  unfold up
  have : (1 + 2 * (k + 1)) % 32 = (1 + 2 * k) % 32 + 2 ∨
      (1 + 2 * (k + 1)) % 32 + 30 = (1 + 2 * k) % 32 := by omega
  rcases this with h | h
  · left; rw [h]; push_cast; ring
  · right
    have : (((1 + 2 * (k + 1)) % 32 : ℕ) : ℝ) + 30 = ((1 + 2 * k) % 32 : ℕ) := by exact_mod_cast h
    linarith

theorem fract_down (k : ℕ) : Int.fract (-down k) = up k := by
  rw [down_up, Int.fract_eq_iff]
  have := up_range k
  exact ⟨by linarith, by linarith, -1, by push_cast; ring⟩

theorem down_range (k : ℕ) : 0 ≤ down k ∧ down k < 1 := by
  have := up_range k
  rw [down_up]; constructor <;> linarith

theorem down_diff (k : ℕ) : Sys.dirDiff id .kBidirectionnal (down (k + 1)) (down k) = -(1 / 16) := by
  refine bi_step_unique (down_range _) (down_range _) (by norm_num [abs_of_pos]) ?_
  rw [down_up, down_up]
  rcases up_succ k with h | h
  · exact ⟨0, by rw [h]; push_cast; ring⟩
  · exact ⟨-1, by rw [h]; push_cast; ring⟩

theorem up_range' (k : ℕ) : 0 ≤ up k ∧ up k < 1 := by
  have := up_range k; constructor <;> linarith

theorem up_diff (k : ℕ) : Sys.dirDiff id .kForward (up (k + 1)) (up k) = 1 / 16 := by
  refine fwd_step_unique (up_range' _) (up_range' _) (by norm_num) ?_
  rcases up_succ k with h | h
  · exact ⟨0, by rw [h]; push_cast; ring⟩
  · exact ⟨1, by rw [h]; push_cast; ring⟩

/-- eight samples and the same samples read backward -/
theorem reversed8 (a b c d e f g h : ℝ) : ReversedTables envX 3 [a, h, g, f, e, d, c, b] 0
    [a, b, c, d, e, f, g, h] 0 := by
  intro i hi
  have : i = 0 ∨ i = 1 := by omega
  have w1 : waveformOf [a, h, g, f, e, d, c, b] (2 ^ 3) (0 : ℤ).toNat = [a, h, g, f, e, d, c, b] := rfl
  have w2 : waveformOf [a, b, c, d, e, f, g, h] (2 ^ 3) (0 : ℤ).toNat = [a, b, c, d, e, f, g, h] := rfl
  rw [w1, w2]
  rcases this with rfl | rfl
  · have m0 : ∀ w : List ℝ, mipSamples envX w 0 = w := fun w => by rw [mipSamples, if_pos rfl]
    rw [m0, m0]
    refine ⟨rfl, fun k => ?_⟩
    unfold cyc
    have l1 : ([a, h, g, f, e, d, c, b] : List ℝ).length = 8 := rfl
    have l2 : ([a, b, c, d, e, f, g, h] : List ℝ).length = 8 := rfl
    rw [l1, l2]
    have : (k % 8 = 0 ∧ -k % 8 = 0) ∨ (k % 8 = 1 ∧ -k % 8 = 7) ∨ (k % 8 = 2 ∧ -k % 8 = 6) ∨
      (k % 8 = 3 ∧ -k % 8 = 5) ∨ (k % 8 = 4 ∧ -k % 8 = 4) ∨ (k % 8 = 5 ∧ -k % 8 = 3) ∨
      (k % 8 = 6 ∧ -k % 8 = 2) ∨ (k % 8 = 7 ∧ -k % 8 = 1) := by omega
    push_cast
    rcases this with h | h | h | h | h | h | h | h <;> rw [h.1, h.2] <;> rfl
  · have m1 : mipSamples envX [a, h, g, f, e, d, c, b] 1 = [a, g, e, c] := by
      rw [mipSamples, if_neg (by norm_num), if_pos (by norm_num)]; simp [decimate, envX, pickSrc, List.range_succ]
    have m2 : mipSamples envX [a, b, c, d, e, f, g, h] 1 = [a, c, e, g] := by
      rw [mipSamples, if_neg (by norm_num), if_pos (by norm_num)]; simp [decimate, envX, pickSrc, List.range_succ]
    rw [m1, m2]
    refine ⟨rfl, fun k => ?_⟩
    unfold cyc
    have l1 : ([a, g, e, c] : List ℝ).length = 4 := rfl
    have l2 : ([a, c, e, g] : List ℝ).length = 4 := rfl
    rw [l1, l2]
    have : (k % 4 = 0 ∧ -k % 4 = 0) ∨ (k % 4 = 1 ∧ -k % 4 = 3) ∨ (k % 4 = 2 ∧ -k % 4 = 2) ∨
      (k % 4 = 3 ∧ -k % 4 = 1) := by omega
    push_cast
    rcases this with h | h | h | h <;> rw [h.1, h.2] <;> rfl

/-- C69 applies: eight samples played backward in bidirectional mode, and their reversal played
forward in forward mode, any number of samples, with any built-in filter. -/
example (ft : FilterType) (a b c d e f g h : ℝ) (m : ℕ) :
    ∃ st y t st' y' t',
      TrackedRun (sysOf envX ft) [a, b, c, d, e, f, g, h] 1 3 m st (fun _ => .kBidirectionnal)
        (fun i => down (i + 1)) y t ∧
      TrackedRun (sysOf envX ft) [a, h, g, f, e, d, c, b] 1 3 m st' (fun _ => .kForward)
        (fun i => up (i + 1)) y' t' ∧ ∀ n < m, y' n = y n := by
  obtain ⟨st, y, h1, h2, h3, wt, h4, h5⟩ := steadyRunG ft [a, b, c, d, e, f, g, h] rfl m
    .kBidirectionnal (-(1 / 16)) (by norm_num [abs_of_pos]) down down_range
    (fun k => ⟨(31 + 30 * k) % 32, by unfold down; norm_num⟩)
    (fun k => by
      show down (k + 1) ≠ down k
      rw [down_up, down_up]
      rcases up_succ k with h | h <;> rw [h] <;> intro h' <;> linarith)
    down_diff (fun k => Or.inl (by have := up_range k; rw [down_up]; intro h; linarith))
  obtain ⟨st', y', k1, k2, k3, wt', k4, k5⟩ := steadyRunG ft [a, h, g, f, e, d, c, b] rfl m
    .kForward (1 / 16) (by norm_num [abs_of_pos]) up up_range'
    (fun k => ⟨(1 + 2 * k) % 32, by unfold up; norm_num⟩)
    (fun k => by
      have r := up_range' (k + 1)
      have r' := up_range' k
      unfold StepOk Forward
      rcases up_succ k with h | h
      · exact Or.inl ⟨by linarith, by linarith⟩
      · exact Or.inr ⟨by linarith, by linarith⟩)
    up_diff (fun k => Or.inr (by norm_num))
  refine ⟨st, y, _, st', y', _, h1, k1, ?_⟩
  refine C69_backward _ (exactSys ft) log2X 1 1 3 m _ _ st st' _ _ y y' _ _ h1 k1 ?_ ?_ ?_ ?_ ?_
  · intro wt1 wt2 e1 e2
    rw [h4] at e1; cases e1
    rw [k4] at e2; cases e2
    rw [h5, k5]
  · rw [h2, k2]; exact (fract_down 0).symm
  · intro i; exact (fract_down (i + 1)).symm
  · intro i hi
    unfold stepOf
    rw [h2]
    have : (if i = 0 then down 0 else down (i - 1 + 1)) = down i := by
      split_ifs with h0
      · rw [h0]
      · congr 1; omega
    rw [this, down_diff]
    norm_num
  · rw [h3, k3]; exact reversed8 a b c d e f g h

end Adwt.Props
