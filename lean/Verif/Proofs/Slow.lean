import Verif.Spec.Slow
import Verif.Props.Convolution

/-!
# The crossfader under slow changes of pitch
-/

set_option linter.unusedSectionVars false

namespace Adwt
open CrossFader

namespace CrossFader
variable {K : Type} [Field K] [LinearOrder K] [IsStrictOrderedRing K] [FloorRing K]

/-- The lower index returned is the smaller one of the two tables of the new state. -/
theorem tuple_low {E : Env K} (hf : Rounding E.fl) {c c' : CrossFader K} (h : c.Inv) {d : K}
    (hd : 0 < d) {t : MipMapIndices K} (e : c.newIndices E d = .ok (c', t)) :
    t.idx = min c'.prevIdx c'.nextIdx := by
  obtain ⟨t', e', ht⟩ := newIndices_eq (E := E) hf h hd
  rw [e] at e'; cases e'
  rcases ht with ⟨h1, h2, rfl⟩ | ⟨-, f, -, rfl⟩
  · unfold nextState
    rw [if_neg (by simpa using h1), if_pos h2]
    have := h.idle h1
    dsimp only; omega
  · split_ifs with hc <;> dsimp only <;> omega

/-- The table which is faded in was asked for recently: at time `k ≤ t` of the requests `o`. -/
def Recent (o : ℕ → ℤ) (c : CrossFader K) (t : ℕ) : Prop :=
  ∃ k : ℕ, k ≤ t ∧ o k = c.nextIdx ∧ (t : ℤ) - k ≤ c.numSamples - c.samplesLeft

theorem recent_step {c : CrossFader K} (h : c.Inv) {o : ℕ → ℤ} {t : ℕ} (hr : Recent o c t) :
    Recent o (c.nextState (o (t + 1))) (t + 1) := by
  obtain ⟨k, k1, k2, k3⟩ := hr
  obtain ⟨a1, a2, a3, a4, a5, a6, a7, a8, a9, a10⟩ := h
  by_cases hk : (c.nextState (o (t + 1))).nextIdx = o (t + 1)
  · refine ⟨t + 1, le_rfl, hk.symm, ?_⟩
    have : (c.nextState (o (t + 1))).samplesLeft ≤ (c.nextState (o (t + 1))).numSamples := by
      unfold nextState continueFade updateIndices
      dsimp only
      split_ifs <;> (try dsimp only at *) <;> omega
    omega
  · refine ⟨k, by omega, ?_, ?_⟩
    · rw [k2]
      unfold nextState continueFade updateIndices at hk ⊢
      dsimp only at hk ⊢
      split_ifs at hk ⊢ <;> (try dsimp only at *) <;> omega
    · unfold nextState continueFade updateIndices at hk ⊢
      dsimp only at hk ⊢
      split_ifs at hk ⊢ <;> (try dsimp only at *) <;> push_cast <;> omega

theorem recent_drop {c : CrossFader K} (h : c.Inv) {o : ℕ → ℤ} {t : ℕ} (hr : Recent o c t)
    (ho : ∀ k : ℕ, k ≤ t → (t : ℤ) - k ≤ c.numSamples → o k - 1 ≤ o (t + 1)) :
    min c.prevIdx c.nextIdx - 1 ≤
      min (c.nextState (o (t + 1))).prevIdx (c.nextState (o (t + 1))).nextIdx := by
  obtain ⟨k, k1, k2, k3⟩ := hr
  obtain ⟨a1, a2, a3, a4, a5, a6, a7, a8, a9, a10⟩ := h
  have := ho k k1 (by omega)
  rw [k2] at this
  unfold nextState continueFade updateIndices
  dsimp only
  split_ifs <;> (try dsimp only at *) <;> omega

end CrossFader

/-- Half a step is at most one octave lower. -/
theorem octave_half {L : ℕ} (hL : 2 ≤ L) {a b : ℝ} (h : a / 2 ≤ b) :
    (findLoop a (octaveScale ℝ L) : ℤ) - 1 ≤ findLoop b (octaveScale ℝ L) := by
  obtain ⟨a0, a1, a2, a3⟩ := findLoop_octave hL a
  obtain ⟨b0, b1, b2, b3⟩ := findLoop_octave hL b
  by_contra hc
  rw [not_le] at hc
  have h1 : (2 : ℝ) ^ (findLoop a (octaveScale ℝ L)) / 2 ^ L ≤ a := by
    rcases a2 with a2 | a2
    · omega
    · simpa using a2
  have h2 : b < (2 : ℝ) ^ (findLoop b (octaveScale ℝ L) + 1) / 2 ^ L := by
    rcases b3 with b3 | b3
    · omega
    · simpa using b3
  have h3 : (2 : ℝ) ^ (findLoop b (octaveScale ℝ L) + 1) * 2 ≤ 2 ^ (findLoop a (octaveScale ℝ L)) := by
    rw [← pow_succ]
    exact pow_le_pow_right₀ (by norm_num) (by omega)
  have h4 : (2 : ℝ) ^ (findLoop b (octaveScale ℝ L) + 1) / 2 ^ L * 2 ≤
      2 ^ (findLoop a (octaveScale ℝ L)) / 2 ^ L := by
    rw [div_mul_eq_mul_div]
    exact div_le_div_of_nonneg_right h3 (by positivity)
  linarith

theorem Built.cf {E : Env ℝ} (hf : Rounding E.fl) (hl : Log2Spec E.log2f)
    {ws : List ℝ} {nw L : ℕ} {sr dur : ℝ} {wt : WavetableData ℝ} (h : Built E ws nw L sr dur wt) :
    wt.cf.samplesLeft = 0 ∧ wt.cf.numSamples = ⌊E.fl (dur * sr)⌋ := by
  obtain ⟨hs, hx, hlen, h⟩ := h
  obtain ⟨L', xf, h2, h18, hn, hs0, hlen', hxf, rfl⟩ := WavetableData.build_some hf hl hs h
  refine ⟨rfl, ?_⟩
  show xf = _
  unfold toInt at hxf
  split at hxf
  · cases hxf
    unfold trunc
    rw [if_pos (by linarith)]
  · cases hxf

variable {C : Type} [Zero C] [Add C] [Sub C] [Mul C] [Div C] {S : Sys ℝ C} {ws : List ℝ} {nw L : ℕ}

/-- What is known before each sample of a slow run. -/
structure SlowAt (S : Sys ℝ C) (ws : List ℝ) (nw L : ℕ) (num : ℤ) (d : ℕ → ℝ) (x : ℝ) (n : ℕ)
    (o : Osc ℝ C) : Prop where
  plays : Plays S ws nw L o
  phase : o.prevPhase = x
  diff : 0 < o.prevPhaseDiff
  wt : ∃ wt, o.wt = some wt ∧ wt.cf.numSamples = num ∧
    o.prevMip = min wt.cf.prevIdx wt.cf.nextIdx ∧
    Recent (fun k => (findLoop (d k) (octaveScale ℝ L) : ℤ)) wt.cf n

/-- `init` -/
theorem slow_init (hf : Rounding S.env.fl) (hl : Log2Spec S.env.log2f) {sr dur : ℝ} {wt : WavetableData ℝ}
    (hb : Built S.env ws nw L sr dur wt) {o0 o : Osc ℝ C} {x0 : ℝ} {r : ℤ}
    (hp : PhaseOk S.env.fl x0) {d : ℕ → ℝ} (hd : 0 < d 0)
    (hi : S.init o0 (some wt) x0 (d 0) = .ok (o, r)) :
    SlowAt S ws nw L ⌊S.env.fl (dur * sr)⌋ d x0 0 o ∧ ∀ y ∈ o.prevY, y = 0 := by
  have hw := hb.ok hf hl
  obtain ⟨c1, c2⟩ := hb.cf hf hl
  obtain ⟨t, e, -⟩ := newIndices_eq (E := S.env) hf hw.inv (abs_pos.2 hd.ne')
  have e1 := Sys.reset_ok (S := S) (o := { o0 with wt := some wt }) hf rfl hw hp hd.ne' e
  have hi' := hi
  unfold Sys.init at hi'
  dsimp only at hi'
  rw [e1, R.ok_bind] at hi'
  cases hi'
  refine ⟨⟨⟨Reached.init hb ⟨hp, hd.ne'⟩ hi, _, _, _, _, hb, rfl, rfl⟩, rfl, hd, _, rfl, ?_, ?_, ?_⟩, ?_⟩
  · exact (nextState_const _ _).2.trans c2
  · exact tuple_low hf hw.inv (abs_pos.2 hd.ne') e
  · refine ⟨0, le_rfl, ?_, ?_⟩
    · rw [hw.scale, abs_of_pos hd]
      dsimp only
      unfold nextState updateIndices
      rw [if_neg (by simpa using c1)]
      dsimp only
      split_ifs with h1 <;> first | exact h1 | rfl
    · have := hw.inv.num
      have := hw.inv.left1
      unfold nextState continueFade updateIndices
      dsimp only
      split_ifs <;> (try dsimp only at *) <;> push_cast <;> omega
  · intro y hy
    exact (List.mem_replicate.1 hy).2

/-- one sample -/
theorem slow_step (hf : Rounding S.env.fl) (hB : 0 < S.B) (hl : Log2Spec S.env.log2f) {num : ℤ} {d : ℕ → ℝ} {x p : ℝ}
    {n : ℕ} {o : Osc ℝ C} (h : SlowAt S ws nw L num d x n o) (hslow : NoFastFall num d)
    {dir : Sys.Direction} (hp' : PhaseOk S.env.fl p) (hstep : StepOk dir x p)
    (hd : Sys.dirDiff S.env.fl dir p x = d (n + 1)) (hd0 : 0 < d (n + 1)) :
    ∃ o' y t, S.process dir o [p] [0] = .ok (o', [y]) ∧ SlowAt S ws nw L num d p (n + 1) o' ∧
      NextIndices S o o'.prevPhaseDiff t ∧ TableMove o t.idx ∧ t.idx.toNat ≤ L := by
  have hpl := Sys.reached_play hf hl hB h.plays.1
  obtain ⟨wt, hwt, hnum, hmip, hrec⟩ := h.wt
  obtain ⟨wt', hwt', hok⟩ := hpl.wt
  rw [hwt] at hwt'; cases hwt'
  have hs' : StepOk dir o.prevPhase p := by rw [h.phase]; exact hstep
  have hdd : Sys.dirDiff S.env.fl dir p o.prevPhase = d (n + 1) := by rw [h.phase]; exact hd
  rcases Sys.step_cases hf hB hpl hp' hs' with ⟨⟨⟨o', y⟩, e, hr⟩, -⟩ | ⟨-, ⟨-, hneg⟩, -⟩
  swap
  · exact absurd h.diff (by linarith)
  rw [hdd] at hr
  dsimp only at hr
  have hproc : S.process dir o [p] [0] = .ok (o', [y]) := by
    rw [Sys.process_runDir _ _ (by rw [hwt]; rfl) (show [p].length = [(0 : ℝ)].length from rfl)]
    unfold Sys.runDir Sys.runDir
    rw [e]; rfl
  obtain ⟨wt1, c, t, f1, -, f3, f4, f5, f6⟩ := hr.find
  rw [hwt] at f1; cases f1
  have habs : |d (n + 1)| = d (n + 1) := abs_of_pos hd0
  have hc : c = wt.cf.nextState (findLoop (d (n + 1)) (octaveScale ℝ L) : ℤ) := by
    rw [f4, habs]; unfold stepD; rw [hok.scale]
  have hlow := tuple_low hf hok.inv (abs_pos.2 hd0.ne') f3
  have hdrop := recent_drop hok.inv hrec (fun k hk hk2 => by
    apply octave_half hok.L2
    exact hslow k (n + 1) (by omega) (by push_cast; omega))
  rw [← hc] at hdrop
  obtain ⟨t0, t1, -⟩ := tuple_facts hf hok.inv (abs_pos.2 hd0.ne') f3
  refine ⟨o', y, t, hproc, ?_, ⟨wt, { wt with cf := c }, hwt, ?_⟩, ?_, ?_⟩
  · refine ⟨Props.Plays.process (dir := dir) (ps := [p]) (out := [0]) h.plays ⟨hp', hs', trivial⟩
      rfl hproc, hr.phase, by rw [hr.diff]; exact hd0, _, f5, ?_, ?_, ?_⟩
    · show c.numSamples = _
      rw [hc]; exact (nextState_const _ _).2.trans hnum
    · rw [f6]; exact hlow
    · show Recent _ c (n + 1)
      rw [hc]; exact recent_step hok.inv hrec
  · unfold WavetableData.findMipMapIndices
    rw [hr.diff, f3]; rfl
  · unfold TableMove
    have := h.diff
    rcases lt_trichotomy t.idx o.prevMip with h1 | h1 | h1
    · right; right; omega
    · exact Or.inl h1
    · exact Or.inr (Or.inl ⟨this, h1⟩)
  · have := hok.scale_len
    omega

end Adwt
