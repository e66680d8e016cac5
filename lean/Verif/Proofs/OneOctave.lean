import Verif.Proofs.Slow
import Verif.Props.Backward

/-!
# The crossfader when all steps lie in one octave
-/

set_option linter.unusedSectionVars false

namespace Adwt
open CrossFader

variable {C : Type} [Zero C] [Add C] [Sub C] [Mul C] [Div C] {S : Sys ℝ C} {ws : List ℝ} {nw L : ℕ}

/-- What is known before sample `n` of a run within octave `b`. -/
structure OneAt (S : Sys ℝ C) (ws : List ℝ) (nw L : ℕ) (b num : ℤ) (x : ℝ) (n : ℕ)
    (o : Osc ℝ C) : Prop where
  plays : Plays S ws nw L o
  phase : o.prevPhase = x
  mip : o.prevMip = b
  wt : ∃ wt, o.wt = some wt ∧ wt.cf.nextIdx = b ∧ b ≤ wt.cf.prevIdx ∧
    wt.cf.samplesLeft ≤ max 0 (num - n)

/-- The table a fresh wavetable starts with is not below the octave of any step under 1/8. -/
theorem start_idx {E : Env ℝ} (hf : Rounding E.fl) (hl : Log2Spec E.log2f) {sr dur : ℝ}
    {wt : WavetableData ℝ} (hb : Built E ws nw L sr dur wt) {b : ℤ} {D : ℝ}
    (ho : IsOctave L b D) (hD : D < 1 / 8) : b ≤ wt.cf.nextIdx := by
  have hok := hb.ok hf hl
  obtain ⟨L', xf, -, -, -, -, hlen, hxf, ewt⟩ := WavetableData.build_some hf hl hb.1 hb.2.2.2
  have hLL : L' = L := by
    have := hb.2.2.1
    rw [hlen] at this
    exact pow_inj_of_mul (by have := hok.nw0; omega) (by simpa using this)
  subst hLL
  have e1 : wt.cf.nextIdx = findLoop (E.fl (1 / 10)) (octaveScale ℝ L') := by rw [ewt]; rfl
  have e2 := findLoop_octave hok.L2 (E.fl (1 / 10 : ℝ))
  rw [e1]
  have h16 : E.fl (1 / 16 : ℝ) = 1 / 16 := by
    have := hf.dyadic 1 4 (by norm_num); norm_num at this ⊢; exact this
  have d2 : (1 : ℝ) / 16 ≤ E.fl (1 / 10) := hf.ge_of_ge h16 (by norm_num)
  obtain ⟨a1, a2, a3, a4⟩ := ho
  obtain ⟨c1, c2, c3, c4⟩ := e2
  set k := findLoop (E.fl (1 / 10 : ℝ)) (octaveScale ℝ L') with hk
  obtain ⟨b', rfl⟩ := Int.eq_ofNat_of_zero_le a1
  simp only [Int.toNat_natCast] at *
  by_contra hc
  rw [not_le] at hc
  rcases a3 with a3 | a3
  · omega
  rcases c4 with c4 | c4
  · omega
  have p0 : (0 : ℝ) < 2 ^ L' := by positivity
  have p1 : (2 : ℝ) ^ b' < 2 ^ L' / 8 := by
    have := (div_le_iff₀ p0).1 a3
    linarith [mul_lt_mul_of_pos_right hD p0]
  have p2 : (2 : ℝ) ^ L' / 16 < 2 ^ (k + 1) := by
    have := (lt_div_iff₀ p0).1 c4
    linarith [mul_le_mul_of_nonneg_right d2 p0.le]
  have q1 : b' + 3 < L' := by
    apply (pow_lt_pow_iff_right₀ (show (1 : ℝ) < 2 by norm_num)).1
    rw [pow_add]; linarith
  have q2 : L' < k + 1 + 4 := by
    apply (pow_lt_pow_iff_right₀ (show (1 : ℝ) < 2 by norm_num)).1
    rw [pow_add (2 : ℝ) (k + 1)]; linarith
  omega

/-- `init` -/
theorem one_init (hf : Rounding S.env.fl) (hl : Log2Spec S.env.log2f) {sr dur : ℝ} {wt : WavetableData ℝ}
    (hb : Built S.env ws nw L sr dur wt) {o0 o : Osc ℝ C} {x0 D : ℝ} {r : ℤ} {b : ℤ}
    (hp : PhaseOk S.env.fl x0) (hd : D ≠ 0) (ho : IsOctave L b |D|) (hD : |D| < 1 / 8)
    (hi : S.init o0 (some wt) x0 D = .ok (o, r)) :
    OneAt S ws nw L b ⌊S.env.fl (dur * sr)⌋ x0 0 o ∧ ∀ y ∈ o.prevY, y = 0 := by
  have hw := hb.ok hf hl
  have hs := start_idx hf hl hb ho hD
  obtain ⟨c1, c2⟩ := hb.cf hf hl
  obtain ⟨t, e, -⟩ := newIndices_eq (E := S.env) hf hw.inv (abs_pos.2 hd)
  have hloop : (findLoop |D| wt.cf.scale : ℤ) = b := by
    rw [hw.scale]; exact findLoop_of_octave hw.L2 ho
  rw [hloop] at e
  have e1 := Sys.reset_ok (S := S) (o := { o0 with wt := some wt }) hf rfl hw hp hd e
  have hi' := hi
  unfold Sys.init at hi'
  dsimp only at hi'
  rw [e1, R.ok_bind] at hi'
  cases hi'
  have hq := hw.inv.idle c1
  have hnum := hw.inv.num
  have key : (wt.cf.nextState b).nextIdx = b ∧ b ≤ (wt.cf.nextState b).prevIdx ∧
      (wt.cf.nextState b).samplesLeft ≤ max 0 (⌊S.env.fl (dur * sr)⌋ - (0 : ℕ)) := by
    unfold nextState updateIndices
    rw [if_neg (by simpa using c1)]
    split_ifs <;> (try dsimp only at *) <;> push_cast <;> omega
  refine ⟨⟨⟨Reached.init hb ⟨hp, hd⟩ hi, _, _, _, _, hb, rfl, rfl⟩, rfl, ?_, _, rfl, key⟩, ?_⟩
  · have h1 := tuple_low hf hw.inv (abs_pos.2 hd) e
    obtain ⟨k1, k2, -⟩ := key
    show t.idx = b
    rw [h1, k1]
    omega
  · intro y hy
    exact (List.mem_replicate.1 hy).2

/-- one sample -/
theorem one_step (hf : Rounding S.env.fl) (hB : 0 < S.B) (hl : Log2Spec S.env.log2f) {b num : ℤ} {x p d : ℝ}
    {n : ℕ} {o : Osc ℝ C} (h : OneAt S ws nw L b num x n o)
    {dir : Sys.Direction} (hp' : PhaseOk S.env.fl p) (hstep : StepOk dir x p)
    (hd : Sys.dirDiff S.env.fl dir p x = d) (hd0 : d ≠ 0) (hoct : IsOctave L b |d|) :
    ∃ o' y t, S.process dir o [p] [0] = .ok (o', [y]) ∧ OneAt S ws nw L b num p (n + 1) o' ∧
      NextIndices S o o'.prevPhaseDiff t ∧ t.idx = b ∧ b.toNat ≤ L ∧
      (num ≤ n → t = ⟨b, 1, b + 1, 0⟩) := by
  have hpl := Sys.reached_play hf hl hB h.plays.1
  obtain ⟨wt, hwt, hnext, hprev, hleft⟩ := h.wt
  obtain ⟨wt', hwt', hok⟩ := hpl.wt
  rw [hwt] at hwt'; cases hwt'
  have hs' : StepOk dir o.prevPhase p := by rw [h.phase]; exact hstep
  have hdd : Sys.dirDiff S.env.fl dir p o.prevPhase = d := by rw [h.phase]; exact hd
  have hloop : (findLoop |d| wt.cf.scale : ℤ) = b := by
    rw [hok.scale]; exact findLoop_of_octave hok.L2 hoct
  have hfade := hok.inv.fading
  have hidle := hok.inv.idle
  have hl0 := hok.inv.left0
  have key : (wt.cf.nextState b).nextIdx = b ∧ b ≤ (wt.cf.nextState b).prevIdx ∧
      (wt.cf.nextState b).samplesLeft ≤ max 0 (num - (n + 1 : ℕ)) := by
    unfold nextState continueFade updateIndices
    dsimp only
    split_ifs <;> (try dsimp only at *) <;> push_cast <;> omega
  have hidx : ∀ {c : CrossFader ℝ} {t : MipMapIndices ℝ}, wt.cf.newIndices S.env |d| = .ok (c, t) →
      c = wt.cf.nextState b → t.idx = b := by
    intro c t e hc
    have h1 := tuple_low hf hok.inv (abs_pos.2 hd0) e
    obtain ⟨k1, k2, -⟩ := key
    rw [h1, hc, k1]
    omega
  rcases Sys.step_cases hf hB hpl hp' hs' with ⟨⟨⟨o', y⟩, e, hr⟩, -⟩ | ⟨-, -, hdrop⟩
  swap
  · exfalso
    rw [hdd] at hdrop
    obtain ⟨wt1, wt2, t, g1, g2, g3⟩ := hdrop
    rw [hwt] at g1; cases g1
    unfold WavetableData.findMipMapIndices at g2
    obtain ⟨⟨c, t'⟩, g4, g5⟩ := bind_ok g2
    cases g5
    have := newIndices_stepD hf hok.inv (abs_pos.2 hd0) g4
    rw [hidx g4 (by rw [this]; unfold stepD; rw [hloop]), h.mip] at g3
    exact lt_irrefl _ g3
  rw [hdd] at hr
  dsimp only at hr
  have hproc : S.process dir o [p] [0] = .ok (o', [y]) := by
    rw [Sys.process_runDir _ _ (by rw [hwt]; rfl) (show [p].length = [(0 : ℝ)].length from rfl)]
    unfold Sys.runDir Sys.runDir
    rw [e]; rfl
  obtain ⟨wt1, c, t, f1, -, f3, f4, f5, f6⟩ := hr.find
  rw [hwt] at f1; cases f1
  have hc : c = wt.cf.nextState b := by
    rw [f4]; unfold stepD; rw [hloop]
  have ht := hidx f3 hc
  refine ⟨o', y, t, hproc, ?_, ⟨wt, { wt with cf := c }, hwt, ?_⟩, ht, ?_, ?_⟩
  · refine ⟨Props.Plays.process (dir := dir) (ps := [p]) (out := [0]) h.plays ⟨hp', hs', trivial⟩
      rfl hproc, hr.phase, by rw [f6]; exact ht, _, f5, ?_⟩
    show c.nextIdx = _ ∧ _ ≤ c.prevIdx ∧ c.samplesLeft ≤ _
    rw [hc]; exact key
  · unfold WavetableData.findMipMapIndices
    rw [hr.diff, f3]; rfl
  · have := hok.scale_len
    have := hok.inv.next1
    have := hok.L2
    omega
  · intro hn
    obtain ⟨t', e', ht'⟩ := newIndices_eq (E := S.env) hf hok.inv (abs_pos.2 hd0)
    rw [f3] at e'
    have htt : t = t' := congrArg (fun x => x.2) (Except.ok.inj e')
    have h0 : wt.cf.samplesLeft = 0 := by omega
    rcases ht' with ⟨-, -, h2⟩ | ⟨h1, -⟩
    · rw [htt, h2, hnext]
    · rw [hloop, hnext] at h1
      omega

end Adwt
