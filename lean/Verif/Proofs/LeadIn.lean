import Verif.Proofs.OneOctave
import Verif.Proofs.Scratch
import Verif.Spec.LeadIn

/-!
# The crossfader at the beginning of a sound
-/

set_option linter.unusedSectionVars false

namespace Adwt
open CrossFader

variable {C : Type} [Zero C] [Add C] [Sub C] [Mul C] [Div C] {S : Sys ℝ C} {ws : List ℝ} {nw L : ℕ}

/-- The crossfader before sample `n`. -/
structure LeadCf (num a b : ℤ) (n : ℕ) (c : CrossFader ℝ) : Prop where
  next : c.nextIdx = b
  len : c.numSamples = num
  left : c.samplesLeft = if a = b then 0 else max 0 (num - n)
  prev : a ≠ b → n < num → c.prevIdx = if b < a then b + 1 else b - 1

theorem leadCf_step {num a b : ℤ} {n : ℕ} {c : CrossFader ℝ} (h : LeadCf num a b n c) (hi : c.Inv) :
    LeadCf num a b (n + 1) (c.nextState b) := by
  obtain ⟨h1, h2, h3, h4⟩ := h
  have i1 := hi.idle
  have i2 := hi.fading
  have i3 := hi.num
  by_cases hab : a = b
  · rw [if_pos hab] at h3
    have : c.nextState b = c := by
      unfold nextState; rw [if_neg (by omega), if_pos h1.symm]
    rw [this]
    exact ⟨h1, h2, by rw [if_pos hab]; exact h3, fun h => absurd hab h⟩
  · rw [if_neg hab] at h3
    have h4 := h4 hab
    have key : (c.nextState b).nextIdx = b ∧ (c.nextState b).numSamples = num ∧
        (c.nextState b).samplesLeft = max 0 (num - (n + 1 : ℕ)) ∧
        ((n + 1 : ℕ) < num → (c.nextState b).prevIdx = c.prevIdx) := by
      unfold nextState continueFade updateIndices
      dsimp only
      split_ifs <;> (try dsimp only at *) <;> push_cast <;> omega
    obtain ⟨k1, k2, k3, k4⟩ := key
    refine ⟨k1, k2, by rw [if_neg hab]; exact k3, fun _ hn => ?_⟩
    rw [k4 hn, h4 (by push_cast at hn; omega)]

/-- what a call of the crossfader returns -/
theorem leadCf_tuple {E : Env ℝ} (hf : Rounding E.fl) {num a b : ℤ} {n : ℕ} {c c' : CrossFader ℝ}
    {t : MipMapIndices ℝ} (h : LeadCf num a b n c) (hi : c.Inv) {d : ℝ} (hd : 0 < d)
    (hloop : (findLoop d c.scale : ℤ) = b) (e : c.newIndices E d = .ok (c', t)) :
    c' = c.nextState b ∧ t = leadIn E.fl num a b n := by
  obtain ⟨t', e', ht⟩ := newIndices_eq (E := E) hf hi hd
  rw [e] at e'
  have hc : c' = c.nextState (findLoop d c.scale) := congrArg (fun x => x.1) (Except.ok.inj e')
  have htt : t = t' := congrArg (fun x => x.2) (Except.ok.inj e')
  rw [hloop] at hc ht
  refine ⟨hc, ?_⟩
  have hs := leadCf_step h hi
  have hinv : (c.nextState b).Inv := by
    have := stepD_inv hi d
    unfold stepD at this; rwa [hloop] at this
  have hnum := hi.num
  rw [h.len] at hnum
  have hleft := h.left
  rw [htt]
  unfold leadIn
  rcases ht with ⟨h0, -, h2⟩ | ⟨h1, f, ef, h2⟩
  · rw [h2, h.next, if_pos]
    by_cases hab : a = b
    · exact Or.inl hab
    · rw [if_neg hab] at hleft; right; omega
  · have hne : ¬ (a = b ∨ num ≤ n) := by
      rintro (hab | hn)
      · rw [if_pos hab] at hleft; exact h1 ⟨hleft, h.next.symm⟩
      · refine h1 ⟨?_, h.next.symm⟩
        rw [hleft]; split_ifs <;> omega
    rw [if_neg hne]
    push Not at hne
    obtain ⟨f', ef', -, -, -, hz, -, hfe⟩ := computeFading_eq hf hinv
    rw [ef] at ef'; cases ef'
    have hl1 : (c.nextState b).samplesLeft = num - (n + 1) := by
      rw [hs.left, if_neg hne.1]; push_cast; omega
    rw [hl1, hs.len] at hfe
    rw [h2, hs.next]
    by_cases hlast : num = n + 1
    · have hidle := hinv.idle (by rw [hl1]; omega)
      rw [hs.next] at hidle
      rw [if_pos hlast, hidle, if_neg (lt_irrefl b)]
      have : f = 0 := by rw [hfe, hlast]; simp [hf.zero]
      rw [this]; simp [hf.one]
    · rw [if_neg hlast, hs.prev hne.1 (by push_cast; omega)]
      have hw : leadWeight E.fl num n = f := hfe.symm
      rw [hw]
      by_cases hba : b < a
      · rw [if_pos hba, if_pos hba, if_neg (by omega)]
      · rw [if_neg hba, if_neg hba, if_pos (by omega)]

theorem leadIn_idx (fl : ℝ → ℝ) (num a b : ℤ) (n : ℕ) :
    (leadIn fl num a b n).idx = b ∨ a < b ∧ (leadIn fl num a b n).idx = b - 1 := by
  unfold leadIn
  split_ifs with h1 h2 h3
  · exact Or.inl rfl
  · exact Or.inl rfl
  · exact Or.inl rfl
  · push Not at h1; exact Or.inr ⟨by omega, rfl⟩

/-- What is known before sample `n` of a sound in octave `b`. -/
structure LeadAt (S : Sys ℝ C) (ws : List ℝ) (nw L : ℕ) (num a b : ℤ) (x δ : ℝ) (n : ℕ) (o : Osc ℝ C) : Prop where
  plays : Plays S ws nw L o
  phase : o.prevPhase = x
  diff : o.prevPhaseDiff = δ
  mip : o.prevMip = b ∨ a < b ∧ o.prevMip = b - 1
  wt : ∃ wt, o.wt = some wt ∧ LeadCf num a b n wt.cf

theorem lead_init (hf : Rounding S.env.fl) (hl : Log2Spec S.env.log2f) {sr dur : ℝ} {wt : WavetableData ℝ}
    (hb : Built S.env ws nw L sr dur wt) {o0 o : Osc ℝ C} {x0 D : ℝ} {r : ℤ} {a b : ℤ}
    (hp : PhaseOk S.env.fl x0) (hd : D ≠ 0) (ha : IsOctave L a (S.env.fl (1 / 10))) (ho : IsOctave L b |D|)
    (hi : S.init o0 (some wt) x0 D = .ok (o, r)) :
    LeadAt S ws nw L ⌊S.env.fl (dur * sr)⌋ a b x0 D 0 o ∧ (∀ y ∈ o.prevY, y = 0) ∧ o.crt = 0 := by
  have hw := hb.ok hf hl
  obtain ⟨c1, c2⟩ := hb.cf hf hl
  have c3 := hb.cf' hf hl
  rw [findLoop_of_octave hw.L2 ha] at c3
  obtain ⟨t, e, -⟩ := newIndices_eq (E := S.env) hf hw.inv (abs_pos.2 hd)
  have hloop : (findLoop |D| wt.cf.scale : ℤ) = b := by
    rw [hw.scale]; exact findLoop_of_octave hw.L2 ho
  rw [hloop] at e
  have e1 := Sys.reset_ok (S := S) (o := { o0 with wt := some wt }) hf rfl hw hp hd e
  have hi' := hi
  unfold Sys.init at hi'
  dsimp only at hi'
  rw [e1, R.ok_bind] at hi'
  cases hi'
  have hnum := hw.inv.num
  have hq := hw.inv.idle c1
  have hlow := tuple_low hf hw.inv (abs_pos.2 hd) e
  refine ⟨⟨⟨Reached.init hb ⟨hp, hd⟩ hi, _, _, _, _, hb, rfl, rfl⟩, rfl, rfl, ?_, _, rfl, ?_⟩,
    fun y hy => (List.mem_replicate.1 hy).2, rfl⟩
  · show t.idx = b ∨ a < b ∧ t.idx = b - 1
    rw [hlow]
    unfold nextState updateIndices
    rw [if_neg (by simpa using c1)]
    split_ifs <;> (try dsimp only at *) <;> omega
  dsimp only
  by_cases hab : a = b
  · have : wt.cf.nextState b = wt.cf := by
      unfold nextState; rw [if_neg (by omega), if_pos (by omega)]
    rw [this]
    exact ⟨by omega, c2, by rw [if_pos hab]; exact c1, fun h => absurd hab h⟩
  · have key : (wt.cf.nextState b).nextIdx = b ∧ (wt.cf.nextState b).numSamples = ⌊S.env.fl (dur * sr)⌋ ∧
        (wt.cf.nextState b).samplesLeft = max 0 (⌊S.env.fl (dur * sr)⌋ - (0 : ℕ)) ∧
        (wt.cf.nextState b).prevIdx = if b < a then b + 1 else b - 1 := by
      unfold nextState updateIndices
      rw [if_neg (by simpa using c1)]
      split_ifs <;> (try dsimp only at *) <;> push_cast <;> omega
    obtain ⟨k1, k2, k3, k4⟩ := key
    exact ⟨k1, k2, by rw [if_neg hab]; exact k3, fun _ _ => k4⟩

theorem lead_step (hf : Rounding S.env.fl) (hB : 0 < S.B) (hl : Log2Spec S.env.log2f) {num a b : ℤ} {x δ p y : ℝ}
    {n : ℕ} {o o' : Osc ℝ C} (h : LeadAt S ws nw L num a b x δ n o) {dir : Sys.Direction} (hp : PhaseOk S.env.fl p)
    (hstep : StepOk dir x p) (hproc : S.process dir o [p] [0] = .ok (o', [y]))
    (hoct : IsOctave L b |Sys.dirDiff S.env.fl dir p x|) :
    LeadAt S ws nw L num a b p (Sys.dirDiff S.env.fl dir p x) (n + 1) o' ∧
      NextIndices S o (Sys.dirDiff S.env.fl dir p x) (leadIn S.env.fl num a b n) := by
  have hpl := Sys.reached_play hf hl hB h.plays.1
  obtain ⟨wt, hwt, hcf⟩ := h.wt
  obtain ⟨wt', hwt', hok⟩ := hpl.wt
  rw [hwt] at hwt'; cases hwt'
  have hs' : StepOk dir o.prevPhase p := by rw [h.phase]; exact hstep
  have hd0 : Sys.dirDiff S.env.fl dir p x ≠ 0 := by
    have := (Sys.dirDiff_range hf hpl.toOscOk hp hs').1
    rwa [h.phase] at this
  have hloop : (findLoop |Sys.dirDiff S.env.fl dir p x| wt.cf.scale : ℤ) = b := by
    rw [hok.scale]; exact findLoop_of_octave hok.L2 hoct
  obtain ⟨v, e, -⟩ := Props.process_one (by rw [hwt]; rfl) hproc
  rcases Sys.step_cases hf hB hpl hp hs' with ⟨⟨⟨o1, y1⟩, e1, hr⟩, -⟩ | ⟨e1, -⟩
  swap
  · rw [e] at e1; cases e1
  rw [e] at e1; cases e1
  rw [h.phase] at hr
  dsimp only at hr
  obtain ⟨wt1, c, t, f1, -, f3, f4, f5, f6⟩ := hr.find
  rw [hwt] at f1; cases f1
  obtain ⟨hc, ht⟩ := leadCf_tuple hf hcf hok.inv (abs_pos.2 hd0) hloop f3
  refine ⟨⟨Props.Plays.process (dir := dir) (ps := [p]) (out := [0]) h.plays ⟨hp, hs', trivial⟩
      rfl hproc, hr.phase, hr.diff, ?_, _, f5, ?_⟩, wt, { wt with cf := c }, hwt, ?_⟩
  · rw [f6, ht]; exact leadIn_idx _ _ _ _ _
  · show LeadCf num a b (n + 1) c
    rw [hc]; exact leadCf_step hcf hok.inv
  · unfold WavetableData.findMipMapIndices
    rw [← ht, f3]; rfl

end Adwt
