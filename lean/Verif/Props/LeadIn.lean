import Verif.Proofs.LeadIn
import Verif.Props.OneOctave

/-!
# C109: how a sound begins
-/

set_option linter.unusedSectionVars false

namespace Adwt.Props
open CrossFader WavetableData

section
variable {C : Type} [Zero C] [Add C] [Sub C] [Mul C] [Div C]

theorem lead_run (S : Sys ℝ C) (hf : Rounding S.env.fl) (hB : 0 < S.B) (hl : Log2Spec S.env.log2f) {ws : List ℝ}
    {nw L : ℕ} {num a b : ℤ} {x0 D : ℝ} {dir : ℕ → Sys.Direction} {p y : ℕ → ℝ} {m : ℕ} {st : ℕ → Osc ℝ C}
    (h0 : LeadAt S ws nw L num a b x0 D 0 (st 0)) (hp : ∀ n < m, PhaseOk S.env.fl (p n))
    (hstep : ∀ n < m, StepOk (dir n) (if n = 0 then x0 else p (n - 1)) (p n))
    (hcall : ∀ n < m, S.process (dir n) (st n) [p n] [0] = .ok (st (n + 1), [y n]))
    (hoct : ∀ n < m, IsOctave L b |roundedStepOf S.env.fl dir x0 p n|) (n : ℕ) (hn : n ≤ m) :
    LeadAt S ws nw L num a b (if n = 0 then x0 else p (n - 1))
      (if n = 0 then D else roundedStepOf S.env.fl dir x0 p (n - 1)) n (st n) := by
  induction n with
  | zero => exact h0
  | succ n ih =>
    have := (lead_step hf hB hl (ih (by omega)) (hp n (by omega)) (hstep n (by omega)) (hcall n (by omega))
      (hoct n (by omega))).1
    simpa [roundedStepOf] using this

/-- C109, any rounding: an oscillator is initialised with a newly built wavetable and a step `D`, and then plays, in
any modes and directions, steps whose absolute values lie in the octave `b` of `D`. Let `a` be the octave of the
float 0.1. The tables and weights of every sample are those of `leadIn`: unless `a = b`, the sound begins with a
crossfade, from the neighbour of table `b` on the side of `a`, however far away `a` is; it was begun by `init`, and
is over after the length of a crossfade. -/
theorem C109_lead_in (S : Sys ℝ C) (hf : Rounding S.env.fl) (hB : 0 < S.B) (hl : Log2Spec S.env.log2f) (ws : List ℝ)
    (nw L : ℕ) (sr dur : ℝ) (wt : WavetableData ℝ) (hb : Built S.env ws nw L sr dur wt) (o0 : Osc ℝ C) (x0 D : ℝ)
    (r : ℤ) (a b : ℤ) (hx0 : PhaseOk S.env.fl x0) (hD0 : D ≠ 0) (ha : IsOctave L a (S.env.fl (1 / 10)))
    (hDb : IsOctave L b |D|) (m : ℕ) (st : ℕ → Osc ℝ C) (hi : S.init o0 (some wt) x0 D = .ok (st 0, r))
    (dir : ℕ → Sys.Direction) (p y : ℕ → ℝ) (hp : ∀ n < m, PhaseOk S.env.fl (p n))
    (hstep : ∀ n < m, StepOk (dir n) (if n = 0 then x0 else p (n - 1)) (p n))
    (hcall : ∀ n < m, S.process (dir n) (st n) [p n] [0] = .ok (st (n + 1), [y n]))
    (hoct : ∀ n < m, IsOctave L b |roundedStepOf S.env.fl dir x0 p n|) (n : ℕ) (hn : n < m) :
    NextIndices S (st n) (roundedStepOf S.env.fl dir x0 p n) (leadIn S.env.fl ⌊S.env.fl (dur * sr)⌋ a b n) := by
  obtain ⟨h0, -⟩ := lead_init hf hl hb hx0 hD0 ha hDb hi
  exact (lead_step hf hB hl (lead_run S hf hB hl h0 hp hstep hcall hoct n (by omega)) (hp n hn) (hstep n hn)
    (hcall n hn) (hoct n hn)).2

/-- C109: for a wavetable of at least 32 samples the octave the crossfader starts with is that of the steps between 1/16
and 1/8, whatever the rounding. -/
theorem C109_start_octave (fl : ℝ → ℝ) (hf : Rounding fl) (L : ℕ) (hL : 5 ≤ L) :
    IsOctave L ((L : ℤ) - 4) (fl (1 / 10)) ∧
      ∀ d : ℝ, IsOctave L ((L : ℤ) - 4) d ↔ 1 / 16 ≤ d ∧ d < 1 / 8 := by
  have key : ∀ d : ℝ, IsOctave L ((L : ℤ) - 4) d ↔ 1 / 16 ≤ d ∧ d < 1 / 8 := by
    intro d
    obtain ⟨k, rfl⟩ := Nat.exists_eq_add_of_le hL
    have e : (((5 + k : ℕ) : ℤ) - 4).toNat = k + 1 := by omega
    have e1 : (2 : ℝ) ^ (k + 1) / 2 ^ (5 + k) = 1 / 16 := by
      rw [div_eq_div_iff (by positivity) (by norm_num), pow_add, pow_add]; ring
    have e2 : (2 : ℝ) ^ (k + 1 + 1) / 2 ^ (5 + k) = 1 / 8 := by
      rw [div_eq_div_iff (by positivity) (by norm_num), pow_add, pow_add, pow_add]; ring
    unfold IsOctave
    rw [e, e1, e2]
    constructor
    · rintro ⟨-, -, h1 | h1, h2 | h2⟩
      all_goals first | exact ⟨h1, h2⟩ | (exfalso; omega)
    · rintro ⟨h1, h2⟩
      exact ⟨by omega, by omega, Or.inr h1, Or.inr h2⟩
  refine ⟨(key _).2 ⟨?_, ?_⟩, key⟩
  · have h16 : fl (1 / 16 : ℝ) = 1 / 16 := by
      have := hf.dyadic 1 4 (by norm_num); norm_num at this ⊢; exact this
    exact hf.ge_of_ge h16 (by norm_num)
  · have h8 : fl (3 / 32 + 1 / 64 : ℝ) = 3 / 32 + 1 / 64 := by
      have := hf.dyadic 7 6 (by norm_num); norm_num at this ⊢; exact this
    have := hf.mono (show (1 / 10 : ℝ) ≤ 3 / 32 + 1 / 64 by norm_num)
    rw [h8] at this
    exact this.trans_lt (by norm_num)

/-- C109: so exactly the sounds whose pitch lies between a sixteenth and an eighth of the samplerate begin at once with
the table of their own octave alone. Every other one begins with a mixture: the first sample contains, with a weight
that is not zero, the table above if the pitch is lower (a duller one), the table below if the pitch is higher (one
with frequencies above half the samplerate). -/
theorem C109_no_lead_in (E : Env ℝ) (hf : Rounding E.fl) (L : ℕ) (hL : 5 ≤ L) (num b : ℤ) (h2 : 2 ≤ num)
    (hn : num ≤ 2 ^ 24) (d : ℝ) (hd : IsOctave L b d) :
    (1 / 16 ≤ d ∧ d < 1 / 8 → ∀ n, leadIn E.fl num ((L : ℤ) - 4) b n = ⟨b, 1, b + 1, 0⟩) ∧
    (d < 1 / 16 → (leadIn E.fl num ((L : ℤ) - 4) b 0).idx = b ∧ (leadIn E.fl num ((L : ℤ) - 4) b 0).idxUp = b + 1 ∧
      0 < (leadIn E.fl num ((L : ℤ) - 4) b 0).weightUp) ∧
    (1 / 8 ≤ d → (leadIn E.fl num ((L : ℤ) - 4) b 0).idx = b - 1 ∧ (leadIn E.fl num ((L : ℤ) - 4) b 0).idxUp = b ∧
      0 < (leadIn E.fl num ((L : ℤ) - 4) b 0).weight) := by
  obtain ⟨-, key⟩ := C109_start_octave E.fl hf L hL
  have hw := fading_strict hf (s := num - ((0 : ℕ) + 1)) (n := num) (by omega) (by omega) hn
  have hlt : ∀ i j : ℤ, ∀ x y : ℝ, IsOctave L i x → IsOctave L j y → x < y → i ≤ j := by
    rintro i j x y ⟨i0, i1, i2, -⟩ ⟨j0, j1, -, j3⟩ hxy
    by_contra hij
    rcases i2 with i2 | i2
    · omega
    rcases j3 with j3 | j3
    · omega
    have : (2 : ℝ) ^ (j.toNat + 1) ≤ 2 ^ i.toNat := pow_le_pow_right₀ (by norm_num) (by omega)
    have : (2 : ℝ) ^ (j.toNat + 1) / 2 ^ L ≤ 2 ^ i.toNat / 2 ^ L := by gcongr
    linarith
  refine ⟨fun h n => ?_, fun h => ?_, fun h => ?_⟩
  · have := hd.unique ((key d).2 h)
    unfold leadIn
    rw [if_pos (Or.inl this.symm)]
  · have h1 := hlt _ _ _ _ hd ((key (1 / 16)).2 ⟨le_rfl, by norm_num⟩) h
    have h3 : b ≠ (L : ℤ) - 4 := fun hb => by
      have := ((key d).1 (hb ▸ hd)).1; linarith
    unfold leadIn leadWeight
    rw [if_neg (by push_cast; omega), if_neg (by push_cast; omega), if_pos (by omega)]
    exact ⟨rfl, rfl, hw.1⟩
  · have h1 := hlt _ _ _ _ ((key (1 / 16)).2 ⟨le_rfl, by norm_num⟩) hd (by linarith)
    have h3 : b ≠ (L : ℤ) - 4 := fun hb => by
      have := ((key d).1 (hb ▸ hd)).2; linarith
    unfold leadIn leadWeight
    rw [if_neg (by push_cast; omega), if_neg (by push_cast; omega), if_neg (by omega)]
    exact ⟨rfl, rfl, hw.1⟩

/-! ### a way to avoid it -/

/-- A wavetable whose crossfader is idle on table `b`. -/
def IdleOn (b : ℤ) (wt : WavetableData ℝ) : Prop := wt.cf.samplesLeft = 0 ∧ wt.cf.nextIdx = b

theorem findAll_settles {S : Sys ℝ C} (hf : Rounding S.env.fl) {nw L : ℕ} {b : ℤ} {ds : List ℝ}
    (hds : ∀ d ∈ ds, 0 < d ∧ IsOctave L b d) {wt : WavetableData ℝ} (hw : WtOk nw L wt)
    (ht : settleTime wt.cf b ≤ ds.length) :
    ∃ wt', findAll S.env wt ds = .ok wt' ∧ WtOk nw L wt' ∧ settleTime wt'.cf b = 0 := by
  induction ds generalizing wt with
  | nil =>
    have h0 := (settle_step hw.inv b).1
    have : 0 ≤ settleTime wt.cf b := by
      have := hw.inv.left0; have := hw.inv.num; unfold settleTime; split_ifs <;> omega
    simp at ht
    exact ⟨wt, rfl, hw, by omega⟩
  | cons d ds ih =>
    obtain ⟨hd, hoct⟩ := hds d (by simp)
    obtain ⟨c, t, -, hfind, hw', hc, -⟩ := Sys.find_spec hf hw hd
    have hstep := settle_step hw.inv b
    have hcn : c = wt.cf.nextState b := by
      rw [hc]; unfold stepD; rw [hw.scale, findLoop_of_octave hw.L2 hoct]
    have ht' : settleTime c b ≤ ds.length := by
      rw [hcn]; simp at ht; omega
    obtain ⟨wt', e, a1, a2⟩ := ih (fun d h => hds d (by simp [h])) hw' ht'
    refine ⟨wt', ?_, a1, a2⟩
    unfold findAll
    rw [hfind]
    exact e

theorem idle_step {S : Sys ℝ C} (hf : Rounding S.env.fl) (hB : 0 < S.B) {nw L : ℕ} {b : ℤ} {x p y : ℝ}
    {o o' : Osc ℝ C} (ho : OscPlay S nw L o) (hx : o.prevPhase = x) (hi : ∃ wt, o.wt = some wt ∧ IdleOn b wt)
    {dir : Sys.Direction} (hp : PhaseOk S.env.fl p) (hstep : StepOk dir x p)
    (hproc : S.process dir o [p] [0] = .ok (o', [y])) (hoct : IsOctave L b |Sys.dirDiff S.env.fl dir p x|) :
    OscPlay S nw L o' ∧ o'.prevPhase = p ∧ (∃ wt, o'.wt = some wt ∧ IdleOn b wt) ∧
      NextIndices S o (Sys.dirDiff S.env.fl dir p x) ⟨b, 1, b + 1, 0⟩ := by
  obtain ⟨wt, hwt, h0, h1⟩ := hi
  obtain ⟨wt', hwt', hok⟩ := ho.wt
  rw [hwt] at hwt'; cases hwt'
  have hs' : StepOk dir o.prevPhase p := by rw [hx]; exact hstep
  have hd0 : Sys.dirDiff S.env.fl dir p x ≠ 0 := by
    have := (Sys.dirDiff_range hf ho.toOscOk hp hs').1
    rwa [hx] at this
  obtain ⟨v, e, -⟩ := process_one (by rw [hwt]; rfl) hproc
  rcases Sys.step_cases hf hB ho hp hs' with ⟨⟨⟨o1, y1⟩, e1, hr⟩, -⟩ | ⟨e1, -⟩
  swap
  · rw [e] at e1; cases e1
  rw [e] at e1; cases e1
  rw [hx] at hr
  dsimp only at hr
  obtain ⟨wt1, c, t, f1, -, f3, f4, f5, f6⟩ := hr.find
  rw [hwt] at f1; cases f1
  have hcf : LeadCf wt.cf.numSamples b b 0 wt.cf := ⟨h1, rfl, by simpa using h0, fun h => absurd rfl h⟩
  obtain ⟨hc, ht⟩ := leadCf_tuple hf hcf hok.inv (abs_pos.2 hd0)
    (by rw [hok.scale]; exact findLoop_of_octave hok.L2 hoct) f3
  have hn := leadCf_step hcf hok.inv
  rw [← hc] at hn
  refine ⟨hr.ok, hr.phase, ⟨_, f5, by simpa using hn.left, hn.next⟩, wt, { wt with cf := c }, hwt, ?_⟩
  unfold WavetableData.findMipMapIndices
  rw [f3, ht]
  unfold leadIn
  rw [if_pos (Or.inl rfl)]
  rfl

/-- C109, the remedy: calling `findMipMapIndices` of the new wavetable with steps of the octave to be played, once more
than a crossfade has samples, before giving it to `init`; then every sample uses the table of its octave alone. -/
theorem C109_remedy (S : Sys ℝ C) (hf : Rounding S.env.fl) (hB : 0 < S.B) (hl : Log2Spec S.env.log2f) (ws : List ℝ)
    (nw L : ℕ) (sr dur : ℝ) (wt : WavetableData ℝ) (hb : Built S.env ws nw L sr dur wt) (b : ℤ) (ds : List ℝ)
    (hds : ∀ d ∈ ds, 0 < d ∧ IsOctave L b d) (hlen : ⌊S.env.fl (dur * sr)⌋ + 1 ≤ ds.length) :
    ∃ wt', findAll S.env wt ds = .ok wt' ∧
      ∀ (o0 : Osc ℝ C) (x0 D : ℝ), PhaseOk S.env.fl x0 → D ≠ 0 → IsOctave L b |D| →
      ∃ o, S.init o0 (some wt') x0 D = .ok (o, 0) ∧
      ∀ (m : ℕ) (st : ℕ → Osc ℝ C) (dir : ℕ → Sys.Direction) (p y : ℕ → ℝ), st 0 = o →
        (∀ n < m, PhaseOk S.env.fl (p n)) →
        (∀ n < m, StepOk (dir n) (if n = 0 then x0 else p (n - 1)) (p n)) →
        (∀ n < m, S.process (dir n) (st n) [p n] [0] = .ok (st (n + 1), [y n])) →
        (∀ n < m, IsOctave L b |roundedStepOf S.env.fl dir x0 p n|) →
        ∀ n < m, NextIndices S (st n) (roundedStepOf S.env.fl dir x0 p n) ⟨b, 1, b + 1, 0⟩ := by
  have hw := hb.ok hf hl
  obtain ⟨c1, c2⟩ := hb.cf hf hl
  have hnum := hw.inv.num
  obtain ⟨wt', e, hw', ht⟩ := findAll_settles (S := S) hf hds hw (by
    unfold settleTime; rw [if_pos c1]; split_ifs <;> omega)
  have hidle : IdleOn b wt' := by
    have h1 := hw'.inv.num; have h2 := hw'.inv.left0
    unfold settleTime at ht
    split_ifs at ht with h3 h4 <;> first | exact ⟨h3, h4⟩ | (exfalso; omega)
  refine ⟨wt', e, fun o0 x0 D hx0 hD hDb => ?_⟩
  obtain ⟨c, t, hn, -, hw2, hc, -⟩ := Sys.find_spec (S := S) hf hw' (abs_pos.2 hD)
  have hcb : c = wt'.cf := by
    rw [hc]; unfold stepD; rw [hw'.scale, findLoop_of_octave hw'.L2 hDb]
    unfold nextState; rw [if_neg (by simpa using hidle.1), if_pos hidle.2.symm]
  obtain ⟨⟨o, r⟩, e1, h1⟩ := Sys.init_play hf o0 hw' hx0 hD
  have e2 := Sys.reset_ok (S := S) (o := { o0 with wt := some wt' }) hf rfl hw' hx0 hD hn
  have e3 := e1
  unfold Sys.init at e3
  dsimp only at e3
  rw [e2, R.ok_bind] at e3
  cases e3
  refine ⟨_, e1, fun m st dir p y hst hp hstep hcall hoct => ?_⟩
  have key : ∀ n ≤ m, OscPlay S nw L (st n) ∧ (st n).prevPhase = (if n = 0 then x0 else p (n - 1)) ∧
      ∃ wt, (st n).wt = some wt ∧ IdleOn b wt := by
    intro n
    induction n with
    | zero =>
      intro _
      rw [hst]
      exact ⟨h1.1, rfl, _, rfl, by subst hcb; exact hidle⟩
    | succ n ih =>
      intro hm
      obtain ⟨i1, i2, i3⟩ := ih (by omega)
      obtain ⟨j1, j2, j3, -⟩ := idle_step hf hB i1 i2 i3 (hp n hm) (hstep n hm) (hcall n hm) (hoct n hm)
      exact ⟨j1, by simpa using j2, j3⟩
  intro n hm
  obtain ⟨i1, i2, i3⟩ := key n (by omega)
  exact (idle_step hf hB i1 i2 i3 (hp n hm) (hstep n hm) (hcall n hm) (hoct n hm)).2.2.2

end

/-- C109, exact arithmetic, what is heard: the outputs are those of the filter applied to the mixture of `leadIn` read
along the unwrapped phase. For pitches above the starting octave the steps are to be forward. -/
theorem C109_heard (S : Sys ℝ ℂ) (hS : ExactSys S) (hl : Log2Spec S.env.log2f) (ws : List ℝ) (nw L : ℕ) (sr dur : ℝ)
    (wt : WavetableData ℝ) (hb : Built S.env ws nw L sr dur wt) (o0 : Osc ℝ ℂ) (x0 D : ℝ) (r : ℤ) (a b : ℤ)
    (hx0 : 0 ≤ x0 ∧ x0 < 1) (hD0 : D ≠ 0) (ha : IsOctave L a (1 / 10 : ℝ)) (hDb : IsOctave L b |D|) (m : ℕ)
    (st : ℕ → Osc ℝ ℂ) (hi : S.init o0 (some wt) x0 D = .ok (st 0, r)) (dir : ℕ → Sys.Direction) (p y : ℕ → ℝ)
    (hp : ∀ n < m, 0 ≤ p n ∧ p n < 1)
    (hstep : ∀ n < m, StepOk (dir n) (if n = 0 then x0 else p (n - 1)) (p n))
    (hcall : ∀ n < m, S.process (dir n) (st n) [p n] [0] = .ok (st (n + 1), [y n]))
    (hoct : ∀ n < m, IsOctave L b |stepOf dir x0 p n|)
    (hfwd : a < b → 0 < D ∧ ∀ n < m, 0 < stepOf dir x0 p n)
    (hoff0 : OffDenormal (2 ^ L) x0) (hoff : ∀ n < m, OffDenormal (2 ^ L) (p n)) (n : ℕ) (hn : n < m) :
    y n = filtered S.flt (played S.env ws L 0 (leadIn id ⌊dur * sr⌋ a b) (unwrapped x0 (stepOf dir x0 p))) (n + 1) := by
  have hfl := Sys.exact_rounding hS
  have ok : ∀ {x : ℝ}, 0 ≤ x ∧ x < 1 → PhaseOk S.env.fl x := fun h => ⟨h.1, h.2, by rw [hS.fl]; exact isPhase_id _⟩
  have hro : ∀ n, roundedStepOf S.env.fl dir x0 p n = stepOf dir x0 p n := by
    intro n; rw [hS.fl]; rfl
  have ha' : IsOctave L a (S.env.fl (1 / 10)) := by rw [hS.fl]; exact ha
  obtain ⟨h0, hy0, hcrt⟩ := lead_init hfl hl hb (ok hx0) hD0 ha' hDb hi
  have hoct' : ∀ n < m, IsOctave L b |roundedStepOf S.env.fl dir x0 p n| := fun n h => by rw [hro]; exact hoct n h
  have hat := lead_run S hfl hS.B hl h0 (fun n h => ok (hp n h)) hstep hcall hoct'
  have hnext := fun i (him : i < m) => lead_step hfl hS.B hl (hat i (by omega)) (ok (hp i him)) (hstep i him)
    (hcall i him) (hoct' i him)
  have hL := (hb.ok hfl hl).L2
  have hrun : TrackedRun S ws nw L m st dir p y (leadIn S.env.fl ⌊S.env.fl (dur * sr)⌋ a b) := by
    refine ⟨h0.plays, hy0, hp, ?_, hcall, ?_, ?_, ?_⟩
    · intro i him; rw [(hat i (by omega)).phase]; exact hstep i him
    · intro i him
      rw [(hnext i him).1.diff]; exact (hnext i him).2
    · intro i him
      have h1 := leadIn_idx S.env.fl ⌊S.env.fl (dur * sr)⌋ a b i
      have h2 := (hat i (by omega)).mip
      have h3 := (hat i (by omega)).diff
      unfold TableMove
      rcases h1 with h1 | ⟨hab, h1⟩ <;> rcases h2 with h2 | ⟨hab', h2⟩
      · left; omega
      · right; left
        refine ⟨?_, by omega⟩
        obtain ⟨f1, f2⟩ := hfwd hab'
        rw [h3]
        split_ifs
        · exact f1
        · rw [hro]; exact f2 _ (by omega)
      · right; right; omega
      · left; omega
    · intro i him
      have hx : OffDenormal (2 ^ L) (if i = 0 then x0 else p (i - 1)) := by
        split_ifs
        · exact hoff0
        · exact hoff _ (by omega)
      rw [(hat i (by omega)).phase]
      refine hx.coarser ?_
      have := hDb.2.1
      rcases leadIn_idx S.env.fl ⌊S.env.fl (dur * sr)⌋ a b i with h1 | ⟨-, h1⟩ <;> omega
  have := C37_convolution S hS hl ws nw L m st dir p _ _ hrun n hn
  rw [this, h0.phase, hcrt, hS.fl]
  rfl

/-! ### the hypotheses are met -/

/-- 32nds of a cycle: 0, 1, 0, 31, 0, 1, 0, 31, … -/
def rocking32 (n : ℕ) : ℕ := if n % 4 = 1 then 1 else if n % 4 = 3 then 31 else 0

theorem rocking32_step (n : ℕ) : (rocking32 (n + 1) : ℝ) / 32 ≠ (rocking32 n : ℝ) / 32 ∧
    Sys.dirDiff id .kBidirectionnal ((rocking32 (n + 1) : ℝ) / 32) ((rocking32 n : ℝ) / 32) =
      (if n % 4 = 0 ∨ n % 4 = 3 then 1 / 32 else -(1 / 32)) := by
  have h : n % 4 < 4 := Nat.mod_lt _ (by norm_num)
  have h1 : (n + 1) % 4 = (n % 4 + 1) % 4 := by omega
  unfold rocking32
  rw [h1]
  show _ ∧ Sys.biDiff id _ _ = _
  unfold Sys.biDiff
  simp only [id]
  interval_cases n % 4 <;> norm_num

/-- C109 applies, for every built-in filter, any 32 samples and any crossfade length: steps of a 32nd, to and fro, lie
in octave 0, so the sound begins with a crossfade from the table of 16 samples. -/
example (ft : FilterType) (ws : List ℝ) (hws : ws.length = 2 ^ 5) (xf : ℕ) (h1 : 1 ≤ xf) (hx : xf < 2 ^ 31) :
    ∃ (r : ℤ) (st : ℕ → Osc ℝ ℂ) (y : ℕ → ℝ),
      (sysOf envX ft).init (sysOf envX ft).fresh (some (wtOf envX ws 1 5 xf)) 0 (1 / 32) = .ok (st 0, r) ∧
      (∀ n, (sysOf envX ft).process .kBidirectionnal (st n) [(rocking32 (n + 1) : ℝ) / 32] [0] =
        .ok (st (n + 1), [y n])) ∧
      ∀ n, y n = filtered (filterX ft) (played envX ws 5 0 (leadIn id ⌊(xf / 44100 : ℝ) * 44100⌋ 1 0)
        (unwrapped 0 (stepOf (fun _ => .kBidirectionnal) 0 (fun n => (rocking32 (n + 1) : ℝ) / 32)))) (n + 1) := by
  have hb := builtX ws 5 (by norm_num) (by norm_num) hws xf h1 hx
  have hoct : ∀ x : ℝ, |x| = 1 / 32 → IsOctave 5 0 |x| := by
    intro x h
    rw [h]
    refine ⟨by norm_num, by norm_num, Or.inl rfl, Or.inr ?_⟩; norm_num
  have hok : ∀ x : ℝ, 0 ≤ x ∧ x < 1 → PhaseOk (sysOf envX ft).env.fl x :=
    fun x h => ⟨h.1, h.2, isPhase_id _⟩
  obtain ⟨⟨o, r⟩, e, -⟩ := Sys.init_play (S := sysOf envX ft) (Sys.exact_rounding (exactSys ft)) (sysOf envX ft).fresh
    (hb.ok (Sys.exact_rounding (exactSys ft)) log2X) (hok 0 (by norm_num)) (d := 1 / 32) (by norm_num)
  have hd : ∀ n, stepOf (fun _ => .kBidirectionnal) 0 (fun n => (rocking32 (n + 1) : ℝ) / 32) n =
      (if n % 4 = 0 ∨ n % 4 = 3 then 1 / 32 else -(1 / 32)) := by
    intro n
    rw [← (rocking32_step n).2]
    unfold stepOf
    cases n with
    | zero => simp [rocking32]
    | succ n => simp
  have hr : ∀ n, rocking32 n < 32 := fun n => by unfold rocking32; split_ifs <;> norm_num
  have hoff : ∀ n, OffDenormal (2 ^ 5) ((rocking32 n : ℝ) / 32) := by
    intro n
    have := offDenormal_dyadic (rocking32 n : ℤ) 5 5 (by norm_num) le_rfl
    norm_num at this ⊢
    exact this
  have hp : ∀ n, (0 : ℝ) ≤ (rocking32 (n + 1) : ℝ) / 32 ∧ (rocking32 (n + 1) : ℝ) / 32 < 1 := fun n =>
    ⟨by positivity, by
      have : (rocking32 (n + 1) : ℝ) < 32 := by exact_mod_cast hr _
      linarith⟩
  have hs : ∀ n, StepOk .kBidirectionnal (if n = 0 then 0 else (rocking32 (n - 1 + 1) : ℝ) / 32)
      ((rocking32 (n + 1) : ℝ) / 32) := fun n => by
    have := (rocking32_step n).1
    cases n with
    | zero => simpa [rocking32, StepOk] using this
    | succ n => simpa [StepOk] using this
  have ho : ∀ n, IsOctave 5 0 |stepOf (fun _ => .kBidirectionnal) 0 (fun n => (rocking32 (n + 1) : ℝ) / 32) n| :=
    fun n => hoct _ (by rw [hd]; split_ifs <;> norm_num [abs_of_pos, abs_of_neg])
  have hoff0 : OffDenormal (2 ^ 5) 0 := by simpa [rocking32] using hoff 0
  obtain ⟨st, y, t, a1, a2, -⟩ := C99_exact _ (exactSys ft) log2X ws 1 5 _ _ _ hb _ o 0 (1 / 32) r 0
    (by norm_num) (by norm_num) (by norm_num [abs_of_pos]) (hoct _ (by norm_num [abs_of_pos])) e
    (fun _ => .kBidirectionnal) (fun n => (rocking32 (n + 1) : ℝ) / 32) hp hs ho hoff0 (fun n => hoff _)
  rw [← a1] at e
  refine ⟨r, st, y, e, a2, fun n => ?_⟩
  exact C109_heard _ (exactSys ft) log2X ws 1 5 _ _ _ hb _ 0 (1 / 32) r 1 0 (by norm_num) (by norm_num)
    (by refine ⟨by norm_num, by norm_num, Or.inr ?_, Or.inr ?_⟩ <;> norm_num)
    (hoct _ (by norm_num [abs_of_pos])) (n + 1) st e (fun _ => .kBidirectionnal)
    (fun n => (rocking32 (n + 1) : ℝ) / 32) y (fun n _ => hp n) (fun n _ => hs n) (fun n _ => a2 n)
    (fun n _ => ho n) (by norm_num) hoff0 (fun n _ => hoff _) n (Nat.lt_succ_self n)

/-- The remedy applies: the same wavetable, asked `xf + 1` times for the step 1/32. -/
example (ft : FilterType) (ws : List ℝ) (hws : ws.length = 2 ^ 5) (xf : ℕ) (h1 : 1 ≤ xf) (hx : xf < 2 ^ 31) :
    ∃ wt' o, findAll envX (wtOf envX ws 1 5 xf) (List.replicate (xf + 1) (1 / 32)) = .ok wt' ∧
      (sysOf envX ft).init (sysOf envX ft).fresh (some wt') 0 (1 / 32) = .ok (o, 0) := by
  have hb := builtX ws 5 (by norm_num) (by norm_num) hws xf h1 hx
  have hoct : IsOctave 5 0 (1 / 32 : ℝ) := by
    refine ⟨by norm_num, by norm_num, Or.inl rfl, Or.inr ?_⟩; norm_num
  obtain ⟨wt', e, h⟩ := C109_remedy (sysOf envX ft) (Sys.exact_rounding (exactSys ft)) (exactSys ft).B log2X ws 1 5 _ _ _
    hb 0 (List.replicate (xf + 1) (1 / 32))
    (fun d hd => by rw [(List.mem_replicate.1 hd).2]; exact ⟨by norm_num, hoct⟩)
    (by
      have : ((xf : ℝ) / 44100 * 44100) = xf := by norm_num
      show ⌊((xf : ℝ) / 44100 * 44100)⌋ + 1 ≤ _
      rw [this]; simp)
  obtain ⟨o, e2, -⟩ := h (sysOf envX ft).fresh 0 (1 / 32) ⟨le_rfl, by norm_num, isPhase_id _⟩ (by norm_num)
    (by rw [abs_of_pos (by norm_num)]; exact hoct)
  exact ⟨wt', o, e, e2⟩

end Adwt.Props
