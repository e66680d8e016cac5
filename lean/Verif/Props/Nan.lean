import Verif.Proofs.Nan
import Verif.Proofs.Click
import Verif.Props.Headroom

/-!
# C91: NaN in the filter memory
-/

set_option linter.unusedSectionVars false

namespace Adwt
open CrossFader

namespace Props
section
variable {K C : Type} [Field K] [LinearOrder K] [IsStrictOrderedRing K] [FloorRing K]
variable [Zero C] [Add C] [Sub C] [Mul C] [Div C]

/-- C91: carrying out the divisions by a zero step changes nothing else: whatever `process` does
without such a division, it does with it. -/
theorem C91_extends (S : Sys K C) (divz : K → ℕ → C → C) (dir : Sys.Direction) (o : Osc K C)
    (ps out : List K) (r : Osc K C × List K) (h : S.process dir o ps out = .ok r) :
    S.processZ divz dir o ps out = .ok r := Sys.processZ_ext h

/-- C91: once a section of the filter memory is NaN, every sample is NaN, through any program of
`process`, `setWaveform` and `updateSamplerate` calls, legal or not, as long as it runs; and it still
is at the end. -/
theorem C91_persists (S : Sys K C) (divz : K → ℕ → C → C) (Bad : C → Prop) (hP : Poison Bad)
    (o : Osc K C) (hb : ∃ k < S.n, Bad (o.prevY.getD k 0)) (cs : List (Call K))
    (hc : ∀ c ∈ cs, c.Keeps) (o' : Osc K C) (ys : List K)
    (h : runCallsZ S divz o cs = .ok (o', ys)) :
    AllBad S Bad ys ∧ ∃ k < S.n, Bad (o'.prevY.getD k 0) := by
  obtain ⟨a, b⟩ := Sys.calls_bad hP hc h hb
  exact ⟨b, a⟩

theorem processZ_one (S : Sys K C) (divz : K → ℕ → C → C) (dir : Sys.Direction) (o : Osc K C)
    (hw : o.wt.isSome = true) (p b : K) :
    S.processZ divz dir o [p] [b] = (S.stepZ divz dir o p >>= fun r => pure (r.1, [r.2])) := by
  unfold Sys.processZ
  have hn : o.wt.isNone = false := by rw [← Option.not_isSome, hw]; rfl
  rw [hn]
  simp only [Bool.false_eq_true, if_false, List.length_cons, List.length_nil]
  rw [chk_true trivial]
  simp only [R.pure_eq, R.ok_bind]
  simp only [List.take_succ_cons, List.take_zero]
  unfold Sys.runZ Sys.runZ
  cases S.stepZ divz dir o p <;> rfl

/-- C91: in a release build a phase held at a multiple of 1/4 (a point of the grid of every mipmap
table) turns every section of the filter memory, and the output, into NaN, whatever was played before;
after a backward step that ended at phase 0 it may instead access a table out of bounds. -/
theorem C91_held (S : Sys K C) (hf : Rounding S.env.fl) (hl : Log2Spec S.env.log2f) (hB : 0 < S.B)
    (hn : 0 < S.n) (hdbg : S.env.dbg = false) (divz : K → ℕ → C → C) (Bad : C → Prop)
    (hP : Poison Bad) (hz : ∀ k old, Bad (divz 0 k old)) (nw L : ℕ) (o : Osc K C)
    (ho : Reached S nw L o) (m : ℤ) (hm : o.prevPhase = (m : K) / 4) (dir : Sys.Direction) (b : K) :
    (∃ o' y, S.processZ divz dir o [o.prevPhase] [b] = .ok (o', [y]) ∧
      (∃ x, Bad x ∧ y = S.ops.re x) ∧ ∀ k < S.n, Bad (o'.prevY.getD k 0)) ∨
    (AtZeroBackward o ∧ S.processZ divz dir o [o.prevPhase] [b] = .error .outOfBounds) := by
  have hs := Sys.reached_play hf hl hB ho
  have hm4 : o.prevPhase * 4 = m := by rw [hm]; ring
  obtain ⟨wt, hwt, hw⟩ := hs.wt
  rw [processZ_one S divz dir o (by rw [hwt]; rfl), Sys.stepZ_hold hf]
  obtain ⟨t, h1, h2, h3, h4, h5, -⟩ := Sys.find_zero_eq (S := S) hf hdbg hw
  have hchk : ∀ p : Prop, ∀ [Decidable p], chk S.env.dbg p = .ok () := by
    intro p _; unfold chk; rw [hdbg]; simp
  by_cases hzb : AtZeroBackward o ∧ t.idx < o.prevMip
  · right
    refine ⟨hzb.1, ?_⟩
    unfold Sys.heldSample
    dsimp only
    rw [hchk, R.ok_bind, hwt]
    dsimp only
    rw [h1, R.ok_bind]
    dsimp only
    rw [h2.phaseSpan h3 h4, R.ok_bind, Maths.reduceF_unit hf hs.p0 hs.p1, R.ok_bind,
      h2.waveformLen h3 h4, R.ok_bind, Sys.adjustJ_oob hzb.2 hzb.1.2 (Sys.jRed_zero hs.toOscOk hzb.1)]
    rfl
  · left
    obtain ⟨y, jp, e, a, ha, hb⟩ := Sys.held_quarter (Bad := Bad) (divz := divz) hf hB hdbg hP hz hwt
      hw hs hm4 h1 h2 h3 h4 h5 (Sys.safe_of hs.toOscOk hzb)
    rw [e, R.ok_bind]
    refine ⟨_, _, rfl, ?_, fun k hk => ?_⟩
    · dsimp only
      rw [ha]
      exact (Sys.cpxY_bad hP hn (Or.inr (hb 0 hn))).2
    · dsimp only
      rw [ha]
      exact (Sys.cpxY_bad hP hk (Or.inr (hb k hk))).1

/-- C91, in terms of outputs only: after such a held sample every later sample is NaN until `init`,
`swapWavetable` or `resetInternals`. -/
theorem C91_forever (S : Sys K C) (hf : Rounding S.env.fl) (hl : Log2Spec S.env.log2f) (hB : 0 < S.B)
    (hn : 0 < S.n) (hdbg : S.env.dbg = false) (divz : K → ℕ → C → C) (Bad : C → Prop)
    (hP : Poison Bad) (hz : ∀ k old, Bad (divz 0 k old)) (nw L : ℕ) (o : Osc K C)
    (ho : Reached S nw L o) (m : ℤ) (hm : o.prevPhase = (m : K) / 4) (dir : Sys.Direction)
    (cs : List (Call K)) (hc : ∀ c ∈ cs, c.Keeps) (r : Osc K C × List K)
    (h : runCallsZ S divz o (.process dir [o.prevPhase] :: cs) = .ok r) : AllBad S Bad r.2 := by
  unfold runCallsZ at h
  obtain ⟨⟨o1, y1⟩, h1, h⟩ := bind_ok h
  obtain ⟨⟨o2, y2⟩, h2, h⟩ := bind_ok h
  cases h
  change S.processZ divz dir o [o.prevPhase] [0] = _ at h1
  rcases C91_held S hf hl hB hn hdbg divz Bad hP hz nw L o ho m hm dir 0 with ⟨o', y, e, b, c⟩ | ⟨-, e⟩
  · rw [e] at h1
    cases h1
    have := (Sys.calls_bad hP hc h2 ⟨0, hn, c 0 hn⟩).2
    intro x hx
    rcases List.mem_append.1 hx with hx | hx
    · rw [List.mem_singleton.1 hx]; exact b
    · exact this x hx
  · rw [e] at h1; cases h1

/-- C91: the cure. `resetInternals`, and `init` and `swapWavetable` with a wavetable, do not look at
the filter memory, and leave it zero. -/
theorem C91_cure (S : Sys K C) (o : Osc K C) (y : List C) (wt : WavetableData K) (p d : K) :
    (S.resetInternals { o with prevY := y } p d = S.resetInternals o p d ∧
      ∀ o', S.resetInternals o p d = .ok o' → o'.prevY = List.replicate S.n 0) ∧
    (S.init { o with prevY := y } (some wt) p d = S.init o (some wt) p d ∧
      ∀ o' r, S.init o (some wt) p d = .ok (o', r) → o'.prevY = List.replicate S.n 0) ∧
    (S.swapWavetable { o with prevY := y } (some wt) p d = S.swapWavetable o (some wt) p d ∧
      ∀ o' r, S.swapWavetable o (some wt) p d = .ok (o', r) → o'.prevY = List.replicate S.n 0) := by
  have key : ∀ (o : Osc K C), S.resetInternals { o with prevY := y } p d = S.resetInternals o p d := by
    intro o
    unfold Sys.resetInternals
    cases o.wt <;> rfl
  have mem : ∀ (o o' : Osc K C), S.resetInternals o p d = .ok o' → o'.prevY = List.replicate S.n 0 := by
    intro o o' h
    unfold Sys.resetInternals at h
    dsimp only at h
    split at h
    · obtain ⟨_, -, h⟩ := bind_ok h
      cases h
    · obtain ⟨_, -, h⟩ := bind_ok h
      obtain ⟨⟨w, t⟩, -, h⟩ := bind_ok h
      dsimp only at h
      obtain ⟨_, -, h⟩ := bind_ok h
      obtain ⟨_, -, h⟩ := bind_ok h
      cases h
      rfl
  refine ⟨⟨key o, mem o⟩, ⟨?_, ?_⟩, ⟨?_, ?_⟩⟩
  · unfold Sys.init
    dsimp only
    rw [← key { o with wt := some wt }]
  · intro o' r h
    unfold Sys.init at h
    dsimp only at h
    obtain ⟨o1, h1, h⟩ := bind_ok h
    cases h
    have := mem _ _ h1
    exact this
  · unfold Sys.swapWavetable
    dsimp only
    rw [← key { o with wt := some wt }]
  · intro o' r h
    unfold Sys.swapWavetable at h
    dsimp only at h
    obtain ⟨o1, h1, h⟩ := bind_ok h
    cases h
    have := mem _ _ h1
    exact this
end

section
variable {C : Type} [Zero C] [Add C] [Sub C] [Mul C] [Div C]

/-- after `init` with a long enough wavetable the crossfader does not come from octave 0 -/
theorem init_prev (S : Sys ℝ C) (hf : Rounding S.env.fl) (hl : Log2Spec S.env.log2f)
    {ws : List ℝ} {nw L : ℕ} {sr dur : ℝ} {wt : WavetableData ℝ} (hb : Built S.env ws nw L sr dur wt)
    (hL : 5 ≤ L) {o0 o : Osc ℝ C} {p d : ℝ} {r : ℤ} (hp : PhaseOk S.env.fl p) (hd : d ≠ 0)
    (h : S.init o0 (some wt) p d = .ok (o, r)) :
    ∀ wt', o.wt = some wt' → 1 ≤ wt'.cf.prevIdx := by
  have hw := hb.ok hf hl
  obtain ⟨c1, c2⟩ := hb.cf hf hl
  have hst := built_start hf hl hb
  have h10 : (1 : ℤ) ≤ findLoop (S.env.fl (1 / 10)) (octaveScale ℝ L) := by
    have h32 : (32 : ℝ) ≤ 2 ^ L := by
      calc (32 : ℝ) = 2 ^ 5 := by norm_num
        _ ≤ 2 ^ L := pow_le_pow_right₀ (by norm_num) hL
    have hL18 := hw.L18
    refine tenth_octave (d := 2 / 2 ^ L) hf hw.L2 (by omega) ⟨by norm_num, by omega, Or.inr ?_, ?_⟩ (Or.inr ?_)
    · simp
    · right
      show _ < (2 : ℝ) ^ ((1 : ℤ).toNat + 1) / 2 ^ L
      exact div_lt_div_of_pos_right (by norm_num) (by positivity)
    · rw [div_le_div_iff₀ (by positivity) (by norm_num)]
      simp only [Int.toNat_one, pow_one]
      linarith
  obtain ⟨t, e, -⟩ := newIndices_eq (E := S.env) hf hw.inv (abs_pos.2 hd)
  have e1 := Sys.reset_ok (S := S) (o := { o0 with wt := some wt }) hf rfl hw hp hd e
  unfold Sys.init at h
  dsimp only at h
  rw [e1, R.ok_bind] at h
  cases h
  intro wt' hwt'
  cases hwt'
  have hid := hw.inv.idle c1
  have hi : (0 : ℤ) ≤ findLoop |d| wt.cf.scale := by omega
  generalize (findLoop |d| wt.cf.scale : ℤ) = i at hi
  show 1 ≤ (wt.cf.nextState i).prevIdx
  unfold nextState continueFade updateIndices
  dsimp only
  rw [if_neg (by rw [c1]; simp)]
  split_ifs <;> (try dsimp only at *) <;> omega

/-- C91: the usage example of the README, in a release build, with a wavetable of at least 32 samples:
`init` at phase 0 with any positive step, a block of zero phases, then any forward block. Nothing
crashes, and every single sample is NaN. -/
theorem C91_readme (S : Sys ℝ C) (hf : Rounding S.env.fl) (hl : Log2Spec S.env.log2f) (hB : 0 < S.B)
    (hn : 0 < S.n) (hdbg : S.env.dbg = false) (divz : ℝ → ℕ → C → C) (Bad : C → Prop)
    (hP : Poison Bad) (hz : ∀ k old, Bad (divz 0 k old)) (ws : List ℝ) (nw L : ℕ) (sr dur : ℝ)
    (wt : WavetableData ℝ) (hb : Built S.env ws nw L sr dur wt) (hL : 5 ≤ L) (d : ℝ) (hd : 0 < d)
    (dir : Sys.Direction) (n : ℕ) (ps : List ℝ) (hps : BlockOk S.env.fl .kForward 0 ps) :
    ∃ o o' ys, S.init S.fresh (some wt) 0 d = .ok (o, 0) ∧
      runCallsZ S divz o [.process dir (List.replicate (n + 1) 0), .process .kForward ps] = .ok (o', ys) ∧
      ys.length = n + 1 + ps.length ∧ AllBad S Bad ys := by
  have hp : PhaseOk S.env.fl 0 := ⟨le_rfl, by norm_num, hf.zero_ph⟩
  obtain ⟨⟨o, r⟩, e, h1, h2, h3, -, rfl, -⟩ := Sys.init_play hf S.fresh (hb.ok hf hl) hp hd.ne'
  dsimp only at h1 h2 h3 e
  have hpv := init_prev S hf hl hb hL hp hd.ne' e
  have hq : o.prevPhase * 4 = ((0 : ℤ) : ℝ) := by rw [h2]; simp
  obtain ⟨o1, a, e1, i1, p1, m1, b1⟩ := Sys.held_first (Bad := Bad) (divz := divz) hf hB hdbg hP hz h1 hq
    (by rw [h3]; exact hd) (fun w hw => Or.inr (hpv w hw)) dir
  obtain ⟨o2, ys, e2, i2, p2, l2⟩ := Sys.held_run (Bad := Bad) (divz := divz) hf hB hdbg hP hz dir n i1
    (m := 0) (by rw [p1]; exact hq)
  obtain ⟨⟨o3, zs⟩, e3, l3⟩ := Sys.held_forward (divz := divz) hf hB i2 (ps := ps) (by
    rw [p2, p1, h2]; exact hps)
  have some_of : ∀ o : Osc ℝ C, OscPlay S nw L o → o.wt.isNone = false := by
    intro o ho
    obtain ⟨w, hw, -⟩ := ho.wt
    rw [hw]; rfl
  have run : ∀ (o : Osc ℝ C) dir (ps : List ℝ) r, o.wt.isNone = false → S.runZ divz dir o ps = .ok r →
      r.2.length = ps.length →
      runCallZ S divz o (.process dir ps) = .ok r := by
    intro o dir ps r hw h hl
    unfold runCallZ Sys.processZ
    dsimp only
    rw [hw]
    simp only [Bool.false_eq_true, if_false]
    rw [chk_true (by simp)]
    simp only [R.pure_eq, R.ok_bind, List.length_replicate, List.take_length]
    rw [h, R.ok_bind, List.drop_eq_nil_of_le (by simp [hl]), List.append_nil]
  have eA : S.runZ divz dir o (List.replicate (n + 1) 0) = .ok (o2, S.outReal o1.prevY :: ys) := by
    rw [List.replicate_succ]
    unfold Sys.runZ
    rw [p1, h2] at e2
    rw [h2] at e1
    rw [e1, R.ok_bind]
    dsimp only
    rw [e2, R.ok_bind]
    rfl
  have call1 := run o dir (List.replicate (n + 1) 0) _ (some_of o h1) eA (by simp [l2])
  have call2 := run o2 .kForward ps _ (some_of (Sys.asPlaying o2) i2.play) e3 l3
  have bad1 := Sys.cpxY_bad (S := S) hP (y := o.prevY) (a := a) hn (Or.inr (b1 0 hn))
  have pois : Poisoned S Bad o1 := ⟨0, hn, by rw [m1]; exact bad1.1⟩
  obtain ⟨q1, q2, -⟩ := Sys.runZ_bad hP e2 pois
  obtain ⟨-, q3, -⟩ := Sys.runZ_bad hP e3 q1
  refine ⟨o, o3, (S.outReal o1.prevY :: ys) ++ (zs ++ []), e, ?_, ?_, ?_⟩
  · unfold runCallsZ
    rw [call1, R.ok_bind]
    dsimp only
    unfold runCallsZ
    rw [call2, R.ok_bind]
    rfl
  · simp only [List.length_append, List.length_cons, List.length_nil]
    rw [l2]
    dsimp only at l3
    omega
  · intro y hy
    rw [List.append_nil] at hy
    rcases List.mem_append.1 hy with hy | hy
    · rcases List.mem_cons.1 hy with rfl | hy
      · rw [m1]; exact bad1.2
      · exact q2 y hy
    · exact q3 y hy
end

/-! ### an example: complex numbers with NaN -/

/-- complex numbers with NaN (`none`) -/
def NanC := Option ℂ

/-- a number -/
def NanC.num (z : ℂ) : NanC := some z

noncomputable instance : Zero NanC := ⟨some 0⟩
noncomputable instance : Add NanC := ⟨fun a b => Option.map₂ (· + ·) a b⟩
noncomputable instance : Sub NanC := ⟨fun a b => Option.map₂ (· - ·) a b⟩
noncomputable instance : Mul NanC := ⟨fun a b => Option.map₂ (· * ·) a b⟩
noncomputable instance : Div NanC := ⟨fun a b => Option.map₂ (· / ·) a b⟩

/-- the operations, NaN whenever an operand is; the real part of NaN, which `ℝ` lacks, is set to -1000 -/
noncomputable def nanOps : COps ℝ NanC :=
  ⟨fun x => some (x : ℂ), fun z => z.elim (-1000) Complex.re, Option.map Complex.exp, Option.map Complex.exp,
    fun x y z => x * y + z, fun x y z => x * y - z, fun x y z => z - x * y⟩

/-- release build, exact arithmetic on numbers -/
noncomputable def nanSys (t : FilterType) : Sys ℝ NanC :=
  ⟨envXR, nanOps, ⟨(filterX t).r.map NanC.num, (filterX t).z.map NanC.num⟩, 4⟩

/-- a corner with the quotient 0/0 gives NaN -/
noncomputable def nanDiv (x : ℝ) (_ : ℕ) (old : NanC) : NanC := if x = 0 then none else old

theorem nan_poison : Poison (fun z : NanC => z = none) where
  add_left := by rintro b x rfl; rfl
  add_right := by rintro b x rfl; exact Option.map₂_none_right _ _
  mul_left := by rintro b x rfl; rfl
  mul_right := by rintro b x rfl; exact Option.map₂_none_right _ _
  div := by rintro b x rfl; rfl

/-- The hypotheses of `C91_readme` hold: a wavetable of 32 samples, 100 zero phases, then 0.1 and 0.3. -/
example (t : FilterType) : ∃ wt o o' ys, (nanSys t).init (nanSys t).fresh (some wt) 0 (2 / 5) = .ok (o, 0) ∧
      runCallsZ (nanSys t) nanDiv o [.process .kForward (List.replicate 100 0),
        .process .kForward [1 / 10, 3 / 10]] = .ok (o', ys) ∧
      ys.length = 102 ∧ ∀ y ∈ ys, y = -1000 := by
  have hn : 0 < (nanSys t).n := by
    show 0 < ((filterX t).r.map NanC.num).length
    rw [List.length_map]
    show 0 < (rLit t |>.map clit).length
    rw [List.length_map]
    cases t <;> decide
  obtain ⟨wt, hb⟩ : ∃ wt, Built envXR (List.replicate 32 1) 1 5 44100 (1 / 256) wt := by
    have hr : IsRate envXR.fl (44100 : ℝ) := isRate_id _
    have e2 : envXR.fl (1 / 256 * 44100) = 44100 / 256 := by
      show (1 / 256 * 44100 : ℝ) = _
      norm_num
    obtain ⟨wt, h⟩ := C02_succeeds envXR envX_ok.1 envX_ok.2.1 envX_ok.2.2 5 (by norm_num) (by norm_num) 1
      (by norm_num) (List.replicate 32 (1 : ℝ)) (by simp) 44100 (1 / 256) (by norm_num) hr (by rw [e2]; norm_num)
    exact ⟨wt, hr, by rw [e2]; norm_num, by simp, h⟩
  obtain ⟨o, o', ys, h1, h2, h3, h4⟩ := C91_readme (nanSys t) envX_ok.1 envX_ok.2.1 (by norm_num [nanSys]) hn
    rfl nanDiv _ nan_poison (fun k old => if_pos rfl) _ _ _ _ _ wt hb le_rfl (2 / 5) (by norm_num)
    .kForward 99 [1 / 10, 3 / 10] (by
      refine ⟨⟨by norm_num, by norm_num, isPhase_id _⟩, Or.inl ⟨by norm_num, by norm_num⟩,
        ⟨by norm_num, by norm_num, isPhase_id _⟩, Or.inl ⟨by norm_num, by norm_num⟩, trivial⟩)
  refine ⟨wt, o, o', ys, h1, h2, h3, fun y hy => ?_⟩
  obtain ⟨b, rfl, e⟩ := h4 y hy
  rw [e]; rfl

end Props
end Adwt
