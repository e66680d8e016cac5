import Verif.Props.Float
import Verif.Num.CFloat
import Verif.Proofs.Accum

/-!
# The hypotheses of C59 and C60 are met, by IEEE floats
-/

set_option linter.unusedSectionVars false

namespace Adwt.Props
open WavetableData

/-- a literal converted to `std::complex<float>` -/
noncomputable def flit {rnd : ℝ → ℝ} (c : CLit) : CFl rnd := ⟨rnd (c.1 : ℝ), rnd (c.2 : ℝ)⟩

/-- the oscillators of the library in an environment `E` with complex operations rounded by `rnd`,
four complex floats per batch -/
noncomputable def sysRnd (rnd : ℝ → ℝ) (E : Env ℝ) (t : FilterType) : Sys ℝ (CFl rnd) :=
  ⟨E, CFloat.ops, ⟨(rLit t).map flit, (zLit t).map flit⟩, 4⟩

/-- the oscillators of the library in float arithmetic, four complex floats per batch, debug build -/
noncomputable def sysF (t : FilterType) : Sys ℝ CFloat :=
  sysRnd ieee32 envI t

variable {rnd : ℝ → ℝ} [GoodRnd rnd]

/-- poles of the built-in filters -/
theorem zLit_bounds (t : FilterType) : ∀ c ∈ zLit t, c.1 ≤ -0.29 ∧ |c.1| ≤ 5 ∧ |c.2| ≤ 5 := by
  cases t <;> simp [zLit] <;> norm_num [abs_of_pos, abs_of_neg]

/-- residues of the built-in filters -/
theorem rLit_bounds (t : FilterType) : ∀ c ∈ rLit t, (0.1 ≤ |c.1| ∨ 0.1 ≤ |c.2|) ∧ |c.1| ≤ 30 ∧
    |c.2| ≤ 30 := by
  cases t <;> simp [rLit] <;> norm_num [abs_of_pos, abs_of_neg]

theorem flit_near {c : CLit} (h1 : |c.1| ≤ 30) (h2 : |c.2| ≤ 30) :
    |(CFloat.val (flit c : CFl rnd)).re - c.1| ≤ 0.001 ∧ |(CFloat.val (flit c : CFl rnd)).im - c.2| ≤ 0.001 := by
  have key : ∀ q : ℚ, |q| ≤ 30 → |rnd (q : ℝ) - q| ≤ 0.001 := by
    intro q hq
    have hq' : |(q : ℝ)| ≤ 30 := by exact_mod_cast hq
    have := CFloat.rel (rnd := rnd) (x := (q : ℝ)) (hq'.trans (by norm_num))
    norm_num at this ⊢
    linarith
  exact ⟨key _ h1, key _ h2⟩

theorem flit_pole {c : CLit} (h : c.1 ≤ -0.29 ∧ |c.1| ≤ 5 ∧ |c.2| ≤ 5) :
    0.28 ≤ -(CFloat.val (flit c : CFl rnd)).re ∧ ‖CFloat.val (flit c : CFl rnd)‖ ≤ 11 := by
  have h1 : (c.1 : ℝ) ≤ -0.29 := by
    have : (c.1 : ℝ) ≤ ((-0.29 : ℚ) : ℝ) := by exact_mod_cast h.1
    norm_num at this ⊢; exact this
  have h2 : |(c.1 : ℝ)| ≤ 5 := by exact_mod_cast h.2.1
  have h3 : |(c.2 : ℝ)| ≤ 5 := by exact_mod_cast h.2.2
  obtain ⟨e1, e2⟩ := flit_near (rnd := rnd) (c := c) (h.2.1.trans (by norm_num)) (h.2.2.trans (by norm_num))
  constructor
  · have := (abs_le.1 e1).2
    norm_num at this h1 ⊢
    linarith
  · refine (Complex.norm_le_abs_re_add_abs_im _).trans ?_
    have a1 := abs_add_le ((CFloat.val (flit c : CFl rnd)).re - c.1) c.1
    have a2 := abs_add_le ((CFloat.val (flit c : CFl rnd)).im - c.2) c.2
    rw [sub_add_cancel] at a1 a2
    norm_num at e1 e2
    linarith

theorem flit_residue {c : CLit} (h : (0.1 ≤ |c.1| ∨ 0.1 ≤ |c.2|) ∧ |c.1| ≤ 30 ∧ |c.2| ≤ 30) :
    0.09 ≤ ‖CFloat.val (flit c : CFl rnd)‖ ∧ ‖CFloat.val (flit c : CFl rnd)‖ ≤ 61 := by
  have h2 : |(c.1 : ℝ)| ≤ 30 := by exact_mod_cast h.2.1
  have h3 : |(c.2 : ℝ)| ≤ 30 := by exact_mod_cast h.2.2
  obtain ⟨e1, e2⟩ := flit_near (rnd := rnd) h.2.1 h.2.2
  constructor
  · rcases h.1 with h1 | h1
    · have h1 : (0.1 : ℝ) ≤ |(c.1 : ℝ)| := by
        have : ((0.1 : ℚ) : ℝ) ≤ ((|c.1| : ℚ) : ℝ) := by exact_mod_cast h1
        push_cast at this
        norm_num at this ⊢; exact this
      refine le_trans ?_ (Complex.abs_re_le_norm _)
      have := abs_sub_abs_le_abs_sub (c.1 : ℝ) (CFloat.val (flit c : CFl rnd)).re
      rw [abs_sub_comm] at this
      norm_num at this h1 e1 ⊢
      linarith
    · have h1 : (0.1 : ℝ) ≤ |(c.2 : ℝ)| := by
        have : ((0.1 : ℚ) : ℝ) ≤ ((|c.2| : ℚ) : ℝ) := by exact_mod_cast h1
        push_cast at this
        norm_num at this ⊢; exact this
      refine le_trans ?_ (Complex.abs_im_le_norm _)
      have := abs_sub_abs_le_abs_sub (c.2 : ℝ) (CFloat.val (flit c : CFl rnd)).im
      rw [abs_sub_comm] at this
      norm_num at this h1 e2 ⊢
      linarith
  · refine (Complex.norm_le_abs_re_add_abs_im _).trans ?_
    have a1 := abs_add_le ((CFloat.val (flit c : CFl rnd)).re - c.1) c.1
    have a2 := abs_add_le ((CFloat.val (flit c : CFl rnd)).im - c.2) c.2
    rw [sub_add_cancel] at a1 a2
    norm_num at e1 e2
    linarith

theorem sysRnd_pole {E : Env ℝ} {t : FilterType} {z : CFl rnd} (hz : z ∈ (sysRnd rnd E t).flt.z) :
    0.28 ≤ -(CFloat.val z).re ∧ ‖CFloat.val z‖ ≤ 11 := by
  obtain ⟨c, hc, rfl⟩ := List.mem_map.1 hz
  exact flit_pole (zLit_bounds t c hc)

theorem sysF_pole {t : FilterType} {z : CFloat} (hz : z ∈ (sysF t).flt.z) :
    0.28 ≤ -(CFloat.val z).re ∧ ‖CFloat.val z‖ ≤ 11 := sysRnd_pole (E := envI) hz

/-- Rounded arithmetic with a built-in filter is a `FloatSys`, with eight units in the last place. -/
theorem floatSysRnd {E : Env ℝ} (hf : Rounding E.fl) (hE : E.fl = rnd)
    (hd : ∀ x, |E.dbl x - x| ≤ |x| / 2 ^ 53) (t : FilterType) :
    FloatSys (sysRnd rnd E t) CFloat.val (1 / 2 ^ 21) where
  fl := hf
  ε0 := by norm_num
  ε1 := le_rfl
  rel x hx := by
    show |E.fl x - x| ≤ _
    rw [hE]
    refine CFloat.toRound ((CFloat.rel (hx.trans (by norm_num))).trans ?_)
    gcongr <;> norm_num
  dbl x := by
    refine (hd x).trans ?_
    rw [div_eq_inv_mul, ← one_div]
    gcongr <;> norm_num
  ops := CFloat.accurate
  B := by norm_num [sysRnd]
  len := by cases t <;> rfl
  few := by cases t <;> norm_num [sysRnd, rLit]
  poles z hz := by
    obtain ⟨h1, h2⟩ := sysRnd_pole hz
    constructor
    · norm_num at h1 ⊢; linarith
    · norm_num; linarith
  residues r hr := by
    obtain ⟨c, hc, rfl⟩ := List.mem_map.1 hr
    obtain ⟨h1, h2⟩ := flit_residue (rnd := rnd) (rLit_bounds t c hc)
    constructor
    · norm_num at h1 ⊢; linarith
    · norm_num; linarith

/-- IEEE binary32 arithmetic (gradual underflow and overflow included) with a built-in filter. -/
theorem floatSys (t : FilterType) : FloatSys (sysF t) CFloat.val (1 / 2 ^ 21) :=
  floatSysRnd (rnd := ieee32) (E := envI) rounding_ieee32 rfl rne53_rel t

/-- The same in a host that flushes subnormal results to zero. -/
noncomputable def envFtz : Env ℝ where
  dbg := true
  fl := ftz32
  dbl := rne53
  dbl_fl x h := rne53_of_ieee32 x (ieee32_of_ftz32 h)
  mad a b c := ftz32 (ftz32 (a * b) + c)
  mad_eq _ _ _ := .inr rfl
  dmm a b c d := rne53 (rne53 (a * b) - rne53 (c * d))
  dmm_eq _ _ _ _ := .inl rfl
  log2f x := ieee32 (Real.logb 2 x)
  src := pickSrc ℝ

noncomputable def sysFtz (t : FilterType) : Sys ℝ (CFl ftz32) := sysRnd ftz32 envFtz t

/-- The theorems on float arithmetic apply to it as well. -/
theorem floatSysFtz (t : FilterType) : FloatSys (sysFtz t) CFloat.val (1 / 2 ^ 21) :=
  floatSysRnd (rnd := ftz32) (E := envFtz) rounding_ftz32 rfl rne53_rel t

theorem envFtz_ok : Rounding envFtz.fl ∧ Log2Spec envFtz.log2f ∧ SrcContract envFtz.src :=
  ⟨rounding_ftz32, log2Spec_ieee32, pickSrc_contract⟩

theorem log2I : Log2Spec envI.log2f := envI_ok.2.1

/-- The same with every multiply-add contracted into one fused operation (GCC's default when the target
has FMA). -/
noncomputable def envFma : Env ℝ :=
  { envI with
    mad := fun a b c => ieee32 (a * b + c)
    mad_eq := fun _ _ _ => .inl rfl
    dmm := fun a b c d => rne53 (a * b - rne53 (c * d))
    dmm_eq := fun _ _ _ _ => .inr (.inl rfl) }

noncomputable def sysFma (t : FilterType) : Sys ℝ CFloat := { sysF t with env := envFma }

/-- the theorems on float arithmetic apply to it as well -/
theorem floatSysFma (t : FilterType) : FloatSys (sysFma t) CFloat.val (1 / 2 ^ 21) :=
  { floatSys t with fl := rounding_ieee32, rel := (floatSys t).rel, dbl := (floatSys t).dbl }

/-- and it is a different arithmetic -/
example : ∃ a b c, envFma.mad a b c ≠ envI.mad a b c := by
  refine ⟨1 + 1 / 2 ^ 12, 1 + 1 / 2 ^ 12, -1, ?_⟩
  show ieee32 _ ≠ ieee32 (ieee32 _ + -1)
  obtain ⟨k, h0, h1, e⟩ := Drivers.ieee32_one_two (x := ((1 : ℝ) + 1 / 2 ^ 12) * (1 + 1 / 2 ^ 12)) (by norm_num)
    (by norm_num)
  have e1 : ieee32 ((1 + 1 / 2 ^ 12) * (1 + 1 / 2 ^ 12) + -1 : ℝ) = 8193 / 2 ^ 24 := by
    have := rounding_ieee32.dyadic (K := ℝ) 8193 24 (by norm_num)
    push_cast at this
    rw [show ((1 + 1 / 2 ^ 12) * (1 + 1 / 2 ^ 12) + -1 : ℝ) = 8193 / 2 ^ 24 by norm_num]
    exact this
  have e2 : ieee32 ((k : ℝ) / 2 ^ 23) = (k : ℝ) / 2 ^ 23 :=
    rounding_ieee32.dyadic (K := ℝ) k 23 (by rw [abs_of_nonneg h0]; omega)
  rw [e1, e, show (1 + (k : ℝ) / 2 ^ 23 + -1) = k / 2 ^ 23 by ring, e2]
  intro h
  have h3 : (8193 : ℝ) = 2 * k := by field_simp at h; norm_num at h; linarith
  have h4 : (8193 : ℤ) = 2 * k := by exact_mod_cast h3
  omega

/-- sixteenths are floats -/
theorem phase16G {fl : ℝ → ℝ} (hf : Rounding fl) (k : ℕ) : PhaseOk fl (((k % 16 : ℕ) : ℝ) / 16) := by
  have := phaseOk_dyadic hf (k := k % 16) (n := 4) (Nat.mod_lt _ (by norm_num)) (by norm_num)
  norm_num at this ⊢
  exact this

theorem fl_dyadicG {fl : ℝ → ℝ} (hf : Rounding fl) {k : ℤ} (n : ℕ) (h : |k| ≤ 2 ^ 24) {x : ℝ}
    (hx : x = k / 2 ^ n) (hn : n ≤ 126 := by norm_num) : fl x = x := by
  rw [hx]; exact hf.dyadic k n h hn

theorem mod16_floatG {fl : ℝ → ℝ} (hf : Rounding fl) (k : ℕ) : Sys.dirDiff fl .kForward ((((k + 1) % 16 : ℕ) : ℝ) / 16)
    (((k % 16 : ℕ) : ℝ) / 16) = 1 / 16 := by
  have h16 : fl (1 / 16) = 1 / 16 := fl_dyadicG hf (k := 1) 4 (by norm_num) (by norm_num)
  have h15 : fl (-(15 / 16)) = -(15 / 16) := fl_dyadicG hf (k := -15) 4 (by norm_num) (by norm_num)
  unfold Sys.dirDiff Sys.fwdDiff
  dsimp only
  rcases mod16 k with ⟨h, h1⟩ | ⟨h, h1⟩
  · rw [h, show ∀ x : ℝ, x - (x - 1 / 16) = 1 / 16 by intro x; ring, h16]
    norm_num
  · rw [h, h1]
    rw [show (((0 : ℕ) : ℝ) / 16 - 15 / 16) = -(15 / 16) by norm_num, h15, if_pos (by norm_num),
      show (-(15 / 16) + 1 : ℝ) = 1 / 16 by norm_num, h16]

/-- a wavetable of eight samples in float arithmetic -/
theorem builtG (E : Env ℝ) (hE : Rounding E.fl ∧ Log2Spec E.log2f ∧ SrcContract E.src) (ws : List ℝ) (hws : ws.length = 2 ^ 3) :
    ∃ wt xf, Built E ws 1 3 44100 (1 / 256) wt ∧ wt.cf = ⟨xf, octaveScale ℝ 3, 0, 0, 0⟩ := by
  obtain ⟨wt, hb⟩ := exampleWt E hE ws (by simpa using hws)
  obtain ⟨L, xf, h2, h18, -, -, hlen, -, e⟩ := build_some hE.1 hE.2.1 hb.1 hb.2.2.2
  have hL : L = 3 := by
    have : (2 : ℕ) ^ L = 2 ^ 3 := by rw [← hws]; simpa using hlen.symm
    exact Nat.pow_right_injective le_rfl this
  subst hL
  refine ⟨wt, xf, hb, ?_⟩
  rw [e]
  have ho : IsOctave 3 0 (E.fl (1 / 10) : ℝ) := by
    apply oct0
    have h8 : E.fl (1 / 8) = 1 / 8 := fl_dyadicG hE.1 (k := 1) 3 (by norm_num) (by norm_num)
    have := hE.1.mono (show (1 / 10 : ℝ) ≤ 1 / 8 by norm_num)
    rw [h8] at this
    linarith
  show (⟨xf, octaveScale ℝ 3, 0, (CrossFader.findLoop (E.fl (1 / 10)) (octaveScale ℝ 3) : ℤ),
      (CrossFader.findLoop (E.fl (1 / 10)) (octaveScale ℝ 3) : ℤ)⟩ : CrossFader ℝ) = _
  rw [CrossFader.findLoop_of_octave (by norm_num) ho]

/-- Any eight samples: a run of any length at a steady step, in any arithmetic. -/
theorem steadyRunF {C : Type} [Zero C] [Add C] [Sub C] [Mul C] [Div C] (S : Sys ℝ C) (hf : Rounding S.env.fl)
    (hl : Log2Spec S.env.log2f) (hB : 0 < S.B) (ws : List ℝ) (wt : WavetableData ℝ) (xf : ℤ)
    (hb : Built S.env ws 1 3 44100 (1 / 256) wt) (hcf : wt.cf = ⟨xf, octaveScale ℝ 3, 0, 0, 0⟩) (m : ℕ) :
    ∃ st y, TrackedRun S ws 1 3 m st (fun _ => .kForward)
      (fun i => (((i + 1) % 16 : ℕ) : ℝ) / 16) y (fun _ => ⟨0, 1, 0 + 1, 0⟩) ∧
      (st 0).prevPhase = 0 ∧ (∀ i, (st (i + 1)).prevPhaseDiff = 1 / 16) ∧ (st 0).crt = 0 ∧
      ∀ wt', (st 0).wt = some wt' → wt'.cf = ⟨xf, octaveScale ℝ 3, 0, 0, 0⟩ := by
  have hi : IsOctave 3 0 |(1 / 16 : ℝ)| := oct0 (by norm_num [abs_of_pos])
  obtain ⟨o, -, h1, hy⟩ := at_initG (S := S) hf hl hb (p := 0) (d := 1 / 16)
    (by have := phase16G hf 0; simp only [Nat.zero_mod, Nat.cast_zero, zero_div] at this; exact this) (by norm_num) (c := ⟨xf, octaveScale ℝ 3, 0, 0, 0⟩)
    (t := ⟨0, 1, 0 + 1, 0⟩) (by rw [hcf]; exact cf_idle (by norm_num) (by norm_num) hi)
  have ex : ∀ (k : ℕ) (o : Osc ℝ C), ∃ (r : Osc ℝ C × ℝ),
      At S ws 3 o ⟨xf, octaveScale ℝ 3, 0, 0, 0⟩ 0 (1 / 16) (((k % 16 : ℕ) : ℝ) / 16) →
      S.process .kForward o [(((k + 1) % 16 : ℕ) : ℝ) / 16] [0] = .ok (r.1, [r.2]) ∧
      At S ws 3 r.1 ⟨xf, octaveScale ℝ 3, 0, 0, 0⟩ 0 (1 / 16)
        ((((k + 1) % 16 : ℕ) : ℝ) / 16) ∧
      NextIndices S o r.1.prevPhaseDiff ⟨0, 1, 0 + 1, 0⟩ := by
    intro k o
    by_cases h : At S ws 3 o ⟨xf, octaveScale ℝ 3, 0, 0, 0⟩ 0 (1 / 16)
        (((k % 16 : ℕ) : ℝ) / 16)
    · obtain ⟨⟨o2, y2, e, h2⟩, hn⟩ := h.stepG hf hl hB (dir := .kForward) (phase16G hf (k + 1))
        (mod16_step k).1 (Or.inr (by norm_num)) (mod16_floatG hf k)
        (cf_idle (by norm_num) (by norm_num) hi)
      refine ⟨(o2, y2), fun _ => ⟨e, h2, ?_⟩⟩
      rw [h2.diff]; exact hn
    · exact ⟨(o, 0), fun h' => absurd h' h⟩
  choose f hg using ex
  let st : ℕ → Osc ℝ C := fun k => Nat.rec o (fun k o => (f k o).1) k
  have hst : ∀ k, At S ws 3 (st k) ⟨xf, octaveScale ℝ 3, 0, 0, 0⟩ 0 (1 / 16)
      (((k % 16 : ℕ) : ℝ) / 16) := by
    intro k
    induction k with
    | zero =>
      have e : (((0 % 16 : ℕ) : ℕ) : ℝ) / 16 = 0 := by norm_num
      rw [e]; exact h1
    | succ k ih => exact (hg k (st k) ih).2.1
  refine ⟨st, fun k => (f k (st k)).2, ?_, h1.phase, fun i => (hst (i + 1)).diff, h1.crt, ?_⟩
  swap
  · intro wt' e
    obtain ⟨wt'', e', hc⟩ := h1.cf
    rw [show (st 0).wt = o.wt from rfl, e'] at e; cases e; exact hc
  refine ⟨h1.plays, ?_, fun i _ => range16 _, ?_, ?_, ?_, ?_, ?_⟩
  · intro y hy'
    have hy' : y ∈ o.prevY := hy'
    rw [hy] at hy'
    exact (List.mem_replicate.1 hy').2
  · intro i _
    rw [(hst i).phase]
    exact (mod16_step i).1
  · intro i _
    exact (hg i (st i) (hst i)).1
  · intro i _
    exact (hg i (st i) (hst i)).2.2
  · intro i _
    exact Or.inl (hst i).mip.symm
  · intro i _
    rw [(hst i).phase]
    have := offDenormal_dyadic (i % 16 : ℕ) 4 3 (by norm_num) (by norm_num)
    norm_num at this ⊢
    exact this

/-- Any built-in filter, any eight samples: a run of any length at a steady step, in floats. -/
theorem floatRunG (E : Env ℝ) (hE : Rounding E.fl ∧ Log2Spec E.log2f ∧ SrcContract E.src)
    (ft : FilterType) (ws : List ℝ) (hws : ws.length = 2 ^ 3) (m : ℕ) :
    ∃ st y, TrackedRun (sysRnd rnd E ft) ws 1 3 m st (fun _ => .kForward)
      (fun i => (((i + 1) % 16 : ℕ) : ℝ) / 16) y (fun _ => ⟨0, 1, 0 + 1, 0⟩) ∧
      (st 0).prevPhase = 0 ∧ ∀ i, (st (i + 1)).prevPhaseDiff = 1 / 16 := by
  obtain ⟨wt, xf, hb, hcf⟩ := builtG E hE ws hws
  obtain ⟨st, y, h, h0, hd, -⟩ := steadyRunF (sysRnd rnd E ft) hE.1 hE.2.1 (by norm_num [sysRnd]) ws wt xf hb hcf m
  exact ⟨st, y, h, h0, hd⟩

theorem phase16 (k : ℕ) : PhaseOk envI.fl (((k % 16 : ℕ) : ℝ) / 16) := phase16G envI_ok.1 k

theorem fl_dyadic {k : ℤ} (n : ℕ) (h : |k| ≤ 2 ^ 24) {x : ℝ} (hx : x = k / 2 ^ n)
    (hn : n ≤ 126 := by norm_num) : envI.fl x = x := fl_dyadicG envI_ok.1 n h hx hn

theorem mod16_float (k : ℕ) : Sys.dirDiff envI.fl .kForward ((((k + 1) % 16 : ℕ) : ℝ) / 16)
    (((k % 16 : ℕ) : ℝ) / 16) = 1 / 16 := mod16_floatG envI_ok.1 k

theorem builtI (ws : List ℝ) (hws : ws.length = 2 ^ 3) :
    ∃ wt xf, Built envI ws 1 3 44100 (1 / 256) wt ∧ wt.cf = ⟨xf, octaveScale ℝ 3, 0, 0, 0⟩ :=
  builtG envI envI_ok ws hws

theorem floatRun (ft : FilterType) (ws : List ℝ) (hws : ws.length = 2 ^ 3) (m : ℕ) :
    ∃ st y, TrackedRun (sysF ft) ws 1 3 m st (fun _ => .kForward)
      (fun i => (((i + 1) % 16 : ℕ) : ℝ) / 16) y (fun _ => ⟨0, 1, 0 + 1, 0⟩) ∧
      (st 0).prevPhase = 0 ∧ ∀ i, (st (i + 1)).prevPhaseDiff = 1 / 16 :=
  floatRunG envI envI_ok ft ws hws m

/-- in this run the exact steps are `1/16` too -/
theorem trueStep16G {fl : ℝ → ℝ} (hf : Rounding fl) (i : ℕ) : trueStepOf fl (fun _ => .kForward) 0
    (fun i => (((i + 1) % 16 : ℕ) : ℝ) / 16) i = 1 / 16 := by
  have key : trueStep fl .kForward ((((i + 1) % 16 : ℕ) : ℝ) / 16) (((i % 16 : ℕ) : ℝ) / 16) =
      1 / 16 := by
    unfold trueStep
    rw [mod16_floatG hf]
    rcases mod16 i with ⟨h, h1⟩ | ⟨h, h1⟩
    · rw [h, show ∀ x : ℝ, x - (x - 1 / 16) = 1 / 16 by intro x; ring]; simp
    · rw [h, h1]
      have e : (1 / 16 - (((0 : ℕ) : ℝ) / 16 - 15 / 16) : ℝ) = ((1 : ℤ) : ℝ) := by norm_num
      rw [e, round_intCast]; norm_num
  unfold trueStepOf
  dsimp only
  by_cases h0 : i = 0
  · subst h0
    rw [if_pos rfl]
    simpa using key
  · rw [if_neg h0]
    have : i - 1 + 1 = i := by omega
    rw [this]; exact key

theorem trueStep16 (i : ℕ) : trueStepOf envI.fl (fun _ => .kForward) 0
    (fun i => (((i + 1) % 16 : ℕ) : ℝ) / 16) i = 1 / 16 := trueStep16G envI_ok.1 i

/-- samples of the tables -/
theorem decimateI (v : List ℝ) (r : ℕ) {A : ℝ} (hA : 0 ≤ A) (hv : ∀ x ∈ v, |x| ≤ A) :
    ∀ x ∈ decimate envI v r, |x| ≤ A := by
  intro x hx
  unfold decimate at hx
  obtain ⟨j, -, rfl⟩ := List.mem_map.1 hx
  show |(v ++ v ++ v ++ v ++ v).getD ((2 * (v.length / r) + j) * r) 0| ≤ A
  rw [List.getD_eq_getElem?_getD]
  cases e : (v ++ v ++ v ++ v ++ v)[(2 * (v.length / r) + j) * r]? with
  | none => simpa using hA
  | some y =>
    have := List.mem_of_getElem? e
    simp only [List.mem_append, or_self] at this
    exact hv y this

theorem mipWithinI {A : ℝ} (hA : 0 ≤ A) {w : List ℝ} (h : ∀ x ∈ w, |x| ≤ A) (i : ℕ) :
    ∀ x ∈ mipSamples envI w i, |x| ≤ A := by
  induction i using Nat.strong_induction_on with
  | _ i ih =>
    unfold mipSamples
    split_ifs with h0 h1
    · exact h
    · exact decimateI _ _ hA h
    · exact decimateI _ _ hA (ih (i - 8) (by omega))

theorem waveformI {A : ℝ} {ws : List ℝ} (h : ∀ x ∈ ws, |x| ≤ A) (N w : ℕ) :
    ∀ x ∈ waveformOf ws N w, |x| ≤ A := by
  intro x hx
  unfold waveformOf at hx
  exact h x (List.mem_of_mem_drop (List.mem_of_mem_take hx))

theorem tablesWithinI {A : ℝ} (hA : 0 ≤ A) {ws : List ℝ} (h : ∀ x ∈ ws, |x| ≤ A) (nw L : ℕ) :
    TablesWithin envI ws nw L A :=
  fun w _ i _ => mipWithinI hA (waveformI h _ w) i

/-- a crude bound of the slopes: twice the largest sample times the length -/
theorem slopesWithinI {A : ℝ} (hA : 0 ≤ A) {ws : List ℝ} (h : ∀ x ∈ ws, |x| ≤ A) (nw L : ℕ) :
    SlopesWithin envI ws nw L (2 * A * 2 ^ L) := by
  intro w _ i _ k
  have key : ∀ j : ℤ, |cyc (mipSamples envI (waveformOf ws (2 ^ L) w) i) j| ≤ A := by
    intro j
    unfold cyc
    rw [List.getD_eq_getElem?_getD]
    cases e : (mipSamples envI (waveformOf ws (2 ^ L) w) i)[(j %
      (mipSamples envI (waveformOf ws (2 ^ L) w) i).length).toNat]? with
    | none => simpa using hA
    | some y => exact mipWithinI hA (waveformI h _ w) i y (List.mem_of_getElem? e)
  have h1 := (abs_sub _ _).trans (add_le_add (key (k + 1)) (key k))
  have h2 : (2 : ℝ) ^ (L - i) ≤ 2 ^ L := pow_le_pow_right₀ (by norm_num) (by omega)
  rw [show 2 * A * 2 ^ L = (A + A) * 2 ^ L by ring]
  gcongr

/-- C60 applies: any built-in filter, any eight samples in `[-1, 1]`, however many samples are
played: with IEEE floats the output stays within `2^-21 * 17` times a constant of the filter of the
exact one. -/
example (ft : FilterType) (ws : List ℝ) (hws : ws.length = 2 ^ 3) (h1 : ∀ x ∈ ws, |x| ≤ 1) (n : ℕ) :
    ∃ (st : ℕ → Osc ℝ CFloat) (y : ℕ → ℝ),
      (∀ i ≤ n, (sysF ft).process .kForward (st i) [(((i + 1) % 16 : ℕ) : ℝ) / 16] [0] =
        .ok (st (i + 1), [y i])) ∧
      |y n - filtered (valFilter CFloat.val (sysF ft).flt) (played envI ws 3 (st 0).crt
        (fun _ => ⟨0, 1, 0 + 1, 0⟩) (unwrapped 0 (fun _ => 1 / 16))) (n + 1)| ≤
        1 / 2 ^ 21 * 17 * roundoffGain (valFilter CFloat.val (sysF ft).flt) 6.4 := by
  obtain ⟨st, y, h, h0, hd⟩ := floatRun ft ws hws (n + 1)
  refine ⟨st, y, fun i hi => h.call i (by omega), ?_⟩
  have := C60_run _ _ _ (floatSys ft) log2I ws 1 3 1 16 (tablesWithinI zero_le_one h1 1 3)
    (by have := slopesWithinI zero_le_one h1 1 3; norm_num at this; exact this)
    (by norm_num) (by norm_num)
    (n + 1) st _ _ y _ h (fun i _ => (phase16 (i + 1)).2.2)
    (fun i _ => by rw [hd]; norm_num [abs_of_pos]) n (Nat.lt_succ_self n)
  rw [h0] at this
  have e : trueStepOf (sysF ft).env.fl (fun _ => Sys.Direction.kForward) 0
      (fun i => (((i + 1) % 16 : ℕ) : ℝ) / 16) = fun _ => 1 / 16 := funext trueStep16
  rw [e] at this
  norm_num at this ⊢
  exact this

/-- C59 applies: the first sample of this run. -/
example (ft : FilterType) (ws : List ℝ) (hws : ws.length = 2 ^ 3) (h1 : ∀ x ∈ ws, |x| ≤ 1) :
    ∃ (o o' : Osc ℝ CFloat) (y : ℝ),
      (sysF ft).process .kForward o [1 / 16] [0] = .ok (o', [y]) ∧ o'.prevY.length = numCoeffs ft ∧
      |y - output (o'.prevY.map CFloat.val)| ≤ 2 * numCoeffs ft * (1 / 2 ^ 21) *
        (((o'.prevY.map CFloat.val).map fun c => ‖c‖).sum + 1 / 2 ^ 80) := by
  obtain ⟨st, y, h, h0, hd⟩ := floatRun ft ws hws 1
  have hc := h.call 0 (by norm_num)
  have e1 : ((((0 + 1) % 16 : ℕ) : ℝ) / 16) = 1 / 16 := by norm_num
  have hn := h.next 0 (by norm_num)
  have hs := h.step 0 (by norm_num)
  rw [e1] at hc hs
  obtain ⟨-, -, hlen, -, y', hy', hb⟩ := C59_sample _ _ _ (floatSys ft) log2I ws 1 3 1 16
    (tablesWithinI zero_le_one h1 1 3)
    (by have := slopesWithinI zero_le_one h1 1 3; norm_num at this; exact this)
    (by norm_num) (by norm_num) (st 0) h.plays
    .kForward (1 / 16) 0 ⟨by norm_num, by norm_num, isPhase_ieee32 (fl_dyadic (k := 1) 4 (by norm_num) (by norm_num))⟩
    hs (st 1) _ hc _ hn (h.move 0 (by norm_num)) (h.off 0 (by norm_num)) 100
    (by
      rw [h0]
      have e := trueStep16 0
      unfold trueStepOf at e
      rw [if_pos rfl] at e
      dsimp only at e
      rw [e1] at e
      change (2 : ℝ) ^ 3 * |trueStep envI.fl _ _ _| + 2 ≤ _
      rw [e]; norm_num [abs_of_pos])
    (by rw [hd 0]; norm_num [abs_of_pos])
    (fun c hc => by rw [h.zero c hc]; simp [(floatSys ft).ops.zero])
  cases hy'
  have hl : (sysF ft).flt.r.length = numCoeffs ft := by simp [sysF, sysRnd, numCoeffs]
  rw [hl] at hlen hb
  exact ⟨_, _, _, hc, hlen, hb⟩

end Adwt.Props
