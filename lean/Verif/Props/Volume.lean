import Verif.Props.Polarity
import Verif.Proofs.Volume

/-!
# C95: the volume of the waveforms is the volume of the output
-/

set_option linter.unusedSectionVars false

namespace Adwt.Props
open WavetableData
variable {K C : Type} [Field K] [LinearOrder K] [IsStrictOrderedRing K] [FloorRing K]
variable [Zero C] [Add C] [Sub C] [Mul C] [Div C]

/-- C95: multiplying every sample of every waveform given to a program by `s` multiplies every sample
it puts out by `s`, exactly, and changes nothing else, in any arithmetic that commutes with `s`. Any
program, legal or not, in debug and release builds. -/
theorem C95_volume (S : Sys K C) (s : K) (g : C → C) (hE : ScaleEnv s S.env) (hC : ScaleOps s g S.ops)
    (prog : List (Call K)) :
    (∀ e, runCalls S S.fresh prog = .error e →
      runCalls S S.fresh (prog.map (Call.scale s)) = .error e) ∧
    ∀ o ys, runCalls S S.fresh prog = .ok (o, ys) →
      ∃ o', runCalls S S.fresh (prog.map (Call.scale s)) = .ok (o', ys.map (s * ·)) ∧
        o'.prevPhase = o.prevPhase ∧ o'.prevPhaseDiff = o.prevPhaseDiff ∧ o'.crt = o.crt ∧
        o'.prevMip = o.prevMip ∧ o'.jRed = o.jRed ∧
        S.numWaveforms o' = S.numWaveforms o ∧ o'.prevY = o.prevY.map g := by
  have key := Sys.calls_sc hE hC prog S.fresh
  rw [Sys.fresh_sc hE hC] at key
  unfold Img at key
  constructor
  · intro e h
    rw [h] at key
    exact key
  · intro o ys h
    rw [h] at key
    refine ⟨Sys.scO s g o, key, rfl, rfl, rfl, rfl, rfl, ?_, rfl⟩
    unfold Sys.numWaveforms Sys.scO
    cases o.wt with
    | none => rfl
    | some wt =>
      show Except.ok (wt.sc s).numWaveforms = Except.ok wt.numWaveforms
      unfold WavetableData.numWaveforms WavetableData.sc
      simp

theorem exact_scaleOps (s : ℝ) : ScaleOps s (fun a : ℂ => (s : ℂ) * a) copsX where
  zero := mul_zero _
  add a b := by ring
  sub a b := by ring
  mul_left a b := by ring
  mul_right a b := by ring
  div a b := by ring
  ofK x := by show ((s * x : ℝ) : ℂ) = s * (x : ℂ); push_cast; rfl
  re a := by show ((s : ℂ) * a).re = s * a.re; simp
  fma a b c := by show a * (s * b) + s * c = s * (a * b + c); ring
  fms a b c := by show a * (s * b) - s * c = s * (a * b - c); ring
  fnma a b c := by show -(a * (s * b)) + s * c = s * (-(a * b) + c); ring

/-- C95 in exact arithmetic: by any factor. -/
theorem C95_exact (s : ℝ) (S : Sys ℝ ℂ) (hS : ExactSys S) (hsrc : ScaleSrc s S.env)
    (prog : List (Call ℝ)) (o : Osc ℝ ℂ) (ys : List ℝ)
    (h : runCalls S S.fresh prog = .ok (o, ys)) :
    ∃ o', runCalls S S.fresh (prog.map (Call.scale s)) = .ok (o', ys.map (s * ·)) := by
  have hf : ∀ x, S.env.fl x = x := fun x => by rw [hS.fl]; rfl
  have hd : ∀ x, S.env.dbl x = x := fun x => S.env.dbl_fl x (hf x)
  have hm : ∀ a b c, S.env.mad a b c = a * b + c := fun a b c => by
    rcases S.env.mad_eq a b c with h | h <;> simpa only [hf] using h
  have hn : ∀ a b c d, S.env.dmm a b c d = a * b - c * d := fun a b c d => by
    rcases S.env.dmm_eq a b c d with h | h | h <;> simpa only [hd] using h
  have hE : ScaleEnv s S.env := by
    constructor
    · intro x; rw [hf, hf]
    · intro x; rw [hd, hd]
    · intro a b c; rw [hm, hm]; ring
    · intro a b c d; rw [hn, hn]; ring
    · exact hsrc
  obtain ⟨o', e, -⟩ := (C95_volume S s (fun a => (s : ℂ) * a) hE (hS.ops ▸ exact_scaleOps s) prog).2 o ys h
  exact ⟨o', e⟩

theorem rne53_zscale (x : ℝ) (n : ℤ) : rne53 (x * 2 ^ n) = rne53 x * 2 ^ n := by
  rcases eq_or_ne x 0 with rfl | hx
  · have : roundEven (0 : ℝ) = 0 := by simpa using roundEven_int (K := ℝ) 0
    simp [rne53, this]
  · unfold rne53
    have h2 : |(2 : ℝ) ^ n| = 2 ^ n := abs_of_pos (by positivity)
    rw [abs_mul, h2, log2_scale (abs_pos.2 hx), show Int.log 2 |x| + n - 52 = Int.log 2 |x| - 52 + n by ring,
      zpow_add₀ (by norm_num), mul_div_mul_right _ _ (by positivity), mul_assoc]

/-- Multiplication of a complex float by a power of two. -/
noncomputable def scaleC {rnd : ℝ → ℝ} (s : ℝ) (a : CFl rnd) : CFl rnd := ⟨s * a.re, s * a.im⟩

theorem float_scaleOps {rnd : ℝ → ℝ} {s : ℝ} (hn : ∀ x, rnd (s * x) = s * rnd x) :
    ScaleOps s (scaleC s) (CFloat.ops : COps ℝ (CFl rnd)) := by
  have l : ∀ a b : ℝ, s * a * b = s * (a * b) := fun a b => by ring
  have r : ∀ a b : ℝ, a * (s * b) = s * (a * b) := fun a b => by ring
  have p : ∀ a b : ℝ, s * a + s * b = s * (a + b) := fun a b => by ring
  have m : ∀ a b : ℝ, s * a - s * b = s * (a - b) := fun a b => by ring
  have q : ∀ a b : ℝ, s * a / b = s * (a / b) := fun a b => by ring
  have o : ∀ a : ℝ, -(s * a) = s * -a := fun a => by ring
  constructor
  · exact CFl.ext (mul_zero s) (mul_zero s)
  · intro a b
    apply CFl.ext
    · show rnd (s * a.re + s * b.re) = s * rnd (a.re + b.re)
      rw [p, hn]
    · show rnd (s * a.im + s * b.im) = s * rnd (a.im + b.im)
      rw [p, hn]
  · intro a b
    apply CFl.ext
    · show rnd (s * a.re - s * b.re) = s * rnd (a.re - b.re)
      rw [m, hn]
    · show rnd (s * a.im - s * b.im) = s * rnd (a.im - b.im)
      rw [m, hn]
  · intro a b
    apply CFl.ext
    · show rnd (rnd (s * a.re * b.re) - rnd (s * a.im * b.im)) = s * rnd (rnd (a.re * b.re) - rnd (a.im * b.im))
      rw [l, l, hn, hn, m, hn]
    · show rnd (rnd (s * a.re * b.im) + rnd (s * a.im * b.re)) = s * rnd (rnd (a.re * b.im) + rnd (a.im * b.re))
      rw [l, l, hn, hn, p, hn]
  · intro a b
    apply CFl.ext
    · show rnd (rnd (a.re * (s * b.re)) - rnd (a.im * (s * b.im))) = s * rnd (rnd (a.re * b.re) - rnd (a.im * b.im))
      rw [r, r, hn, hn, m, hn]
    · show rnd (rnd (a.re * (s * b.im)) + rnd (a.im * (s * b.re))) = s * rnd (rnd (a.re * b.im) + rnd (a.im * b.re))
      rw [r, r, hn, hn, p, hn]
  · intro a b
    apply CFl.ext
    · show rnd (rnd (rnd (s * a.re * b.re) + rnd (s * a.im * b.im)) / _) =
        s * rnd (rnd (rnd (a.re * b.re) + rnd (a.im * b.im)) / _)
      rw [l, l, hn, hn, p, hn, q, hn]
    · show rnd (rnd (rnd (s * a.im * b.re) - rnd (s * a.re * b.im)) / _) =
        s * rnd (rnd (rnd (a.im * b.re) - rnd (a.re * b.im)) / _)
      rw [l, l, hn, hn, m, hn, q, hn]
  · intro x
    exact CFl.ext rfl (mul_zero s).symm
  · intro a
    rfl
  · intro a b c
    apply CFl.ext
    · show rnd (a.re * (s * b.re) - rnd (a.im * (s * b.im) - s * c.re)) = s * rnd (a.re * b.re - rnd (a.im * b.im - c.re))
      rw [r, r, m, hn, m, hn]
    · show rnd (a.re * (s * b.im) + rnd (a.im * (s * b.re) + s * c.im)) = s * rnd (a.re * b.im + rnd (a.im * b.re + c.im))
      rw [r, r, p, hn, p, hn]
  · intro a b c
    apply CFl.ext
    · show rnd (a.re * (s * b.re) - rnd (a.im * (s * b.im) + s * c.re)) = s * rnd (a.re * b.re - rnd (a.im * b.im + c.re))
      rw [r, r, p, hn, m, hn]
    · show rnd (a.re * (s * b.im) + rnd (a.im * (s * b.re) - s * c.im)) = s * rnd (a.re * b.im + rnd (a.im * b.re - c.im))
      rw [r, r, m, hn, p, hn]
  · intro a b c
    apply CFl.ext
    · show -rnd (a.re * (s * b.re) - rnd (a.im * (s * b.im) + s * c.re)) = s * -rnd (a.re * b.re - rnd (a.im * b.im + c.re))
      rw [r, r, p, hn, m, hn, o]
    · show -rnd (a.re * (s * b.im) + rnd (a.im * (s * b.re) - s * c.im)) = s * -rnd (a.re * b.im + rnd (a.im * b.re - c.im))
      rw [r, r, m, hn, p, hn, o]

/-- C95 in floating-point arithmetic (24 bits, doubles with 53 bits; exponents without limits, i.e. as
long as nothing underflows or overflows): changing the level of all waveforms by a power of two (a
multiple of 6.02 dB) changes the output by that factor, bit for bit. -/
theorem C95_float (k : ℤ) (S : Sys ℝ (CFl rne24)) (hfl : S.env.fl = rne24) (hdbl : S.env.dbl = rne53)
    (hops : S.ops = CFloat.ops) (hu : Uniform S.env) (hsrc : ScaleSrc (2 ^ k) S.env)
    (prog : List (Call ℝ)) (o : Osc ℝ (CFl rne24)) (ys : List ℝ)
    (h : runCalls S S.fresh prog = .ok (o, ys)) :
    ∃ o', runCalls S S.fresh (prog.map (Call.scale (2 ^ k))) = .ok (o', ys.map (2 ^ k * ·)) := by
  set s : ℝ := 2 ^ k with hs
  have hf : ∀ x, rne24 (s * x) = s * rne24 x := fun x => by
    rw [mul_comm, hs, rne24_zscale, mul_comm]
  have hd : ∀ x, rne53 (s * x) = s * rne53 x := fun x => by
    rw [mul_comm, hs, rne53_zscale, mul_comm]
  have l : ∀ a b : ℝ, s * a * b = s * (a * b) := fun a b => by ring
  have r : ∀ a b : ℝ, a * (s * b) = s * (a * b) := fun a b => by ring
  have p : ∀ a b : ℝ, s * a + s * b = s * (a + b) := fun a b => by ring
  have m : ∀ a b : ℝ, s * a - s * b = s * (a - b) := fun a b => by ring
  have hE : ScaleEnv s S.env := by
    constructor
    · intro x; rw [hfl, hf]
    · intro x; rw [hdbl, hd]
    · intro a b c
      rcases hu.mad with h | h
      · rw [h, h, hfl, l, p, hf]
      · rw [h, h, hfl, l, hf, p, hf]
    · intro a b c d
      rcases hu.dmm with h | h | h
      · rw [h, h, hdbl, l, r, hd, hd, m, hd]
      · rw [h, h, hdbl, l, r, hd, m, hd]
      · rw [h, h, hdbl, l, r, hd, m, hd]
    · exact hsrc
  obtain ⟨o', e, -⟩ := (C95_volume S s (scaleC s) hE (hops ▸ float_scaleOps hf) prog).2 o ys h
  exact ⟨o', e⟩

/-! ### the hypotheses are met -/

theorem pick_scale (s : ℝ) (l : List ℝ) (n r : ℕ) : pickSrc ℝ (l.map (s * ·)) n r =
    ⟨(pickSrc ℝ l n r).err, fun i => s * (pickSrc ℝ l n r).data i, (pickSrc ℝ l n r).inputUsed,
      (pickSrc ℝ l n r).outputGen⟩ := by
  unfold pickSrc
  rw [List.length_map]
  congr 1
  funext i
  dsimp only
  rw [List.getD_eq_getElem?_getD, List.getD_eq_getElem?_getD, List.getElem?_map]
  cases l[i * r]? <;> simp

/-- floats with unlimited exponents, no contraction, debug build -/
noncomputable def env24 : Env ℝ :=
  ⟨true, rne24, rne53, rne53_of_rne24,
  fun a b c => rne24 (rne24 (a * b) + c), fun _ _ _ => .inr rfl,
  fun a b c d => rne53 (rne53 (a * b) - rne53 (c * d)), fun _ _ _ _ => .inl rfl,
  fun x => rne24 (Real.logb 2 x), pickSrc ℝ⟩

/-- The program which builds a wavetable from eight samples of any values and plays it forward and
backward succeeds in both arithmetics, and at every level. -/
example (t : FilterType) (ws : List ℝ) (h : ws.length = 8) (k : ℤ) (s : ℝ) :
    (∃ o ys o', runCalls (sysRnd rne24 env24 t) (sysRnd rne24 env24 t).fresh (exampleProg ws) = .ok (o, ys) ∧
      runCalls (sysRnd rne24 env24 t) (sysRnd rne24 env24 t).fresh (exampleProg (ws.map (2 ^ k * ·))) =
        .ok (o', ys.map (2 ^ k * ·)) ∧ ys.length = 3) ∧
    ∃ o ys o', runCalls (sysOf envX t) (sysOf envX t).fresh (exampleProg ws) = .ok (o, ys) ∧
      runCalls (sysOf envX t) (sysOf envX t).fresh (exampleProg (ws.map (s * ·))) =
        .ok (o', ys.map (s * ·)) ∧ ys.length = 3 := by
  constructor
  · obtain ⟨o, ys, e, hl⟩ := exampleProg_ok (S := sysRnd rne24 env24 t)
      ⟨rounding_rne24, log2Spec_rne24, pickSrc_contract⟩ (by norm_num [sysRnd]) ws h
    obtain ⟨o', e'⟩ := C95_float k _ rfl rfl rfl ⟨.inr fun _ _ _ => rfl, .inl fun _ _ _ _ => rfl⟩
      (fun l n r => pick_scale _ l n r) _ o ys e
    exact ⟨o, ys, o', e, e', hl⟩
  · obtain ⟨o, ys, e, hl⟩ := exampleProg_ok (S := sysOf envX t) envX_ok (exactSys t).B ws h
    obtain ⟨o', e'⟩ := C95_exact s _ (exactSys t) (pick_scale _) _ o ys e
    exact ⟨o, ys, o', e, e', hl⟩

end Adwt.Props
