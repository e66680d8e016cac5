import Verif.Spec.Float
import Verif.Proofs.Sample
import Mathlib.Analysis.Complex.Convex

/-!
# Error of one corner and of the boundary terms
-/

set_option linter.unusedSectionVars false

namespace Adwt
open Seg

/-- the exponential is 1-Lipschitz on the left half plane -/
theorem exp_lipschitz {a b : ℂ} (ha : a.re ≤ 0) (hb : b.re ≤ 0) :
    ‖Complex.exp a - Complex.exp b‖ ≤ ‖a - b‖ := by
  have hc : Convex ℝ {z : ℂ | z.re ≤ 0} := by
    have := convex_halfSpace_re_le 0
    simpa using this
  have := hc.norm_image_sub_le_of_norm_hasDerivWithin_le (f := Complex.exp) (f' := Complex.exp)
    (C := 1) (fun z _ => (Complex.hasDerivAt_exp z).hasDerivWithinAt)
    (fun z hz => by
      rw [Complex.norm_exp]
      exact Real.exp_le_one_iff.2 hz) hb ha
  simpa using this

/-- and almost so a little to the right of it -/
theorem exp_lipschitz' {a b : ℂ} {η : ℝ} (h0 : 0 ≤ η) (hη : η ≤ 1 / 10001) (ha : a.re ≤ η)
    (hb : b.re ≤ η) : ‖Complex.exp a‖ ≤ 1.0001 ∧ ‖Complex.exp a - Complex.exp b‖ ≤ 1.0001 * ‖a - b‖ := by
  have he : Real.exp η ≤ 1.0001 := by
    have h1 := Real.add_one_le_exp (-η)
    have h2 : Real.exp η * Real.exp (-η) = 1 := by rw [← Real.exp_add]; simp
    have h3 := Real.exp_pos η
    have h4 : Real.exp η * (1 - 1 / 10001) ≤ 1 := by
      rw [← h2]; apply mul_le_mul_of_nonneg_left _ h3.le; linarith
    norm_num at h4 ⊢
    linarith
  constructor
  · rw [Complex.norm_exp]
    exact (Real.exp_le_exp.2 ha).trans he
  · have h := exp_lipschitz (a := a - η) (b := b - η) (by simpa using ha) (by simpa using hb)
    have e : Complex.exp a - Complex.exp b =
        (Real.exp η : ℂ) * (Complex.exp (a - η) - Complex.exp (b - η)) := by
      rw [mul_sub, Complex.ofReal_exp, ← Complex.exp_add, ← Complex.exp_add]; simp
    rw [e, norm_mul, Complex.norm_real, Real.norm_of_nonneg (Real.exp_nonneg _)]
    rw [sub_sub_sub_cancel_right] at h
    exact mul_le_mul he h (norm_nonneg _) (by norm_num)

theorem near_norm {a b : ℂ} {e T : ℝ} (h : ‖a - b‖ ≤ e) (hb : ‖b‖ ≤ T) : ‖a‖ ≤ T + e := by
  have := norm_add_le (a - b) b
  rw [sub_add_cancel] at this
  linarith

theorem near_trans {a b c : ℂ} {e e' : ℝ} (h : ‖a - b‖ ≤ e) (h' : ‖b - c‖ ≤ e') :
    ‖a - c‖ ≤ e + e' := by
  have := norm_add_le (a - b) (b - c)
  rw [sub_add_sub_cancel] at this
  linarith

theorem near_add {a b x y : ℂ} {e e' : ℝ} (h : ‖a - x‖ ≤ e) (h' : ‖b - y‖ ≤ e') :
    ‖a + b - (x + y)‖ ≤ e + e' := by
  have := norm_add_le (a - x) (b - y)
  have e : a + b - (x + y) = a - x + (b - y) := by ring
  rw [e]; linarith

theorem near_sub {a b x y : ℂ} {e e' : ℝ} (h : ‖a - x‖ ≤ e) (h' : ‖b - y‖ ≤ e') :
    ‖a - b - (x - y)‖ ≤ e + e' := by
  have := norm_sub_le (a - x) (b - y)
  have e : a - b - (x - y) = a - x - (b - y) := by ring
  rw [e]; linarith

theorem near_mul {a b x y : ℂ} {e e' X B : ℝ} (h : ‖a - x‖ ≤ e) (h' : ‖b - y‖ ≤ e')
    (hb : ‖b‖ ≤ B) (hx : ‖x‖ ≤ X) : ‖a * b - x * y‖ ≤ e * B + X * e' := by
  have e1 : a * b - x * y = (a - x) * b + x * (b - y) := by ring
  rw [e1]
  refine (norm_add_le _ _).trans ?_
  rw [norm_mul, norm_mul]
  have he : 0 ≤ e := (norm_nonneg _).trans h
  have hX : 0 ≤ X := (norm_nonneg _).trans hx
  have := mul_le_mul h hb (norm_nonneg _) he
  have := mul_le_mul hx h' (norm_nonneg _) hX
  linarith

theorem norm_mul_le' {a b : ℂ} {A B : ℝ} (ha : ‖a‖ ≤ A) (hb : ‖b‖ ≤ B) : ‖a * b‖ ≤ A * B := by
  rw [norm_mul]
  exact mul_le_mul ha hb (norm_nonneg _) ((norm_nonneg _).trans ha)

variable {C : Type} [Zero C] [Add C] [Sub C] [Mul C] [Div C]

theorem roundErr_le {ε m B : ℝ} (h0 : 0 ≤ ε) (hm : m ≤ B) (hB : 1 / 2 ^ 80 ≤ B) :
    roundErr ε m ≤ ε * B := by
  unfold roundErr
  apply mul_le_mul_of_nonneg_left _ h0
  exact max_le hm (le_trans (by norm_num) hB)

/-- in any case -/
theorem roundErr_add {ε m B : ℝ} (h0 : 0 ≤ ε) (hm : m ≤ B) (hB : 0 ≤ B) :
    roundErr ε m ≤ ε * (B + 1 / 2 ^ 80) := by
  unfold roundErr
  apply mul_le_mul_of_nonneg_left _ h0
  have : (0 : ℝ) ≤ 1 / 2 ^ 80 := by positivity
  exact max_le (by linarith) (by linarith)

/-- powers of `ε` times a quantity -/
theorem eps_pows {ε X : ℝ} (h0 : 0 ≤ ε) (h1 : ε ≤ 1 / 1000) (hX : 0 ≤ X) :
    (0 ≤ ε * X ∧ ε * X ≤ 1 / 1000 * X) ∧
    (0 ≤ ε * (ε * X) ∧ ε * (ε * X) ≤ 1 / 1000 * (ε * X)) ∧
    (0 ≤ ε * (ε * (ε * X)) ∧ ε * (ε * (ε * X)) ≤ 1 / 1000 * (ε * (ε * X))) ∧
    (0 ≤ ε * (ε * (ε * (ε * X))) ∧ ε * (ε * (ε * (ε * X))) ≤ 1 / 1000 * (ε * (ε * (ε * X)))) ∧
    (0 ≤ ε * (ε * (ε * (ε * (ε * X)))) ∧
      ε * (ε * (ε * (ε * (ε * X)))) ≤ 1 / 1000 * (ε * (ε * (ε * (ε * X))))) := by
  refine ⟨⟨by positivity, ?_⟩, ⟨by positivity, ?_⟩, ⟨by positivity, ?_⟩, ⟨by positivity, ?_⟩,
    ⟨by positivity, ?_⟩⟩ <;> exact mul_le_mul_of_nonneg_right h1 (by positivity)

theorem lo_mul {A B : ℝ} (A0 : 1 / 2 ^ 45 ≤ A) (B0 : 1 / 2 ^ 35 ≤ B) : 1 / 2 ^ 80 ≤ A * B := by
  calc (1 : ℝ) / 2 ^ 80 = 1 / 2 ^ 45 * (1 / 2 ^ 35) := by norm_num
    _ ≤ A * B := mul_le_mul A0 B0 (by positivity) (le_trans (by positivity) A0)

/-- a product which does not underflow -/
macro "lo_mul_tac" : tactic => `(tactic| first
  | (apply Adwt.lo_mul <;> linarith)
  | (rw [mul_comm]; apply Adwt.lo_mul <;> linarith))

namespace Accurate
variable {ops : COps ℝ C} {val : C → ℂ} {ε : ℝ} (h : Accurate ops val ε) (h0 : 0 ≤ ε)
include h h0

theorem add' {a b : C} {x y : ℂ} {e e' X Y : ℝ} (ha : ‖val a - x‖ ≤ e) (hb : ‖val b - y‖ ≤ e')
    (hX : ‖val a‖ ≤ X) (hY : ‖val b‖ ≤ Y) (lo : 1 / 2 ^ 80 ≤ X + Y := by linarith)
    (hi : X + Y ≤ 2 ^ 110 := by linarith) :
    ‖val (a + b) - (x + y)‖ ≤ ε * (X + Y) + (e + e') := by
  have h1 := h.add a b (by linarith)
  have h2 : roundErr ε ‖val a + val b‖ ≤ ε * (X + Y) :=
    roundErr_le h0 ((norm_add_le _ _).trans (by linarith)) lo
  exact near_trans (h1.trans h2) (near_add ha hb)

theorem sub' {a b : C} {x y : ℂ} {e e' X Y : ℝ} (ha : ‖val a - x‖ ≤ e) (hb : ‖val b - y‖ ≤ e')
    (hX : ‖val a‖ ≤ X) (hY : ‖val b‖ ≤ Y) (lo : 1 / 2 ^ 80 ≤ X + Y := by linarith)
    (hi : X + Y ≤ 2 ^ 110 := by linarith) :
    ‖val (a - b) - (x - y)‖ ≤ ε * (X + Y) + (e + e') := by
  have h1 := h.sub a b (by linarith)
  have h2 : roundErr ε ‖val a - val b‖ ≤ ε * (X + Y) :=
    roundErr_le h0 ((norm_sub_le _ _).trans (by linarith)) lo
  exact near_trans (h1.trans h2) (near_sub ha hb)

omit h h0 in
theorem hi_mul {a b A B : ℝ} (ha : 0 ≤ a) (hb : 0 ≤ b) (hA : a ≤ A) (hB : b ≤ B) (A1 : A ≤ 2 ^ 54)
    (B1 : B ≤ 2 ^ 54) : a * b ≤ 2 ^ 108 := by
  calc a * b ≤ 2 ^ 54 * 2 ^ 54 := mul_le_mul (hA.trans A1) (hB.trans B1) hb (by positivity)
    _ = _ := by norm_num

theorem mul' {a b : C} {x y : ℂ} {e e' X A B : ℝ} (ha : ‖val a - x‖ ≤ e) (hb : ‖val b - y‖ ≤ e')
    (hA : ‖val a‖ ≤ A) (hB : ‖val b‖ ≤ B) (hx : ‖x‖ ≤ X) (lo : 1 / 2 ^ 80 ≤ A * B := by lo_mul_tac)
    (A1 : A ≤ 2 ^ 54 := by linarith) (B1 : B ≤ 2 ^ 54 := by linarith) :
    ‖val (a * b) - x * y‖ ≤ ε * (A * B) + (e * B + X * e') := by
  have h1 := h.mul a b ((hi_mul (norm_nonneg _) (norm_nonneg _) hA hB A1 B1).trans (by norm_num))
  have h2 : roundErr ε ‖val a * val b‖ ≤ ε * (A * B) := roundErr_le h0 (norm_mul_le' hA hB) lo
  exact near_trans (h1.trans h2) (near_mul ha hb hB hx)

/-- larger factors -/
theorem mul2 {a b : C} {x y : ℂ} {e e' X A B : ℝ} (ha : ‖val a - x‖ ≤ e) (hb : ‖val b - y‖ ≤ e')
    (hA : ‖val a‖ ≤ A) (hB : ‖val b‖ ≤ B) (hx : ‖x‖ ≤ X) (hi : A * B ≤ 2 ^ 110) :
    ‖val (a * b) - x * y‖ ≤ ε * (A * B + 1 / 2 ^ 80) + (e * B + X * e') := by
  have hAB : ‖val a‖ * ‖val b‖ ≤ A * B :=
    mul_le_mul hA hB (norm_nonneg _) ((norm_nonneg _).trans hA)
  have h1 := h.mul a b (hAB.trans hi)
  have h2 := roundErr_add h0 (norm_mul_le' hA hB) ((norm_nonneg _).trans (norm_mul_le' hA hB))
  exact near_trans (h1.trans h2) (near_mul ha hb hB hx)

theorem fma' {a b c : C} {x y w : ℂ} {e e' e'' X A B T : ℝ} (ha : ‖val a - x‖ ≤ e)
    (hb : ‖val b - y‖ ≤ e') (hc : ‖val c - w‖ ≤ e'') (hA : ‖val a‖ ≤ A) (hB : ‖val b‖ ≤ B)
    (hx : ‖x‖ ≤ X) (hT : ‖val c‖ ≤ T) (T0 : 1 / 2 ^ 80 ≤ T := by linarith)
    (A1 : A ≤ 2 ^ 54 := by linarith) (B1 : B ≤ 2 ^ 54 := by linarith)
    (T1 : T ≤ 2 ^ 108 := by linarith) :
    ‖val (ops.fma a b c) - (x * y + w)‖ ≤ ε * (A * B + T) + (e * B + X * e' + e'') := by
  have hi := hi_mul (norm_nonneg _) (norm_nonneg _) hA hB A1 B1
  have h1 := h.fma a b c (by norm_num at hi T1 ⊢; linarith)
  have hAB := norm_mul_le' hA hB
  have h2 : roundErr ε (‖val a * val b‖ + ‖val c‖) ≤ ε * (A * B + T) :=
    roundErr_le h0 (by linarith) (by linarith [norm_nonneg (val a * val b)])
  exact near_trans (h1.trans h2) (near_add (near_mul ha hb hB hx) hc)

theorem fms' {a b c : C} {x y w : ℂ} {e e' e'' X A B T : ℝ} (ha : ‖val a - x‖ ≤ e)
    (hb : ‖val b - y‖ ≤ e') (hc : ‖val c - w‖ ≤ e'') (hA : ‖val a‖ ≤ A) (hB : ‖val b‖ ≤ B)
    (hx : ‖x‖ ≤ X) (hT : ‖val c‖ ≤ T) (T0 : 1 / 2 ^ 80 ≤ T := by linarith)
    (A1 : A ≤ 2 ^ 54 := by linarith) (B1 : B ≤ 2 ^ 54 := by linarith)
    (T1 : T ≤ 2 ^ 108 := by linarith) :
    ‖val (ops.fms a b c) - (x * y - w)‖ ≤ ε * (A * B + T) + (e * B + X * e' + e'') := by
  have hi := hi_mul (norm_nonneg _) (norm_nonneg _) hA hB A1 B1
  have h1 := h.fms a b c (by norm_num at hi T1 ⊢; linarith)
  have hAB := norm_mul_le' hA hB
  have h2 : roundErr ε (‖val a * val b‖ + ‖val c‖) ≤ ε * (A * B + T) :=
    roundErr_le h0 (by linarith) (by linarith [norm_nonneg (val a * val b)])
  exact near_trans (h1.trans h2) (near_sub (near_mul ha hb hB hx) hc)

theorem fnma' {a b c : C} {x y w : ℂ} {e e' e'' X A B T : ℝ} (ha : ‖val a - x‖ ≤ e)
    (hb : ‖val b - y‖ ≤ e') (hc : ‖val c - w‖ ≤ e'') (hA : ‖val a‖ ≤ A) (hB : ‖val b‖ ≤ B)
    (hx : ‖x‖ ≤ X) (hT : ‖val c‖ ≤ T) (T0 : 1 / 2 ^ 80 ≤ T := by linarith)
    (A1 : A ≤ 2 ^ 54 := by linarith) (B1 : B ≤ 2 ^ 54 := by linarith)
    (T1 : T ≤ 2 ^ 108 := by linarith) :
    ‖val (ops.fnma a b c) - (w - x * y)‖ ≤ ε * (A * B + T) + (e * B + X * e' + e'') := by
  have hi := hi_mul (norm_nonneg _) (norm_nonneg _) hA hB A1 B1
  have h1 := h.fnma a b c (by norm_num at hi T1 ⊢; linarith)
  have hAB := norm_mul_le' hA hB
  have h2 : roundErr ε (‖val a * val b‖ + ‖val c‖) ≤ ε * (A * B + T) :=
    roundErr_le h0 (by linarith) (by linarith [norm_nonneg (val a * val b)])
  have h3 := near_sub hc (near_mul ha hb hB hx)
  have e : -(val a * val b) + val c = val c - val a * val b := by ring
  rw [e] at h1
  have := near_trans (h1.trans h2) h3
  linarith

omit h0 in
theorem self_ofK (x : ℝ) : ‖val (ops.ofK x) - x‖ ≤ 0 := by rw [h.ofK]; simp

omit h0 in
theorem norm_ofK {x T : ℝ} (hx : |x| ≤ T) : ‖val (ops.ofK x)‖ ≤ T := by
  rw [h.ofK, Complex.norm_real]; exact hx

end Accurate

theorem norm_real_le {x T : ℝ} (hx : |x| ≤ T) : ‖(x : ℂ)‖ ≤ T := by
  rw [Complex.norm_real]; exact hx

end Adwt
