import Mathlib.Analysis.Complex.ExponentialBounds
import Verif.Spec.Float
import Verif.Num.Ftz

/-!
# Complex floats

`std::complex<float>` and `xsimd::batch<std::complex<float>>` with every real operation rounded as
in IEEE binary32 (to nearest even, gradual underflow, overflow to the largest magnitude): the textbook
formulas, which are those of `-ffast-math` and of xsimd. (`/repo` contains neither the standard library nor xsimd; the formulas
are stated from knowledge of them, and only used to show that `Accurate` is met.)
-/

namespace Adwt

/-- A rounding of reals to floats: odd, with relative error `2^-24` down to the smallest normal number
and an error of at most `2^-126` below it. -/
class GoodRnd (rnd : ℝ → ℝ) : Prop where
  neg : ∀ x, rnd (-x) = -rnd x
  err : ∀ x, |x| ≤ 2 ^ 127 → |rnd x - x| ≤ 1 / 2 ^ 24 * |x| + 1 / 2 ^ 126

instance : GoodRnd (ieee32 : ℝ → ℝ) where
  neg := ieee32_neg
  err x h := by
    refine (ieee32_err h).trans ?_
    have h0 := abs_nonneg x
    have h1 : max |x| (1 / 2 ^ 126) ≤ |x| + 1 / 2 ^ 126 :=
      max_le (by linarith [show (0 : ℝ) ≤ 1 / 2 ^ 126 by positivity]) (by linarith)
    have h2 := mul_le_mul_of_nonneg_left h1 (show (0 : ℝ) ≤ 1 / 2 ^ 24 by positivity)
    rw [mul_add] at h2
    refine h2.trans (add_le_add le_rfl ?_)
    norm_num

instance : GoodRnd (ftz32 : ℝ → ℝ) where
  neg := ftz32_neg
  err _ h := ftz32_err h

/-- `std::complex<float>`, or one lane of a batch; the operations round with `rnd` -/
@[ext] structure CFl (rnd : ℝ → ℝ) where
  re : ℝ
  im : ℝ

/-- with the rounding of IEEE binary32 -/
abbrev CFloat : Type := CFl ieee32

set_option linter.unusedSectionVars false

namespace CFloat
variable {rnd : ℝ → ℝ}

/-- the complex number it stands for -/
def val (a : CFl rnd) : ℂ := ⟨a.re, a.im⟩

noncomputable section

instance : Zero (CFl rnd) := ⟨⟨0, 0⟩⟩
instance : Add (CFl rnd) := ⟨fun a b => ⟨rnd (a.re + b.re), rnd (a.im + b.im)⟩⟩
instance : Sub (CFl rnd) := ⟨fun a b => ⟨rnd (a.re - b.re), rnd (a.im - b.im)⟩⟩
instance : Mul (CFl rnd) := ⟨fun a b =>
  ⟨rnd (rnd (a.re * b.re) - rnd (a.im * b.im)), rnd (rnd (a.re * b.im) + rnd (a.im * b.re))⟩⟩
instance : Div (CFl rnd) := ⟨fun a b =>
  let e := rnd (rnd (b.re * b.re) + rnd (b.im * b.im))
  ⟨rnd (rnd (rnd (a.re * b.re) + rnd (a.im * b.im)) / e),
    rnd (rnd (rnd (a.im * b.re) - rnd (a.re * b.im)) / e)⟩⟩

/-- `std::polar (exp re) im` -/
def exp (a : CFl rnd) : CFl rnd :=
  let m := rnd (Real.exp a.re)
  ⟨rnd (m * rnd (Real.cos a.im)), rnd (m * rnd (Real.sin a.im))⟩

/-- the operations; `fma`, `fms` and `fnma` with fused real operations -/
def ops : COps ℝ (CFl rnd) where
  ofK x := ⟨x, 0⟩
  re := CFl.re
  exp := exp
  vexp := exp
  fma a b c := ⟨rnd (a.re * b.re - rnd (a.im * b.im - c.re)),
    rnd (a.re * b.im + rnd (a.im * b.re + c.im))⟩
  fms a b c := ⟨rnd (a.re * b.re - rnd (a.im * b.im + c.re)),
    rnd (a.re * b.im + rnd (a.im * b.re - c.im))⟩
  fnma a b c := ⟨-rnd (a.re * b.re - rnd (a.im * b.im + c.re)),
    -rnd (a.re * b.im + rnd (a.im * b.re - c.im))⟩

end

/-! ### errors -/

variable [GoodRnd rnd]

theorem rel {x : ℝ} (h : |x| ≤ 2 ^ 127) : |rnd x - x| ≤ 1 / 2 ^ 24 * |x| + 1 / 2 ^ 126 := GoodRnd.err x h

theorem rel32 {x : ℝ} (h : |x| ≤ 2 ^ 127) : |ieee32 x - x| ≤ 1 / 2 ^ 24 * |x| + 1 / 2 ^ 150 := by
  refine (ieee32_err h).trans ?_
  have h0 := abs_nonneg x
  have h1 : max |x| (1 / 2 ^ 126) ≤ |x| + 1 / 2 ^ 126 :=
    max_le (by linarith [show (0 : ℝ) ≤ 1 / 2 ^ 126 by positivity]) (by linarith)
  have h2 := mul_le_mul_of_nonneg_left h1 (show (0 : ℝ) ≤ 1 / 2 ^ 24 by positivity)
  rw [mul_add] at h2
  refine h2.trans (le_of_eq ?_)
  norm_num

/-- a sum of two rounded terms -/
theorem err2 {x y x' y' : ℝ} (hx : |x' - x| ≤ 1 / 2 ^ 24 * |x| + 1 / 2 ^ 126)
    (hy : |y' - y| ≤ 1 / 2 ^ 24 * |y| + 1 / 2 ^ 126) (hs : |x| + |y| ≤ 2 ^ 120) :
    |rnd (x' + y') - (x + y)| ≤ 2.01 / 2 ^ 24 * (|x| + |y|) + 3.1 / 2 ^ 126 := by
  have h1 : |x' + y'| ≤ |x| + |y| + (|x' - x| + |y' - y|) := by
    have e : x' + y' = (x + y) + ((x' - x) + (y' - y)) := by ring
    rw [e]
    exact (abs_add_le _ _).trans (add_le_add (abs_add_le _ _) (abs_add_le _ _))
  have x0 := abs_nonneg x
  have y0 := abs_nonneg y
  have h := rel (rnd := rnd) (x := x' + y') (by norm_num at hx hy hs ⊢; linarith)
  have h2 : |rnd (x' + y') - (x + y)| ≤ |rnd (x' + y') - (x' + y')| + (|x' - x| + |y' - y|) := by
    have e : rnd (x' + y') - (x + y) = (rnd (x' + y') - (x' + y')) + ((x' - x) + (y' - y)) := by
      ring
    rw [e]
    exact (abs_add_le _ _).trans (by gcongr; exact abs_add_le _ _)
  norm_num at hx hy h ⊢
  linarith

theorem err2_sub {x y x' y' : ℝ} (hx : |x' - x| ≤ 1 / 2 ^ 24 * |x| + 1 / 2 ^ 126)
    (hy : |y' - y| ≤ 1 / 2 ^ 24 * |y| + 1 / 2 ^ 126) (hs : |x| + |y| ≤ 2 ^ 120) :
    |rnd (x' - y') - (x - y)| ≤ 2.01 / 2 ^ 24 * (|x| + |y|) + 3.1 / 2 ^ 126 := by
  have := err2 (rnd := rnd) (x := x) (y := -y) (x' := x') (y' := -y') hx (by
    rw [show -y' - -y = -(y' - y) by ring, abs_neg, abs_neg]; exact hy) (by rwa [abs_neg])
  simpa only [← sub_eq_add_neg, abs_neg] using this

theorem self_err (x : ℝ) : |x - x| ≤ 1 / 2 ^ 24 * |x| + 1 / 2 ^ 126 := by
  rw [sub_self, abs_zero]; positivity

/-- the parts of a product -/
theorem prod_norm {a b c d δ e1 e2 : ℝ} (hδ : 0 ≤ δ) (h1 : |e1| ≤ δ * (|a| * |c| + |b| * |d|))
    (h2 : |e2| ≤ δ * (|a| * |d| + |b| * |c|)) :
    ‖(⟨e1, e2⟩ : ℂ)‖ ≤ 1.5 * δ * (‖(⟨a, b⟩ : ℂ)‖ * ‖(⟨c, d⟩ : ℂ)‖) := by
  have k1 : ‖(⟨e1, e2⟩ : ℂ)‖ ^ 2 = e1 ^ 2 + e2 ^ 2 := by
    rw [← Complex.normSq_eq_norm_sq, Complex.normSq_mk]; ring
  have k2 : ‖(⟨a, b⟩ : ℂ)‖ ^ 2 = a ^ 2 + b ^ 2 := by
    rw [← Complex.normSq_eq_norm_sq, Complex.normSq_mk]; ring
  have k3 : ‖(⟨c, d⟩ : ℂ)‖ ^ 2 = c ^ 2 + d ^ 2 := by
    rw [← Complex.normSq_eq_norm_sq, Complex.normSq_mk]; ring
  have e1' : e1 ^ 2 ≤ (δ * (|a| * |c| + |b| * |d|)) ^ 2 := by
    rw [← sq_abs e1]; exact pow_le_pow_left₀ (abs_nonneg _) h1 2
  have e2' : e2 ^ 2 ≤ (δ * (|a| * |d| + |b| * |c|)) ^ 2 := by
    rw [← sq_abs e2]; exact pow_le_pow_left₀ (abs_nonneg _) h2 2
  apply le_of_sq_le_sq _ (by positivity)
  have : (1.5 * δ * (‖(⟨a, b⟩ : ℂ)‖ * ‖(⟨c, d⟩ : ℂ)‖)) ^ 2 =
      2.25 * δ ^ 2 * ((a ^ 2 + b ^ 2) * (c ^ 2 + d ^ 2)) := by
    rw [← k2, ← k3]; ring
  rw [this, k1]
  have ha := sq_abs a
  have hb := sq_abs b
  have hc := sq_abs c
  have hd := sq_abs d
  have key : (|a| * |c| + |b| * |d|) ^ 2 + (|a| * |d| + |b| * |c|) ^ 2 ≤
      2 * ((a ^ 2 + b ^ 2) * (c ^ 2 + d ^ 2)) := by
    rw [← ha, ← hb, ← hc, ← hd]
    nlinarith [sq_nonneg (|a| * |c| - |b| * |d|), sq_nonneg (|a| * |d| - |b| * |c|)]
  have hp : 0 ≤ (a ^ 2 + b ^ 2) * (c ^ 2 + d ^ 2) := by positivity
  calc e1 ^ 2 + e2 ^ 2 ≤ δ ^ 2 * ((|a| * |c| + |b| * |d|) ^ 2 + (|a| * |d| + |b| * |c|) ^ 2) := by
        rw [mul_pow] at e1' e2'; linarith
    _ ≤ δ ^ 2 * (2 * ((a ^ 2 + b ^ 2) * (c ^ 2 + d ^ 2))) := by gcongr
    _ ≤ _ := by nlinarith [sq_nonneg δ, mul_nonneg (sq_nonneg δ) hp]

/-- both parts of a number -/
theorem parts_norm {a b δ e1 e2 : ℝ} (h1 : |e1| ≤ δ * |a|) (h2 : |e2| ≤ δ * |b|) (hδ : 0 ≤ δ) :
    ‖(⟨e1, e2⟩ : ℂ)‖ ≤ δ * ‖(⟨a, b⟩ : ℂ)‖ := by
  have k1 : ‖(⟨e1, e2⟩ : ℂ)‖ ^ 2 = e1 ^ 2 + e2 ^ 2 := by
    rw [← Complex.normSq_eq_norm_sq, Complex.normSq_mk]; ring
  have k2 : ‖(⟨a, b⟩ : ℂ)‖ ^ 2 = a ^ 2 + b ^ 2 := by
    rw [← Complex.normSq_eq_norm_sq, Complex.normSq_mk]; ring
  have e1' : e1 ^ 2 ≤ (δ * |a|) ^ 2 := by
    rw [← sq_abs e1]; exact pow_le_pow_left₀ (abs_nonneg _) h1 2
  have e2' : e2 ^ 2 ≤ (δ * |b|) ^ 2 := by
    rw [← sq_abs e2]; exact pow_le_pow_left₀ (abs_nonneg _) h2 2
  apply le_of_sq_le_sq _ (by positivity)
  rw [mul_pow, sq_abs] at e1' e2'
  rw [mul_pow, k1, k2]
  linarith

/-- split an error in two -/
theorem split {e s t : ℝ} (hs : 0 ≤ s) (ht : 0 ≤ t) (he : |e| ≤ s + t) :
    ∃ f g : ℝ, e = f + g ∧ |f| ≤ s ∧ |g| ≤ t := by
  have := abs_le.1 he
  refine ⟨max (-s) (min e s), e - max (-s) (min e s), by ring, ?_, ?_⟩
  · rw [abs_le]; constructor
    · exact le_max_left _ _
    · exact max_le (by linarith) (min_le_right _ _)
  · rw [abs_le]
    rcases le_total e s with h | h
    · rw [min_eq_left h]
      rcases le_total (-s) e with h' | h'
      · rw [max_eq_right h']; constructor <;> linarith
      · rw [max_eq_left h']; constructor <;> linarith
    · rw [min_eq_right h, max_eq_right (by linarith)]; constructor <;> linarith

/-- an additional error in both parts -/
theorem with_abs {e1 e2 s1 s2 κ M : ℝ} (h1 : |e1| ≤ s1 + κ) (h2 : |e2| ≤ s2 + κ) (hs1 : 0 ≤ s1)
    (hs2 : 0 ≤ s2) (hκ : 0 ≤ κ)
    (h : ∀ f1 f2 : ℝ, |f1| ≤ s1 → |f2| ≤ s2 → ‖(⟨f1, f2⟩ : ℂ)‖ ≤ M) :
    ‖(⟨e1, e2⟩ : ℂ)‖ ≤ M + 2 * κ := by
  obtain ⟨f1, g1, rfl, hf1, hg1⟩ := split hs1 hκ h1
  obtain ⟨f2, g2, rfl, hf2, hg2⟩ := split hs2 hκ h2
  have e : (⟨f1 + g1, f2 + g2⟩ : ℂ) = ⟨f1, f2⟩ + ⟨g1, g2⟩ := rfl
  rw [e]
  refine (norm_add_le _ _).trans (add_le_add (h _ _ hf1 hf2) ?_)
  refine (Complex.norm_le_abs_re_add_abs_im _).trans ?_
  show |g1| + |g2| ≤ _
  linarith

theorem fma_norm {a b c d u v δ e1 e2 : ℝ} (hδ : 0 ≤ δ)
    (h1 : |e1| ≤ δ * (|a| * |c| + |b| * |d| + |u|)) (h2 : |e2| ≤ δ * (|a| * |d| + |b| * |c| + |v|)) :
    ‖(⟨e1, e2⟩ : ℂ)‖ ≤ 1.5 * δ * (‖(⟨a, b⟩ : ℂ)‖ * ‖(⟨c, d⟩ : ℂ)‖ + ‖(⟨u, v⟩ : ℂ)‖) := by
  obtain ⟨f1, g1, rfl, hf1, hg1⟩ := split (s := δ * (|a| * |c| + |b| * |d|)) (t := δ * |u|)
    (by positivity) (by positivity) (by rw [← mul_add]; exact h1)
  obtain ⟨f2, g2, rfl, hf2, hg2⟩ := split (s := δ * (|a| * |d| + |b| * |c|)) (t := δ * |v|)
    (by positivity) (by positivity) (by rw [← mul_add]; exact h2)
  have e : (⟨f1 + g1, f2 + g2⟩ : ℂ) = ⟨f1, f2⟩ + ⟨g1, g2⟩ := rfl
  rw [e]
  refine (norm_add_le _ _).trans ?_
  have a1 := prod_norm hδ hf1 hf2
  have a2 := parts_norm hg1 hg2 hδ
  have : 0 ≤ δ * ‖(⟨u, v⟩ : ℂ)‖ := by positivity
  linarith

theorem norm_mk_mul (a b c d : ℝ) : ‖(⟨a, b⟩ : ℂ)‖ * ‖(⟨c, d⟩ : ℂ)‖ = ‖(⟨a, b⟩ : ℂ) * ⟨c, d⟩‖ :=
  (norm_mul _ _).symm

/-- the form of the error bound -/
theorem toRound {x M : ℝ} (h : x ≤ 7.7 / 2 ^ 24 * M + 1 / 2 ^ 107) : x ≤ roundErr (1 / 2 ^ 21) M := by
  unfold roundErr
  have h1 := le_max_left M (1 / 2 ^ 80)
  have h2 := le_max_right M (1 / 2 ^ 80)
  generalize max M (1 / 2 ^ 80) = m at *
  norm_num at h h2 ⊢
  linarith

theorem re_le (a : CFl rnd) : |a.re| ≤ ‖val a‖ := Complex.abs_re_le_norm (val a)
theorem im_le (a : CFl rnd) : |a.im| ≤ ‖val a‖ := Complex.abs_im_le_norm (val a)

theorem mul_le {a b : CFl rnd} {x y M : ℝ} (hx : |x| ≤ ‖val a‖) (hy : |y| ≤ ‖val b‖)
    (h : ‖val a‖ * ‖val b‖ ≤ M) : |x * y| ≤ M := by
  rw [abs_mul]
  exact (mul_le_mul hx hy (abs_nonneg _) (norm_nonneg _)).trans h

theorem err_add (a b : CFl rnd) (h : ‖val a‖ + ‖val b‖ ≤ 2 ^ 110) :
    ‖val (a + b) - (val a + val b)‖ ≤ roundErr (1 / 2 ^ 21) ‖val a + val b‖ := by
  have r1 : |a.re + b.re| ≤ 2 ^ 127 := (abs_add_le _ _).trans (by
    have := re_le a; have := re_le b; norm_num at h ⊢; linarith)
  have r2 : |a.im + b.im| ≤ 2 ^ 127 := (abs_add_le _ _).trans (by
    have := im_le a; have := im_le b; norm_num at h ⊢; linarith)
  have := with_abs (rel (rnd := rnd) r1) (rel (rnd := rnd) r2) (by positivity) (by positivity) (by positivity)
    (M := 1 / 2 ^ 24 * ‖(⟨a.re + b.re, a.im + b.im⟩ : ℂ)‖) fun f1 f2 h1 h2 =>
    parts_norm h1 h2 (by positivity)
  refine (le_of_eq rfl).trans (this.trans (toRound ?_))
  show _ ≤ 7.7 / 2 ^ 24 * ‖(⟨a.re + b.re, a.im + b.im⟩ : ℂ)‖ + _
  gcongr <;> norm_num

theorem err_sub (a b : CFl rnd) (h : ‖val a‖ + ‖val b‖ ≤ 2 ^ 110) :
    ‖val (a - b) - (val a - val b)‖ ≤ roundErr (1 / 2 ^ 21) ‖val a - val b‖ := by
  have r1 : |a.re - b.re| ≤ 2 ^ 127 := (abs_sub _ _).trans (by
    have := re_le a; have := re_le b; norm_num at h ⊢; linarith)
  have r2 : |a.im - b.im| ≤ 2 ^ 127 := (abs_sub _ _).trans (by
    have := im_le a; have := im_le b; norm_num at h ⊢; linarith)
  have := with_abs (rel (rnd := rnd) r1) (rel (rnd := rnd) r2) (by positivity) (by positivity) (by positivity)
    (M := 1 / 2 ^ 24 * ‖(⟨a.re - b.re, a.im - b.im⟩ : ℂ)‖) fun f1 f2 h1 h2 =>
    parts_norm h1 h2 (by positivity)
  refine (le_of_eq rfl).trans (this.trans (toRound ?_))
  show _ ≤ 7.7 / 2 ^ 24 * ‖(⟨a.re - b.re, a.im - b.im⟩ : ℂ)‖ + _
  gcongr <;> norm_num

theorem err_mul (a b : CFl rnd) (h : ‖val a‖ * ‖val b‖ ≤ 2 ^ 110) :
    ‖val (a * b) - val a * val b‖ ≤ roundErr (1 / 2 ^ 21) ‖val a * val b‖ := by
  have q1 := mul_le (re_le a) (re_le b) h
  have q2 := mul_le (im_le a) (im_le b) h
  have q3 := mul_le (re_le a) (im_le b) h
  have q4 := mul_le (im_le a) (re_le b) h
  have up : ∀ {x : ℝ}, x ≤ 2 ^ 110 → x ≤ 2 ^ 127 := fun hx => hx.trans (by norm_num)
  have h1 := err2_sub (rnd := rnd) (rel (rnd := rnd) (up q1)) (rel (rnd := rnd) (up q2)) (by norm_num at q1 q2 ⊢; linarith)
  have h2 := err2 (rnd := rnd) (rel (rnd := rnd) (up q3)) (rel (rnd := rnd) (up q4)) (by norm_num at q3 q4 ⊢; linarith)
  rw [abs_mul, abs_mul] at h1 h2
  have := with_abs h1 h2 (by positivity) (by positivity) (by positivity) fun f1 f2 k1 k2 =>
    prod_norm (by positivity) k1 k2
  rw [norm_mk_mul] at this
  refine (le_of_eq rfl).trans (this.trans (toRound ?_))
  show _ ≤ 7.7 / 2 ^ 24 * ‖(⟨a.re, a.im⟩ : ℂ) * ⟨b.re, b.im⟩‖ + _
  gcongr <;> norm_num

/-- a fused product and sum -/
theorem err_fused {a b c d u : ℝ} (h : |a * b| + |c * d| + |u| ≤ 2 ^ 115) :
    |rnd (a * b + rnd (c * d + u)) - (a * b + (c * d + u))| ≤
      2.01 / 2 ^ 24 * (|a| * |b| + |c| * |d| + |u|) + 3.1 / 2 ^ 126 := by
  have h1 := abs_add_le (c * d) u
  have h0 := abs_nonneg (a * b)
  have hc := abs_nonneg (c * d)
  have hu := abs_nonneg u
  obtain ⟨P, hP⟩ : ∃ P, P = |a * b| := ⟨_, rfl⟩
  obtain ⟨Q, hQ⟩ : ∃ Q, Q = |c * d| := ⟨_, rfl⟩
  rw [← hP, ← hQ] at h
  rw [← hP] at h0
  rw [← hQ] at hc h1
  have := err2 (rnd := rnd) (x := a * b) (y := c * d + u) (x' := a * b) (y' := rnd (c * d + u)) (self_err _)
    (rel (rnd := rnd) (h1.trans (by norm_num at h ⊢; linarith))) (by rw [← hP]; norm_num at h ⊢; linarith)
  refine this.trans ?_
  rw [← abs_mul, ← abs_mul, ← hP, ← hQ, add_assoc P]
  gcongr

theorem neg_fused (a b c d u : ℝ) : rnd (a * b - rnd (c * d - u)) =
    rnd (a * b + rnd ((-c) * d + u)) := by
  rw [show (-c) * d + u = -(c * d - u) by ring, GoodRnd.neg (rnd := rnd), sub_eq_add_neg]

theorem err_fma' (a b c : CFl rnd) (h : ‖val a‖ * ‖val b‖ + ‖val c‖ ≤ 2 ^ 110) :
    ‖val (ops.fma a b c) - (val a * val b + val c)‖ ≤
    roundErr (1 / 2 ^ 21) (‖val a * val b‖ + ‖val c‖) := by
  have h' : ‖val a‖ * ‖val b‖ ≤ 2 ^ 110 := by have := norm_nonneg (val c); linarith
  have hc : ‖val c‖ ≤ 2 ^ 110 := by
    have := mul_nonneg (norm_nonneg (val a)) (norm_nonneg (val b)); linarith
  have q1 := mul_le (re_le a) (re_le b) h'
  have q2 := mul_le (im_le a) (im_le b) h'
  have q3 := mul_le (re_le a) (im_le b) h'
  have q4 := mul_le (im_le a) (re_le b) h'
  have c1 := (re_le c).trans hc
  have c2 := (im_le c).trans hc
  have h1 := err_fused (rnd := rnd) (a := a.re) (b := b.re) (c := -a.im) (d := b.im) (u := c.re)
    (by rw [neg_mul, abs_neg]; norm_num at q1 q2 c1 ⊢; linarith)
  have h2 := err_fused (rnd := rnd) (a := a.re) (b := b.im) (c := a.im) (d := b.re) (u := c.im)
    (by norm_num at q3 q4 c2 ⊢; linarith)
  rw [abs_neg, ← neg_fused (rnd := rnd)] at h1
  have := with_abs h1 h2 (by positivity) (by positivity) (by positivity) fun f1 f2 k1 k2 =>
    fma_norm (by positivity) k1 k2
  rw [norm_mk_mul] at this
  have e : val (ops.fma a b c) - (val a * val b + val c) =
      ⟨rnd (a.re * b.re - rnd (a.im * b.im - c.re)) - (a.re * b.re + (-a.im * b.im + c.re)),
        rnd (a.re * b.im + rnd (a.im * b.re + c.im)) - (a.re * b.im + (a.im * b.re + c.im))⟩ := by
    apply Complex.ext
    · show rnd (a.re * b.re - rnd (a.im * b.im - c.re)) - (a.re * b.re - a.im * b.im + c.re) =
        rnd (a.re * b.re - rnd (a.im * b.im - c.re)) - (a.re * b.re + (-a.im * b.im + c.re))
      ring
    · show _ - (a.re * b.im + a.im * b.re + c.im) = _
      rw [add_assoc]; rfl
  rw [e]
  refine this.trans (toRound ?_)
  show _ ≤ 7.7 / 2 ^ 24 * (‖(⟨a.re, a.im⟩ : ℂ) * ⟨b.re, b.im⟩‖ + ‖(⟨c.re, c.im⟩ : ℂ)‖) + _
  gcongr <;> norm_num

theorem fms_eq (a b c : CFl rnd) : ops.fms a b c = ops.fma a b ⟨-c.re, -c.im⟩ := by
  show (⟨_, _⟩ : (CFl rnd)) = ⟨_, _⟩
  simp only [sub_neg_eq_add, ← sub_eq_add_neg]

theorem err_fms (a b c : CFl rnd) (h : ‖val a‖ * ‖val b‖ + ‖val c‖ ≤ 2 ^ 110) :
    ‖val (ops.fms a b c) - (val a * val b - val c)‖ ≤
    roundErr (1 / 2 ^ 21) (‖val a * val b‖ + ‖val c‖) := by
  have e : val (⟨-c.re, -c.im⟩ : CFl rnd) = -val c := rfl
  have := err_fma' a b ⟨-c.re, -c.im⟩ (by rw [e, norm_neg]; exact h)
  rwa [e, norm_neg, ← sub_eq_add_neg, ← fms_eq] at this

theorem err_fnma (a b c : CFl rnd) (h : ‖val a‖ * ‖val b‖ + ‖val c‖ ≤ 2 ^ 110) :
    ‖val (ops.fnma a b c) - (-(val a * val b) + val c)‖ ≤
    roundErr (1 / 2 ^ 21) (‖val a * val b‖ + ‖val c‖) := by
  have e : val (ops.fnma a b c) = -val (ops.fms a b c) := rfl
  rw [e, show -val (ops.fms a b c) - (-(val a * val b) + val c) =
    -(val (ops.fms a b c) - (val a * val b - val c)) by ring, norm_neg]
  exact err_fms a b c h

/-- a product of two rounded numbers -/
theorem err_exp_part {m c : ℝ} (m0 : |m| ≤ 4) (c0 : |c| ≤ 1) :
    |rnd (rnd m * rnd c) - m * c| ≤ 7 / 2 ^ 24 * |m * c| + 1 / 2 ^ 118 := by
  have hm := rel (rnd := rnd) (x := m) (m0.trans (by norm_num))
  have hc := rel (rnd := rnd) (x := c) (c0.trans (by norm_num))
  set α := rnd m - m with hα
  set β := rnd c - c with hβ
  have k0 : rnd m * rnd c = m * c + (α * β + α * c + m * β) := by rw [hα, hβ]; ring
  have k1 : |α * β + α * c + m * β| ≤ 2.1 / 2 ^ 24 * |m * c| + 1 / 2 ^ 121 := by
    refine (abs_add_le _ _).trans ((add_le_add (abs_add_le _ _) le_rfl).trans ?_)
    simp only [abs_mul]
    have p2 : |α| * |c| ≤ (1 / 2 ^ 24 * |m| + 1 / 2 ^ 126) * |c| := by gcongr
    have p3 : |m| * |β| ≤ |m| * (1 / 2 ^ 24 * |c| + 1 / 2 ^ 126) := by gcongr
    have p1 : |α| * |β| ≤ (1 / 2 ^ 24 * |m| + 1 / 2 ^ 126) * (1 / 2 ^ 24 * |c| + 1 / 2 ^ 126) := by
      gcongr
    have m1 := abs_nonneg m
    have c1 := abs_nonneg c
    have mc : 0 ≤ |m| * |c| := by positivity
    rw [add_mul] at p2
    rw [mul_add] at p3
    rw [add_mul, mul_add, mul_add] at p1
    norm_num at p1 p2 p3 ⊢
    linarith
  have k2 : |rnd m * rnd c| ≤ |m * c| + (2.1 / 2 ^ 24 * |m * c| + 1 / 2 ^ 121) := by
    rw [k0]; exact (abs_add_le _ _).trans (by linarith)
  have mc4 : |m * c| ≤ 4 := by
    rw [abs_mul]
    calc |m| * |c| ≤ 4 * 1 := by gcongr
      _ = 4 := by norm_num
  have h := rel (rnd := rnd) (x := rnd m * rnd c) (k2.trans (by norm_num at mc4 ⊢; linarith))
  have k3 := abs_add_le (rnd (rnd m * rnd c) - rnd m * rnd c)
    (rnd m * rnd c - m * c)
  rw [sub_add_sub_cancel] at k3
  have k4 : |rnd m * rnd c - m * c| ≤ 2.1 / 2 ^ 24 * |m * c| + 1 / 2 ^ 121 := by
    rw [k0, add_sub_cancel_left]; exact k1
  have : 0 ≤ |m * c| := abs_nonneg _
  generalize |m * c| = M at *
  generalize |rnd m * rnd c| = M' at *
  norm_num at h k2 k3 k4 ⊢
  linarith

theorem err_exp (a : CFl rnd) (ha : (val a).re ≤ 1) : ‖val (exp a) - Complex.exp (val a)‖ ≤
    roundErr (1 / 2 ^ 21) ‖Complex.exp (val a)‖ := by
  have hm : |Real.exp a.re| ≤ 4 := by
    rw [abs_of_pos (Real.exp_pos _)]
    have h1 := Real.exp_le_exp.2 ha
    have h2 := Real.exp_one_lt_three
    have : Real.exp a.re = Real.exp (val a).re := rfl
    rw [this]
    linarith
  have e : Complex.exp (val a) = ⟨Real.exp a.re * Real.cos a.im, Real.exp a.re * Real.sin a.im⟩ := by
    apply Complex.ext
    · rw [Complex.exp_re]; rfl
    · rw [Complex.exp_im]; rfl
  rw [e]
  have := with_abs (err_exp_part (rnd := rnd) hm (Real.abs_cos_le_one a.im)) (err_exp_part (rnd := rnd) hm (Real.abs_sin_le_one a.im))
    (by positivity) (by positivity) (by positivity) fun f1 f2 k1 k2 => parts_norm k1 k2 (by positivity)
  refine (le_of_eq rfl).trans (this.trans (toRound ?_))
  gcongr <;> norm_num

theorem err_div (a b : CFl rnd) (ha : ‖val a‖ ≤ 2 ^ 98) (hb1 : 1 / 2 ^ 9 ≤ ‖val b‖)
    (hb2 : ‖val b‖ ≤ 2 ^ 12) : ‖val (a / b) - val a / val b‖ ≤ roundErr (1 / 2 ^ 21) ‖val a / val b‖ := by
  set e := b.re * b.re + b.im * b.im with he
  set E := rnd (rnd (b.re * b.re) + rnd (b.im * b.im)) with hE
  have hnb : ‖val b‖ ^ 2 = e := by
    rw [← Complex.normSq_eq_norm_sq]; rfl
  have hb0 : 0 < ‖val b‖ := lt_of_lt_of_le (by positivity) hb1
  have he1 : 1 / 2 ^ 18 ≤ e := by
    rw [← hnb]
    calc (1 : ℝ) / 2 ^ 18 = (1 / 2 ^ 9) ^ 2 := by norm_num
      _ ≤ _ := by gcongr
  have he2 : e ≤ 2 ^ 24 := by
    rw [← hnb]
    calc ‖val b‖ ^ 2 ≤ (2 ^ 12) ^ 2 := by gcongr
      _ = _ := by norm_num
  have he0 : 0 < e := lt_of_lt_of_le (by positivity) he1
  have s1 := mul_self_nonneg b.re
  have s2 := mul_self_nonneg b.im
  have a1 := abs_of_nonneg s1
  have a2 := abs_of_nonneg s2
  have hEe : |E - e| ≤ 2.02 / 2 ^ 24 * e := by
    have := err2 (rnd := rnd) (rel (rnd := rnd) (x := b.re * b.re) (by rw [a1]; norm_num at he2 ⊢; linarith))
      (rel (rnd := rnd) (x := b.im * b.im) (by rw [a2]; norm_num at he2 ⊢; linarith))
      (by rw [a1, a2]; norm_num at he2 ⊢; linarith)
    rw [a1, a2] at this
    norm_num at this he1 ⊢
    linarith
  have hE1 : 0.999999 * e ≤ E := by
    have := (abs_le.1 hEe).1
    norm_num at this ⊢; linarith
  have hE0 : 0 < E := lt_of_lt_of_le (by positivity) hE1
  -- one part of the quotient
  have part : ∀ n n' s : ℝ, |n' - n| ≤ 2.01 / 2 ^ 24 * s + 3.1 / 2 ^ 126 → |n| ≤ s → s / e ≤ 2 ^ 110 →
      |rnd (n' / E) - n / e| ≤ 5.05 / 2 ^ 24 / e * s + 3.12 / 2 ^ 108 := by
    intro n n' s h1 h2 h3
    have hs : 0 ≤ s := (abs_nonneg _).trans h2
    have k1 : |n' / E - n / e| ≤ 4.04 / 2 ^ 24 * (s / e) + 3.11 / 2 ^ 108 := by
      have : n' / E - n / e = ((n' - n) - n / e * (E - e)) / E := by
        field_simp; ring
      rw [this, abs_div, abs_of_pos hE0, div_le_iff₀ hE0]
      have q1 := abs_sub (n' - n) (n / e * (E - e))
      have q2 : |n / e * (E - e)| ≤ s / e * (2.02 / 2 ^ 24 * e) := by
        rw [abs_mul, abs_div, abs_of_pos he0]; gcongr
      have q3 : s / e * (2.02 / 2 ^ 24 * e) = 2.02 / 2 ^ 24 * s := by field_simp
      have q4 : (4.04 / 2 ^ 24 * (s / e) + 3.11 / 2 ^ 108) * (0.999999 * e) ≤
          (4.04 / 2 ^ 24 * (s / e) + 3.11 / 2 ^ 108) * E := by gcongr
      have q5 : (4.04 / 2 ^ 24 * (s / e) + 3.11 / 2 ^ 108) * (0.999999 * e) =
          4.04 * 0.999999 / 2 ^ 24 * s + 3.11 / 2 ^ 108 * 0.999999 * e := by field_simp
      rw [q5] at q4
      rw [q3] at q2
      refine le_trans ?_ q4
      norm_num at h1 q1 q2 he1 ⊢
      linarith
    have k2 : |n / e| ≤ s / e := by
      rw [abs_div, abs_of_pos he0]; gcongr
    have hs0 : 0 ≤ s / e := by positivity
    have k3 : |n' / E| ≤ s / e + (4.04 / 2 ^ 24 * (s / e) + 3.11 / 2 ^ 108) := by
      have := abs_add_le (n / e) (n' / E - n / e)
      rw [add_sub_cancel] at this
      linarith
    have hr := rel (rnd := rnd) (x := n' / E) (by norm_num at k3 h3 ⊢; linarith)
    have k4 := abs_add_le (rnd (n' / E) - n' / E) (n' / E - n / e)
    rw [sub_add_sub_cancel] at k4
    have e2 : 5.05 / 2 ^ 24 / e * s = 5.05 / 2 ^ 24 * (s / e) := by ring
    rw [e2]
    norm_num at hr k1 k3 ⊢
    linarith
  have hab : ‖val a‖ * ‖val b‖ ≤ 2 ^ 110 := by
    calc ‖val a‖ * ‖val b‖ ≤ 2 ^ 98 * 2 ^ 12 := by gcongr
      _ = _ := by norm_num
  have q1 := mul_le (re_le a) (re_le b) hab
  have q2 := mul_le (im_le a) (im_le b) hab
  have q3 := mul_le (im_le a) (re_le b) hab
  have q4 := mul_le (re_le a) (im_le b) hab
  have up : ∀ {x : ℝ}, x ≤ 2 ^ 110 → x ≤ 2 ^ 127 := fun hx => hx.trans (by norm_num)
  have quo : ∀ x y u v : ℝ, |x| ≤ ‖val a‖ → |y| ≤ ‖val b‖ → |u| ≤ ‖val a‖ → |v| ≤ ‖val b‖ →
      (|x * y| + |u * v|) / e ≤ 2 ^ 110 := by
    intro x y u v hx hy hu hv
    have p1 := mul_le hx hy le_rfl
    have p2 := mul_le hu hv le_rfl
    calc (|x * y| + |u * v|) / e ≤ (‖val a‖ * ‖val b‖ + ‖val a‖ * ‖val b‖) / ‖val b‖ ^ 2 := by
          rw [hnb]; gcongr
      _ = 2 * ‖val a‖ / ‖val b‖ := by field_simp; ring
      _ ≤ 2 * 2 ^ 98 / (1 / 2 ^ 9) := by gcongr
      _ ≤ _ := by norm_num
  have h1 := part _ _ _ (err2 (rnd := rnd) (rel (rnd := rnd) (up q1)) (rel (rnd := rnd) (up q2)) (by norm_num at q1 q2 ⊢; linarith))
    (abs_add_le _ _) (quo _ _ _ _ (re_le a) (re_le b) (im_le a) (im_le b))
  have h2 := part _ _ _ (err2_sub (rnd := rnd) (rel (rnd := rnd) (up q3)) (rel (rnd := rnd) (up q4)) (by norm_num at q3 q4 ⊢; linarith))
    (abs_sub _ _) (quo _ _ _ _ (im_le a) (re_le b) (re_le a) (im_le b))
  rw [abs_mul, abs_mul] at h1 h2
  rw [add_comm (|a.im| * |b.re|)] at h2
  have key := with_abs h1 h2 (by positivity) (by positivity) (by positivity) fun f1 f2 k1 k2 =>
    prod_norm (by positivity) k1 k2
  have eq : val a / val b = ⟨(a.re * b.re + a.im * b.im) / e, (a.im * b.re - a.re * b.im) / e⟩ := by
    have hn : Complex.normSq (val b) = e := rfl
    apply Complex.ext
    · rw [Complex.div_re, hn]
      show a.re * b.re / e + a.im * b.im / e = _
      rw [add_div]
    · rw [Complex.div_im, hn]
      show a.im * b.re / e - a.re * b.im / e = _
      rw [sub_div]
  have eq2 : val (a / b) - val a / val b =
      ⟨rnd (rnd (rnd (a.re * b.re) + rnd (a.im * b.im)) / E) - (a.re * b.re + a.im * b.im) / e,
        rnd (rnd (rnd (a.im * b.re) - rnd (a.re * b.im)) / E) -
          (a.im * b.re - a.re * b.im) / e⟩ := by
    rw [eq]; rfl
  rw [eq2]
  refine key.trans ?_
  have hnb' : ‖(⟨b.re, b.im⟩ : ℂ)‖ ^ 2 = e := hnb
  have hb0' : 0 < ‖(⟨b.re, b.im⟩ : ℂ)‖ := hb0
  have tail : ∀ x, x ≤ 7.575 / 2 ^ 24 * ‖val a / val b‖ + 6.5 / 2 ^ 108 →
      x ≤ roundErr (1 / 2 ^ 21) ‖val a / val b‖ := by
    intro x h
    unfold roundErr
    have h1 := le_max_left ‖val a / val b‖ (1 / 2 ^ 80)
    have h2 := le_max_right ‖val a / val b‖ (1 / 2 ^ 80)
    generalize max ‖val a / val b‖ (1 / 2 ^ 80) = m at *
    norm_num at h h2 ⊢
    norm_num at h1
    linarith
  apply tail
  rw [norm_div]
  show _ ≤ 7.575 / 2 ^ 24 * (‖(⟨a.re, a.im⟩ : ℂ)‖ / ‖(⟨b.re, b.im⟩ : ℂ)‖) + _
  rw [← hnb']
  have : 1.5 * (5.05 / 2 ^ 24 / ‖(⟨b.re, b.im⟩ : ℂ)‖ ^ 2) *
      (‖(⟨a.re, a.im⟩ : ℂ)‖ * ‖(⟨b.re, b.im⟩ : ℂ)‖) =
      1.5 * 5.05 / 2 ^ 24 * (‖(⟨a.re, a.im⟩ : ℂ)‖ / ‖(⟨b.re, b.im⟩ : ℂ)‖) := by
    field_simp
  rw [this]
  refine add_le_add (mul_le_mul_of_nonneg_right (by norm_num) (by positivity)) (by norm_num)

/-- Complex floats with these formulas have relative error at most `2^-21`, absolute below `2^-80`. -/
theorem accurate : Accurate (ops (rnd := rnd)) val (1 / 2 ^ 21) where
  zero := rfl
  ofK _ := rfl
  re _ := rfl
  add := err_add
  sub := err_sub
  mul := err_mul
  div := err_div
  fma := err_fma'
  fms := err_fms
  fnma := err_fnma
  exp := err_exp
  vexp := err_exp

end CFloat
end Adwt
