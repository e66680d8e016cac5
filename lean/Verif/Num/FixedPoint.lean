import Mathlib.Analysis.Complex.Exponential
import Mathlib.Analysis.Complex.Norm
import Mathlib.Algebra.Order.BigOperators.Group.List
import Mathlib.Analysis.SpecialFunctions.Exp
import Mathlib.Tactic.Linarith
import Mathlib.Tactic.Ring
import Mathlib.Tactic.NormNum
import Mathlib.Tactic.Positivity
import Mathlib.Tactic.GCongr
import Mathlib.Tactic.FieldSimp

/-!
# Sums of decaying exponentials in fixed point

Integers of scale `2^40`, evaluated by the kernel (`decide +kernel`).
-/

set_option linter.unusedSectionVars false

namespace Adwt.Fixed

/-- evaluates `n` before `f` -/
@[reducible] def seqNat {α : Type} (n : ℕ) (f : ℕ → α) : α := Nat.rec (f 0) (fun k _ => f (k + 1)) n

theorem seqNat_eq {α : Type} (n : ℕ) (f : ℕ → α) : seqNat n f = f n := by
  cases n <;> rfl

/-- evaluates `i` before `f` -/
noncomputable def seqInt {α : Type} (i : ℤ) (f : ℤ → α) : α :=
  Int.rec (fun n => seqNat n fun n => f (Int.ofNat n)) (fun n => seqNat n fun n => f (Int.negSucc n)) i

theorem seqInt_eq {α : Type} (i : ℤ) (f : ℤ → α) : seqInt i f = f i := by
  cases i <;> simp only [seqInt, seqNat_eq]

/-- a value `x + i y` and a factor `a + i b` -/
structure Lane where
  x : ℤ
  y : ℤ
  a : ℤ
  b : ℤ

/-- the value times the factor, rounded down -/
def Lane.next (l : Lane) : Lane :=
  ⟨(l.x * l.a - l.y * l.b) / 2 ^ 40, (l.x * l.b + l.y * l.a) / 2 ^ 40, l.a, l.b⟩

/-- the sum of the real parts -/
def sumX (ls : List Lane) : ℤ := (ls.map Lane.x).sum

/-- the next values and the sum of their real parts -/
noncomputable def nextK {α : Type} : List Lane → (List Lane → ℤ → α) → α
  | [], f => f [] 0
  | ⟨x, y, a, b⟩ :: ls, f =>
    seqInt ((x * a - y * b) / 2 ^ 40) fun x' => seqInt ((x * b + y * a) / 2 ^ 40) fun y' =>
      nextK ls fun ls' s => seqInt (x' + s) fun s => f (⟨x', y', a, b⟩ :: ls') s

theorem nextK_eq {α : Type} (ls : List Lane) (f : List Lane → ℤ → α) :
    nextK ls f = f (ls.map Lane.next) (sumX (ls.map Lane.next)) := by
  induction ls generalizing f with
  | nil => rfl
  | cons l ls ih =>
    obtain ⟨x, y, a, b⟩ := l
    unfold nextK
    rw [seqInt_eq, seqInt_eq, ih, seqInt_eq]
    rfl

/-- `acc` plus the absolute values of the next `n` sums -/
noncomputable def loopK : ℕ → List Lane → ℤ → ℤ
  | 0, _, acc => acc
  | n + 1, ls, acc => nextK ls fun ls' s => seqInt (acc + s.natAbs) fun acc' => loopK n ls' acc'

theorem loopK_succ (n : ℕ) (ls : List Lane) (acc : ℤ) :
    loopK (n + 1) ls acc = loopK n (ls.map Lane.next) (acc + (sumX (ls.map Lane.next)).natAbs) := by
  rw [loopK, nextK_eq, seqInt_eq]

theorem loopK_acc (n : ℕ) (ls : List Lane) (acc : ℤ) : loopK n ls acc = acc + loopK n ls 0 := by
  induction n generalizing ls acc with
  | zero => unfold loopK; simp
  | succ n ih =>
    rw [loopK_succ, loopK_succ, ih, ih (acc := 0 + _)]
    ring

/-- the complex number of two integers of scale `2^40` -/
noncomputable def cx (x y : ℤ) : ℂ := ⟨(x : ℝ) / 2 ^ 40, (y : ℝ) / 2 ^ 40⟩

/-- The lane holds the value `u` up to `e`, and the factor `w` up to `2^-38`. -/
structure Near (e : ℝ) (l : Lane) (p : ℂ × ℂ) : Prop where
  u : ‖cx l.x l.y - p.1‖ ≤ e
  w : ‖cx l.a l.b - p.2‖ ≤ 1 / 2 ^ 38
  w1 : ‖p.2‖ ≤ 1
  u1 : ‖p.1‖ ≤ 64

theorem floor_div (n : ℤ) : |((n / 2 ^ 40 : ℤ) : ℝ) - (n : ℝ) / 2 ^ 40| ≤ 1 := by
  have h := Int.emod_add_mul_ediv n (2 ^ 40)
  have h0 := Int.emod_nonneg n (by norm_num : (2 ^ 40 : ℤ) ≠ 0)
  have h1 := Int.emod_lt_of_pos n (by norm_num : (0 : ℤ) < 2 ^ 40)
  have e : (n : ℝ) = ((n % 2 ^ 40 : ℤ) : ℝ) + 2 ^ 40 * ((n / 2 ^ 40 : ℤ) : ℝ) := by
    exact_mod_cast h.symm
  have h0' : (0 : ℝ) ≤ ((n % 2 ^ 40 : ℤ) : ℝ) := by exact_mod_cast h0
  have h1' : ((n % 2 ^ 40 : ℤ) : ℝ) ≤ 2 ^ 40 := by exact_mod_cast h1.le
  rw [abs_le]
  generalize ((n % 2 ^ 40 : ℤ) : ℝ) = m at *
  generalize ((n / 2 ^ 40 : ℤ) : ℝ) = q at *
  rw [e]
  norm_num at *
  constructor <;> linarith

theorem Near.next {e : ℝ} {l : Lane} {p : ℂ × ℂ} (h : Near e l p) (he : e ≤ 1) :
    Near (e + 1 / 2 ^ 30) l.next (p.1 * p.2, p.2) := by
  obtain ⟨hu, hw, hw1, hu1⟩ := h
  refine ⟨?_, hw, hw1, ?_⟩
  · set U := cx l.x l.y
    set W := cx l.a l.b
    have h1 : ‖cx l.next.x l.next.y - U * W‖ ≤ 2 / 2 ^ 40 := by
      refine (Complex.norm_le_abs_re_add_abs_im _).trans ?_
      have a := floor_div (l.x * l.a - l.y * l.b)
      have b := floor_div (l.x * l.b + l.y * l.a)
      have e1 : (cx l.next.x l.next.y - U * W).re =
          (((l.x * l.a - l.y * l.b) / 2 ^ 40 : ℤ) - ((l.x * l.a - l.y * l.b : ℤ) : ℝ) / 2 ^ 40) / 2 ^ 40 := by
        simp only [U, W, cx, Lane.next, Complex.sub_re, Complex.mul_re]
        push_cast; ring
      have e2 : (cx l.next.x l.next.y - U * W).im =
          (((l.x * l.b + l.y * l.a) / 2 ^ 40 : ℤ) - ((l.x * l.b + l.y * l.a : ℤ) : ℝ) / 2 ^ 40) / 2 ^ 40 := by
        simp only [U, W, cx, Lane.next, Complex.sub_im, Complex.mul_im]
        push_cast; ring
      rw [e1, e2, abs_div, abs_div, abs_of_pos (by positivity : (0 : ℝ) < 2 ^ 40), ← add_div]
      gcongr
      linarith
    have h2 : ‖U * W - p.1 * p.2‖ ≤ e + 65 / 2 ^ 38 := by
      have e1 : U * W - p.1 * p.2 = (U - p.1) * p.2 + U * (W - p.2) := by ring
      rw [e1]
      have hU : ‖U‖ ≤ 65 := by
        have := norm_add_le (U - p.1) p.1
        rw [sub_add_cancel] at this
        linarith
      refine (norm_add_le _ _).trans ?_
      rw [norm_mul, norm_mul]
      have c1 : ‖U - p.1‖ * ‖p.2‖ ≤ e * 1 := mul_le_mul hu hw1 (norm_nonneg _) ((norm_nonneg _).trans hu)
      have c2 : ‖U‖ * ‖W - p.2‖ ≤ 65 * (1 / 2 ^ 38) := mul_le_mul hU hw (norm_nonneg _) (by norm_num)
      linarith
    have h3 := norm_add_le (cx l.next.x l.next.y - U * W) (U * W - p.1 * p.2)
    rw [sub_add_sub_cancel] at h3
    refine h3.trans ((add_le_add h1 h2).trans ?_)
    norm_num
    linarith
  · dsimp only
    rw [norm_mul]
    calc _ ≤ 64 * 1 := mul_le_mul hu1 hw1 (norm_nonneg _) (by norm_num)
      _ = 64 := by norm_num

theorem near_sum {e : ℝ} {ls : List Lane} {ps : List (ℂ × ℂ)} (h : List.Forall₂ (Near e) ls ps) :
    |(sumX ls : ℝ) / 2 ^ 40 - ((ps.map Prod.fst).sum).re| ≤ ls.length * e := by
  induction h with
  | nil => simp [sumX]
  | @cons l p ls ps h _ ih =>
    have h1 : |(l.x : ℝ) / 2 ^ 40 - p.1.re| ≤ e := by
      have := (Complex.abs_re_le_norm _).trans h.u
      simpa [cx] using this
    have e1 : (sumX (l :: ls) : ℝ) / 2 ^ 40 - (((p :: ps).map Prod.fst).sum).re =
        ((l.x : ℝ) / 2 ^ 40 - p.1.re) + ((sumX ls : ℝ) / 2 ^ 40 - ((ps.map Prod.fst).sum).re) := by
      simp only [sumX, List.map_cons, List.sum_cons, Complex.add_re]
      push_cast; ring
    rw [e1]
    refine (abs_add_le _ _).trans ?_
    rw [List.length_cons]
    push_cast
    linarith

/-- The exact values at the next points. -/
theorem loop_sound (n : ℕ) {e : ℝ} {ls : List Lane} {ps : List (ℂ × ℂ)} (h : List.Forall₂ (Near e) ls ps)
    (he0 : 0 ≤ e) (he : e + n * (1 / 2 ^ 30) ≤ 1) :
    ∑ j ∈ Finset.range n, |((ps.map fun p : ℂ × ℂ => p.1 * p.2 ^ (j + 1)).sum).re| ≤
      (loopK n ls 0 : ℝ) / 2 ^ 40 + n * (ls.length * (e + n * (1 / 2 ^ 30))) := by
  induction n generalizing e ls ps with
  | zero => simp [loopK]
  | succ n ih =>
    have hn0 : (0 : ℝ) ≤ n * (1 / 2 ^ 30) := by positivity
    push_cast at he
    have hnx : List.Forall₂ (Near (e + 1 / 2 ^ 30)) (ls.map Lane.next) (ps.map fun p : ℂ × ℂ => (p.1 * p.2, p.2)) := by
      rw [List.forall₂_map_left_iff, List.forall₂_map_right_iff]
      exact h.imp fun _ _ h => h.next (by linarith)
    have ih := ih hnx (by positivity) (by linarith)
    have hs := near_sum hnx
    rw [loopK_succ, loopK_acc, Finset.sum_range_succ']
    simp only [List.map_map, List.length_map, Function.comp_def] at ih hs
    simp only [zero_add, pow_one]
    have hpow : ∀ j : ℕ, (ps.map fun p : ℂ × ℂ => p.1 * p.2 * p.2 ^ (j + 1)) = ps.map fun p : ℂ × ℂ => p.1 * p.2 ^ (j + 1 + 1) := by
      intro j
      congr 1
      funext p
      rw [pow_succ _ (j + 1)]; ring
    simp only [hpow] at ih
    have hx : |((ps.map fun p : ℂ × ℂ => p.1 * p.2).sum).re| ≤ |(sumX (ls.map Lane.next) : ℝ) / 2 ^ 40| + ls.length * (e + 1 / 2 ^ 30) := by
      have h1 := abs_sub_abs_le_abs_sub ((ps.map fun p : ℂ × ℂ => p.1 * p.2).sum).re ((sumX (ls.map Lane.next) : ℝ) / 2 ^ 40)
      rw [abs_sub_comm] at h1
      linarith
    rw [abs_div, abs_of_pos (by positivity : (0 : ℝ) < 2 ^ 40)] at hx
    have e1 : (((sumX (ls.map Lane.next)).natAbs : ℤ) : ℝ) = |(sumX (ls.map Lane.next) : ℝ)| := by
      rw [Int.natCast_natAbs]; push_cast; rfl
    push_cast at e1 ⊢
    rw [e1]
    have hl0 : (0 : ℝ) ≤ ls.length := Nat.cast_nonneg _
    have m1 : (ls.length : ℝ) * (e + 1 / 2 ^ 30) ≤ ls.length * (e + (n + 1) * (1 / 2 ^ 30)) :=
      mul_le_mul_of_nonneg_left (by linarith) hl0
    have m2 : (ls.length : ℝ) * (e + 1 / 2 ^ 30 + n * (1 / 2 ^ 30)) = ls.length * (e + (n + 1) * (1 / 2 ^ 30)) := by ring
    rw [m2] at ih
    rw [add_div]
    linarith

/-! ### the factors -/

/-- a step of the exponential series: the sum so far and the next term -/
def expStep (z : ℚ × ℚ) (n : ℕ) (p : (ℚ × ℚ) × (ℚ × ℚ)) : (ℚ × ℚ) × (ℚ × ℚ) :=
  ((p.1.1 + p.2.1, p.1.2 + p.2.2),
    ((p.2.1 * z.1 - p.2.2 * z.2) / (n + 1), (p.2.1 * z.2 + p.2.2 * z.1) / (n + 1)))

/-- `n` terms of the exponential series -/
def expSum (z : ℚ × ℚ) : ℕ → (ℚ × ℚ) × (ℚ × ℚ)
  | 0 => ((0, 0), (1, 0))
  | n + 1 => expStep z n (expSum z n)

/-- a complex number with rational parts -/
noncomputable def qc (x : ℚ × ℚ) : ℂ := ⟨(x.1 : ℝ), (x.2 : ℝ)⟩

theorem expSum_eq (z : ℚ × ℚ) (n : ℕ) :
    qc (expSum z n).1 = ∑ m ∈ Finset.range n, qc z ^ m / (m.factorial : ℂ) ∧
    qc (expSum z n).2 = qc z ^ n / (n.factorial : ℂ) := by
  induction n with
  | zero =>
    constructor
    · apply Complex.ext <;> simp [expSum, qc]
    · apply Complex.ext <;> simp [expSum, qc]
  | succ n ih =>
    obtain ⟨h1, h2⟩ := ih
    constructor
    · rw [Finset.sum_range_succ, ← h1, ← h2]
      apply Complex.ext <;> simp [expSum, expStep, qc]
    · have e : qc z ^ (n + 1) / ((n + 1).factorial : ℂ) = qc z ^ n / (n.factorial : ℂ) * qc z / ((n + 1 : ℕ) : ℂ) := by
        rw [Nat.factorial_succ, pow_succ]
        have a : ((n.factorial : ℕ) : ℂ) ≠ 0 := by exact_mod_cast n.factorial_ne_zero
        have b : (((n + 1 : ℕ)) : ℂ) ≠ 0 := by exact_mod_cast n.succ_ne_zero
        push_cast at b ⊢
        field_simp
      rw [e, ← h2]
      have c : ∀ w : ℂ, w / ((n + 1 : ℕ) : ℂ) = ⟨w.re / ((n + 1 : ℕ) : ℝ), w.im / ((n + 1 : ℕ) : ℝ)⟩ := by
        intro w
        rw [← Complex.ofReal_natCast]
        apply Complex.ext
        · rw [Complex.div_ofReal_re]
        · rw [Complex.div_ofReal_im]
      rw [c]
      apply Complex.ext
      · simp [expSum, expStep, qc]
      · simp [expSum, expStep, qc]

theorem exp_near {z : ℚ × ℚ} (hz : ‖qc z‖ ≤ 1 / 8) :
    ‖Complex.exp (qc z) - qc (expSum z 9).1‖ ≤ 1 / 2 ^ 45 := by
  rw [(expSum_eq z 9).1]
  refine (Complex.exp_bound (hz.trans (by norm_num)) (by norm_num)).trans ?_
  calc _ ≤ (1 / 8 : ℝ) ^ 9 * _ := mul_le_mul_of_nonneg_right (pow_le_pow_left₀ (norm_nonneg _) hz 9) (by positivity)
    _ ≤ _ := by norm_num [Nat.factorial]

/-- The two integers approximate `e^z` for small `z`; decidable. -/
def FactorOk (z : ℚ × ℚ) (a b : ℤ) : Prop :=
  z.1 * z.1 + z.2 * z.2 ≤ 1 / 64 ∧ |(a : ℚ) / 2 ^ 40 - (expSum z 9).1.1| ≤ 1 / 2 ^ 40 ∧
    |(b : ℚ) / 2 ^ 40 - (expSum z 9).1.2| ≤ 1 / 2 ^ 40

instance (z : ℚ × ℚ) (a b : ℤ) : Decidable (FactorOk z a b) := by unfold FactorOk; infer_instance

theorem qc_norm {c : ℚ × ℚ} {q : ℚ} (hq : 0 ≤ q) (h : c.1 * c.1 + c.2 * c.2 ≤ q * q) : ‖qc c‖ ≤ q := by
  have hq' : (0 : ℝ) ≤ q := by exact_mod_cast hq
  rw [← abs_of_nonneg (norm_nonneg (qc c)), ← abs_of_nonneg hq']
  apply sq_le_sq.1
  rw [← Complex.normSq_eq_norm_sq]
  simp only [qc, Complex.normSq_mk]
  rw [pow_two]
  exact_mod_cast h

theorem cast_le {q e : ℚ} {x y : ℝ} (h : |q| ≤ e) (hx : x = q) (hy : y = e) : |x| ≤ y := by
  rw [hx, hy]; exact_mod_cast h

theorem FactorOk.near {z : ℚ × ℚ} {a b : ℤ} (h : FactorOk z a b) :
    ‖cx a b - Complex.exp (qc z)‖ ≤ 1 / 2 ^ 38 := by
  obtain ⟨h0, h1, h2⟩ := h
  have hz : ‖qc z‖ ≤ 1 / 8 := by
    have := qc_norm (c := z) (q := 1 / 8) (by norm_num) (h0.trans (by norm_num))
    refine this.trans (le_of_eq ?_)
    push_cast; rfl
  have k1 := exp_near hz
  have k2 : ‖cx a b - qc (expSum z 9).1‖ ≤ 2 / 2 ^ 40 := by
    refine (Complex.norm_le_abs_re_add_abs_im _).trans ?_
    have h1' : (|(a : ℝ) / 2 ^ 40 - ((expSum z 9).1.1 : ℚ)|) ≤ 1 / 2 ^ 40 := cast_le h1 (by push_cast; rfl) (by push_cast; rfl)
    have h2' : (|(b : ℝ) / 2 ^ 40 - ((expSum z 9).1.2 : ℚ)|) ≤ 1 / 2 ^ 40 := cast_le h2 (by push_cast; rfl) (by push_cast; rfl)
    have e1 : (cx a b - qc (expSum z 9).1).re = (a : ℝ) / 2 ^ 40 - ((expSum z 9).1.1 : ℚ) := rfl
    have e2 : (cx a b - qc (expSum z 9).1).im = (b : ℝ) / 2 ^ 40 - ((expSum z 9).1.2 : ℚ) := rfl
    rw [e1, e2]
    calc _ ≤ (1 / 2 ^ 40 + 1 / 2 ^ 40 : ℝ) := add_le_add h1' h2'
      _ = _ := by norm_num
  have h3 := norm_add_le (cx a b - qc (expSum z 9).1) (qc (expSum z 9).1 - Complex.exp (qc z))
  rw [sub_add_sub_cancel, norm_sub_rev (qc _) (Complex.exp _)] at h3
  refine h3.trans ((add_le_add k2 k1).trans (by norm_num))

/-- The lane starts at `2 r` with the factor `e^{z/64}`; decidable. -/
def LaneOk (l : Lane) (c : (ℚ × ℚ) × (ℚ × ℚ)) : Prop :=
  (|(l.x : ℚ) / 2 ^ 40 - 2 * c.1.1| ≤ 1 / 2 ^ 40 ∧ |(l.y : ℚ) / 2 ^ 40 - 2 * c.1.2| ≤ 1 / 2 ^ 40) ∧
  c.1.1 * c.1.1 + c.1.2 * c.1.2 ≤ 1024 ∧ c.2.1 < 0 ∧ FactorOk (c.2.1 / 64, c.2.2 / 64) l.a l.b

instance (l : Lane) (c : (ℚ × ℚ) × (ℚ × ℚ)) : Decidable (LaneOk l c) := by unfold LaneOk; infer_instance

theorem LaneOk.near {l : Lane} {c : (ℚ × ℚ) × (ℚ × ℚ)} (h : LaneOk l c) :
    Near (1 / 2 ^ 30) l (2 * qc c.1, Complex.exp (qc c.2 * ((1 / 64 : ℝ) : ℂ))) := by
  obtain ⟨⟨h1, h2⟩, h3, h4, h5⟩ := h
  have e : qc c.2 * ((1 / 64 : ℝ) : ℂ) = qc (c.2.1 / 64, c.2.2 / 64) := by
    apply Complex.ext
    · rw [Complex.re_mul_ofReal]; simp only [qc]; push_cast; ring
    · rw [Complex.im_mul_ofReal]; simp only [qc]; push_cast; ring
  refine ⟨?_, by rw [e]; exact h5.near, ?_, ?_⟩
  · refine (Complex.norm_le_abs_re_add_abs_im _).trans ?_
    have h1' : |(l.x : ℝ) / 2 ^ 40 - 2 * (c.1.1 : ℚ)| ≤ 1 / 2 ^ 40 := cast_le h1 (by push_cast; rfl) (by push_cast; rfl)
    have h2' : |(l.y : ℝ) / 2 ^ 40 - 2 * (c.1.2 : ℚ)| ≤ 1 / 2 ^ 40 := cast_le h2 (by push_cast; rfl) (by push_cast; rfl)
    have e1 : (cx l.x l.y - 2 * qc c.1).re = (l.x : ℝ) / 2 ^ 40 - 2 * (c.1.1 : ℚ) := by simp [cx, qc]
    have e2 : (cx l.x l.y - 2 * qc c.1).im = (l.y : ℝ) / 2 ^ 40 - 2 * (c.1.2 : ℚ) := by simp [cx, qc]
    dsimp only
    rw [e1, e2]
    calc _ ≤ (1 / 2 ^ 40 + 1 / 2 ^ 40 : ℝ) := add_le_add h1' h2'
      _ ≤ _ := by norm_num
  · dsimp only
    rw [Complex.norm_exp, Complex.re_mul_ofReal]
    refine Real.exp_le_one_iff.2 ?_
    have : (c.2.1 : ℝ) < 0 := by exact_mod_cast h4
    simp only [qc]
    linarith
  · have := qc_norm (c := c.1) (q := 32) (by norm_num) (h3.trans (by norm_num))
    dsimp only
    rw [norm_mul, Complex.norm_two]
    push_cast at this
    linarith

end Adwt.Fixed
