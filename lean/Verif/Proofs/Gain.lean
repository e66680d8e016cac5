import Verif.Spec.Tone
import Verif.Props.Examples
import Mathlib.Analysis.Real.Pi.Bounds

/-!
# Bounds on frequency responses, by polynomials with rational coefficients

Polynomials are lists of coefficients, lowest first. All numerical checks are evaluated by the
kernel on rational numbers; the theorems below turn them into statements about all frequencies.
-/

set_option linter.unusedSectionVars false

namespace Adwt.Gain

def padd : List ℚ → List ℚ → List ℚ
  | [], q => q
  | p, [] => p
  | a :: p, b :: q => (a + b) :: padd p q

def smul (c : ℚ) (p : List ℚ) : List ℚ := p.map (c * ·)

def pmul : List ℚ → List ℚ → List ℚ
  | [], _ => []
  | a :: p, q => padd (smul a q) (0 :: pmul p q)

/-- Value at a point of a field. -/
def ev {A : Type} [Field A] (p : List ℚ) (x : A) : A := p.foldr (fun a acc => (a : A) + x * acc) 0

section
variable {A : Type} [Field A] [CharZero A] (x : A)

theorem ev_nil : ev [] x = 0 := rfl
theorem ev_cons (a : ℚ) (p : List ℚ) : ev (a :: p) x = a + x * ev p x := rfl

theorem ev_padd (p q : List ℚ) : ev (padd p q) x = ev p x + ev q x := by
  induction p generalizing q with
  | nil => simp [padd, ev_nil]
  | cons a p ih =>
    cases q with
    | nil => simp [padd, ev_nil]
    | cons b q => simp only [padd, ev_cons, ih]; push_cast; ring

theorem ev_smul (c : ℚ) (p : List ℚ) : ev (smul c p) x = c * ev p x := by
  induction p with
  | nil => simp [smul, ev_nil]
  | cons a p ih =>
    have e : smul c (a :: p) = (c * a) :: smul c p := rfl
    rw [e, ev_cons, ih, ev_cons]; push_cast; ring

theorem ev_pmul (p q : List ℚ) : ev (pmul p q) x = ev p x * ev q x := by
  induction p with
  | nil => simp [pmul, ev_nil]
  | cons a p ih =>
    simp only [pmul, ev_padd, ev_smul, ev_cons, ih]; push_cast; ring

end

/-- `p(i ω) = e(ω²) + i ω o(ω²)` -/
def split : List ℚ → List ℚ × List ℚ
  | [] => ([], [])
  | a :: p => (a :: smul (-1) (split p).2, (split p).1)

theorem ev_split (p : List ℚ) (ω : ℝ) : ev p (Complex.I * ω) =
    ((ev (split p).1 (ω ^ 2) : ℝ) : ℂ) + Complex.I * ((ω * ev (split p).2 (ω ^ 2) : ℝ) : ℂ) := by
  induction p with
  | nil => simp [ev_nil, split]
  | cons a p ih =>
    rw [ev_cons, ih]
    simp only [split, ev_cons, ev_smul]
    push_cast
    linear_combination ((ω : ℂ) ^ 2 * ((ev (split p).2 (ω ^ 2) : ℝ) : ℂ)) * Complex.I_sq

/-- `|p(i ω)|²` as a polynomial in `ω²` -/
def absSq (p : List ℚ) : List ℚ :=
  padd (pmul (split p).1 (split p).1) (0 :: pmul (split p).2 (split p).2)

theorem normSq_ev (p : List ℚ) (ω : ℝ) : ‖ev p (Complex.I * ω)‖ ^ 2 = ev (absSq p) (ω ^ 2) := by
  rw [← Complex.normSq_eq_norm_sq, ev_split, absSq, ev_padd, ev_cons, ev_pmul, ev_pmul]
  rw [Complex.normSq_apply]
  simp
  ring

/-- Numerator and denominator of the frequency response, as polynomials in `i ω`. -/
def fraction : List CLit → List CLit → List ℚ × List ℚ
  | r :: rs, z :: zs =>
    let (n, d) := fraction rs zs
    let num := [-2 * (r.1 * z.1 + r.2 * z.2), 2 * r.1]
    let den := [z.1 * z.1 + z.2 * z.2, -2 * z.1, 1]
    (padd (pmul n den) (pmul num d), pmul d den)
  | _, _ => ([], [1])

theorem pole_ne {z : ℂ} (hz : z.re < 0) (ω : ℝ) : Complex.I * ω - z ≠ 0 := by
  intro h
  have := congrArg Complex.re h
  simp at this
  linarith

theorem den_eq (z : CLit) (s : ℂ) : ev [z.1 * z.1 + z.2 * z.2, -2 * z.1, 1] s =
    (s - Props.clit z) * (s - (starRingEnd ℂ) (Props.clit z)) := by
  simp only [ev_cons, ev_nil]
  have h1 : Props.clit z = (z.1 : ℂ) + (z.2 : ℂ) * Complex.I := by
    apply Complex.ext <;> simp [Props.clit]
  have h2 : (starRingEnd ℂ) (Props.clit z) = (z.1 : ℂ) - (z.2 : ℂ) * Complex.I := by
    apply Complex.ext <;> simp [Props.clit]
  rw [h2, h1]
  push_cast
  linear_combination ((z.2 : ℂ) ^ 2) * Complex.I_sq

theorem num_eq (r z : CLit) (s : ℂ) : ev [-2 * (r.1 * z.1 + r.2 * z.2), 2 * r.1] s =
    Props.clit r * (s - (starRingEnd ℂ) (Props.clit z)) +
      (starRingEnd ℂ) (Props.clit r) * (s - Props.clit z) := by
  simp only [ev_cons, ev_nil]
  have h1 : ∀ z : CLit, Props.clit z = (z.1 : ℂ) + (z.2 : ℂ) * Complex.I := fun z => by
    apply Complex.ext <;> simp [Props.clit]
  have h2 : ∀ z : CLit, (starRingEnd ℂ) (Props.clit z) = (z.1 : ℂ) - (z.2 : ℂ) * Complex.I := fun z => by
    apply Complex.ext <;> simp [Props.clit]
  rw [h2, h2, h1, h1]
  push_cast
  linear_combination (-2 * (r.2 : ℂ) * z.2) * Complex.I_sq

/-- The sum over two lists. -/
noncomputable def resp (rs zs : List ℂ) (s : ℂ) : ℂ :=
  ∑ k ∈ Finset.range rs.length,
    (rs.getD k 0 / (s - zs.getD k 0) +
      (starRingEnd ℂ) (rs.getD k 0) / (s - (starRingEnd ℂ) (zs.getD k 0)))

theorem fraction_eq (rs zs : List CLit) (hl : rs.length = zs.length) (hz : ∀ z ∈ zs, z.1 < 0) (ω : ℝ) :
    ev (fraction rs zs).2 (Complex.I * ω) ≠ 0 ∧
    resp (rs.map Props.clit) (zs.map Props.clit) (Complex.I * ω) * ev (fraction rs zs).2 (Complex.I * ω) =
      ev (fraction rs zs).1 (Complex.I * ω) := by
  induction rs generalizing zs with
  | nil =>
    cases zs with
    | nil => simp [fraction, ev_nil, ev_cons, resp]
    | cons z zs => simp at hl
  | cons r rs ih =>
    cases zs with
    | nil => simp at hl
    | cons z zs =>
      obtain ⟨i1, i2⟩ := ih zs (by simpa using hl) (fun z' h => hz z' (by simp [h]))
      have hzr : (Props.clit z).re < 0 := by
        have := hz z (by simp)
        show ((z.1 : ℚ) : ℝ) < 0
        exact_mod_cast this
      have n1 := pole_ne hzr ω
      have n2 := pole_ne (z := (starRingEnd ℂ) (Props.clit z)) (by rw [Complex.conj_re]; exact hzr) ω
      set s := Complex.I * (ω : ℂ)
      have e : resp ((r :: rs).map Props.clit) ((z :: zs).map Props.clit) s =
          resp (rs.map Props.clit) (zs.map Props.clit) s +
          (Props.clit r / (s - Props.clit z) + (starRingEnd ℂ) (Props.clit r) /
            (s - (starRingEnd ℂ) (Props.clit z))) := by
        unfold resp
        rw [List.map_cons, List.map_cons, List.length_cons, Finset.sum_range_succ']
        simp
      simp only [fraction, ev_padd, ev_pmul]
      rw [den_eq, num_eq, e]
      refine ⟨mul_ne_zero i1 (mul_ne_zero n1 n2), ?_⟩
      rw [← i2]
      field_simp

/-! ### positivity -/

def nonneg (p : List ℚ) : Bool := p.all (0 ≤ ·)

theorem ev_nonneg {p : List ℚ} (h : nonneg p = true) {x : ℝ} (hx : 0 ≤ x) : 0 ≤ ev p x := by
  induction p with
  | nil => exact le_rfl
  | cons a p ih =>
    simp only [nonneg, List.all_cons, Bool.and_eq_true, decide_eq_true_eq] at h
    rw [ev_cons]
    have h1 : (0 : ℝ) ≤ a := by exact_mod_cast h.1
    exact add_nonneg h1 (mul_nonneg hx (ih h.2))

/-- `p(a + u)` -/
def shift (a : ℚ) : List ℚ → List ℚ
  | [] => []
  | c :: p => padd [c] (pmul [a, 1] (shift a p))

theorem ev_shift (a : ℚ) (p : List ℚ) (u : ℝ) : ev (shift a p) u = ev p (a + u) := by
  induction p with
  | nil => rfl
  | cons c p ih =>
    simp only [shift, ev_padd, ev_pmul, ev_cons, ev_nil, ih]
    push_cast; ring

/-- `p((a + b t) / (1 + t))` times a power of `1 + t`, and that power -/
def homog (a b : ℚ) : List ℚ → List ℚ × List ℚ
  | [] => ([], [1])
  | c :: p =>
    let (q, e) := homog a b p
    let e' := pmul [1, 1] e
    (padd (smul c e') (pmul [a, b] q), e')

theorem ev_homog (a b : ℚ) (p : List ℚ) {t : ℝ} (ht : 0 ≤ t) :
    0 < ev (homog a b p).2 t ∧
      ev (homog a b p).1 t = ev (homog a b p).2 t * ev p ((a + b * t) / (1 + t)) := by
  have h1 : (0 : ℝ) < 1 + t := by linarith
  induction p with
  | nil => simp [homog, ev_nil, ev_cons]
  | cons c p ih =>
    obtain ⟨i1, i2⟩ := ih
    simp only [homog, ev_padd, ev_pmul, ev_smul, ev_cons, ev_nil, i2]
    constructor
    · push_cast
      have : (0 : ℝ) < 1 + t * (1 + t * 0) := by linarith
      exact mul_pos this i1
    · push_cast
      field_simp
      ring

/-- Nonnegative from the first point of the list on: by intervals between the points, and by a shift
from the last. -/
def chk (p : List ℚ) : List ℚ → Bool
  | [] => false
  | [a] => nonneg (shift a p)
  | a :: b :: l => decide (a < b) && nonneg (homog a b p).1 && chk p (b :: l)

theorem chk_sound {p : List ℚ} {a : ℚ} {l : List ℚ} (h : chk p (a :: l) = true) {v : ℝ}
    (hv : (a : ℝ) ≤ v) : 0 ≤ ev p v := by
  induction l generalizing a with
  | nil =>
    have h : nonneg (shift a p) = true := h
    have := ev_nonneg h (x := v - a) (by linarith)
    rw [ev_shift] at this
    simpa using this
  | cons b l ih =>
    simp only [chk, Bool.and_eq_true, decide_eq_true_eq] at h
    obtain ⟨⟨hab, h1⟩, h2⟩ := h
    rcases lt_or_ge v b with hb | hb
    · have hab' : (a : ℝ) < b := by exact_mod_cast hab
      have ht : 0 ≤ (v - a) / (b - v) := div_nonneg (by linarith) (by linarith)
      obtain ⟨e1, e2⟩ := ev_homog a b p ht
      have h3 := ev_nonneg h1 ht
      have ev' : ((a : ℝ) + b * ((v - a) / (b - v))) / (1 + (v - a) / (b - v)) = v := by
        have h4 : (b : ℝ) - v ≠ 0 := by linarith
        have h5 : (1 : ℝ) + (v - a) / (b - v) = (b - a) / (b - v) := by field_simp; ring
        have h6 : (b : ℝ) - a ≠ 0 := by linarith
        rw [h5]
        field_simp
        ring
      rw [e2, ev'] at h3
      exact nonneg_of_mul_nonneg_right h3 e1
    · exact ih h2 hb

/-! ### frequency responses -/

/-- numerator and denominator of `|H|²` as polynomials in `ω²` -/
def nn (t : FilterType) : List ℚ := absSq (fraction (rLit t) (zLit t)).1
def dd (t : FilterType) : List ℚ := absSq (fraction (rLit t) (zLit t)).2

theorem response_sq (t : FilterType) (ω : ℝ) : 0 < ev (dd t) (ω ^ 2) ∧
    ‖freqResponse (Props.filterX t) ω‖ ^ 2 * ev (dd t) (ω ^ 2) = ev (nn t) (ω ^ 2) := by
  have hl : (rLit t).length = (zLit t).length := by cases t <;> rfl
  have hz : ∀ z ∈ zLit t, z.1 < 0 := by cases t <;> simp [zLit] <;> norm_num
  obtain ⟨h1, h2⟩ := fraction_eq (rLit t) (zLit t) hl hz ω
  have e : freqResponse (Props.filterX t) ω =
      resp ((rLit t).map Props.clit) ((zLit t).map Props.clit) (Complex.I * ω) := rfl
  unfold nn dd
  rw [← normSq_ev, ← normSq_ev, e, ← mul_pow, ← norm_mul, h2]
  exact ⟨by have := norm_pos_iff.2 h1; positivity, rfl⟩

/-- A bound on the gain above a frequency. -/
theorem gain_le {t : FilterType} {g a : ℚ} {l : List ℚ} (hg : 0 ≤ g)
    (h : chk (padd (smul (g * g) (dd t)) (smul (-1) (nn t))) (a :: l) = true) {ω : ℝ}
    (hω : (a : ℝ) ≤ ω ^ 2) : ‖freqResponse (Props.filterX t) ω‖ ≤ g := by
  obtain ⟨h1, h2⟩ := response_sq t ω
  have h3 := chk_sound h hω
  rw [ev_padd, ev_smul, ev_smul, ← h2] at h3
  push_cast at h3
  have h4 : ‖freqResponse (Props.filterX t) ω‖ ^ 2 ≤ (g : ℝ) ^ 2 := by
    by_contra hc
    push Not at hc
    have := mul_lt_mul_of_pos_right hc h1
    linarith
  exact (pow_le_pow_iff_left₀ (norm_nonneg _) (by exact_mod_cast hg) two_ne_zero).1 h4

/-- `1 / (1 + (v / q)^n)`, from above and from below. -/
theorem butter_le {t : FilterType} {n : ℕ} {q ε : ℚ} {B l : List ℚ} (hq : 0 < q)
    (hB : ∀ v : ℝ, ev B v = q ^ n + v ^ n)
    (h : chk (padd (pmul (dd t) (padd [q ^ n] (smul ε B))) (smul (-1) (pmul (nn t) B))) (0 :: l) = true)
    (ω : ℝ) : ‖freqResponse (Props.filterX t) ω‖ ^ 2 ≤ 1 / (1 + (ω ^ 2 / q) ^ n) + ε := by
  obtain ⟨h1, h2⟩ := response_sq t ω
  have h3 := chk_sound h (v := ω ^ 2) (by push_cast; positivity)
  have hq' : (0 : ℝ) < (q : ℝ) ^ n := by have : (0 : ℝ) < q := by exact_mod_cast hq
                                         positivity
  simp only [ev_padd, ev_smul, ev_pmul, hB, ev_cons, ev_nil] at h3
  rw [← h2] at h3
  push_cast at h3
  set D := ev (dd t) (ω ^ 2)
  set y := ‖freqResponse (Props.filterX t) ω‖ ^ 2
  set w := (ω ^ 2) ^ n
  have hw : 0 ≤ w := by positivity
  have e : 1 / (1 + (ω ^ 2 / (q : ℝ)) ^ n) = (q : ℝ) ^ n / (q ^ n + w) := by
    rw [div_pow]
    field_simp
    rfl
  rw [e]
  have hpos : 0 < (q : ℝ) ^ n + w := by linarith
  have h4 : 0 ≤ D * ((q : ℝ) ^ n + ε * (q ^ n + w) - y * (q ^ n + w)) := by linarith
  have h5 := nonneg_of_mul_nonneg_right h4 h1
  have h6 : (y - ε) * (q ^ n + w) ≤ (q : ℝ) ^ n := by linarith
  have := (le_div_iff₀ hpos).2 h6
  linarith

theorem butter_ge {t : FilterType} {n : ℕ} {q ε : ℚ} {B l : List ℚ} (hq : 0 < q)
    (hB : ∀ v : ℝ, ev B v = q ^ n + v ^ n)
    (h : chk (padd (pmul (nn t) B) (smul (-1) (pmul (dd t) (padd [q ^ n] (smul (-ε) B))))) (0 :: l) = true)
    (ω : ℝ) : 1 / (1 + (ω ^ 2 / q) ^ n) - ε ≤ ‖freqResponse (Props.filterX t) ω‖ ^ 2 := by
  obtain ⟨h1, h2⟩ := response_sq t ω
  have h3 := chk_sound h (v := ω ^ 2) (by push_cast; positivity)
  have hq' : (0 : ℝ) < (q : ℝ) ^ n := by have : (0 : ℝ) < q := by exact_mod_cast hq
                                         positivity
  simp only [ev_padd, ev_smul, ev_pmul, hB, ev_cons, ev_nil] at h3
  rw [← h2] at h3
  push_cast at h3
  set D := ev (dd t) (ω ^ 2)
  set y := ‖freqResponse (Props.filterX t) ω‖ ^ 2
  set w := (ω ^ 2) ^ n
  have hw : 0 ≤ w := by positivity
  have e : 1 / (1 + (ω ^ 2 / (q : ℝ)) ^ n) = (q : ℝ) ^ n / (q ^ n + w) := by
    rw [div_pow]
    field_simp
    rfl
  rw [e]
  have hpos : 0 < (q : ℝ) ^ n + w := by linarith
  have h4 : 0 ≤ D * (y * (q ^ n + w) - ((q : ℝ) ^ n - ε * (q ^ n + w))) := by linarith
  have h5 := nonneg_of_mul_nonneg_right h4 h1
  have h6 : (q : ℝ) ^ n ≤ (y + ε) * (q ^ n + w) := by linarith
  have := (div_le_iff₀ hpos).2 h6
  linarith

end Adwt.Gain
