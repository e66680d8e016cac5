import Verif.Proofs.Convolution
import Verif.Proofs.StepForm
import Verif.Proofs.FloatNu
import Verif.Spec.Sensitive
import Verif.Spec.Float
import Verif.Spec.Bounded

/-!
# Small causes, small effects
-/

set_option linter.unusedSectionVars false

namespace Adwt
open MeasureTheory WavetableData

/-! ### linear interpolation -/

/-- interpolation on the integer grid -/
noncomputable def lerp (c : ℤ → ℝ) (x : ℝ) : ℝ := c ⌊x⌋ + (x - ⌊x⌋) * (c (⌊x⌋ + 1) - c ⌊x⌋)

theorem interp_lerp (y : List ℝ) (u : ℝ) : interp y u = lerp (cyc y) (u * y.length) := rfl

theorem lerp_close {c c' : ℤ → ℝ} {δ : ℝ} (h : ∀ k, |c k - c' k| ≤ δ) (x : ℝ) :
    |lerp c x - lerp c' x| ≤ δ := by
  have h0 := Int.floor_le x
  have h1 := Int.lt_floor_add_one x
  set f := x - ⌊x⌋ with hf
  have e : lerp c x - lerp c' x = (1 - f) * (c ⌊x⌋ - c' ⌊x⌋) + f * (c (⌊x⌋ + 1) - c' (⌊x⌋ + 1)) := by
    unfold lerp; rw [← hf]; ring
  have f0 : 0 ≤ f := by rw [hf]; linarith
  have f1 : 0 ≤ 1 - f := by rw [hf]; linarith
  rw [e]
  refine (abs_add_le _ _).trans ?_
  rw [abs_mul, abs_mul, abs_of_nonneg f0, abs_of_nonneg f1]
  have a := mul_le_mul_of_nonneg_left (h ⌊x⌋) f1
  have b := mul_le_mul_of_nonneg_left (h (⌊x⌋ + 1)) f0
  linarith

theorem lerp_lip {c : ℤ → ℝ} {M : ℝ} (h : ∀ k, |c (k + 1) - c k| ≤ M) (x y : ℝ) :
    |lerp c x - lerp c y| ≤ M * |x - y| := by
  have hM : 0 ≤ M := (abs_nonneg _).trans (h 0)
  have grid : ∀ (k : ℤ) (n : ℕ), |c (k + n) - c k| ≤ M * n := by
    intro k n
    induction n with
    | zero => simp
    | succ n ih =>
      have := abs_add_le (c (k + n + 1) - c (k + n)) (c (k + n) - c k)
      rw [sub_add_sub_cancel] at this
      have h2 := h (k + n)
      push_cast
      rw [← add_assoc]
      linarith
  have up : ∀ x, |lerp c x - c (⌊x⌋ + 1)| ≤ M * (⌊x⌋ + 1 - x) := by
    intro x
    have h1 := Int.lt_floor_add_one x
    have e : lerp c x - c (⌊x⌋ + 1) = -((⌊x⌋ + 1 - x) * (c (⌊x⌋ + 1) - c ⌊x⌋)) := by
      unfold lerp; ring
    rw [e, abs_neg, abs_mul, abs_of_pos (by linarith), mul_comm]
    exact mul_le_mul_of_nonneg_right (h _) (by linarith)
  have down : ∀ x, |lerp c x - c ⌊x⌋| ≤ M * (x - ⌊x⌋) := by
    intro x
    have h1 := Int.floor_le x
    have e : lerp c x - c ⌊x⌋ = (x - ⌊x⌋) * (c (⌊x⌋ + 1) - c ⌊x⌋) := by
      unfold lerp; ring
    rw [e, abs_mul, abs_of_nonneg (by linarith), mul_comm]
    exact mul_le_mul_of_nonneg_right (h _) (by linarith)
  have key : ∀ x y, x ≤ y → |lerp c x - lerp c y| ≤ M * (y - x) := by
    intro x y hxy
    rcases (Int.floor_mono hxy).eq_or_lt with hfl | hfl
    · have e : lerp c x - lerp c y = -((y - x) * (c (⌊x⌋ + 1) - c ⌊x⌋)) := by
        unfold lerp; rw [← hfl]; ring
      rw [e, abs_neg, abs_mul, abs_of_nonneg (by linarith), mul_comm]
      exact mul_le_mul_of_nonneg_right (h _) (by linarith)
    · obtain ⟨n, hn⟩ : ∃ n : ℕ, ⌊y⌋ = ⌊x⌋ + 1 + n := ⟨(⌊y⌋ - ⌊x⌋ - 1).toNat, by omega⟩
      have a := up x
      have b := down y
      have g := grid (⌊x⌋ + 1) n
      rw [← hn, abs_sub_comm] at g
      have hn' : (⌊y⌋ : ℝ) = ⌊x⌋ + 1 + n := by exact_mod_cast hn
      rw [abs_sub_comm] at b
      have t1 := abs_sub_le (lerp c x) (c (⌊x⌋ + 1)) (lerp c y)
      have t2 := abs_sub_le (c (⌊x⌋ + 1)) (c ⌊y⌋) (lerp c y)
      rw [hn'] at b
      nlinarith
  rcases le_total x y with hxy | hxy
  · rw [abs_sub_comm x y, abs_of_nonneg (by linarith : 0 ≤ y - x)]
    exact key x y hxy
  · rw [abs_sub_comm, abs_of_nonneg (by linarith : 0 ≤ x - y)]
    exact key y x hxy

/-! ### tables -/

section
variable {E : Env ℝ} {ws ws' : List ℝ} {nw L : ℕ}

theorem waveAt_close {δ : ℝ} (hws : ws.length = nw * 2 ^ L) (hws' : ws'.length = nw * 2 ^ L)
    (h : TablesClose E ws ws' nw L δ) {w i : ℤ} (w0 : 0 ≤ w) (w1 : w < nw) (i0 : 0 ≤ i)
    (i1 : i < (L : ℤ) - 1) (u : ℝ) : |waveAt E ws L w i u - waveAt E ws' L w i u| ≤ δ := by
  unfold waveAt
  rw [interp_lerp, interp_lerp,
    mipSamples_length E (waveformOf_length hws (by omega : w.toNat < nw)) _ (by omega),
    mipSamples_length E (waveformOf_length hws' (by omega : w.toNat < nw)) _ (by omega)]
  exact lerp_close (h _ (by omega) _ (by omega)) _

theorem waveAt_lip {Λ : ℝ} (hws : ws.length = nw * 2 ^ L) (h : SlopesWithin E ws nw L Λ) {w i : ℤ}
    (w0 : 0 ≤ w) (w1 : w < nw) (i0 : 0 ≤ i) (i1 : i < (L : ℤ) - 1) (u v : ℝ) :
    |waveAt E ws L w i u - waveAt E ws L w i v| ≤ Λ * |u - v| := by
  unfold waveAt
  rw [interp_lerp, interp_lerp,
    mipSamples_length E (waveformOf_length hws (by omega : w.toNat < nw)) _ (by omega)]
  have hN : (0 : ℝ) < ((2 ^ (L - i.toNat) : ℕ) : ℝ) := by positivity
  have := lerp_lip (c := cyc (mipSamples E (waveformOf ws (2 ^ L) w.toNat) i.toNat))
    (M := Λ / ((2 ^ (L - i.toNat) : ℕ) : ℝ)) (fun k => by
      rw [le_div_iff₀ hN]
      have := h w.toNat (by omega) i.toNat (by omega) k
      push_cast; exact this) (u * ((2 ^ (L - i.toNat) : ℕ) : ℝ)) (v * ((2 ^ (L - i.toNat) : ℕ) : ℝ))
  refine this.trans (le_of_eq ?_)
  rw [← sub_mul, abs_mul, abs_of_pos hN]
  field_simp

/-- what a tuple of the crossfader is like -/
structure Sel (L : ℕ) (κ : ℝ) (t : MipMapIndices ℝ) : Prop where
  i0 : 0 ≤ t.idx
  i1 : t.idx < (L : ℤ) - 1
  up : t.weightUp ≠ 0 → t.idxUp = t.idx + 1 ∧ t.idxUp < (L : ℤ) - 1
  w0 : 0 ≤ t.weight
  w1 : 0 ≤ t.weightUp
  sum : t.weight + t.weightUp ≤ κ

theorem mixture_near {δ Λ κ : ℝ} (hws : ws.length = nw * 2 ^ L) (hws' : ws'.length = nw * 2 ^ L)
    (h : TablesClose E ws ws' nw L δ) (hΛ : SlopesWithin E ws nw L Λ) {w : ℤ} (w0 : 0 ≤ w)
    (w1 : w < nw) {t : MipMapIndices ℝ} (ht : Sel L κ t) (u v : ℝ) {θ : ℝ} (huv : |u - v| ≤ θ) :
    |mixture E ws L w t u - mixture E ws' L w t v| ≤ κ * (δ + Λ * θ) := by
  have hΛ0 : 0 ≤ Λ := le_trans (by positivity) (hΛ w.toNat (by omega) t.idx.toNat (by have := ht.i0; have := ht.i1; omega) 0)
  have hδ0 : 0 ≤ δ := (abs_nonneg _).trans (h w.toNat (by omega) t.idx.toNat (by have := ht.i0; have := ht.i1; omega) 0)
  have hη : 0 ≤ δ + Λ * θ := add_nonneg hδ0 (mul_nonneg hΛ0 ((abs_nonneg _).trans huv))
  have key : ∀ i : ℤ, 0 ≤ i → i < (L : ℤ) - 1 →
      |waveAt E ws L w i u - waveAt E ws' L w i v| ≤ δ + Λ * θ := by
    intro i i0 i1
    have a := waveAt_lip hws hΛ w0 w1 i0 i1 u v
    have b := waveAt_close hws hws' h w0 w1 i0 i1 v
    have c := abs_sub_le (waveAt E ws L w i u) (waveAt E ws L w i v) (waveAt E ws' L w i v)
    have d := mul_le_mul_of_nonneg_left huv hΛ0
    linarith
  have e : mixture E ws L w t u - mixture E ws' L w t v =
      t.weight * (waveAt E ws L w t.idx u - waveAt E ws' L w t.idx v) +
      t.weightUp * (waveAt E ws L w t.idxUp u - waveAt E ws' L w t.idxUp v) := by
    unfold mixture; ring
  rw [e]
  refine (abs_add_le _ _).trans ?_
  rw [abs_mul, abs_mul, abs_of_nonneg ht.w0, abs_of_nonneg ht.w1]
  have a := mul_le_mul_of_nonneg_left (key _ ht.i0 ht.i1) ht.w0
  have b : t.weightUp * |waveAt E ws L w t.idxUp u - waveAt E ws' L w t.idxUp v| ≤
      t.weightUp * (δ + Λ * θ) := by
    by_cases hz : t.weightUp = 0
    · rw [hz]; simp
    · obtain ⟨c1, c2⟩ := ht.up hz
      exact mul_le_mul_of_nonneg_left (key _ (by have := ht.i0; omega) c2) ht.w1
  have c := mul_le_mul_of_nonneg_right ht.sum hη
  linarith

end

/-! ### positions -/

theorem unwrapped_near {x x' : ℝ} {d d' : ℕ → ℝ} {m : ℕ} {θ c : ℝ}
    (h : ∀ n ≤ m, |unwrapped x d n - (unwrapped x' d' n + c)| ≤ θ) {n : ℕ} (hn : n < m) {u : ℝ}
    (h0 : (n : ℝ) ≤ u) (h1 : u < n + 1) : |unwrapped x d u - (unwrapped x' d' u + c)| ≤ θ := by
  have a := h n hn.le
  have b := h (n + 1) hn
  unfold unwrapped at a b ⊢
  rw [floor_mid h0 h1]
  rw [Nat.floor_natCast] at a
  rw [Nat.floor_natCast, Finset.sum_range_succ, Finset.sum_range_succ] at b
  push_cast at b
  set s := u - n with hs
  have s0 : 0 ≤ s := by rw [hs]; linarith
  have s1 : s ≤ 1 := by rw [hs]; linarith
  simp only [sub_self, zero_mul, add_zero] at a b
  set P := x + ∑ i ∈ Finset.range n, d i
  set P' := x' + ∑ i ∈ Finset.range n, d' i
  rw [← add_assoc, ← add_assoc] at b
  have e : P + s * d n - (P' + s * d' n + c) =
      (1 - s) * (P - (P' + c)) + s * (P + d n - (P' + d' n + c)) := by ring
  rw [e]
  refine (abs_add_le _ _).trans ?_
  rw [abs_mul, abs_mul, abs_of_nonneg s0, abs_of_nonneg (by linarith : 0 ≤ 1 - s)]
  have := mul_le_mul_of_nonneg_left a (by linarith : 0 ≤ 1 - s)
  have := mul_le_mul_of_nonneg_left b s0
  linarith

/-! ### the filter -/

theorem decay_le {a T : ℝ} (ha : a < 0) (hT : 0 ≤ T) :
    ∫ u in (0 : ℝ)..T, Real.exp (a * (T - u)) ≤ 1 / -a := by
  have hd : ∀ u ∈ Set.uIcc (0 : ℝ) T,
      HasDerivAt (fun u => -(1 / a) * Real.exp (a * (T - u))) (Real.exp (a * (T - u))) u := by
    intro u _
    have h1 : HasDerivAt (fun u => a * (T - u)) (a * (-1)) u := by
      simpa using (((hasDerivAt_id u).const_sub T).const_mul a)
    have h2 := (h1.exp).const_mul (-(1 / a))
    refine h2.congr_deriv ?_
    have := ha.ne
    field_simp
  rw [intervalIntegral.integral_eq_sub_of_hasDerivAt hd
    (Continuous.intervalIntegrable (by fun_prop) _ _)]
  simp only [sub_self, mul_zero, Real.exp_zero, mul_one, sub_zero]
  have : 0 < Real.exp (a * T) := Real.exp_pos _
  have h3 : 1 / a < 0 := one_div_neg.2 ha
  have : 1 / -a = -(1 / a) := by rw [one_div_neg_eq_neg_one_div]
  rw [this]
  nlinarith

theorem filtered_near {flt : Filter ℂ} (hz : ∀ k < flt.r.length, (flt.z.getD k 0).re < 0)
    {V V' : ℝ → ℝ} {g g' : ℕ → ℝ → ℝ} {m : ℕ} (hg : ∀ n < m, Continuous (g n))
    (hg' : ∀ n < m, Continuous (g' n))
    (hV : ∀ n < m, ∀ u : ℝ, (n : ℝ) ≤ u → u < n + 1 → V u = g n (u - n))
    (hV' : ∀ n < m, ∀ u : ℝ, (n : ℝ) ≤ u → u < n + 1 → V' u = g' n (u - n)) {η : ℝ}
    (h : ∀ n < m, ∀ u : ℝ, (n : ℝ) ≤ u → u < n + 1 → |V u - V' u| ≤ η) (hη : 0 ≤ η) :
    |filtered flt V m - filtered flt V' m| ≤ filterGain flt * η := by
  have hi : ∀ {V : ℝ → ℝ} {g : ℕ → ℝ → ℝ} (_ : ∀ n < m, Continuous (g n))
      (_ : ∀ n < m, ∀ u : ℝ, (n : ℝ) ≤ u → u < n + 1 → V u = g n (u - n)) (z : ℂ) (T : ℂ),
      IntervalIntegrable (fun u : ℝ => Complex.exp (z * (T - u)) * (V u : ℂ)) volume (0 : ℝ) m := by
    intro V g hg hV z T
    have := IntervalIntegrable.trans_iterate (f := fun u : ℝ => Complex.exp (z * (T - u)) * (V u : ℂ))
      (μ := volume) (a := fun k : ℕ => (k : ℝ)) (n := m)
      (fun k hk => (piece_integral hg hV z hk T).1)
    simpa using this
  unfold filtered filterGain
  rw [← Complex.sub_re, ← Finset.sum_sub_distrib, Finset.sum_mul]
  refine (Complex.abs_re_le_norm _).trans ((norm_sum_le _ _).trans (Finset.sum_le_sum ?_))
  intro k hk
  have hzk := hz k (Finset.mem_range.1 hk)
  rw [← mul_sub, ← intervalIntegral.integral_sub (hi hg hV _ _) (hi hg' hV' _ _), norm_mul, norm_mul,
    Complex.norm_two]
  have key : ‖∫ u in (0 : ℝ)..(m : ℝ), (Complex.exp (flt.z.getD k 0 * (((m : ℝ) : ℂ) - u)) * (V u : ℂ) -
      Complex.exp (flt.z.getD k 0 * (((m : ℝ) : ℂ) - u)) * (V' u : ℂ))‖ ≤
      ∫ u in (0 : ℝ)..(m : ℝ), Real.exp ((flt.z.getD k 0).re * (m - u)) * η := by
    apply intervalIntegral.norm_integral_le_of_norm_le (Nat.cast_nonneg m)
    · have hne : ∀ᵐ u : ℝ, u ≠ m := by
        rw [ae_iff]; simp
      filter_upwards [hne] with u hu' hu
      have hlt : u < m := lt_of_le_of_ne hu.2 hu'
      rw [← mul_sub, norm_mul, Complex.norm_exp]
      have e : (flt.z.getD k 0 * (((m : ℝ) : ℂ) - (u : ℂ))).re = (flt.z.getD k 0).re * (m - u) := by
        simp
      rw [e]
      refine mul_le_mul_of_nonneg_left ?_ (Real.exp_nonneg _)
      rw [← Complex.ofReal_sub, Complex.norm_real, Real.norm_eq_abs]
      have hfl : ⌊u⌋₊ < m := (Nat.floor_lt hu.1.le).2 hlt
      exact h _ hfl u (Nat.floor_le hu.1.le) (Nat.lt_floor_add_one u)
    · exact Continuous.intervalIntegrable (by fun_prop) _ _
  rw [intervalIntegral.integral_mul_const] at key
  have k2 := mul_le_mul_of_nonneg_right (decay_le hzk (Nat.cast_nonneg m)) hη
  calc _ ≤ 2 * ‖flt.r.getD k 0‖ * (1 / -(flt.z.getD k 0).re * η) :=
        mul_le_mul_of_nonneg_left (key.trans k2) (by positivity)
    _ = _ := by ring

/-- the heart: two signals read from tables that are close, at positions that are close -/
theorem signals_near {E : Env ℝ} {ws ws' : List ℝ} {nw L m : ℕ} {flt : Filter ℂ}
    (hz : ∀ k < flt.r.length, (flt.z.getD k 0).re < 0) {δ Λ κ θ : ℝ} (hκ : 0 ≤ κ)
    (hws : ws.length = nw * 2 ^ L) (hws' : ws'.length = nw * 2 ^ L)
    (hδ : TablesClose E ws ws' nw L δ) (hΛ : SlopesWithin E ws nw L Λ) {w : ℕ → ℤ}
    (hw : ∀ i < m, 0 ≤ w i ∧ w i < nw) {t : ℕ → MipMapIndices ℝ} (ht : ∀ i < m, Sel L κ (t i))
    {x x' : ℝ} {d d' : ℕ → ℝ} {c : ℤ}
    (h : ∀ n ≤ m, |unwrapped x d n - (unwrapped x' d' n + c)| ≤ θ) (hm : 0 < m) :
    |filtered flt (playedW E ws L w t (unwrapped x d)) m -
      filtered flt (playedW E ws' L w t (unwrapped x' d')) m| ≤ filterGain flt * (κ * (δ + Λ * θ)) := by
  have hθ : 0 ≤ θ := (abs_nonneg _).trans (h 0 (Nat.zero_le m))
  have t0 := ht 0 hm
  have w0 := hw 0 hm
  have hΛ0 : 0 ≤ Λ := le_trans (by positivity)
    (hΛ (w 0).toNat (by omega) (t 0).idx.toNat (by have := t0.i0; have := t0.i1; omega) 0)
  have hδ0 : 0 ≤ δ := (abs_nonneg _).trans
    (hδ (w 0).toNat (by omega) (t 0).idx.toNat (by have := t0.i0; have := t0.i1; omega) 0)
  refine filtered_near hz
    (g := fun i τ => mixture E ws L (w i) (t i) (x + ∑ l ∈ Finset.range i, d l + τ * d i))
    (g' := fun i τ => mixture E ws' L (w i) (t i) (x' + ∑ l ∈ Finset.range i, d' l + τ * d' i))
    (fun i _ => mixture_continuous.comp (by fun_prop))
    (fun i _ => mixture_continuous.comp (by fun_prop)) ?_ ?_ ?_ (by positivity)
  · intro i _ u h0 h1
    unfold playedW
    rw [floor_mid h0 h1]
    unfold unwrapped
    rw [floor_mid h0 h1]
  · intro i _ u h0 h1
    unfold playedW
    rw [floor_mid h0 h1]
    unfold unwrapped
    rw [floor_mid h0 h1]
  · intro n hn u h0 h1
    unfold playedW
    rw [floor_mid h0 h1, ← mixture_int (ws := ws') (unwrapped x' d' u) c]
    exact mixture_near hws hws' hδ hΛ (hw n hn).1 (hw n hn).2 (ht n hn) _ _
      (unwrapped_near h hn h0 h1)

/-! ### runs -/

section
variable {C : Type} [Zero C] [Add C] [Sub C] [Mul C] [Div C] {S : Sys ℝ C} {nw L m : ℕ} {ws : List ℝ}
  {st sw : ℕ → Osc ℝ C} {w : ℕ → ℤ} {dir : ℕ → Sys.Direction} {p y : ℕ → ℝ} {t : ℕ → MipMapIndices ℝ}

theorem plays_length {o : Osc ℝ C} (h : Plays S ws nw L o) : ws.length = nw * 2 ^ L := by
  obtain ⟨-, sr, dur, wt0, wt, hb, -⟩ := h
  exact hb.2.2.1

theorem run_stages (hf : Rounding S.env.fl) (hl : Log2Spec S.env.log2f) (hB : 0 < S.B)
    (h : SwitchedRun S ws nw L m st sw w dir p y t) (hp : ∀ i < m, IsPhase S.env.fl (p i)) {n : ℕ}
    (hn : n ≤ m) : Plays S ws nw L (st n) ∧ ∀ _ : n < m, Plays S ws nw L (sw n) ∧
      (st (n + 1)).prevPhaseDiff ≠ 0 := by
  have two : ∀ n, n < m → Plays S ws nw L (st n) → Plays S ws nw L (sw n) ∧
      (st (n + 1)).prevPhaseDiff ≠ 0 := by
    intro n hn h0
    obtain ⟨i1, -⟩ := setWaveform_plays h0 (h.wave n hn).1 (h.wave n hn).2 (h.set n hn)
    refine ⟨i1, ?_⟩
    have hpl := Sys.reached_play hf hl hB i1.1
    obtain ⟨wt, hwt, -⟩ := hpl.wt
    obtain ⟨v, e, -⟩ := Props.process_one (by rw [hwt]; rfl) (h.call n hn)
    have hp' : PhaseOk S.env.fl (p n) := ⟨(h.phase n hn).1, (h.phase n hn).2, hp n hn⟩
    obtain ⟨-, -, s2, -⟩ := Sys.stepDir_tables e
    rw [s2]
    exact (Sys.dirDiff_range hf hpl.toOscOk hp' (h.step n hn)).1
  induction n with
  | zero => exact ⟨h.plays, fun hm => two 0 hm h.plays⟩
  | succ n ih =>
    have hn' : n < m := hn
    obtain ⟨i1, -⟩ := (ih hn'.le).2 hn'
    have hp' : PhaseOk S.env.fl (p n) := ⟨(h.phase n hn').1, (h.phase n hn').2, hp n hn'⟩
    have := Props.Plays.process (dir := dir n) (ps := [p n]) (out := [0]) i1
        ⟨hp', h.step n hn', trivial⟩ rfl (h.call n hn')
    exact ⟨this, fun hm => two _ hm this⟩

theorem run_sel (hf : Rounding S.env.fl) (hl : Log2Spec S.env.log2f) (hB : 0 < S.B)
    (h : SwitchedRun S ws nw L m st sw w dir p y t) (hp : ∀ i < m, IsPhase S.env.fl (p i)) {κ : ℝ}
    (hκ : ∀ {c c' : CrossFader ℝ}, c.Inv → ∀ {d : ℝ}, 0 < d → ∀ {t : MipMapIndices ℝ},
      c.newIndices S.env d = .ok (c', t) → t.weight + t.weightUp ≤ κ) {n : ℕ} (hn : n < m) :
    Sel L κ (t n) := by
  obtain ⟨i1, hd⟩ := (run_stages hf hl hB h hp hn.le).2 hn
  have ho := Sys.reached_play hf hl hB i1.1
  obtain ⟨wt, wt', hwt, hfi⟩ := h.next n hn
  have hw : WtOk nw L wt := by
    obtain ⟨wt', e', h⟩ := ho.wt
    rw [hwt] at e'; cases e'; exact h
  obtain ⟨c, t', hni, hfind, -, -, b0, b1, b2⟩ := Sys.find_spec hf hw (abs_pos.2 hd)
  rw [hfi] at hfind
  cases hfind
  obtain ⟨-, -, -, w0, -, w1, -⟩ := CrossFader.tuple_facts hf hw.inv (abs_pos.2 hd) hni
  exact ⟨b0, b1, b2, w0, w1, hκ hw.inv (abs_pos.2 hd) hni⟩

/-- The same calls on an oscillator with the same control state but other tables. -/
theorem run_follows (hf : Rounding S.env.fl) (hl : Log2Spec S.env.log2f) (hB : 0 < S.B)
    (h : SwitchedRun S ws nw L m st sw w dir p y t) (hp : ∀ i < m, IsPhase S.env.fl (p i))
    {ws' : List ℝ} {o' : Osc ℝ C} (hc : Sys.Ctl (st 0) o') (ho' : Plays S ws' nw L o')
    (hy' : ∀ y ∈ o'.prevY, y = 0) :
    ∃ st' sw' y', st' 0 = o' ∧ SwitchedRun S ws' nw L m st' sw' w dir p y' t := by
  have ex : ∀ (n : ℕ) (q : Osc ℝ C), ∃ r : Osc ℝ C × Osc ℝ C × ℝ,
      n < m → Sys.Ctl (st n) q → Plays S ws' nw L q →
      S.setWaveform q (w n) = .ok r.1 ∧ Sys.Ctl (sw n) r.1 ∧
      S.process (dir n) r.1 [p n] [0] = .ok (r.2.1, [r.2.2]) ∧ Sys.Ctl (st (n + 1)) r.2.1 ∧
      Plays S ws' nw L r.2.1 := by
    intro n q
    by_cases hh : n < m ∧ Sys.Ctl (st n) q ∧ Plays S ws' nw L q
    swap
    · exact ⟨(q, q, 0), fun a b c => absurd ⟨a, b, c⟩ hh⟩
    obtain ⟨hn, hcq, hq⟩ := hh
    obtain ⟨i1, -⟩ := (run_stages hf hl hB h hp hn.le).2 hn
    obtain ⟨q1, e1, c1, -, -⟩ := Sys.ctl_set hcq (h.set n hn)
    obtain ⟨j1, -⟩ := setWaveform_plays hq (h.wave n hn).1 (h.wave n hn).2 e1
    have p1 := Sys.reached_play hf hl hB i1.1
    have p2 := Sys.reached_play hf hl hB j1.1
    obtain ⟨wt1, hwt1, -⟩ := p1.wt
    obtain ⟨wt2, hwt2, -⟩ := p2.wt
    obtain ⟨v, e, -⟩ := Props.process_one (by rw [hwt1]; rfl) (h.call n hn)
    have hp' : PhaseOk S.env.fl (p n) := ⟨(h.phase n hn).1, (h.phase n hn).2, hp n hn⟩
    obtain ⟨c, t', q2, y2, g1, g2, -⟩ := Sys.ctl_step hf hB p1 p2 c1 hwt1 hwt2 hp' (h.step n hn) e
    have hcall : S.process (dir n) q1 [p n] [0] = .ok (q2, [y2]) := by
      refine Sys.process_eq (ps := [p n]) (ys := [y2]) hwt2 [0] rfl ?_ rfl
      unfold Sys.runDir
      rw [g1]; rfl
    have hst : StepOk (dir n) q1.prevPhase (p n) := by rw [← c1.phase]; exact h.step n hn
    exact ⟨(q1, q2, y2), fun _ _ _ => ⟨e1, c1, hcall, g2,
      Props.Plays.process (dir := dir n) (ps := [p n]) (out := [0]) j1 ⟨hp', hst, trivial⟩ rfl hcall⟩⟩
  choose f hf' using ex
  let st' : ℕ → Osc ℝ C := fun n => Nat.rec o' (fun k q => (f k q).2.1) n
  have key : ∀ n ≤ m, Sys.Ctl (st n) (st' n) ∧ Plays S ws' nw L (st' n) := by
    intro n hn
    induction n with
    | zero => exact ⟨hc, ho'⟩
    | succ n ih =>
      obtain ⟨a, b⟩ := ih (by omega)
      obtain ⟨-, -, -, c, d⟩ := hf' n (st' n) (by omega) a b
      exact ⟨c, d⟩
  have all : ∀ n < m, S.setWaveform (st' n) (w n) = .ok (f n (st' n)).1 ∧
      Sys.Ctl (sw n) (f n (st' n)).1 ∧
      S.process (dir n) (f n (st' n)).1 [p n] [0] = .ok (st' (n + 1), [(f n (st' n)).2.2]) ∧
      Sys.Ctl (st (n + 1)) (st' (n + 1)) := by
    intro n hn
    obtain ⟨a, b⟩ := key n hn.le
    obtain ⟨h1, h2, h3, h4, -⟩ := hf' n (st' n) hn a b
    exact ⟨h1, h2, h3, h4⟩
  refine ⟨st', fun n => (f n (st' n)).1, fun n => (f n (st' n)).2.2, rfl, ho', hy', h.wave,
    fun i hi => (all i hi).1, h.phase, ?_, fun i hi => (all i hi).2.2.1, ?_, ?_, ?_⟩
  · intro i hi
    rw [← (all i hi).2.1.phase]; exact h.step i hi
  · intro i hi
    obtain ⟨-, c1, -, c2⟩ := all i hi
    obtain ⟨wt, wt', hwt, hfi⟩ := h.next i hi
    obtain ⟨w1, w2, f1, f2, f3⟩ := c1.cf
    rw [hwt] at f1; cases f1
    rw [← c2.diff]
    unfold WavetableData.findMipMapIndices at hfi
    obtain ⟨⟨cf, t1⟩, hni, hfi⟩ := bind_ok hfi
    cases hfi
    refine ⟨w2, { w2 with cf := cf }, f2, ?_⟩
    unfold WavetableData.findMipMapIndices
    rw [← f3, hni]; rfl
  · intro i hi
    have c1 := (all i hi).2.1
    have := h.move i hi
    unfold TableMove at this ⊢
    rw [← c1.mip, ← c1.diff]; exact this
  · intro i hi
    rw [← (all i hi).2.1.phase]; exact h.off i hi

end

/-! ### from samples to tables -/

theorem Close.append {δ : ℝ} {a b c d : List ℝ} (h : Close δ a b) (h' : Close δ c d) :
    Close δ (a ++ c) (b ++ d) := List.rel_append h h'

theorem Close.mono {δ δ' : ℝ} {a b : List ℝ} (h : Close δ a b) (hd : δ ≤ δ') : Close δ' a b :=
  h.imp fun _ _ h => h.trans hd

theorem Close.getD {δ : ℝ} {a b : List ℝ} (h : Close δ a b) (hδ : 0 ≤ δ) (k : ℕ) :
    |a.getD k 0 - b.getD k 0| ≤ δ := by
  induction h generalizing k with
  | nil => simpa using hδ
  | cons h _ ih =>
    cases k with
    | zero => simpa using h
    | succ k => simpa using ih k

theorem close_decimate {E : Env ℝ} {G δ : ℝ} (hE : StableSrc E G) (hδ : 0 ≤ δ) {v v' : List ℝ}
    (h : Close δ v v') (r : ℕ) : Close (G * δ) (decimate E v r) (decimate E v' r) := by
  have hl : v.length = v'.length := h.length_eq
  unfold decimate Close
  rw [hl, List.forall₂_map_left_iff, List.forall₂_map_right_iff]
  exact List.forall₂_same.2 fun i _ =>
    hE _ _ δ hδ ((((h.append h).append h).append h).append h) _ _ _

theorem close_mip {E : Env ℝ} {G δ : ℝ} (hE : StableSrc E G) (hG : 1 ≤ G) (hδ : 0 ≤ δ)
    {v v' : List ℝ} (h : Close δ v v') {i : ℕ} (hi : i ≤ 16) :
    Close (G ^ 2 * δ) (mipSamples E v i) (mipSamples E v' i) := by
  have h1 : δ ≤ G * δ := by nlinarith
  have h2 : G * δ ≤ G ^ 2 * δ := by nlinarith [mul_nonneg (by linarith : 0 ≤ G) hδ]
  have low : ∀ i ≤ 8, Close (G * δ) (mipSamples E v i) (mipSamples E v' i) := by
    intro i hi
    unfold mipSamples
    split_ifs with h0
    · exact h.mono h1
    · exact close_decimate hE hδ h _
  by_cases h8 : i ≤ 8
  · exact (low i h8).mono h2
  · rw [mipSamples, mipSamples.eq_1 E v', if_neg (by omega), if_neg h8, if_neg (by omega), if_neg h8]
    have := close_decimate hE (by nlinarith) (low (i - 8) (by omega)) 256
    rw [← mul_assoc, ← pow_two] at this
    exact this

theorem tables_close {E : Env ℝ} {G δ : ℝ} (hE : StableSrc E G) (hG : 1 ≤ G) (hδ : 0 ≤ δ)
    {ws ws' : List ℝ} (h : Close δ ws ws') (nw : ℕ) {L : ℕ} (hL : L ≤ 18) :
    TablesClose E ws ws' nw L (G ^ 2 * δ) := by
  intro w _ i hi k
  have hw : Close δ (waveformOf ws (2 ^ L) w) (waveformOf ws' (2 ^ L) w) := by
    unfold waveformOf
    exact List.forall₂_take _ (List.forall₂_drop _ h)
  have hm := close_mip hE hG hδ hw (show i ≤ 16 by omega)
  unfold cyc
  rw [hm.length_eq]
  exact hm.getD (by positivity) _

end Adwt
