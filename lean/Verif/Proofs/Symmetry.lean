import Verif.Props.Convolution

/-!
# Two runs that read the same waveform in different ways
-/

set_option linter.unusedSectionVars false

namespace Adwt
variable {S : Sys ℝ ℂ} {nw L m : ℕ} {ws : List ℝ} {st : ℕ → Osc ℝ ℂ}
  {dir : ℕ → Sys.Direction} {p y : ℕ → ℝ} {t : ℕ → MipMapIndices ℝ}
  {nw' : ℕ} {ws' : List ℝ} {st' : ℕ → Osc ℝ ℂ}
  {dir' : ℕ → Sys.Direction} {p' y' : ℕ → ℝ} {t' : ℕ → MipMapIndices ℝ}

namespace Sys

/-- The crossfader and the tuple it gives during a run. -/
theorem run_fade (hS : ExactSys S) (hl : Log2Spec S.env.log2f)
    (h : TrackedRun S ws nw L m st dir p y t) {n : ℕ} (hn : n < m) :
    ∃ wt wt1, (st n).wt = some wt ∧ (st (n + 1)).wt = some wt1 ∧
      wt.cf.newIndices S.env |stepOf dir (st 0).prevPhase p n| = .ok (wt1.cf, t n) ∧
      0 ≤ (t n).idx ∧ (t n).idx < (L : ℤ) - 1 ∧
      ((t n).weightUp ≠ 0 → (t n).idxUp = (t n).idx + 1 ∧ (t n).idxUp < (L : ℤ) - 1) := by
  obtain ⟨i1, i2, i3, -, -, -⟩ := run_conv hS hl h hn.le
  have hf := exact_rounding hS
  have hpl := reached_play hf hl hS.B i1.1
  obtain ⟨wt, hwt, hw⟩ := hpl.wt
  obtain ⟨v, e, -⟩ := Props.process_one (by rw [hwt]; rfl) (h.call n hn)
  have hp : PhaseOk S.env.fl (p n) := ⟨(h.phase n hn).1, (h.phase n hn).2, by rw [hS.fl]; exact isPhase_id _⟩
  obtain ⟨-, s1, s2, s3⟩ := stepDir_tables e
  obtain ⟨c, u, hn1, -, e1, -, -, b0, b1, b2⟩ := step_form' hf hS.B hpl hwt hp (h.step n hn) e
  have hd : dirDiff S.env.fl (dir n) (p n) (st n).prevPhase = stepOf dir (st 0).prevPhase p n := by
    rw [hS.fl, i3]; rfl
  rw [hd] at hn1
  obtain ⟨wta, wtb, k1, k2⟩ := h.next n hn
  rw [hwt] at k1; cases k1
  rw [s2, hd] at k2
  unfold WavetableData.findMipMapIndices at k2
  rw [hn1] at k2
  change (Except.ok _ : R _) = .ok _ at k2
  obtain ⟨-, rfl⟩ := Prod.mk.injEq _ _ _ _ ▸ Except.ok.inj k2
  refine ⟨wt, { wt with cf := c }, hwt, ?_, hn1, b0, b1, b2⟩
  rw [e1]
  rfl

/-- Equal crossfaders and equal step sizes: equal tuples. -/
theorem same_tuples (hS : ExactSys S) (hl : Log2Spec S.env.log2f)
    (h : TrackedRun S ws nw L m st dir p y t) (h' : TrackedRun S ws' nw' L m st' dir' p' y' t')
    (hcf : ∀ wt wt', (st 0).wt = some wt → (st' 0).wt = some wt' → wt.cf = wt'.cf)
    (hd : ∀ i < m, |stepOf dir' (st' 0).prevPhase p' i| = |stepOf dir (st 0).prevPhase p i|)
    {n : ℕ} (hn : n < m) : t' n = t n := by
  have key : ∀ n ≤ m, ∀ wt wt', (st n).wt = some wt → (st' n).wt = some wt' → wt.cf = wt'.cf := by
    intro n
    induction n with
    | zero => intro _; exact hcf
    | succ n ih =>
      intro hn wt wt' e e'
      obtain ⟨w, w1, a1, a2, a3, -⟩ := run_fade hS hl h hn
      obtain ⟨w', w1', b1, b2, b3, -⟩ := run_fade hS hl h' hn
      rw [a2] at e; cases e
      rw [b2] at e'; cases e'
      have := ih (Nat.le_of_succ_le hn) _ _ a1 b1
      rw [hd n hn, ← this, a3] at b3
      exact (Prod.mk.inj (Except.ok.inj b3)).1
  obtain ⟨w, w1, a1, a2, a3, -⟩ := run_fade hS hl h hn
  obtain ⟨w', w1', b1, b2, b3, -⟩ := run_fade hS hl h' hn
  have := key n hn.le _ _ a1 b1
  rw [hd n hn, ← this, a3] at b3
  exact (Prod.mk.inj (Except.ok.inj b3)).2.symm

/-- Position `a u + c` in one wavetable corresponds to position `u` in another. -/
theorem symmetric_runs (hS : ExactSys S) (hl : Log2Spec S.env.log2f)
    (h : TrackedRun S ws nw L m st dir p y t) (h' : TrackedRun S ws' nw' L m st' dir' p' y' t')
    (hcf : ∀ wt wt', (st 0).wt = some wt → (st' 0).wt = some wt' → wt.cf = wt'.cf)
    (a c : ℝ) (ha : a = 1 ∨ a = -1) (k : ℤ) (hx : (st' 0).prevPhase = a * (st 0).prevPhase + c + k)
    (hd : ∀ i < m, stepOf dir' (st' 0).prevPhase p' i = a * stepOf dir (st 0).prevPhase p i)
    (hw : ∀ i : ℕ, i + 1 < L → ∀ u, waveAt S.env ws' L (st' 0).crt i (a * u + c) =
      waveAt S.env ws L (st 0).crt i u) {n : ℕ} (hn : n < m) : y' n = y n := by
  have hda : ∀ i < m, |stepOf dir' (st' 0).prevPhase p' i| = |stepOf dir (st 0).prevPhase p i| := by
    intro i hi
    rw [hd i hi, abs_mul]
    rcases ha with rfl | rfl <;> simp
  rw [Props.C37_convolution S hS hl ws nw L m st dir p y t h n hn,
    Props.C37_convolution S hS hl ws' nw' L m st' dir' p' y' t' h' n hn]
  have hwz : ∀ i : ℤ, 0 ≤ i → i < (L : ℤ) - 1 → ∀ u, waveAt S.env ws' L (st' 0).crt i (a * u + c + k) =
      waveAt S.env ws L (st 0).crt i u := by
    intro i h0 h1 u
    obtain ⟨j, rfl⟩ := Int.eq_ofNat_of_zero_le h0
    rw [← hw j (by omega) u]
    have := (waveAt_period (E := S.env) (ws := ws') (L := L) (w := (st' 0).crt) (i := (j : ℤ))).int_mul k
      (a * u + c)
    rwa [mul_one] at this
  have hmix : ∀ i < m, ∀ u, mixture S.env ws' L (st' 0).crt (t' i) (a * u + c + k) =
      mixture S.env ws L (st 0).crt (t i) u := by
    intro i hi u
    rw [same_tuples hS hl h h' hcf hda hi]
    obtain ⟨_, _, _, _, _, b0, b1, b2⟩ := run_fade hS hl h hi
    unfold mixture
    rw [hwz _ b0 b1]
    by_cases hz : (t i).weightUp = 0
    · rw [hz, zero_mul, zero_mul]
    · obtain ⟨c1, c2⟩ := b2 hz
      rw [hwz _ (by omega) c2]
  have hun : ∀ u : ℝ, 0 ≤ u → u < n + 1 → unwrapped (st' 0).prevPhase (stepOf dir' (st' 0).prevPhase p') u =
      a * unwrapped (st 0).prevPhase (stepOf dir (st 0).prevPhase p) u + c + k := by
    intro u h0 h1
    have hfl : ⌊u⌋₊ < n + 1 := by
      rw [Nat.floor_lt h0]; exact_mod_cast h1
    unfold unwrapped
    rw [hd _ (by omega), Finset.sum_congr rfl (fun i hi => hd i (by
      have := Finset.mem_range.1 hi; omega)), ← Finset.mul_sum, hx]
    ring
  unfold filtered
  congr 1
  apply Finset.sum_congr rfl
  intro j _
  congr 1
  apply intervalIntegral.integral_congr_ae
  have hne : ∀ᵐ u : ℝ, u ≠ (n : ℝ) + 1 := by
    have := MeasureTheory.compl_mem_ae_iff.2 (MeasureTheory.measure_singleton (μ := MeasureTheory.volume) ((n : ℝ) + 1))
    exact this
  filter_upwards [hne] with u hu hmem
  rw [Set.uIoc_of_le (by positivity)] at hmem
  have hlt : u < n + 1 := lt_of_le_of_ne hmem.2 hu
  unfold played
  have hfl : ⌊u⌋₊ < n + 1 := by
    rw [Nat.floor_lt hmem.1.le]; exact_mod_cast hlt
  rw [hun u hmem.1.le hlt, hmix _ (by omega)]

end Sys

/-- The bidirectional step is unique among the differences of size below 1/2. -/
theorem bi_step_unique {p x d : ℝ} (hp : 0 ≤ p ∧ p < 1) (hx : 0 ≤ x ∧ x < 1) (hd : |d| < 1 / 2)
    (hk : ∃ k : ℤ, d = p - x + k) : Sys.dirDiff id .kBidirectionnal p x = d := by
  obtain ⟨k, hk⟩ := hk
  rw [abs_lt] at hd
  unfold Sys.dirDiff Sys.biDiff
  simp only [id]
  have h1 : -2 < (k : ℝ) := by linarith
  have h2 : (k : ℝ) < 2 := by linarith
  have h1' : -2 < k := by exact_mod_cast h1
  have h2' : k < 2 := by exact_mod_cast h2
  have : k = -1 ∨ k = 0 ∨ k = 1 := by omega
  rcases this with rfl | rfl | rfl
  · push_cast at hk
    split_ifs <;> linarith
  · push_cast at hk
    split_ifs <;> linarith
  · push_cast at hk
    split_ifs <;> linarith

theorem fwd_step_unique {p x d : ℝ} (hp : 0 ≤ p ∧ p < 1) (hx : 0 ≤ x ∧ x < 1) (hd : 0 ≤ d ∧ d < 1)
    (hk : ∃ k : ℤ, d = p - x + k) : Sys.dirDiff id .kForward p x = d := by
  obtain ⟨k, hk⟩ := hk
  unfold Sys.dirDiff Sys.fwdDiff
  simp only [id]
  have h1 : -1 < (k : ℝ) := by linarith
  have h2 : (k : ℝ) < 2 := by linarith
  have h1' : -1 < k := by exact_mod_cast h1
  have h2' : k < 2 := by exact_mod_cast h2
  have : k = 0 ∨ k = 1 := by omega
  rcases this with rfl | rfl
  · push_cast at hk
    split_ifs <;> linarith
  · push_cast at hk
    split_ifs <;> linarith

/-- Interpolation of the reversed samples. -/
theorem interp_reverse {y y' : List ℝ} (hl : y'.length = y.length) (h : ∀ k, cyc y' k = cyc y (-k))
    (u : ℝ) : interp y' (-u) = interp y u := by
  unfold interp
  rw [hl]
  have e : -u * (y.length : ℝ) = -(u * y.length) := by ring
  rw [e]
  generalize u * (y.length : ℝ) = v
  rw [h, h]
  rw [Int.floor_neg, neg_neg, neg_add, neg_neg]
  by_cases hv : (⌊v⌋ : ℝ) = v
  · have hc : ⌈v⌉ = ⌊v⌋ := by
      conv_lhs => rw [← hv]
      simp
    rw [hc]
    push_cast
    rw [hv]
    ring
  · have hc : ⌈v⌉ = ⌊v⌋ + 1 := by
      apply le_antisymm (Int.ceil_le_floor_add_one v)
      rw [Int.add_one_le_iff]
      by_contra hcon
      push Not at hcon
      have h1 := Int.floor_le v
      have h2 := Int.le_ceil v
      have h3 : ((⌈v⌉ : ℤ) : ℝ) ≤ ⌊v⌋ := by exact_mod_cast hcon
      exact hv (by linarith)
    rw [hc]
    rw [show ⌊v⌋ + 1 + -1 = ⌊v⌋ by ring]
    push_cast
    ring

end Adwt
