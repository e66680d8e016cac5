import Verif.Props.Polarity
import Verif.Props.HoldExact
import Verif.Props.Safety
import Verif.Props.Flush
import Verif.Proofs.SilenceNum
import Verif.Spec.Silence

/-!
# C82: what is left of a sound when a silent waveform is selected
-/

set_option linter.unusedSectionVars false

namespace Adwt.Props
open WavetableData

/-! ### helpers -/

theorem muted_row {C : Type} [Zero C] [Add C] [Sub C] [Mul C] [Div C] {S : Sys ℝ C} (hE : OddEnv S.env)
    (hf : Rounding S.env.fl) (hl : Log2Spec S.env.log2f) {ws : List ℝ} {nw L : ℕ} {o : Osc ℝ C}
    (ho : Plays S ws nw L o) (hm : Muted ws L o) : ∃ wt, o.wt = some wt ∧ ZeroRow wt o.crt := by
  have hsrc : ∀ (w : List ℝ) (r : ℕ), (∀ x ∈ w, x = 0) → ∀ x ∈ decimate S.env w r, x = 0 := by
    intro w r hw x hx
    have e : (w ++ w ++ w ++ w ++ w).map (- ·) = w ++ w ++ w ++ w ++ w := by
      conv_rhs => rw [← List.map_id (w ++ w ++ w ++ w ++ w)]
      apply List.map_congr_left
      intro x hx
      have : x ∈ w := by simpa using hx
      rw [hw x this, neg_zero]; rfl
    have h1 := hE.src (w ++ w ++ w ++ w ++ w) (5 * (w.length / r)) r
    rw [e] at h1
    obtain ⟨i, -, rfl⟩ := List.mem_map.1 hx
    have h2 := congrArg (fun s => s.data (2 * (w.length / r) + i)) h1
    dsimp only at h2
    linarith
  obtain ⟨-, sr, dur, wt0, wt, hb, hwt, ht⟩ := ho
  obtain ⟨L', xf, -, -, hn, -, hlen, -, rfl⟩ := build_some hf hl hb.1 hb.2.2.2
  have hL : L' = L := by
    have h1 := hb.2.2.1
    rw [hlen, Int.toNat_natCast] at h1
    exact Nat.pow_right_injective (le_refl 2) (Nat.eq_of_mul_eq_mul_left (by exact_mod_cast hn) h1)
  subst hL
  refine ⟨wt, hwt, ?_⟩
  have := wtOf_zero (nw := ((nw : ℤ)).toNat) (xf := xf) hE hsrc hm
  simp only [tablesOf, Prod.mk.injEq] at ht
  unfold ZeroRow at this ⊢
  rw [ht.1, ht.2.1, ht.2.2.1, ht.2.2.2.1]
  exact this

theorem muted_process {C : Type} [Zero C] [Add C] [Sub C] [Mul C] [Div C] [Neg C] {S : Sys ℝ C}
    (hE : OddEnv S.env) (hC : OddOps S.ops) (hz : ∀ c : C, c = -c → c = 0)
    (hf : Rounding S.env.fl) (hl : Log2Spec S.env.log2f) {ws : List ℝ} {nw L : ℕ} {o : Osc ℝ C}
    (ho : Plays S ws nw L o) (hm : Muted ws L o) {dir : Sys.Direction} {ps out ys : List ℝ} {o' : Osc ℝ C}
    (hlen : ps.length = out.length) (h : S.process dir o ps out = .ok (o', ys)) :
    o'.prevY = Sys.decayed S o.prevY ps.length ∧
      ys = (List.range ps.length).map fun i => S.outReal (Sys.decayed S o.prevY (i + 1)) := by
  obtain ⟨wt, hwt, hr⟩ := muted_row hE hf hl ho hm
  rw [Sys.process_runDir S dir (by rw [hwt]; rfl) hlen] at h
  obtain ⟨h1, -, -, h2⟩ := Sys.silent_run (Sys.zeroLaws hE hC hz) hwt hr h
  exact ⟨h1, h2⟩

section
variable {rnd : ℝ → ℝ} [GoodRnd rnd]

theorem cfl_neg (c : CFl rnd) (h : c = -c) : c = 0 := by
  have h1 : c.re = -c.re := congrArg CFl.re h
  have h2 : c.im = -c.im := congrArg CFl.im h
  exact CFl.ext (by show c.re = 0; linarith) (by show c.im = 0; linarith)

theorem decayed_getD (hr : Rounding rnd) (E : Env ℝ) (hE : OddEnv E) (t : FilterType) (y : List (CFl rnd)) {k : ℕ}
    (hk : k < (sysRnd rnd E t).n) (n : ℕ) :
    (Sys.decayed (sysRnd rnd E t) y n).getD k 0 =
      (((sysRnd rnd E t).expZA k) * ·)^[n] (y.getD k 0) := by
  have Z : Sys.ZeroLaws (sysRnd rnd E t) := Sys.zeroLaws hE (oddOps rnd) cfl_neg
  induction n with
  | zero => rfl
  | succ n ih =>
    rw [Function.iterate_succ_apply', ← ih]
    show (Sys.cpxY _ (Sys.decayed _ y n) _).getD k 0 = _
    unfold Sys.cpxY
    rw [List.getD_eq_getElem?_getD, List.getElem?_map, List.getElem?_range hk]
    show (sysRnd rnd E t).expZA k * (Sys.decayed _ y n).getD k 0 + _ = _
    dsimp only
    rw [Z.zero_div, Z.mul_zero]
    generalize (Sys.decayed (sysRnd rnd E t) y n).getD k 0 = x
    generalize (sysRnd rnd E t).expZA k = e
    apply CFl.ext
    · show rnd (rnd _ + 0) = rnd _
      rw [add_zero, hr.idem]
    · show rnd (rnd _ + 0) = rnd _
      rw [add_zero, hr.idem]

theorem decayed_length (E : Env ℝ) (t : FilterType) (y : List (CFl rnd)) (n : ℕ) :
    (Sys.decayed (sysRnd rnd E t) y (n + 1)).length = (sysRnd rnd E t).n := by
  show (Sys.cpxY _ _ _).length = _
  unfold Sys.cpxY; simp

/-- every entry of a decayed memory comes from a pole -/
theorem decayed_mem (hr : Rounding rnd) (E : Env ℝ) (hE : OddEnv E) (t : FilterType) {y : List (CFl rnd)} {n : ℕ}
    {c : CFl rnd} (hc : c ∈ Sys.decayed (sysRnd rnd E t) y (n + 1)) {A : ℝ} (hA : 0 ≤ A)
    (hy : ∀ c ∈ y, c.Le A) :
    ∃ l ∈ zLit t, ∃ x : CFl rnd, x.Le A ∧ c = (CFloat.exp (flit l) * ·)^[n + 1] x := by
  obtain ⟨k, hk, rfl⟩ := List.getElem_of_mem hc
  have hk' := hk
  rw [decayed_length] at hk'
  have hkz : k < (zLit t).length := by
    have : (sysRnd rnd E t).n = (rLit t).length := List.length_map ..
    rw [this] at hk'
    have e : (rLit t).length = (zLit t).length := by cases t <;> rfl
    omega
  refine ⟨(zLit t)[k], List.getElem_mem _, y.getD k 0, ?_, ?_⟩
  · rw [List.getD_eq_getElem?_getD]
    cases h : y[k]? with
    | none => exact ⟨by show |(0 : ℝ)| ≤ A; simpa using hA, by show |(0 : ℝ)| ≤ A; simpa using hA⟩
    | some x => exact hy x (List.mem_of_getElem? h)
  · have h1 := decayed_getD hr E hE t y hk' (n + 1)
    rw [List.getD_eq_getElem?_getD, List.getElem?_eq_getElem hk] at h1
    rw [Option.getD_some] at h1
    rw [h1]
    have : (sysRnd rnd E t).expZA k = CFloat.exp (flit (zLit t)[k]) := by
      show (((zLit t).map flit).map CFloat.exp).getD k 0 = _
      rw [List.getD_eq_getElem?_getD, List.getElem?_map, List.getElem?_map, List.getElem?_eq_getElem hkz]
      rfl
    rw [this]

theorem fold_zero_of {l : List (CFl rnd)} (hr : Rounding rnd) (h : ∀ c ∈ l, c = 0) :
    l.foldl (· + ·) (0 : CFl rnd) = 0 := by
  induction l with
  | nil => rfl
  | cons c l ih =>
    rw [List.foldl_cons, h c (by simp)]
    have : (0 : CFl rnd) + 0 = 0 := by
      have e : rnd (0 + 0) = 0 := by rw [add_zero]; exact hr.zero
      exact CFl.ext e e
    rw [this]
    exact ih fun c hc => h c (by simp [hc])

theorem fold_small {l : List CFloat} {m : ℕ} (hm : m + 64 * l.length ≤ 1000) {a : CFloat}
    (ha : a.Le (m / 2 ^ 149)) (h : ∀ c ∈ l, c.Le (64 / 2 ^ 149)) :
    (l.foldl (· + ·) a).Le ((m + 64 * l.length : ℕ) / 2 ^ 149) := by
  induction l generalizing m a with
  | nil => simpa using ha
  | cons c l ih =>
    rw [List.foldl_cons]
    rw [List.length_cons] at hm ⊢
    have hc := h c (by simp)
    have part : ∀ x y : ℝ, |x| ≤ m / 2 ^ 149 → |y| ≤ 64 / 2 ^ 149 → |ieee32 (x + y)| ≤ (m + 64 : ℕ) / 2 ^ 149 := by
      intro x y hx hy
      apply round_small (by omega)
      refine ((abs_add_le _ _).trans (add_le_add hx hy)).trans_lt ?_
      rw [← add_div]
      apply div_lt_div_of_pos_right _ (by positivity)
      push_cast; linarith
    have := ih (m := m + 64) (a := a + c) (by omega) ⟨part _ _ ha.1 hc.1, part _ _ ha.2 hc.2⟩
      (fun c hc => h c (by simp [hc]))
    rw [show m + 64 * (l.length + 1) = m + 64 + 64 * l.length by ring]
    exact this

/-! ### the poles -/

theorem flit_re {c : CLit} (hc : |c.1| ≤ 30) (hc2 : |c.2| ≤ 30) : |(flit c : CFl rnd).re - c.1| ≤ 0.001 ∧
    |(flit c : CFl rnd).im - c.2| ≤ 0.001 := flit_near hc hc2

theorem pole_sum (t : FilterType) : ∀ c ∈ zLit t,
    |(CFloat.exp (flit c : CFl rnd)).re| + |(CFloat.exp (flit c : CFl rnd)).im| ≤ 0.97 := by
  intro c hc
  have hcase : c.1 ≤ -0.3787 ∨ c = (-0.29931827, 2.94764072) := by
    cases t <;> simp only [zLit, List.mem_cons, List.not_mem_nil, or_false] at hc
    all_goals rcases hc with rfl | rfl | rfl | rfl | rfl
    all_goals first | exact Or.inr rfl | (left; norm_num)
  have hb := zLit_bounds t c hc
  obtain ⟨h1, h2⟩ := flit_re (rnd := rnd) (c := c) (hb.2.1.trans (by norm_num)) (hb.2.2.trans (by norm_num))
  have h1 := abs_le.1 h1
  have h2 := abs_le.1 h2
  rcases hcase with h | rfl
  · apply sum_le
    have : (c.1 : ℝ) ≤ ((-0.3787 : ℚ) : ℝ) := by exact_mod_cast h
    norm_num at this h1 ⊢
    linarith
  · norm_num at h1 h2
    have hs := sin_near (x := (flit (-0.29931827, 2.94764072) : CFl rnd).im) (δ := 0.2)
      (by norm_num; linarith) (by norm_num; linarith)
    have hb : Real.exp (flit (-0.29931827, 2.94764072) : CFl rnd).re ≤ 0.75 :=
      exp_neg_le (x := 0.298) (by norm_num) 5 (by norm_num [Finset.sum_range_succ, Nat.factorial]) (by norm_num)
        (by norm_num; linarith)
    obtain ⟨k1, k2⟩ := exp_le (flit (-0.29931827, 2.94764072) : CFl rnd) (by linarith) hb
      (Real.abs_cos_le_one _) hs
    norm_num at k1 k2 ⊢
    linarith

theorem pole_small {t : FilterType} (ht : t = .kType1 ∨ t = .kType3 ∨ t = .kType4) : ∀ c ∈ zLit t,
    |(CFloat.exp (flit c : CFl rnd)).re| ≤ 0.49 ∧ |(CFloat.exp (flit c : CFl rnd)).im| ≤ 0.22 := by
  intro c hc
  have hcase : c.1 ≤ -1.61 ∨ c = (-1.08201191, 2.61220784) ∨ c = (-0.73179361, 2.73109093) := by
    rcases ht with rfl | rfl | rfl <;> simp only [zLit, List.mem_cons, List.not_mem_nil, or_false] at hc
    all_goals rcases hc with rfl | rfl | rfl
    all_goals first | exact Or.inr (Or.inl rfl) | exact Or.inr (Or.inr rfl) | (left; norm_num)
  have hb := zLit_bounds t c hc
  obtain ⟨h1, h2⟩ := flit_re (rnd := rnd) (c := c) (hb.2.1.trans (by norm_num)) (hb.2.2.trans (by norm_num))
  have h1 := abs_le.1 h1
  have h2 := abs_le.1 h2
  rcases hcase with h | rfl | rfl
  · apply small_of_fast
    have : (c.1 : ℝ) ≤ ((-1.61 : ℚ) : ℝ) := by exact_mod_cast h
    norm_num at this h1 ⊢
    linarith
  · norm_num at h1 h2
    exact small_of_near _ (by norm_num; linarith) (δ := 0.54) (Or.inr ⟨by norm_num; linarith, le_rfl⟩)
      (by norm_num; linarith) (by norm_num; linarith)
  · norm_num at h1 h2
    exact small_of_near _ (by norm_num; linarith) (δ := 0.412) (Or.inl le_rfl)
      (by norm_num; linarith) (by norm_num; linarith)

/-- the first pole of the fifth-order filters with the least damping keeps the memory alive -/
theorem pole_alive {t : FilterType} (ht : t = .kType2 ∨ t = .kType5) {c : CLit} (hc : (zLit t).head? = some c)
    (hr : Rounding rnd) :
    (CFloat.exp (flit c : CFl rnd)).re < -(1 / 2) ∧ 0 ≤ (CFloat.exp (flit c : CFl rnd)).im := by
  have hmem : c ∈ zLit t := List.mem_of_mem_head? hc
  have hb := zLit_bounds t c hmem
  obtain ⟨h1, h2⟩ := flit_re (rnd := rnd) (c := c) (hb.2.1.trans (by norm_num)) (hb.2.2.trans (by norm_num))
  have h1 := abs_le.1 h1
  have h2 := abs_le.1 h2
  have im0 : (flit c : CFl rnd).im ≤ Real.pi → 0 ≤ (flit c : CFl rnd).im →
      0 ≤ (CFloat.exp (flit c : CFl rnd)).im := by
    intro k1 k2
    have nn : ∀ x : ℝ, 0 ≤ x → 0 ≤ rnd x := fun x hx => by
      have := hr.mono hx; rwa [hr.zero] at this
    exact nn _ (mul_nonneg (nn _ (Real.exp_pos _).le) (nn _ (Real.sin_nonneg_of_nonneg_of_le_pi k2 k1)))
  have hpi := Real.pi_gt_three
  have key : ∀ {b δ : ℝ}, (flit c : CFl rnd).re ≤ 0 → b ≤ Real.exp (flit c : CFl rnd).re →
      3.1415 - δ ≤ (flit c : CFl rnd).im → (flit c : CFl rnd).im ≤ 3.1415 → 0 ≤ 1 - (δ + 0.0001) ^ 2 / 2 →
      1 / 2 + 1 / 2 ^ 20 < b * (1 - (δ + 0.0001) ^ 2 / 2) → (CFloat.exp (flit c : CFl rnd)).re < -(1 / 2) := by
    intro b δ k0 k1 k2 k3 k4 k5
    have e1 := (abs_le.1 (exp_parts (flit c : CFl rnd) k0).1).2
    have e2 := cos_near k2 k3
    have e3 := mul_le_mul_of_nonneg_left e2 (Real.exp_pos (flit c : CFl rnd).re).le
    have e4 := mul_le_mul_of_nonneg_right k1 k4
    linarith
  have low : ∀ {x : ℝ}, 1 - x ≤ Real.exp (-x) := fun {x} => by
    have := Real.add_one_le_exp (-x); linarith
  rcases ht with rfl | rfl
  · have : c = (-0.29931827, 2.94764072) := (Option.some.inj hc).symm
    subst this
    norm_num at h1 h2
    have hx : (0.69 : ℝ) ≤ Real.exp (flit (-0.29931827, 2.94764072) : CFl rnd).re := by
      have := Real.add_one_le_exp (flit (-0.29931827, 2.94764072) : CFl rnd).re
      norm_num; linarith
    exact ⟨key (δ := 0.2) (by linarith) hx (by norm_num; linarith) (by norm_num; linarith) (by norm_num)
      (by norm_num), im0 (by linarith) (by linarith)⟩
  · have : c = (-0.37870934, 2.57341531) := (Option.some.inj hc).symm
    subst this
    norm_num at h1 h2
    have hx : (0.65 : ℝ) ≤ Real.exp (flit (-0.37870934, 2.57341531) : CFl rnd).re := by
      have h3 : Real.exp (-0.38 : ℝ) ≤ Real.exp (flit (-0.37870934, 2.57341531) : CFl rnd).re :=
        Real.exp_le_exp.2 (by norm_num; linarith)
      refine le_trans ?_ h3
      have h4 : Real.exp (-0.38 : ℝ) = Real.exp (-0.19) ^ 2 := by
        rw [← Real.exp_nat_mul]; norm_num
      have h5 := Real.add_one_le_exp (-0.19 : ℝ)
      rw [h4]
      have h6 : (0.81 : ℝ) ^ 2 ≤ Real.exp (-0.19) ^ 2 := pow_le_pow_left₀ (by norm_num) (by norm_num at h5 ⊢; linarith) 2
      norm_num at h6 ⊢
      linarith
    exact ⟨key (δ := 0.5692) (by linarith) hx (by norm_num; linarith) (by norm_num; linarith) (by norm_num)
      (by norm_num), im0 (by linarith) (by linarith)⟩

end

/-! ### the theorems -/

/-- C82: once a waveform of zeros is selected, the output depends only on what was played before. Two
oscillators with the same memory put out the same samples, whatever the wavetables they hold, the
positions, the phases they are given and the mode, for any rounding that treats both signs alike. -/
theorem C82_free {C : Type} [Zero C] [Add C] [Sub C] [Mul C] [Div C] [Neg C] (S : Sys ℝ C)
    (hE : OddEnv S.env) (hC : OddOps S.ops) (hz : ∀ c : C, c = -c → c = 0)
    (hf : Rounding S.env.fl) (hl : Log2Spec S.env.log2f)
    (ws₁ ws₂ : List ℝ) (nw₁ L₁ nw₂ L₂ : ℕ) (o₁ o₂ : Osc ℝ C)
    (h1 : Plays S ws₁ nw₁ L₁ o₁) (m1 : Muted ws₁ L₁ o₁) (h2 : Plays S ws₂ nw₂ L₂ o₂) (m2 : Muted ws₂ L₂ o₂)
    (hy : o₁.prevY = o₂.prevY) (dir₁ dir₂ : Sys.Direction) (ps₁ ps₂ out₁ out₂ ys₁ ys₂ : List ℝ)
    (l1 : ps₁.length = out₁.length) (l2 : ps₂.length = out₂.length) (hlen : ps₁.length = ps₂.length)
    (o₁' o₂' : Osc ℝ C) (e1 : S.process dir₁ o₁ ps₁ out₁ = .ok (o₁', ys₁))
    (e2 : S.process dir₂ o₂ ps₂ out₂ = .ok (o₂', ys₂)) : ys₁ = ys₂ ∧ o₁'.prevY = o₂'.prevY := by
  obtain ⟨a1, a2⟩ := muted_process hE hC hz hf hl h1 m1 l1 e1
  obtain ⟨b1, b2⟩ := muted_process hE hC hz hf hl h2 m2 l2 e2
  rw [a1, a2, b1, b2, hy, hlen]
  exact ⟨rfl, rfl⟩

/-- C82, hosts that flush subnormal numbers to zero: from the 6000th silent sample on, at the latest, the
output is exactly zero and nothing is left of the past. Any built-in filter. -/
theorem C82_flush (t : FilterType) (E : Env ℝ) (hE : OddEnv E) (hfl : E.fl = ftz32) (hl : Log2Spec E.log2f)
    (ws : List ℝ) (nw L : ℕ) (o : Osc ℝ (CFl ftz32)) (ho : Plays (sysRnd ftz32 E t) ws nw L o)
    (hm : Muted ws L o) (hy : ∀ c ∈ o.prevY, |c.re| ≤ 2 ^ 126 ∧ |c.im| ≤ 2 ^ 126)
    (dir : Sys.Direction) (ps out ys : List ℝ) (o' : Osc ℝ (CFl ftz32)) (hlen : ps.length = out.length)
    (h : (sysRnd ftz32 E t).process dir o ps out = .ok (o', ys)) :
    (∀ i y, 6000 ≤ i → ys[i]? = some y → y = 0) ∧ (6000 ≤ ps.length → ∀ c ∈ o'.prevY, c = 0) := by
  have hz : ∀ n, 6000 ≤ n → ∀ c ∈ Sys.decayed (sysRnd ftz32 E t) o.prevY n, c = 0 := by
    intro n hn c hc
    obtain ⟨m, rfl⟩ : ∃ m, n = m + 1 := ⟨n - 1, by omega⟩
    obtain ⟨l, hl, x, hx, rfl⟩ := decayed_mem rounding_ftz32 E hE t hc (by positivity) hy
    exact iter_ftz_zero (pole_sum t l hl) hx hn
  obtain ⟨h1, h2⟩ := muted_process (S := sysRnd ftz32 E t) hE (oddOps ftz32) cfl_neg
    (show Rounding E.fl by rw [hfl]; exact rounding_ftz32) hl ho hm hlen h
  refine ⟨fun i y hi hy' => ?_, fun hp c hc => ?_⟩
  · rw [h2, List.getElem?_map] at hy'
    obtain ⟨j, hj, rfl⟩ := Option.map_eq_some_iff.1 hy'
    have : j = i := by
      obtain ⟨a, b⟩ := List.getElem?_eq_some_iff.1 hj
      simpa using b.symm
    subst this
    show (List.foldl (· + ·) 0 _ : CFl ftz32).re = 0
    rw [fold_zero_of rounding_ftz32 (hz _ (by omega))]
    rfl
  · rw [h1] at hc
    exact hz _ hp c hc

/-- C82, gradual underflow, any built-in filter: from the 6400th silent sample on, at the latest, the
output is at most `2^-140` and every number left in the memory is subnormal or zero. -/
theorem C82_faint (t : FilterType) (E : Env ℝ) (hE : OddEnv E) (hfl : E.fl = ieee32) (hl : Log2Spec E.log2f)
    (ws : List ℝ) (nw L : ℕ) (o : Osc ℝ CFloat) (ho : Plays (sysRnd ieee32 E t) ws nw L o)
    (hm : Muted ws L o) (hy : ∀ c ∈ o.prevY, |c.re| ≤ 2 ^ 125 ∧ |c.im| ≤ 2 ^ 125)
    (dir : Sys.Direction) (ps out ys : List ℝ) (o' : Osc ℝ CFloat) (hlen : ps.length = out.length)
    (h : (sysRnd ieee32 E t).process dir o ps out = .ok (o', ys)) :
    (∀ i y, 6400 ≤ i → ys[i]? = some y → |y| ≤ 1 / 2 ^ 140) ∧
    (6400 ≤ ps.length → ∀ c ∈ o'.prevY, |c.re| ≤ 1 / 2 ^ 143 ∧ |c.im| ≤ 1 / 2 ^ 143) := by
  have hz : ∀ n, 6400 ≤ n → ∀ c ∈ Sys.decayed (sysRnd ieee32 E t) o.prevY n, c.Le (64 / 2 ^ 149) := by
    intro n hn c hc
    obtain ⟨m, rfl⟩ : ∃ m, n = m + 1 := ⟨n - 1, by omega⟩
    obtain ⟨l, hl, x, hx, rfl⟩ := decayed_mem rounding_ieee32 E hE t hc (by positivity) hy
    exact iter_tail (pole_sum t l hl) hx hn
  obtain ⟨h1, h2⟩ := muted_process (S := sysRnd ieee32 E t) hE (oddOps ieee32) cfl_neg
    (show Rounding E.fl by rw [hfl]; exact rounding_ieee32) hl ho hm hlen h
  refine ⟨fun i y hi hy' => ?_, fun hp c hc => ?_⟩
  · rw [h2, List.getElem?_map] at hy'
    obtain ⟨j, hj, rfl⟩ := Option.map_eq_some_iff.1 hy'
    have : j = i := by
      obtain ⟨a, b⟩ := List.getElem?_eq_some_iff.1 hj
      simpa using b.symm
    subst this
    have hn : (sysRnd ieee32 E t).n ≤ 5 := by
      have : (sysRnd ieee32 E t).n = (rLit t).length := List.length_map ..
      rw [this]; cases t <;> simp [rLit]
    have hlen5 := decayed_length E t o.prevY j
    have := (fold_small (m := 0) (a := 0) (by omega)
      ⟨by show |(0 : ℝ)| ≤ _; simp, by show |(0 : ℝ)| ≤ _; simp⟩ (hz (j + 1) (by omega))).1
    refine this.trans ?_
    have k : ((0 + 64 * (Sys.decayed (sysRnd ieee32 E t) o.prevY (j + 1)).length : ℕ) : ℝ) ≤ 320 := by
      exact_mod_cast (by omega : 0 + 64 * (Sys.decayed (sysRnd ieee32 E t) o.prevY (j + 1)).length ≤ 320)
    refine (div_le_div_of_nonneg_right k (by positivity)).trans ?_
    norm_num
  · rw [h1] at hc
    have := hz _ hp c hc
    have e : (64 / 2 ^ 149 : ℝ) = 1 / 2 ^ 143 := by norm_num
    rw [← e]
    exact this

/-- C82, gradual underflow, the filters `kType1`, `kType3` and `kType4`: from the 1000th silent sample on, at the latest, the
output is exactly zero and nothing is left of the past. -/
theorem C82_zero (t : FilterType) (ht : t = .kType1 ∨ t = .kType3 ∨ t = .kType4)
    (E : Env ℝ) (hE : OddEnv E) (hfl : E.fl = ieee32) (hl : Log2Spec E.log2f)
    (ws : List ℝ) (nw L : ℕ) (o : Osc ℝ CFloat) (ho : Plays (sysRnd ieee32 E t) ws nw L o)
    (hm : Muted ws L o) (hy : ∀ c ∈ o.prevY, |c.re| ≤ 2 ^ 125 ∧ |c.im| ≤ 2 ^ 125)
    (dir : Sys.Direction) (ps out ys : List ℝ) (o' : Osc ℝ CFloat) (hlen : ps.length = out.length)
    (h : (sysRnd ieee32 E t).process dir o ps out = .ok (o', ys)) :
    (∀ i y, 1000 ≤ i → ys[i]? = some y → y = 0) ∧ (1000 ≤ ps.length → ∀ c ∈ o'.prevY, c = 0) := by
  have hz : ∀ n, 1000 ≤ n → ∀ c ∈ Sys.decayed (sysRnd ieee32 E t) o.prevY n, c = 0 := by
    intro n hn c hc
    obtain ⟨m, rfl⟩ : ∃ m, n = m + 1 := ⟨n - 1, by omega⟩
    obtain ⟨l, hl, x, hx, rfl⟩ := decayed_mem rounding_ieee32 E hE t hc (by positivity) hy
    have := pole_small (rnd := ieee32) ht l hl
    exact iter_zero this.1 this.2 hx hn
  obtain ⟨h1, h2⟩ := muted_process (S := sysRnd ieee32 E t) hE (oddOps ieee32) cfl_neg
    (show Rounding E.fl by rw [hfl]; exact rounding_ieee32) hl ho hm hlen h
  refine ⟨fun i y hi hy' => ?_, fun hp c hc => ?_⟩
  · rw [h2, List.getElem?_map] at hy'
    obtain ⟨j, hj, rfl⟩ := Option.map_eq_some_iff.1 hy'
    have : j = i := by
      obtain ⟨a, b⟩ := List.getElem?_eq_some_iff.1 hj
      simpa using b.symm
    subst this
    show (List.foldl (· + ·) 0 _ : CFloat).re = 0
    rw [fold_zero_of rounding_ieee32 (hz _ (by omega))]
    rfl
  · rw [h1] at hc
    exact hz _ hp c hc

/-- what a sample stores is the memory of a linear step -/
theorem step_mem {C : Type} [Zero C] [Add C] [Sub C] [Mul C] [Div C] {S : Sys ℝ C} {dir : Sys.Direction}
    {o o' : Osc ℝ C} {p y : ℝ} (h : S.stepDir dir o p = .ok (o', y)) : ∃ a, o'.prevY = S.cpxY o.prevY a := by
  have fwd : ∀ d, S.processSampleFwd o p d = .ok (o', y) → ∃ a, o'.prevY = S.cpxY o.prevY a := by
    intro d h
    unfold Sys.processSampleFwd at h
    dsimp only at h
    obtain ⟨_, -, h⟩ := bind_ok h
    cases hw : o.wt with
    | none => rw [hw] at h; cases h
    | some wt =>
      rw [hw] at h
      dsimp only at h
      obtain ⟨⟨wt2, t⟩, ef, h⟩ := bind_ok h
      obtain ⟨phs, -, h⟩ := bind_ok h
      obtain ⟨pr, -, h⟩ := bind_ok h
      obtain ⟨len, -, h⟩ := bind_ok h
      obtain ⟨j0, -, h⟩ := bind_ok h
      obtain ⟨pj, -, h⟩ := bind_ok h
      obtain ⟨j, -, h⟩ := bind_ok h
      obtain ⟨j1, -, h⟩ := bind_ok h
      obtain ⟨j2, -, h⟩ := bind_ok h
      obtain ⟨a, ea, h⟩ := bind_ok h
      obtain ⟨b, eb, h⟩ := bind_ok h
      cases h
      exact ⟨_, rfl⟩
  have bwd : ∀ d, S.processSampleBwd o p d = .ok (o', y) → ∃ a, o'.prevY = S.cpxY o.prevY a := by
    intro d h
    unfold Sys.processSampleBwd at h
    dsimp only at h
    obtain ⟨_, -, h⟩ := bind_ok h
    cases hw : o.wt with
    | none => rw [hw] at h; cases h
    | some wt =>
      rw [hw] at h
      dsimp only at h
      obtain ⟨⟨wt2, t⟩, ef, h⟩ := bind_ok h
      obtain ⟨phs, -, h⟩ := bind_ok h
      obtain ⟨pr, -, h⟩ := bind_ok h
      obtain ⟨len, -, h⟩ := bind_ok h
      obtain ⟨j0, -, h⟩ := bind_ok h
      obtain ⟨pj, -, h⟩ := bind_ok h
      obtain ⟨j, -, h⟩ := bind_ok h
      obtain ⟨j1, -, h⟩ := bind_ok h
      obtain ⟨j2, -, h⟩ := bind_ok h
      obtain ⟨a, ea, h⟩ := bind_ok h
      obtain ⟨b, eb, h⟩ := bind_ok h
      cases h
      exact ⟨_, rfl⟩
  cases dir with
  | kForward =>
    unfold Sys.stepDir Sys.stepFwd at h
    dsimp only at h
    obtain ⟨_, -, h⟩ := bind_ok h
    exact fwd _ h
  | kBidirectionnal =>
    unfold Sys.stepDir Sys.stepBi at h
    dsimp only at h
    split at h
    · exact fwd _ h
    · exact bwd _ h

/-- the memory consists of floats -/
def FloatMem (o : Osc ℝ CFloat) : Prop := ∀ c ∈ o.prevY, ieee32 c.re = c.re ∧ ieee32 c.im = c.im

theorem reached_floats {E : Env ℝ} {t : FilterType} {nw L : ℕ} {o : Osc ℝ CFloat}
    (h : Reached (sysRnd ieee32 E t) nw L o) : FloatMem o := by
  have zero : ∀ (n : ℕ), ∀ c ∈ List.replicate n (0 : CFloat), ieee32 c.re = c.re ∧ ieee32 c.im = c.im := by
    intro n c hc
    rw [List.eq_of_mem_replicate hc]
    exact ⟨rounding_ieee32.zero, rounding_ieee32.zero⟩
  have reset : ∀ {o o' : Osc ℝ CFloat} {p d : ℝ}, (sysRnd ieee32 E t).resetInternals o p d = .ok o' →
      FloatMem o' := by
    intro o o' p d h
    unfold Sys.resetInternals at h
    dsimp only at h
    cases hw : o.wt with
    | none =>
      rw [hw] at h
      dsimp only at h
      obtain ⟨_, -, h⟩ := bind_ok h
      cases h
    | some wt =>
      rw [hw] at h
      dsimp only at h
      obtain ⟨_, -, h⟩ := bind_ok h
      obtain ⟨_, -, h⟩ := bind_ok h
      obtain ⟨_, -, h⟩ := bind_ok h
      obtain ⟨_, -, h⟩ := bind_ok h
      cases h
      exact zero _
  have run : ∀ {dir : Sys.Direction} {ps : List ℝ} {o o' : Osc ℝ CFloat} {ys : List ℝ},
      (sysRnd ieee32 E t).runDir dir o ps = .ok (o', ys) → FloatMem o → FloatMem o' := by
    intro dir ps
    induction ps with
    | nil => intro o o' ys h ho; cases h; exact ho
    | cons p ps ih =>
      intro o o' ys h ho
      unfold Sys.runDir at h
      obtain ⟨⟨o1, y⟩, e1, h⟩ := bind_ok h
      obtain ⟨⟨o2, zs⟩, e2, h⟩ := bind_ok h
      cases h
      refine ih e2 ?_
      obtain ⟨a, ha⟩ := step_mem e1
      intro c hc
      rw [ha] at hc
      obtain ⟨k, -, rfl⟩ := List.mem_map.1 hc
      exact ⟨rounding_ieee32.idem _, rounding_ieee32.idem _⟩
  induction h with
  | init hb hi h =>
    unfold Sys.init at h
    obtain ⟨o1, e, h⟩ := bind_ok h
    cases h
    exact fun c hc => reset e c hc
  | swap ho hb hi h ih =>
    unfold Sys.swapWavetable at h
    obtain ⟨o1, e, h⟩ := bind_ok h
    cases h
    exact fun c hc => reset e c hc
  | swapUsed ho h2 hw hi h ih1 ih2 =>
    unfold Sys.swapWavetable at h
    obtain ⟨o1, e, h⟩ := bind_ok h
    cases h
    exact fun c hc => reset e c hc
  | process ho hp hl h ih =>
    unfold Sys.process at h
    dsimp only at h
    split at h
    · obtain ⟨_, -, h⟩ := bind_ok h
      obtain ⟨_, -, h⟩ := bind_ok h
      obtain ⟨⟨o1, zs⟩, e, h⟩ := bind_ok h
      cases h
      exact run e ih
    · obtain ⟨_, -, h⟩ := bind_ok h
      obtain ⟨⟨o1, zs⟩, e, h⟩ := bind_ok h
      cases h
      exact run e ih
  | setWaveform ho h0 h1 h ih =>
    unfold Sys.setWaveform at h
    obtain ⟨_, -, h⟩ := bind_ok h
    cases h
    exact ih
  | reset ho hi h ih => exact reset h
  | updateSamplerate ho hs hx h ih =>
    unfold Sys.updateSamplerate at h
    split at h
    · obtain ⟨_, -, h⟩ := bind_ok h
      cases h
    · obtain ⟨_, -, h⟩ := bind_ok h
      cases h
      exact ih

/-- C82, gradual underflow, the filters `kType2` and `kType5`: if anything is left of the past in the
first filter section when a silent waveform is selected, then something is left in it forever. Together
with `C82_faint`: from the 6400th silent sample on, every sample is computed with subnormal numbers. -/
theorem C82_alive (t : FilterType) (ht : t = .kType2 ∨ t = .kType5)
    (E : Env ℝ) (hE : OddEnv E) (hfl : E.fl = ieee32) (hl : Log2Spec E.log2f)
    (ws : List ℝ) (nw L : ℕ) (o : Osc ℝ CFloat) (ho : Plays (sysRnd ieee32 E t) ws nw L o)
    (hm : Muted ws L o) (hy : o.prevY.getD 0 0 ≠ 0)
    (dir : Sys.Direction) (ps out ys : List ℝ) (o' : Osc ℝ CFloat) (hlen : ps.length = out.length)
    (h : (sysRnd ieee32 E t).process dir o ps out = .ok (o', ys)) : o'.prevY.getD 0 0 ≠ 0 := by
  obtain ⟨h1, h2⟩ := muted_process (S := sysRnd ieee32 E t) hE (oddOps ieee32) cfl_neg
    (show Rounding E.fl by rw [hfl]; exact rounding_ieee32) hl ho hm hlen h
  have hmem := reached_floats ho.1
  have hn : 0 < (sysRnd ieee32 E t).n := by
    have : (sysRnd ieee32 E t).n = (rLit t).length := List.length_map ..
    rw [this]; cases t <;> simp [rLit]
  rw [h1, decayed_getD rounding_ieee32 E hE t _ hn]
  have hf : ieee32 (o.prevY.getD 0 0).re = (o.prevY.getD 0 0).re ∧
      ieee32 (o.prevY.getD 0 0).im = (o.prevY.getD 0 0).im := by
    rw [List.getD_eq_getElem?_getD]
    cases h : o.prevY[0]? with
    | none => exact ⟨rounding_ieee32.zero, rounding_ieee32.zero⟩
    | some x => exact hmem x (List.mem_of_getElem? h)
  obtain ⟨c, hc⟩ : ∃ c, (zLit t).head? = some c := by cases t <;> exact ⟨_, rfl⟩
  have e : (sysRnd ieee32 E t).expZA 0 = CFloat.exp (flit c) := by
    show (((zLit t).map flit).map CFloat.exp).getD 0 0 = _
    rw [List.getD_eq_getElem?_getD, List.getElem?_map, List.getElem?_map, ← List.head?_eq_getElem?, hc]
    rfl
  have := pole_alive (rnd := ieee32) ht hc rounding_ieee32
  rw [e]
  exact iter_alive this.1 this.2 hf.1 hf.2 hy ps.length

/-! ### the hypotheses can be met -/

/-- eight samples of 1, then eight of 0 -/
def silentWs : List ℝ := List.replicate 8 1 ++ List.replicate 8 0

theorem silentWs_le : ∀ x ∈ silentWs, |x| ≤ 1 := by
  intro x hx
  rcases List.mem_append.1 hx with h | h <;> rw [List.eq_of_mem_replicate h] <;> norm_num

theorem waveform_one : waveformOf silentWs (2 ^ 3) 0 = List.replicate 8 1 := by
  norm_num [waveformOf, silentWs, List.replicate, List.take]

theorem waveform_zero : waveformOf silentWs (2 ^ 3) 1 = List.replicate 8 0 := by
  norm_num [waveformOf, silentWs, List.replicate, List.take]

theorem mixture_one (E : Env ℝ) (u : ℝ) :
    mixture E silentWs 3 0 ⟨0, 1, 0 + 1, 0⟩ u = 1 := by
  have hc : ∀ k, cyc (List.replicate 8 1) k = 1 := by
    intro k
    have h8 : (k % ((List.replicate 8 (1 : ℝ)).length : ℕ)).toNat < 8 := by
      rw [List.length_replicate]; omega
    unfold cyc
    rw [List.getD_eq_getElem?_getD, List.getElem?_replicate, if_pos h8]; rfl
  have h : waveAt E silentWs 3 0 0 u = 1 := by
    unfold waveAt interp mipSamples
    rw [show (0 : ℤ).toNat = 0 from rfl, if_pos rfl, waveform_one, hc, hc]
    ring
  show 1 * waveAt E silentWs 3 0 0 u + 0 * _ = _
  rw [h]; ring

theorem response_one {W : ℝ → ℝ} (hW : ∀ u, W u = 1) {z : ℂ} (hz : z ≠ 0) (x d : ℝ) :
    response W z x d = (Complex.exp z - 1) / z := by
  have e : response W z x d = response W z x 0 := by
    unfold response; simp only [hW]
  have h := Sys.response_zero W hz x
  rw [e, eq_div_iff hz]
  rw [hW] at h
  apply mul_left_cancel₀ hz
  push_cast at h
  linear_combination h

theorem exp_gap {z : ℂ} (h : z.re ≤ -0.28) : 0.2 ≤ ‖Complex.exp z - 1‖ ∧ ‖Complex.exp z - 1‖ ≤ 2 := by
  have e : ‖Complex.exp z‖ ≤ 0.8 := by
    rw [Complex.norm_exp]
    have h1 := Real.add_one_le_exp (-z.re)
    have h2 : Real.exp (-z.re) * Real.exp z.re = 1 := by rw [← Real.exp_add]; simp
    have h3 : 1.28 * Real.exp z.re ≤ Real.exp (-z.re) * Real.exp z.re := by
      apply mul_le_mul_of_nonneg_right _ (Real.exp_pos _).le
      norm_num at h ⊢; linarith
    rw [h2] at h3
    norm_num at h3 ⊢
    linarith
  constructor
  · have := norm_sub_norm_le (1 : ℂ) (Complex.exp z)
    rw [norm_one, norm_sub_rev] at this
    norm_num at this e ⊢
    linarith
  · have := norm_sub_le (Complex.exp z) 1
    rw [norm_one] at this
    norm_num at e ⊢
    linarith

theorem small_error {ζ : ℝ} (h0 : 0.28 ≤ ζ) (h1 : ζ ≤ 11) :
    ζ * (132 * 2.5 ^ 2 * (1 + ζ) / ζ ^ 2 + 7) ≤ 4000 := by
  have hp : 0 < ζ := lt_of_lt_of_le (by norm_num) h0
  have e : ζ * (132 * 2.5 ^ 2 * (1 + ζ) / ζ ^ 2 + 7) = 825 * (1 / ζ) + 825 + 7 * ζ := by
    field_simp; norm_num; ring
  have : 1 / ζ ≤ 3.6 := by
    rw [div_le_iff₀ hp]; norm_num at h0 ⊢; linarith
  rw [e]
  norm_num at this ⊢
  linarith

section
variable {rnd : ℝ → ℝ} [GoodRnd rnd]

/-- An oscillator that has played one sample of the first waveform and then switched to the second. -/
theorem exampleMuted (E : Env ℝ) (hE : Rounding E.fl ∧ Log2Spec E.log2f ∧ SrcContract E.src) (hr : E.fl = rnd)
    (hd : ∀ x, |E.dbl x - x| ≤ |x| / 2 ^ 53)
    (hA : TablesWithin E silentWs 2 3 1) (hΛ : SlopesWithin E silentWs 2 3 16) (t : FilterType) :
    ∃ o, Plays (sysRnd rnd E t) silentWs 2 3 o ∧ Muted silentWs 3 o ∧
      (∀ c ∈ o.prevY, |c.re| ≤ 2 ^ 125 ∧ |c.im| ≤ 2 ^ 125) ∧ o.prevY.getD 0 0 ≠ 0 ∧
      ∀ m, ∃ ps o' ys, ps.length = m ∧
        (sysRnd rnd E t).process .kForward o ps (List.replicate m 0) = .ok (o', ys) := by
  have hS := floatSysRnd (rnd := rnd) (E := E) hE.1 hr hd t
  set S := sysRnd rnd E t with hSdef
  have hf : Rounding S.env.fl := hE.1
  have hl : Log2Spec S.env.log2f := hE.2.1
  have hlen : silentWs.length = 2 * 2 ^ 3 := by simp [silentWs]
  obtain ⟨wt, hb⟩ : ∃ wt, Built S.env silentWs 2 3 44100 (1 / 256) wt := by
    have e : (1 / 256 * 44100 : ℝ) = ((44100 : ℤ) : ℝ) / 2 ^ 8 := by norm_num
    have e2 : S.env.fl (1 / 256 * 44100) = 1 / 256 * 44100 := by
      rw [e, hf.dyadic 44100 8 (by norm_num)]
    have hr : IsRate S.env.fl (44100 : ℝ) := by
      have := hf.isRate 44100 (by norm_num); simpa using this
    obtain ⟨wt, h⟩ := C02_succeeds S.env hf hl hE.2.2 3 (by norm_num) (by norm_num) 2
      (by norm_num) silentWs hlen 44100 (1 / 256) (by norm_num) hr (by rw [e2]; norm_num)
    exact ⟨wt, hr, by rw [e2]; norm_num, by simpa using hlen, h⟩
  obtain ⟨xf, hcf⟩ : ∃ xf : ℤ, wt.cf = ⟨xf, octaveScale ℝ 3, 0, 0, 0⟩ := by
    obtain ⟨L, xf, h2, h18, hn, -, hlen', -, e⟩ := build_some hf hl hb.1 hb.2.2.2
    have hL : L = 3 := by
      have : (2 : ℕ) ^ L = 2 ^ 3 := by
        rw [hlen, show ((2 : ℕ) : ℤ).toNat = 2 from rfl] at hlen'
        exact (Nat.eq_of_mul_eq_mul_left (by norm_num) hlen').symm
      exact Nat.pow_right_injective le_rfl this
    subst hL
    refine ⟨xf, ?_⟩
    rw [e]
    have ho : IsOctave 3 0 (S.env.fl (1 / 10) : ℝ) := by
      apply oct0
      have h8 : S.env.fl (1 / 8) = 1 / 8 := fl_dyadicG hf (k := 1) 3 (by norm_num) (by norm_num)
      have := hf.mono (show (1 / 10 : ℝ) ≤ 1 / 8 by norm_num)
      rw [h8] at this
      linarith
    show (⟨xf, octaveScale ℝ 3, 0, (CrossFader.findLoop (S.env.fl (1 / 10)) (octaveScale ℝ 3) : ℤ),
        (CrossFader.findLoop (S.env.fl (1 / 10)) (octaveScale ℝ 3) : ℤ)⟩ : CrossFader ℝ) = _
    rw [CrossFader.findLoop_of_octave (by norm_num) ho]
  have hi : IsOctave 3 0 |(1 / 16 : ℝ)| := oct0 (by norm_num [abs_of_pos])
  have idle : (⟨xf, octaveScale ℝ 3, 0, 0, 0⟩ : CrossFader ℝ).newIndices S.env |(1 / 16 : ℝ)| =
      .ok (⟨xf, octaveScale ℝ 3, 0, 0, 0⟩, ⟨0, 1, 0 + 1, 0⟩) := cf_idle (by norm_num) (by norm_num) hi
  have hp0 : PhaseOk S.env.fl 0 := by
    have := phase16G hf 0; simp only [Nat.zero_mod, Nat.cast_zero, zero_div] at this; exact this
  have hp1 : PhaseOk S.env.fl (1 / 16) := by
    have := phase16G hf 1; norm_num at this ⊢; exact this
  have hw := hb.ok hf hl
  -- init
  obtain ⟨o, hinit, a1, a2, a3, a4, a5, a6⟩ : ∃ o, S.init S.fresh (some wt) 0 (1 / 16) = .ok (o, 0) ∧
      o.wt = some wt ∧ o.prevMip = 0 ∧ o.prevPhaseDiff = 1 / 16 ∧ o.prevPhase = 0 ∧ o.crt = 0 ∧
      o.prevY = List.replicate S.n 0 := by
    have e := Sys.reset_ok (S := S) (o := { S.fresh with wt := some wt }) hf rfl hw hp0
      (show (1 / 16 : ℝ) ≠ 0 by norm_num) (by rw [hcf]; exact idle)
    unfold Sys.init
    dsimp only
    rw [e, R.ok_bind]
    refine ⟨_, rfl, ?_, rfl, rfl, rfl, rfl, rfl⟩
    dsimp only
    rw [← hcf]
  have hplays : Plays S silentWs 2 3 o := ⟨Reached.init hb ⟨hp0, by norm_num⟩ hinit, _, _, _, _, hb, a1, rfl⟩
  -- one sample
  have hpl := Sys.reached_play hf hl hS.B hplays.1
  have hdd : Sys.dirDiff S.env.fl .kForward (1 / 16) o.prevPhase = 1 / 16 := by
    have := mod16_floatG hf 0
    norm_num at this
    rw [a4]; norm_num; exact this
  have hs : StepOk .kForward o.prevPhase (1 / 16) := by rw [a4]; exact Or.inl ⟨by norm_num, by norm_num⟩
  obtain ⟨⟨o1, y⟩, e1, hpost⟩ : Ok (S.stepDir .kForward o (1 / 16)) (fun r =>
      Sys.StepPost S 2 3 o (1 / 16) (Sys.dirDiff S.env.fl .kForward (1 / 16) o.prevPhase) r.1) := by
    rcases Sys.step_cases (S := S) hf hS.B hpl hp1 hs with ⟨h, -⟩ | ⟨-, hh, -⟩
    · exact h
    · have := hh.1
      have h2 := hh.2
      rw [a3] at h2
      norm_num at h2
  dsimp only at hpost
  have hproc : S.process .kForward o [1 / 16] [0] = .ok (o1, [y]) := by
    rw [Sys.process_runDir _ _ (by rw [a1]; rfl) (show [(1 / 16 : ℝ)].length = [(0 : ℝ)].length from rfl)]
    unfold Sys.runDir Sys.runDir
    rw [e1]; rfl
  have hplays1 : Plays S silentWs 2 3 o1 := by
    have hh : HoldsTables S silentWs 2 3 o := hplays.2
    exact ⟨hplays.1.process (dir := .kForward) (ps := [1 / 16]) (out := [0]) ⟨hp1, hs, trivial⟩ rfl hproc,
      hh.same (Sys.process_tables hh.isSome hproc).1⟩
  have hni : NextIndices S o (Sys.dirDiff S.env.fl .kForward (1 / 16) o.prevPhase) ⟨0, 1, 0 + 1, 0⟩ := by
    refine ⟨wt, { wt with cf := ⟨xf, octaveScale ℝ 3, 0, 0, 0⟩ }, a1, ?_⟩
    unfold findMipMapIndices
    rw [hdd, hcf, idle]; rfl
  have htrue : trueStep S.env.fl .kForward (1 / 16) o.prevPhase = 1 / 16 := by
    unfold trueStep
    rw [hdd, a4]; norm_num
  obtain ⟨-, -, -, -, near, hlen1, -⟩ := Sys.step_near hS hl hA hΛ (by norm_num) (by norm_num) hplays hp1 hs e1 hni
    (Or.inl a2.symm) (by
      rw [a4]
      have := offDenormal_dyadic 0 4 3 (by norm_num) (by norm_num)
      norm_num at this ⊢
      exact this) (ν := 2.5) (by rw [htrue, abs_of_pos (by norm_num)]; norm_num) (by
      rw [hdd, abs_of_pos (by norm_num)]; norm_num)
  have near' : ∀ k < S.n, ‖CFloat.val (S.rA k)‖ ≠ 0 ∧ ‖CFloat.val (S.rA k)‖ ≤ 61 ∧ 0.28 ≤ ‖CFloat.val (S.zA k)‖ ∧
      ‖CFloat.val (S.zA k)‖ ≤ 11 ∧ (CFloat.val (S.zA k)).re ≤ -0.28 ∧
      ‖CFloat.val (o1.prevY.getD k 0) - 2 * CFloat.val (S.rA k) *
        ((Complex.exp (CFloat.val (S.zA k)) - 1) / CFloat.val (S.zA k))‖ ≤
      1 / 2 ^ 21 * (2 * ‖CFloat.val (S.rA k)‖ *
          ((132 * 2.5 ^ 2 * (1 + ‖CFloat.val (S.zA k)‖) / ‖CFloat.val (S.zA k)‖ ^ 2 + 7) * 17)) := by
    intro k hk
    have hrm : S.rA k ∈ S.flt.r := by
      show S.flt.r.getD k 0 ∈ _
      rw [List.getD_eq_getElem?_getD, List.getElem?_eq_getElem hk]
      exact List.getElem_mem _
    have hzm : S.zA k ∈ S.flt.z := by
      have hk' : k < S.flt.z.length := by rw [← hS.len]; exact hk
      show S.flt.z.getD k 0 ∈ _
      rw [List.getD_eq_getElem?_getD, List.getElem?_eq_getElem hk']
      exact List.getElem_mem _
    obtain ⟨p1, p2⟩ := sysRnd_pole (E := E) (t := t) hzm
    obtain ⟨c, hc, hc'⟩ := List.mem_map.1 hrm
    obtain ⟨q1, q2⟩ := flit_residue (rnd := rnd) (rLit_bounds t c hc)
    have e' : CFloat.val (S.rA k) = CFloat.val (flit c : CFl rnd) := by rw [← hc']
    have zn : 0.28 ≤ ‖CFloat.val (S.zA k)‖ := by
      have := (neg_le_abs (CFloat.val (S.zA k)).re).trans (Complex.abs_re_le_norm _)
      norm_num at p1 ⊢
      linarith
    have hz : CFloat.val (S.zA k) ≠ 0 := by
      intro h0
      rw [h0, norm_zero] at zn
      norm_num at zn
    refine ⟨?_, ?_, zn, p2, ?_, ?_⟩
    · rw [e']; norm_num at q1; intro h; rw [h] at q1; norm_num at q1
    · rw [e']; exact q2
    · norm_num at p1 ⊢; linarith
    · have h := near k hk 0 0 (by
        rw [a6, List.getD_replicate, sub_zero, hS.ops.zero, norm_zero]
        exact hk) (by norm_num)
      have hm : ∀ u, mixture S.env silentWs 3 o.crt ⟨0, 1, 0 + 1, 0⟩ u = 1 := by
        rw [a5]; exact mixture_one _
      rw [response_one hm hz, mul_zero, zero_add, norm_zero, mul_zero, mul_zero, zero_add, zero_add] at h
      refine h.trans (le_of_eq ?_)
      ring
  have n0 : 0 < S.n := by
    have : S.n = (rLit t).length := List.length_map ..
    rw [this]; cases t <;> simp [rLit]
  -- setWaveform
  obtain ⟨o2, e2⟩ : ∃ o2, S.setWaveform o1 1 = .ok o2 := by
    obtain ⟨wt1, hw1⟩ : ∃ w, o1.wt = some w := Option.isSome_iff_exists.1 (HoldsTables.isSome hplays1.2)
    unfold Sys.setWaveform
    rw [chk_true (by rw [hw1]; rfl)]
    exact ⟨_, rfl⟩
  obtain ⟨hplays2, ho2⟩ := setWaveform_plays hplays1 (by norm_num) (by norm_num) e2
  refine ⟨o2, hplays2, ?_, ?_, ?_, ?_⟩
  · intro x hx
    rw [ho2] at hx
    dsimp only at hx
    rw [show (1 : ℤ).toNat = 1 from rfl, waveform_zero] at hx
    exact List.eq_of_mem_replicate hx
  · intro c hc
    rw [ho2] at hc
    obtain ⟨k, hk, rfl⟩ := List.getElem_of_mem (show c ∈ o1.prevY from hc)
    obtain ⟨r0, r1, z0, z1, zr, h⟩ := near' k (by rw [← hlen1]; exact hk)
    rw [List.getD_eq_getElem?_getD, List.getElem?_eq_getElem hk, Option.getD_some] at h
    have g := (exp_gap zr).2
    have hp : 0 < ‖CFloat.val (S.zA k)‖ := lt_of_lt_of_le (by norm_num) z0
    have i1 : 1 / ‖CFloat.val (S.zA k)‖ ≤ 3.6 := by
      rw [div_le_iff₀ hp]; norm_num at z0 ⊢; linarith
    have m1 : ‖2 * CFloat.val (S.rA k) *
        ((Complex.exp (CFloat.val (S.zA k)) - 1) / CFloat.val (S.zA k))‖ ≤ 1000 := by
      rw [norm_mul, norm_mul, norm_div, div_eq_mul_one_div]
      have : ‖Complex.exp (CFloat.val (S.zA k)) - 1‖ * (1 / ‖CFloat.val (S.zA k)‖) ≤ 2 * 3.6 := by gcongr
      have h2 : ‖(2 : ℂ)‖ * ‖CFloat.val (S.rA k)‖ ≤ 2 * 61 := by
        rw [Complex.norm_ofNat]; gcongr
      have h3 := mul_le_mul h2 this (by positivity) (by norm_num)
      refine h3.trans ?_
      norm_num
    have m2 : 1 / 2 ^ 21 * (2 * ‖CFloat.val (S.rA k)‖ *
          ((132 * 2.5 ^ 2 * (1 + ‖CFloat.val (S.zA k)‖) / ‖CFloat.val (S.zA k)‖ ^ 2 + 7) * 17)) ≤ 1000 := by
      have s := small_error z0 z1
      have s2 : 132 * 2.5 ^ 2 * (1 + ‖CFloat.val (S.zA k)‖) / ‖CFloat.val (S.zA k)‖ ^ 2 + 7 ≤ 4000 * 3.6 := by
        have e : 132 * 2.5 ^ 2 * (1 + ‖CFloat.val (S.zA k)‖) / ‖CFloat.val (S.zA k)‖ ^ 2 + 7 =
          (‖CFloat.val (S.zA k)‖ * (132 * 2.5 ^ 2 * (1 + ‖CFloat.val (S.zA k)‖) / ‖CFloat.val (S.zA k)‖ ^ 2 + 7)) *
            (1 / ‖CFloat.val (S.zA k)‖) := by field_simp
        rw [e]
        gcongr
      calc _ ≤ 1 / 2 ^ 21 * (2 * 61 * ((4000 * 3.6) * 17)) := by gcongr
        _ ≤ (1000 : ℝ) := by norm_num
    have m3 : ‖CFloat.val o1.prevY[k]‖ ≤ 2000 := by
      have := norm_sub_norm_le (CFloat.val o1.prevY[k]) (2 * CFloat.val (S.rA k) *
        ((Complex.exp (CFloat.val (S.zA k)) - 1) / CFloat.val (S.zA k)))
      linarith
    have big : (2000 : ℝ) ≤ 2 ^ 125 := by norm_num
    exact ⟨((Complex.abs_re_le_norm (CFloat.val o1.prevY[k])).trans m3).trans big,
      ((Complex.abs_im_le_norm (CFloat.val o1.prevY[k])).trans m3).trans big⟩
  · rw [ho2]
    dsimp only
    intro h0
    obtain ⟨r0, r1, z0, z1, zr, h⟩ := near' 0 n0
    rw [h0, hS.ops.zero, zero_sub, norm_neg, norm_mul, norm_div, norm_mul, Complex.norm_ofNat] at h
    have g := (exp_gap zr).1
    have hp : 0 < ‖CFloat.val (S.zA 0)‖ := lt_of_lt_of_le (by norm_num) z0
    have hr0 : 0 < 2 * ‖CFloat.val (S.rA 0)‖ := by positivity
    have s := small_error z0 z1
    generalize ‖CFloat.val (S.zA 0)‖ = ζ at *
    generalize 132 * 2.5 ^ 2 * (1 + ζ) / ζ ^ 2 + 7 = q at *
    have h' : 2 * ‖CFloat.val (S.rA 0)‖ * (‖Complex.exp (CFloat.val (S.zA 0)) - 1‖ / ζ) ≤
      2 * ‖CFloat.val (S.rA 0)‖ * (1 / 2 ^ 21 * (q * 17)) := by linarith
    have h'' := le_of_mul_le_mul_left h' hr0
    rw [div_le_iff₀ hp] at h''
    norm_num at g h'' s
    linarith
  · intro m
    have hph : o2.prevPhase = 1 / 16 := by rw [ho2]; exact hpost.phase
    have hdf : o2.prevPhaseDiff = 1 / 16 := by rw [ho2]; exact hpost.diff.trans hdd
    have hblock : ∀ m k : ℕ, BlockOk S.env.fl .kForward (((k % 16 : ℕ) : ℝ) / 16)
        ((List.range m).map fun i => (((k + 1 + i) % 16 : ℕ) : ℝ) / 16) := by
      intro m
      induction m with
      | zero => intro k; trivial
      | succ m ih =>
        intro k
        rw [List.range_succ_eq_map, List.map_cons, List.map_map]
        refine ⟨phase16G hf _, (mod16_step k).1, ?_⟩
        have := ih (k + 1)
        convert this using 3
        simp only [Function.comp]
        congr 3; omega
    obtain ⟨o', ys, e⟩ := C26_from_any S hf hl hS.B 2 3 o2 hplays2.1 (fun h => by
      have h2 := h.2; rw [hdf] at h2; norm_num at h2)
      [.process .kForward ((List.range m).map fun i => (((1 + 1 + i) % 16 : ℕ) : ℝ) / 16)]
      ⟨rfl, by
        have := hblock m 1
        rw [hph]
        norm_num at this ⊢
        exact this, trivial⟩
    unfold runOps at e
    obtain ⟨⟨o3, y3⟩, e3, -⟩ := bind_ok e
    have e4 : S.process .kForward o2 ((List.range m).map fun i => (((1 + 1 + i) % 16 : ℕ) : ℝ) / 16)
      (List.replicate ((List.range m).map fun i => (((1 + 1 + i) % 16 : ℕ) : ℝ) / 16).length 0) = .ok (o3, y3) := e3
    rw [List.length_map, List.length_range] at e4
    exact ⟨_, o3, y3, by rw [List.length_map, List.length_range], e4⟩
end

/-- C82 applies: any built-in filter, an oscillator that has played a sample of a constant waveform and
was then switched to a silent one; it goes on for any number of samples. -/
example (t : FilterType) : OddEnv envI ∧ envI.fl = ieee32 ∧ Log2Spec envI.log2f ∧
    ∃ o, Plays (sysRnd ieee32 envI t) silentWs 2 3 o ∧ Muted silentWs 3 o ∧
      (∀ c ∈ o.prevY, |c.re| ≤ 2 ^ 125 ∧ |c.im| ≤ 2 ^ 125) ∧ o.prevY.getD 0 0 ≠ 0 ∧
      ∀ m, ∃ ps o' ys, ps.length = m ∧
        (sysRnd ieee32 envI t).process .kForward o ps (List.replicate m 0) = .ok (o', ys) :=
  ⟨oddI, rfl, log2I, exampleMuted (rnd := ieee32) envI envI_ok rfl rne53_rel (tablesWithinI zero_le_one silentWs_le 2 3)
    (by have := slopesWithinI zero_le_one silentWs_le 2 3; norm_num at this; exact this) t⟩

/-- the same with flushing -/
example (t : FilterType) : OddEnv envFtz ∧ envFtz.fl = ftz32 ∧ Log2Spec envFtz.log2f ∧
    ∃ o, Plays (sysRnd ftz32 envFtz t) silentWs 2 3 o ∧ Muted silentWs 3 o ∧
      (∀ c ∈ o.prevY, |c.re| ≤ 2 ^ 126 ∧ |c.im| ≤ 2 ^ 126) ∧ o.prevY.getD 0 0 ≠ 0 ∧
      ∀ m, ∃ ps o' ys, ps.length = m ∧
        (sysRnd ftz32 envFtz t).process .kForward o ps (List.replicate m 0) = .ok (o', ys) := by
  obtain ⟨o, h1, h2, h3, h4⟩ := exampleMuted (rnd := ftz32) envFtz envFtz_ok rfl rne53_rel
    (fun w hw i hi => by rw [mipSamples_ftz]; exact tablesWithinI zero_le_one silentWs_le 2 3 w hw i hi)
    (fun w hw i hi k => by
      rw [mipSamples_ftz]
      have := slopesWithinI zero_le_one silentWs_le 2 3 w hw i hi k
      norm_num at this ⊢; exact this) t
  have big : (2 : ℝ) ^ 125 ≤ 2 ^ 126 := by norm_num
  exact ⟨oddFtz, rfl, envFtz_ok.2.1, o, h1, h2, fun c hc => ⟨(h3 c hc).1.trans big, (h3 c hc).2.trans big⟩, h4⟩

end Adwt.Props
