import Verif.Proofs.FloatAcc
import Verif.Proofs.StepForm
import Verif.Proofs.TrackedBound

/-!
# The filter memory in float arithmetic
-/

set_option linter.unusedSectionVars false

namespace Adwt
open Seg WavetableData

variable {C : Type} [Zero C] [Add C] [Sub C] [Mul C] [Div C]

namespace Sys
variable {S : Sys ℝ C} {val : C → ℂ} {ε M : ℝ} {nw L : ℕ} {o : Osc ℝ C} {ws : List ℝ}

theorem expZA_float {k : ℕ} (hk : k < S.flt.z.length) : S.expZA k = S.ops.exp (S.zA k) := by
  unfold expZA zA
  simp only [List.getD_eq_getElem?_getD, List.getElem?_map, List.getElem?_eq_getElem hk,
    Option.map_some, Option.getD_some]

theorem zPow2A_float {k : ℕ} (hk : k < S.flt.z.length) : S.zPow2A k = S.zA k * S.zA k := by
  unfold zPow2A zA
  simp only [List.getD_eq_getElem?_getD, List.getElem?_map, List.getElem?_eq_getElem hk,
    Option.map_some, Option.getD_some]

/-- no pole is so fast that the memory underflows within a sample -/
theorem exp_pole (hS : FloatSys S val ε) {k : ℕ} (hk : k < S.n) :
    1 / 2 ^ 64 ≤ ‖Complex.exp (val (S.zA k))‖ ∧ ‖Complex.exp (val (S.zA k))‖ ≤ 1 := by
  obtain ⟨-, -, z2, -⟩ := z_range hS hk
  rw [Complex.norm_exp]
  refine ⟨?_, Real.exp_le_one_iff.2 (z_re hS hk)⟩
  have h1 := (abs_le.1 (Complex.abs_re_le_norm (val (S.zA k)))).1
  have h2 : Real.exp (-32) ≤ Real.exp (val (S.zA k)).re := Real.exp_le_exp.2 (by linarith)
  refine le_trans ?_ h2
  have h3 : Real.exp 32 ≤ 2 ^ 64 := by
    have : Real.exp 32 = Real.exp 1 ^ 32 := by rw [← Real.exp_nat_mul]; norm_num
    rw [this]
    calc Real.exp 1 ^ 32 ≤ 4 ^ 32 := by
          gcongr
          have := Real.exp_one_lt_d9
          linarith
      _ = _ := by norm_num
  rw [Real.exp_neg, one_div]
  exact inv_anti₀ (Real.exp_pos _) h3

/-- the range of the residues -/
theorem r_range (hS : FloatSys S val ε) {k : ℕ} (hk : k < S.n) :
    1 / 1024 ≤ ‖val (S.rA k)‖ ∧ ‖val (S.rA k)‖ ≤ 1024 := by
  have : S.rA k ∈ S.flt.r := by
    unfold rA
    have : k < S.flt.r.length := hk
    rw [List.getD_eq_getElem?_getD, List.getElem?_eq_getElem this]
    exact List.getElem_mem _
  have := hS.residues _ this
  norm_num at this ⊢
  exact this

set_option maxHeartbeats 1000000 in
/-- one coefficient of the memory -/
theorem coef_near (hS : FloatSys S val ε) {k : ℕ} (hk : k < S.n) {y a : C} {Y R : ℂ} {err ea T : ℝ}
    (hV1 : ‖Y‖ + err ≤ 2 ^ 90) (hea1 : ea ≤ 2 ^ 80) (hT0 : 1 / 2 ^ 40 ≤ T) (hT1 : T ≤ 2 ^ 80)
    (hy : ‖val y - Y‖ ≤ err) (ha : ‖val a - val (S.zA k) ^ 2 * R‖ ≤ ea) (hR : ‖R‖ ≤ T) :
    ‖val (S.expZA k * y + S.ops.ofK 2 * S.rA k * (a / S.zPow2A k)) -
      (Complex.exp (val (S.zA k)) * Y + 2 * val (S.rA k) * R)‖ ≤
    (1 + 4 * ε) * ‖Complex.exp (val (S.zA k))‖ * err + 4 * ε * ‖Complex.exp (val (S.zA k))‖ * ‖Y‖ +
      2 * ‖val (S.rA k)‖ * (1.01 * (ea / ‖val (S.zA k)‖ ^ 2) + 6 * ε * T) := by
  have e0 := hS.ε0
  have e1 := FloatSys.εs hS
  have hkz : k < S.flt.z.length := by rw [← hS.len]; exact hk
  have hre := z_re hS hk
  obtain ⟨-, z1, z2, -⟩ := z_range hS hk
  obtain ⟨gl, g1⟩ := exp_pole hS hk
  obtain ⟨rl, rh⟩ := r_range hS hk
  rw [expZA_float hkz, zPow2A_float hkz]
  set z := val (S.zA k) with hz
  set r := val (S.rA k) with hr
  set g := ‖Complex.exp z‖ with hg
  have g0 : 0 ≤ g := norm_nonneg _
  have err0 : 0 ≤ err := (norm_nonneg _).trans hy
  have T0 : 0 ≤ T := (norm_nonneg _).trans hR
  have ea0 : 0 ≤ ea := (norm_nonneg _).trans ha
  have zp : 0 < ‖z‖ := by linarith
  obtain ⟨τ, hτ⟩ : ∃ τ : ℝ, τ = 1 / 2 ^ 80 := ⟨_, rfl⟩
  have τ0 : 0 ≤ τ := by rw [hτ]; positivity
  -- decay of the memory
  have E1 := (hS.ops.exp (S.zA k) (by linarith)).trans
    (roundErr_le e0 (le_refl ‖Complex.exp z‖) (le_trans (by norm_num) gl))
  have E2 : ‖val (S.ops.exp (S.zA k))‖ ≤ g + ε * g := near_norm E1 le_rfl
  have y1 : ‖val y‖ ≤ ‖Y‖ + err := near_norm hy le_rfl
  set V := ‖Y‖ + err with hV
  have V0 : 0 ≤ V := by positivity
  have εg : ε * g ≤ 1 / 1000 * 1 := mul_le_mul e1 g1 g0 (by norm_num)
  have εg0 : 0 ≤ ε * g := by positivity
  have gV : (g + ε * g) * V ≤ 2 * 2 ^ 90 := mul_le_mul (by linarith) hV1 V0 (by norm_num)
  have p1 := hS.ops.mul2 e0 E1 hy E2 y1 (le_refl g) (gV.trans (by norm_num))
  rw [← hτ] at p1
  have p1n := near_norm p1 (norm_mul_le' (le_refl g) (le_refl ‖Y‖))
  -- driving term
  set u := ea / ‖z‖ ^ 2 with hu
  have u0 : 0 ≤ u := by positivity
  have zs1 : 1 / 256 ≤ ‖z‖ ^ 2 := by
    calc (1 : ℝ) / 256 = (1 / 16) ^ 2 := by norm_num
      _ ≤ _ := by gcongr
  have zs2 : ‖z‖ ^ 2 ≤ 1024 := by
    calc ‖z‖ ^ 2 ≤ 32 ^ 2 := by gcongr
      _ = _ := by norm_num
  have D1 := (hS.ops.mul (S.zA k) (S.zA k) (by rw [← sq, ← hz]; linarith)).trans
    (roundErr_le e0 (le_refl _) (by rw [← hz, norm_mul, ← sq]; linarith))
  rw [← hz] at D1
  set D := val (S.zA k * S.zA k) with hD
  have hzz : ‖z * z‖ = ‖z‖ ^ 2 := by rw [norm_mul, sq]
  rw [hzz] at D1
  have D2 : (1 - ε) * ‖z‖ ^ 2 ≤ ‖D‖ := by
    have := norm_sub_norm_le (z * z) D
    rw [norm_sub_rev, hzz] at this
    linarith
  have zsq : 0 < ‖z‖ ^ 2 := by positivity
  have D3 : 0 < ‖D‖ := by
    have : 0 < (1 - ε) * ‖z‖ ^ 2 := mul_pos (by linarith) zsq
    linarith
  have D4 : D ≠ 0 := norm_pos_iff.1 D3
  have q1 : ‖val a / D - R‖ ≤ 1.0011 * (u + ε * T) := by
    have e : val a / D - R = ((val a - z ^ 2 * R) - (D - z * z) * R) / D := by
      field_simp; ring
    rw [e, norm_div, div_le_iff₀ D3]
    have n1 : ‖(val a - z ^ 2 * R) - (D - z * z) * R‖ ≤ ea + ε * ‖z‖ ^ 2 * T :=
      (norm_sub_le _ _).trans (add_le_add ha (norm_mul_le' D1 hR))
    refine n1.trans ?_
    have e2 : ea = u * ‖z‖ ^ 2 := by rw [hu]; field_simp
    have w0 : 0 ≤ u + ε * T := by positivity
    have h1 : 1 ≤ 1.0011 * (1 - ε) := by linarith
    calc ea + ε * ‖z‖ ^ 2 * T = 1 * ((u + ε * T) * ‖z‖ ^ 2) := by rw [e2]; ring
      _ ≤ 1.0011 * (1 - ε) * ((u + ε * T) * ‖z‖ ^ 2) := by gcongr
      _ = 1.0011 * (u + ε * T) * ((1 - ε) * ‖z‖ ^ 2) := by ring
      _ ≤ 1.0011 * (u + ε * T) * ‖D‖ := by gcongr
  have εT : 0 ≤ ε * T := by positivity
  have εu : 0 ≤ ε * u := by positivity
  have εε : ε * (ε * T) ≤ 1 / 1000 * (ε * T) := by gcongr
  have εεε : ε * (ε * (ε * T)) ≤ 1 / 1000 * (1 / 1000 * (ε * T)) := by gcongr
  have εu1 : ε * u ≤ 1 / 1000 * u := by gcongr
  have εu2 : ε * (ε * u) ≤ 1 / 1000 * (1 / 1000 * u) := by gcongr
  have q2 : ‖val (a / (S.zA k * S.zA k)) - R‖ ≤ 1.0023 * u + 2.004 * (ε * T) := by
    have n2 := near_norm q1 hR
    have an : ‖val a‖ ≤ 2 ^ 98 := by
      have := near_norm ha (norm_mul_le' (a := z ^ 2) (A := 1024) (by rw [norm_pow]; exact zs2) hR)
      norm_num at hea1 hT1 ⊢
      linarith
    have Dn : ‖D‖ ≤ 2 ^ 12 := by
      have := near_norm D1 (le_of_eq hzz)
      have : ε * ‖z‖ ^ 2 ≤ 1 / 1000 * 1024 := mul_le_mul e1 zs2 zsq.le (by norm_num)
      norm_num
      linarith
    have Dl : 1 / 2 ^ 9 ≤ ‖D‖ := by
      have : ε * ‖z‖ ^ 2 ≤ 1 / 1000 * ‖z‖ ^ 2 := by gcongr
      norm_num
      linarith
    have d1 := hS.ops.div a (S.zA k * S.zA k) an Dl Dn
    have tl : 1 / 2 ^ 80 ≤ T + 1.0011 * (u + ε * T) := by
      have : (1 : ℝ) / 2 ^ 80 ≤ 1 / 2 ^ 40 := by norm_num
      linarith
    have : roundErr ε ‖val a / D‖ ≤ ε * (T + 1.0011 * (u + ε * T)) := roundErr_le e0 n2 tl
    have := near_trans (d1.trans this) q1
    linarith
  have q3 := near_norm q2 hR
  have r1 : ‖val (S.ops.ofK 2 * S.rA k) - 2 * r‖ ≤ ε * (2 * ‖r‖) := by
    have n2 : ‖(2 : ℂ)‖ = 2 := by norm_num
    have := hS.ops.mul (S.ops.ofK 2) (S.rA k)
    rw [hS.ops.ofK] at this
    push_cast at this
    rw [← hr] at this
    have h2 := this (by rw [n2]; linarith)
    refine h2.trans (roundErr_le e0 (by rw [norm_mul, n2]) (by linarith))
  have r2 : ‖(2 : ℂ) * r‖ ≤ 2 * ‖r‖ := by rw [norm_mul]; norm_num
  have r3 := near_norm r1 r2
  set ρ := 2 * ‖r‖ with hρ
  have ρ0 : 0 ≤ ρ := by positivity
  have uh : u ≤ 2 ^ 90 := by
    rw [hu, div_le_iff₀ (by positivity)]
    have : (2 : ℝ) ^ 90 * (1 / 256) ≤ 2 ^ 90 * ‖z‖ ^ 2 := by gcongr
    norm_num at this hea1 ⊢
    linarith
  have ρh : ρ ≤ 2048 := by rw [hρ]; linarith
  have ρl : 1 / 512 ≤ ρ := by rw [hρ]; linarith
  have ερ : ε * ρ ≤ 1 / 1000 * ρ := by gcongr
  have ερ0 : 0 ≤ ε * ρ := by positivity
  have Bh : T + (1.0023 * u + 2.004 * (ε * T)) ≤ 2 ^ 92 := by
    have : ε * T ≤ 1 / 1000 * T := by gcongr
    norm_num at uh hT1 ⊢
    linarith
  have ABh : (ρ + ε * ρ) * (T + (1.0023 * u + 2.004 * (ε * T))) ≤ 2 ^ 12 * 2 ^ 92 :=
    mul_le_mul (by norm_num; linarith) Bh (by positivity) (by positivity)
  have p2 := hS.ops.mul2 e0 r1 q2 r3 q3 r2 (ABh.trans (by norm_num))
  rw [← hτ] at p2
  have hτρ : ε * (8 * τ) ≤ ρ * (0.1 * (ε * T)) := by
    have : 8 * τ ≤ 1 / 512 * (0.1 * (1 / 2 ^ 40)) := by rw [hτ]; norm_num
    have h2 : 1 / 512 * (0.1 * (1 / 2 ^ 40)) ≤ ρ * (0.1 * T) := by gcongr
    have := mul_le_mul_of_nonneg_left (this.trans h2) e0
    linarith
  have ετ0 : 0 ≤ ε * τ := by positivity
  have ετ1 : ε * (ε * τ) ≤ 1 / 1000 * (ε * τ) := by gcongr
  have p2' : ‖val (S.ops.ofK 2 * S.rA k * (a / (S.zA k * S.zA k))) - 2 * r * R‖ ≤
      ρ * (1.005 * u + 4.12 * (ε * T)) := by
    refine p2.trans ?_
    have e : ε * ((ρ + ε * ρ) * (T + (1.0023 * u + 2.004 * (ε * T))) + τ) +
        (ε * ρ * (T + (1.0023 * u + 2.004 * (ε * T))) + ρ * (1.0023 * u + 2.004 * (ε * T))) =
        ρ * ((2 * ε + ε * ε) * (T + (1.0023 * u + 2.004 * (ε * T))) +
          (1.0023 * u + 2.004 * (ε * T))) + ε * τ := by ring
    rw [e]
    have : ρ * ((2 * ε + ε * ε) * (T + (1.0023 * u + 2.004 * (ε * T))) +
          (1.0023 * u + 2.004 * (ε * T))) ≤ ρ * (1.005 * u + 4.02 * (ε * T)) := by
      apply mul_le_mul_of_nonneg_left _ ρ0
      have : ε * (ε * (ε * T)) ≥ 0 := by positivity
      linarith
    linarith
  have p2n := near_norm p2' (norm_mul_le' r2 hR)
  have hY0 : 0 ≤ ‖Y‖ := norm_nonneg _
  obtain ⟨a, ha⟩ : ∃ a, a = ε * ((g + ε * g) * V) + (ε * g * V + g * err) := ⟨_, rfl⟩
  have A0 : ε * ((g + ε * g) * V + τ) + (ε * g * V + g * err) = a + ε * τ := by rw [ha]; ring
  rw [A0] at p1 p1n
  obtain ⟨b, hb⟩ : ∃ b, b = ρ * (1.005 * u + 4.12 * (ε * T)) := ⟨_, rfl⟩
  rw [← hb] at p2' p2n
  have A1 : ε * (g * ‖Y‖ + a) + a ≤ (1 + 4 * ε) * g * err + 4 * ε * g * ‖Y‖ := by
    rw [ha, hV]
    have k1 : 0 ≤ ε * (g * err) := by positivity
    have k2 : 0 ≤ ε * (g * ‖Y‖) := by positivity
    have k3 : ε * (ε * (g * err)) ≤ 1 / 1000 * (ε * (g * err)) := by gcongr
    have k4 : ε * (ε * (g * ‖Y‖)) ≤ 1 / 1000 * (ε * (g * ‖Y‖)) := by gcongr
    have k5 : ε * (ε * (ε * (g * err))) ≤ 1 / 1000 * (1 / 1000 * (ε * (g * err))) := by gcongr
    have k6 : ε * (ε * (ε * (g * ‖Y‖))) ≤ 1 / 1000 * (1 / 1000 * (ε * (g * ‖Y‖))) := by gcongr
    linarith
  have A2 : ε * (ρ * T + b) + b ≤ ρ * (1.01 * u + 5.5 * ε * T) := by
    have e : ε * (ρ * T + b) + b =
      ρ * (ε * (T + (1.005 * u + 4.12 * (ε * T))) + (1.005 * u + 4.12 * (ε * T))) := by rw [hb]; ring
    rw [e]
    apply mul_le_mul_of_nonneg_left _ ρ0
    linarith
  have X0 : 0 ≤ g * ‖Y‖ + (a + ε * τ) + (ρ * T + b) :=
    add_nonneg ((norm_nonneg _).trans p1n) ((norm_nonneg _).trans p2n)
  have X1 : g * ‖Y‖ + (a + ε * τ) + (ρ * T + b) ≤ 2 ^ 110 := by
    have h1 : g * ‖Y‖ ≤ 1 * ‖Y‖ := by gcongr
    have h2 : a ≤ 4 * 2 ^ 90 := by
      have i1 : ε * ((g + ε * g) * V) ≤ 1 / 1000 * (2 * 2 ^ 90) := by gcongr
      have i2 : ε * g * V ≤ 1 / 1000 * 1 * 2 ^ 90 := by gcongr
      have i3 : g * err ≤ 1 * err := by gcongr
      rw [ha]
      linarith
    have h3 : ρ * T ≤ 2048 * 2 ^ 80 := by gcongr
    have h4 : b ≤ 2048 * 2 ^ 92 := by
      rw [hb]
      apply mul_le_mul ρh _ (by positivity) (by norm_num)
      have : ε * T ≤ 1 / 1000 * T := by gcongr
      norm_num at uh hT1 ⊢
      linarith
    have h5 : ε * τ ≤ 1 := by
      have : τ ≤ 1 := by rw [hτ]; norm_num
      have : ε * τ ≤ 1 / 1000 * 1 := by gcongr
      linarith
    norm_num at h1 h2 h3 h4 hV1 ⊢
    linarith
  have r := (hS.ops.add _ _ ((add_le_add p1n p2n).trans X1)).trans
    (roundErr_add e0 ((norm_add_le _ _).trans (add_le_add p1n p2n)) X0)
  refine (near_trans r (near_add p1 p2')).trans ?_
  rw [← hτ]
  have fin : ρ * (1.01 * u + 5.5 * ε * T) + ρ * (0.1 * (ε * T)) ≤ ρ * (1.01 * u + 6 * ε * T) := by
    rw [← mul_add]
    apply mul_le_mul_of_nonneg_left _ ρ0
    linarith
  linarith

/-- rounding in the sum of the memories -/
theorem sum_near (hS : FloatSys S val ε) (l : List C) (hl : l.length ≤ 2 ^ 10)
    (hb : ∀ c ∈ l, ‖val c‖ ≤ 2 ^ 95) :
    ‖val (l.foldl (· + ·) 0) - (l.map val).sum‖ ≤
      2 * l.length * ε * ((l.map fun c => ‖val c‖).sum + 1 / 2 ^ 80) := by
  have e0 := hS.ε0
  have key : ∀ (l : List C) (c : C) (c' : ℂ) (e P : ℝ), ‖val c - c'‖ ≤ e → ‖c'‖ + 1 / 2 ^ 80 ≤ P →
      (1 + ε) ^ l.length * (e + l.length * (ε * (P + (l.map fun c => ‖val c‖).sum))) +
        (P + (l.map fun c => ‖val c‖).sum) ≤ 2 ^ 110 →
      ‖val (l.foldl (· + ·) c) - (c' + (l.map val).sum)‖ ≤ (1 + ε) ^ l.length *
        (e + l.length * (ε * (P + (l.map fun c => ‖val c‖).sum))) := by
    intro l
    induction l with
    | nil => intro c c' e P h _ _; simpa using h
    | cons v l ih =>
      intro c c' e P h hP hhi
      have he : 0 ≤ e := (norm_nonneg _).trans h
      have ht : (0 : ℝ) ≤ 1 / 2 ^ 80 := by positivity
      have hP0 : 0 ≤ P := le_trans (by positivity) hP
      have hP' : ‖c'‖ ≤ P := by linarith
      have hn := near_norm h hP'
      have h2 : ‖val c + val v‖ ≤ P + e + ‖val v‖ := (norm_add_le _ _).trans (by linarith)
      rw [List.map_cons, List.sum_cons, List.length_cons] at hhi ⊢
      set n := l.length
      set s := (l.map fun c => ‖val c‖).sum with hs
      have hs0 : 0 ≤ s := by
        apply List.sum_nonneg
        intro x hx
        obtain ⟨c, -, rfl⟩ := List.mem_map.1 hx
        exact norm_nonneg _
      have hv0 : 0 ≤ ‖val v‖ := norm_nonneg _
      have q0 : (1 + ε) ^ n * (ε * (P + e + ‖val v‖) + e + n * (ε * (P + ‖val v‖ + s))) ≤
          (1 + ε) ^ (n + 1) * (e + ((n + 1 : ℕ) : ℝ) * (ε * (P + (‖val v‖ + s)))) := by
        rw [pow_succ, mul_assoc]
        apply mul_le_mul_of_nonneg_left _ (by positivity)
        push_cast
        have q1 : 0 ≤ ε * (ε * ((n + 1) * (P + ‖val v‖ + s))) := by positivity
        have q2 : 0 ≤ ε * s := by positivity
        nlinarith
      have hhi' : P + e + ‖val v‖ ≤ 2 ^ 110 := by
        refine le_trans ?_ hhi
        have g1 : 1 ≤ (1 + ε) ^ (n + 1) := one_le_pow₀ (by linarith)
        have g2 : 0 ≤ ((n + 1 : ℕ) : ℝ) * (ε * (P + (‖val v‖ + s))) := by positivity
        have g4 := mul_le_mul_of_nonneg_right g1 (add_nonneg he g2)
        linarith
      have h1 := hS.ops.add c v (by linarith)
      have h3 : ‖val (c + v) - (c' + val v)‖ ≤ ε * (P + e + ‖val v‖) + e := by
        have a : roundErr ε ‖val c + val v‖ ≤ ε * (P + e + ‖val v‖) := by
          unfold roundErr
          apply mul_le_mul_of_nonneg_left _ e0
          exact max_le h2 (by linarith [norm_nonneg c'])
        have b : ‖val c + val v - (c' + val v)‖ ≤ e := by
          rw [add_sub_add_right_eq_sub]; exact h
        exact near_trans (h1.trans a) b
      have h4 : ‖c' + val v‖ + 1 / 2 ^ 80 ≤ P + ‖val v‖ := by
        have := norm_add_le c' (val v)
        linarith
      have := ih (c + v) (c' + val v) _ _ h3 h4 (by linarith)
      rw [List.foldl_cons, List.map_cons, List.sum_cons, ← add_assoc]
      exact this.trans q0
  set s := (l.map fun c => ‖val c‖).sum with hs
  have hs0 : 0 ≤ s := by
    apply List.sum_nonneg
    intro x hx
    obtain ⟨c, -, rfl⟩ := List.mem_map.1 hx
    exact norm_nonneg _
  have hl' : (l.length : ℝ) ≤ 2 ^ 10 := by exact_mod_cast hl
  have hle : l.length * ε ≤ 1 / 2 := by
    calc (l.length : ℝ) * ε ≤ 2 ^ 10 * (1 / 2 ^ 21) := mul_le_mul hl' hS.ε1 e0 (by positivity)
      _ ≤ _ := by norm_num
  have hp := one_add_pow_le e0 hle
  have hs1 : s ≤ 2 ^ 105 := by
    have := List.sum_le_card_nsmul (l.map fun c => ‖val c‖) (2 ^ 95) (by
      intro x hx
      obtain ⟨c, hc, rfl⟩ := List.mem_map.1 hx
      exact hb c hc)
    rw [List.length_map, nsmul_eq_mul] at this
    refine this.trans ?_
    calc (l.length : ℝ) * 2 ^ 95 ≤ 2 ^ 10 * 2 ^ 95 := by gcongr
      _ = _ := by norm_num
  have fin : (1 + ε) ^ l.length * (0 + l.length * (ε * (1 / 2 ^ 80 + s))) ≤
      2 * l.length * ε * (s + 1 / 2 ^ 80) := by
    calc _ ≤ 2 * (0 + l.length * (ε * (1 / 2 ^ 80 + s))) := by gcongr
      _ = _ := by ring
  have := key l 0 0 0 (1 / 2 ^ 80) (by rw [hS.ops.zero]; simp) (by simp) (by
    rw [← hs]
    have : 2 * l.length * ε * (s + 1 / 2 ^ 80) ≤ 2 * (1 / 2) * (2 ^ 105 + 1 / 2 ^ 80) := by
      rw [mul_assoc 2]
      gcongr
    norm_num at this fin hs1 ⊢
    linarith)
  rw [zero_add] at this
  exact this.trans fin

end Sys
end Adwt
