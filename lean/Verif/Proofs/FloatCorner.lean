import Verif.Proofs.FloatOps

/-!
# Error of one corner and of the boundary terms
-/

set_option linter.unusedSectionVars false

namespace Adwt
open Seg

variable {C : Type} [Zero C] [Add C] [Sub C] [Mul C] [Div C]

namespace Sys
variable {S : Sys ℝ C} {val : C → ℂ} {ε : ℝ} (hS : FloatSys S val ε)
include hS

theorem FloatSys.εs : ε ≤ 1 / 1000 := hS.ε1.trans (by norm_num)

theorem z_mem {k : ℕ} (hk : k < S.n) : S.zA k ∈ S.flt.z := by
  unfold zA
  have : k < S.flt.z.length := by rw [← hS.len]; exact hk
  rw [List.getD_eq_getElem?_getD, List.getElem?_eq_getElem this]
  exact List.getElem_mem _

/-- the range of the poles -/
theorem z_range {k : ℕ} (hk : k < S.n) : 1 / 16 ≤ -(val (S.zA k)).re ∧ 1 / 16 ≤ ‖val (S.zA k)‖ ∧
    ‖val (S.zA k)‖ ≤ 32 ∧ ε * ‖val (S.zA k)‖ ≤ -(val (S.zA k)).re := by
  obtain ⟨h1, h2⟩ := hS.poles _ (z_mem hS hk)
  have h3 := Complex.abs_re_le_norm (val (S.zA k))
  have h4 := (abs_le.1 h3).1
  have h5 : ε * ‖val (S.zA k)‖ ≤ 1 / 1000 * 32 :=
    mul_le_mul (FloatSys.εs hS) (by norm_num at h2; exact h2) (norm_nonneg _) (by norm_num)
  norm_num at h1 h2 ⊢
  refine ⟨h1, by linarith, h2, by linarith⟩

theorem z_re {k : ℕ} (hk : k < S.n) : (val (S.zA k)).re ≤ 0 := by
  have := (z_range hS hk).1
  linarith

/-- the factor of a corner, SIMD code -/
theorem cornerV_near {k : ℕ} (hk : k < S.n) {d ph md qd Md : ℝ} (hd : |d| ≤ 1) (hph : |ph| ≤ 1)
    (hmd : |md| ≤ Md) (hqd : |qd| ≤ Md) (M0 : 1 / 2 ^ 40 ≤ Md) (M1 : Md ≤ 2 ^ 26) :
    ‖val (S.cornerV d ph md qd k) -
      (val (S.zA k) * qd + (val (S.zA k) * ph + d) * md)‖ ≤ 11 * ε * ((1 + ‖val (S.zA k)‖) * Md) := by
  have h0 := hS.ε0
  have h1 := FloatSys.εs hS
  have O := hS.ops
  obtain ⟨-, z1, z2, -⟩ := z_range hS hk
  set z := val (S.zA k) with hz
  set Z := ‖z‖ with hZ
  have hZ0 : 0 ≤ Z := norm_nonneg _
  have hMd : 0 ≤ Md := (abs_nonneg _).trans hmd
  have zM : Z * Md ≤ 32 * Md := mul_le_mul_of_nonneg_right z2 hMd
  have zM0 : 1 / 16 * Md ≤ Z * Md := mul_le_mul_of_nonneg_right z1 hMd
  have E1 := eps_pows h0 h1 hZ0
  have E2 := eps_pows h0 h1 hMd
  have E3 := eps_pows h0 h1 (mul_nonneg hZ0 hMd)
  norm_num at M0 M1
  unfold cornerV
  have a1 := O.fma' h0 (a := S.zA k) (x := z) (e := 0) (by simp [hz]) (O.self_ofK ph)
    (O.self_ofK d) (A := Z) le_rfl (O.norm_ofK hph) (X := Z) le_rfl (O.norm_ofK hd)
  have n1 : ‖z * ph + d‖ ≤ Z + 1 := by
    refine (norm_add_le _ _).trans ?_
    have := norm_mul_le' (a := z) (A := Z) le_rfl (norm_real_le hph)
    have := norm_real_le hd
    linarith
  have m1 := near_norm a1 n1
  have a2 := O.mul' h0 a1 (O.self_ofK md) m1 (O.norm_ofK hmd) n1
  have n2 := norm_mul_le' n1 (norm_real_le hmd)
  have m2 := near_norm a2 n2
  have a3 := O.fma' h0 (a := S.zA k) (x := z) (e := 0) (by simp [hz]) (O.self_ofK qd) a2
    (A := Z) le_rfl (O.norm_ofK hqd) (X := Z) le_rfl m2
  refine a3.trans ?_
  have hp : 0 ≤ (1 + Z) * Md := by positivity
  have e1 : ε * ε ≤ 1 / 1000 * ε := by gcongr
  have e2 : ε * (ε * ε) ≤ 1 / 1000 * (1 / 1000 * ε) := by gcongr
  have f1 := mul_le_mul_of_nonneg_right e1 hp
  have f2 := mul_le_mul_of_nonneg_right e2 hp
  have f3 : 0 ≤ ε * ((1 + Z) * Md) := by positivity
  have f4 : 0 ≤ ε * (Z * Md) := by positivity
  have f5 : ε * (Z * Md) ≤ ε * ((1 + Z) * Md) := by gcongr; linarith
  linarith

/-- the factor of a corner, scalar code -/
theorem cornerS_near {k : ℕ} (hk : k < S.n) {d ph md qd Md : ℝ} (hd : |d| ≤ 1) (hph : |ph| ≤ 1)
    (hmd : |md| ≤ Md) (hqd : |qd| ≤ Md) (M0 : 1 / 2 ^ 40 ≤ Md) (M1 : Md ≤ 2 ^ 26) :
    ‖val (S.zA k * S.ops.ofK qd + S.ops.ofK md * (S.ops.ofK d + S.zA k * S.ops.ofK ph)) -
      (val (S.zA k) * qd + (val (S.zA k) * ph + d) * md)‖ ≤ 11 * ε * ((1 + ‖val (S.zA k)‖) * Md) := by
  have h0 := hS.ε0
  have h1 := FloatSys.εs hS
  have O := hS.ops
  obtain ⟨-, z1, z2, -⟩ := z_range hS hk
  set z := val (S.zA k) with hz
  set Z := ‖z‖ with hZ
  have hZ0 : 0 ≤ Z := norm_nonneg _
  have hMd : 0 ≤ Md := (abs_nonneg _).trans hmd
  have zM : Z * Md ≤ 32 * Md := mul_le_mul_of_nonneg_right z2 hMd
  have zM0 : 1 / 16 * Md ≤ Z * Md := mul_le_mul_of_nonneg_right z1 hMd
  have E1 := eps_pows h0 h1 hZ0
  have E2 := eps_pows h0 h1 hMd
  have E3 := eps_pows h0 h1 (mul_nonneg hZ0 hMd)
  norm_num at M0 M1
  have a1 := O.mul' h0 (a := S.zA k) (x := z) (e := 0) (by simp [hz]) (O.self_ofK ph)
    (A := Z) le_rfl (O.norm_ofK hph) (X := Z) le_rfl
  have n1 := norm_mul_le' (a := z) (A := Z) le_rfl (norm_real_le hph)
  have m1 := near_norm a1 n1
  have a2 := O.add' h0 (O.self_ofK d) a1 (O.norm_ofK hd) m1
  have n2 : ‖(d : ℂ) + z * ph‖ ≤ 1 + Z := by
    refine (norm_add_le _ _).trans ?_
    have := norm_real_le hd
    linarith
  have m2 := near_norm a2 n2
  have a3 := O.mul' h0 (O.self_ofK md) a2 (O.norm_ofK hmd) m2 (norm_real_le hmd)
  have n3 := norm_mul_le' (norm_real_le hmd) n2
  have m3 := near_norm a3 n3
  have a4 := O.mul' h0 (a := S.zA k) (x := z) (e := 0) (by simp [hz]) (O.self_ofK qd)
    (A := Z) le_rfl (O.norm_ofK hqd) (X := Z) le_rfl
  have n4 := norm_mul_le' (a := z) (A := Z) le_rfl (norm_real_le hqd)
  have m4 := near_norm a4 n4
  have a5 := O.add' h0 a4 a3 m4 m3
  have e : z * (qd : ℂ) + (z * ph + d) * md = z * qd + md * (d + z * ph) := by ring
  rw [e]
  refine a5.trans ?_
  have hp : 0 ≤ (1 + Z) * Md := by positivity
  have e1 : ε * ε ≤ 1 / 1000 * ε := by gcongr
  have e2 : ε * (ε * ε) ≤ 1 / 1000 * (1 / 1000 * ε) := by gcongr
  have e3 : ε * (ε * (ε * ε)) ≤ 1 / 1000 * (1 / 1000 * (1 / 1000 * ε)) := by gcongr
  have f1 := mul_le_mul_of_nonneg_right e1 hp
  have f2 := mul_le_mul_of_nonneg_right e2 hp
  have f2' := mul_le_mul_of_nonneg_right e3 hp
  have f3 : 0 ≤ ε * ((1 + Z) * Md) := by positivity
  have g0 : 0 ≤ Z * Md := by positivity
  have g1 := mul_le_mul_of_nonneg_right e1 g0
  have g2 := mul_le_mul_of_nonneg_right e2 g0
  have g3 := mul_le_mul_of_nonneg_right e3 g0
  have f4 : 0 ≤ ε * (Z * Md) := by positivity
  have f5 : ε * (Z * Md) ≤ ε * ((1 + Z) * Md) := by gcongr; linarith
  linarith

/-- the exponential of a corner: `w` is the ideal exponent. Both versions. -/
theorem exp_near {k : ℕ} (hk : k < S.n) {a a' dd K : ℝ} (ha : 0 ≤ a) (ha' : 0 ≤ a') (hat : a ≤ 2 ^ 104)
    (hdd : 0 ≤ dd) (h1 : |a - a'| * dd ≤ K * ε) (h2 : a * dd ≤ 2) (h3 : dd ≤ 1)
    {f : C → C} (hf : f = S.ops.exp ∨ f = S.ops.vexp) :
    ‖val (f (S.zA k * S.ops.ofK a)) - Complex.exp (val (S.zA k) * a')‖ * dd ≤
      1.01 * (ε + ‖val (S.zA k)‖ * ((K + 2) * ε)) ∧
    ‖val (f (S.zA k * S.ops.ofK a))‖ ≤ 1.002 := by
  have h0 := hS.ε0
  have hε := FloatSys.εs hS
  have O := hS.ops
  obtain ⟨-, -, z2, hst⟩ := z_range hS hk
  set z := val (S.zA k) with hz
  set p := val (S.zA k * S.ops.ofK a) with hp
  have hZ : 0 ≤ ‖z‖ := norm_nonneg _
  set η := ε * (1 / 2 ^ 80) with hη
  have η0 : 0 ≤ η := by positivity
  have η1 : η ≤ 1 / 10001 := by
    calc η ≤ 1 / 1000 * (1 / 2 ^ 80) := by rw [hη]; gcongr
      _ ≤ _ := by norm_num
  have η2 : η ≤ 1 / 100000 * ε := by
    calc η ≤ ε * (1 / 100000) := by rw [hη]; gcongr; norm_num
      _ = _ := by ring
  have e1 : ‖p - z * a‖ ≤ ε * (‖z‖ * a) + η := by
    have := O.mul (S.zA k) (S.ops.ofK a) (by
      rw [O.ofK, Complex.norm_real, Real.norm_of_nonneg ha, ← hz]
      calc ‖z‖ * a ≤ 32 * 2 ^ 104 := by gcongr
        _ ≤ _ := by norm_num)
    rw [O.ofK, norm_mul, Complex.norm_real, Real.norm_of_nonneg ha] at this
    refine this.trans ((roundErr_add h0 le_rfl (by positivity)).trans (le_of_eq ?_))
    rw [hη]; ring
  have hzr := z_re hS hk
  rw [← hz] at hzr
  have hpr : p.re ≤ η := by
    have := (Complex.abs_re_le_norm (p - z * a)).trans e1
    have h2 := (abs_le.1 this).2
    simp at h2
    nlinarith
  have hwr : (z * a').re ≤ η := by
    simp
    nlinarith
  obtain ⟨n1, e3⟩ := exp_lipschitz' η0 η1 hpr hwr
  have e2 : ‖val (f (S.zA k * S.ops.ofK a)) - Complex.exp p‖ ≤ ε * 1.0001 := by
    have hp1 : p.re ≤ 1 := hpr.trans (η1.trans (by norm_num))
    have : ‖val (f (S.zA k * S.ops.ofK a)) - Complex.exp p‖ ≤ roundErr ε ‖Complex.exp p‖ := by
      rcases hf with rfl | rfl
      · exact O.exp _ hp1
      · exact O.vexp _ hp1
    exact this.trans (roundErr_le h0 n1 (by norm_num))
  refine ⟨?_, (near_norm e2 n1).trans (by linarith)⟩
  have e4 : ‖p - z * a'‖ ≤ ε * (‖z‖ * a) + η + ‖z‖ * |a - a'| := by
    apply near_trans e1
    rw [← mul_sub, norm_mul, ← Complex.ofReal_sub, Complex.norm_real]; rfl
  have e5 := near_trans e2 (e3.trans (mul_le_mul_of_nonneg_left e4 (by norm_num)))
  calc _ ≤ (ε * 1.0001 + 1.0001 * (ε * (‖z‖ * a) + η + ‖z‖ * |a - a'|)) * dd := by gcongr
    _ = 1.0001 * ((ε + η) * dd + ε * ‖z‖ * (a * dd) + ‖z‖ * (|a - a'| * dd)) := by ring
    _ ≤ 1.0001 * ((ε + 1 / 100000 * ε) * 1 + ε * ‖z‖ * 2 + ‖z‖ * (K * ε)) := by gcongr
    _ = 1.0001 * (1.00001 * ε + ‖z‖ * ((K + 2) * ε)) := by ring
    _ ≤ _ := by
      have k1 : 0 ≤ ‖z‖ * ((K + 2) * ε) := by
        have : 0 ≤ |a - a'| * dd := by positivity
        have : 0 ≤ (K + 2) * ε := by linarith
        positivity
      linarith

/-- what is known of the table entries at a corner: `MD` is the ideal slope change, `M` bounds
samples and slopes -/
structure CornerOk (ε : ℝ) (M MD md qd ph : ℝ) : Prop where
  b : |MD| ≤ 2 * M
  m : |md - MD| ≤ 11 * ε * M
  q : |qd + MD * ph| ≤ 23 * ε * M
  ph0 : 0 ≤ ph
  ph1 : ph ≤ 1

omit hS in
theorem abs_near {a b e T : ℝ} (h : |a - b| ≤ e) (hb : |b| ≤ T) : |a| ≤ T + e := by
  have := abs_add_le (a - b) b
  rw [sub_add_cancel] at this
  linarith

/-- the factor of a corner is close to `MD * d` -/
theorem factor_near {M MD md qd ph d : ℝ} (hc : CornerOk ε M MD md qd ph) (hM : 0 ≤ M)
    (M0 : 1 / 2 ^ 40 ≤ M) (M1 : M ≤ 2 ^ 24) (hd : |d| ≤ 1) {k : ℕ} {F : ℂ}
    (hF : ∀ Md, |md| ≤ Md → |qd| ≤ Md → 1 / 2 ^ 40 ≤ Md → Md ≤ 2 ^ 26 → ‖F -
      (val (S.zA k) * qd + (val (S.zA k) * ph + d) * md)‖ ≤ 11 * ε * ((1 + ‖val (S.zA k)‖) * Md)) :
    ‖F - (MD * d : ℝ)‖ ≤ 68 * ε * ((1 + ‖val (S.zA k)‖) * M) ∧
      ‖F‖ ≤ 3 * ((1 + ‖val (S.zA k)‖) * M) := by
  have h0 := hS.ε0
  have h1 := FloatSys.εs hS
  set z := val (S.zA k) with hz
  have hZ : 0 ≤ ‖z‖ := norm_nonneg _
  have hph : |ph| ≤ 1 := abs_le.2 ⟨by linarith [hc.ph0], hc.ph1⟩
  have hMp : |MD * ph| ≤ 2 * M := by
    rw [abs_mul]
    calc |MD| * |ph| ≤ 2 * M * 1 := mul_le_mul hc.b hph (abs_nonneg _) (by positivity)
      _ = _ := by ring
  have hεM : ε * M ≤ 1 / 1000 * M := by gcongr
  have b1 : |md| ≤ 3 * M := by
    have := abs_near hc.m hc.b; linarith
  have b2 : |qd| ≤ 3 * M := by
    have : |qd - -(MD * ph)| ≤ 23 * ε * M := by rw [sub_neg_eq_add]; exact hc.q
    have := abs_near (T := 2 * M) this (by rw [abs_neg]; exact hMp)
    linarith
  have key := hF (3 * M) b1 b2 (by linarith) (by norm_num at M1 ⊢; linarith)
  have e : z * (qd : ℂ) + (z * ph + d) * md - (MD * d : ℝ) =
      z * ((qd + MD * ph : ℝ) + ((md - MD) * ph : ℝ)) + ((md - MD) * d : ℝ) := by
    push_cast; ring
  have b3 : |(md - MD) * ph| ≤ 11 * ε * M := by
    rw [abs_mul]
    calc |md - MD| * |ph| ≤ 11 * ε * M * 1 := mul_le_mul hc.m hph (abs_nonneg _) (by positivity)
      _ = _ := by ring
  have b4 : |(md - MD) * d| ≤ 11 * ε * M := by
    rw [abs_mul]
    calc |md - MD| * |d| ≤ 11 * ε * M * 1 := mul_le_mul hc.m hd (abs_nonneg _) (by positivity)
      _ = _ := by ring
  have k2 : ‖z * (qd : ℂ) + (z * ph + d) * md - (MD * d : ℝ)‖ ≤
      ‖z‖ * (34 * ε * M) + 11 * ε * M := by
    rw [e]
    refine (norm_add_le _ _).trans ?_
    have c1 := norm_add_le ((qd + MD * ph : ℝ) : ℂ) (((md - MD) * ph : ℝ) : ℂ)
    have c2 := norm_real_le hc.q
    have c3 := norm_real_le b3
    have c4 := norm_real_le b4
    have := norm_mul_le' (a := z) (A := ‖z‖) le_rfl (b := ((qd + MD * ph : ℝ) : ℂ) + ((md - MD) * ph : ℝ))
      (B := 34 * ε * M) (by linarith)
    linarith
  have k3 := near_trans key k2
  have hεM0 : 0 ≤ ε * M := by positivity
  have hp1 : 0 ≤ ‖z‖ * (ε * M) := by positivity
  have r1 : ‖F - (MD * d : ℝ)‖ ≤ 68 * ε * ((1 + ‖z‖) * M) := k3.trans (by linarith)
  refine ⟨r1, ?_⟩
  have hMd : |MD * d| ≤ 2 * M := by
    rw [abs_mul]
    calc |MD| * |d| ≤ 2 * M * 1 := mul_le_mul hc.b hd (abs_nonneg _) (by positivity)
      _ = _ := by ring
  have r2 := near_norm r1 (norm_real_le hMd)
  have hp2 : ‖z‖ * (ε * M) ≤ ‖z‖ * (1 / 1000 * M) := by gcongr
  have hp3 : 0 ≤ ‖z‖ * M := by positivity
  linarith

/-- One forward corner adds the ideal term `T = e^{z a'} MD d'`, up to rounding. The float step is
`d`, the ideal one `d'`; `a'` is the ideal exponent, `bar` the float end point. -/
theorem corn_near {k : ℕ} (hk : k < S.n) {M MD md qd ph d d' bar a' : ℝ} (hM : 0 ≤ M)
    (M0 : 1 / 2 ^ 40 ≤ M) (M1 : M ≤ 2 ^ 24)
    (hc : CornerOk ε M MD md qd ph) (hd : |d| ≤ 1) (hdd : |d - d'| ≤ 3 * ε)
    (ha : 0 ≤ S.env.fl (S.env.fl (bar - ph) / d)) (hat : S.env.fl (S.env.fl (bar - ph) / d) ≤ 2 ^ 104)
    (ha' : 0 ≤ a')
    (h1 : |S.env.fl (S.env.fl (bar - ph) / d) - a'| * |d| ≤ 11 * ε)
    (h2 : S.env.fl (S.env.fl (bar - ph) / d) * |d| ≤ 2) (old : C) (hold : ‖val old‖ ≤ 2 ^ 100) :
    ‖val (S.cornF d bar ph md qd k old) - (val old + Complex.exp (val (S.zA k) * a') * (MD * d' : ℝ))‖ ≤
      ε * ‖val old‖ + 112 * ε * ((1 + ‖val (S.zA k)‖) * M) ∧
    ‖val (S.cornB d bar ph md qd k old) - (val old + -(Complex.exp (val (S.zA k) * a') * (MD * d' : ℝ)))‖ ≤
      ε * ‖val old‖ + 112 * ε * ((1 + ‖val (S.zA k)‖) * M) := by
  have h0 := hS.ε0
  have h1k := FloatSys.εs hS
  have O := hS.ops
  have hph : |ph| ≤ 1 := abs_le.2 ⟨by linarith [hc.ph0], hc.ph1⟩
  set a := S.env.fl (S.env.fl (bar - ph) / d) with hae
  set z := val (S.zA k) with hz
  set Q := (1 + ‖z‖) * M with hQ
  have hZ : 0 ≤ ‖z‖ := norm_nonneg _
  have hQ0 : 0 ≤ Q := by positivity
  have hMQ : M ≤ Q := by rw [hQ]; nlinarith
  have hzM : ‖z‖ * M ≤ Q := by rw [hQ]; nlinarith
  -- ideal
  obtain ⟨-, z1, z2, hst⟩ := z_range hS hk
  rw [← hz] at z1 z2 hst
  have zM : ‖z‖ * M ≤ 32 * M := mul_le_mul_of_nonneg_right z2 hM
  have hQ1 : Q ≤ 33 * 2 ^ 24 := by
    have : Q ≤ 33 * M := by rw [hQ]; linarith
    exact this.trans (by gcongr)
  have hQlo : 1 / 2 ^ 40 ≤ Q := M0.trans hMQ
  have nE : ‖Complex.exp (z * a')‖ ≤ 1 := by
    rw [Complex.norm_exp]
    apply Real.exp_le_one_iff.2
    have : 0 ≤ ε * ‖z‖ := by positivity
    simp
    nlinarith
  -- value of the product
  have prod : ∀ {f : C → C} {F : ℂ}, (f = S.ops.exp ∨ f = S.ops.vexp) →
      (‖F - (MD * d : ℝ)‖ ≤ 68 * ε * Q ∧ ‖F‖ ≤ 3 * Q) →
      ‖val (f (S.zA k * S.ops.ofK a)) * F - Complex.exp (z * a') * (MD * d' : ℝ)‖ ≤ 101 * ε * Q ∧
      ‖val (f (S.zA k * S.ops.ofK a)) * F‖ ≤ 3.1 * Q := by
    intro f F hf hF
    obtain ⟨p1, p2⟩ := exp_near hS hk ha ha' hat (abs_nonneg d) h1 h2 hd hf
    set X := val (f (S.zA k * S.ops.ofK a)) with hX
    constructor
    · have e : X * F - Complex.exp (z * a') * (MD * d' : ℝ) =
          X * (F - (MD * d : ℝ)) + (X - Complex.exp (z * a')) * (MD * d : ℝ) +
          Complex.exp (z * a') * (MD * (d - d') : ℝ) := by push_cast; ring
      rw [e]
      have c1 := norm_mul_le' p2 hF.1
      have c2 : ‖(X - Complex.exp (z * a')) * (MD * d : ℝ)‖ ≤ 1.01 * (ε + ‖z‖ * ((11 + 2) * ε)) * (2 * M) := by
        rw [norm_mul, Complex.norm_real, Real.norm_eq_abs, abs_mul]
        calc ‖X - Complex.exp (z * a')‖ * (|MD| * |d|) = ‖X - Complex.exp (z * a')‖ * |d| * |MD| := by ring
          _ ≤ _ := mul_le_mul p1 hc.b (abs_nonneg _) (by positivity)
      have c3 : ‖Complex.exp (z * a') * (MD * (d - d') : ℝ)‖ ≤ 1 * (2 * M * (3 * ε)) := by
        apply norm_mul_le' nE
        apply norm_real_le
        rw [abs_mul]
        exact mul_le_mul hc.b hdd (abs_nonneg _) (by positivity)
      have t1 := norm_add_le (X * (F - (MD * d : ℝ)) + (X - Complex.exp (z * a')) * (MD * d : ℝ))
        (Complex.exp (z * a') * (MD * (d - d') : ℝ))
      have t2 := norm_add_le (X * (F - (MD * d : ℝ))) ((X - Complex.exp (z * a')) * (MD * d : ℝ))
      have u1 : ε * (ε * Q) ≤ 1 / 1000 * (ε * Q) := by gcongr
      have u2 : ε * M ≤ ε * Q := by gcongr
      have u3 : ε * (‖z‖ * M) ≤ ε * Q := by gcongr
      have u4 : ε * M + ε * (‖z‖ * M) = ε * Q := by rw [hQ]; ring
      have u5 : 0 ≤ ε * Q := by positivity
      linarith
    · have := norm_mul_le' p2 hF.2
      have : ε * Q ≤ 1 / 1000 * Q := by gcongr
      linarith
  have u1 : ε * (ε * Q) ≤ 1 / 1000 * (ε * Q) := by gcongr
  have u5 : 0 ≤ ε * Q := by positivity
  -- scalar product
  have hSc : ‖val (S.cornerS a d ph md qd k) - Complex.exp (z * a') * (MD * d' : ℝ)‖ ≤ 105 * ε * Q ∧
      ‖val (S.cornerS a d ph md qd k)‖ ≤ 3.2 * Q := by
    have hF := factor_near hS hc hM M0 M1 hd (k := k)
      (fun Md m1 m2 m3 m4 => cornerS_near hS hk hd hph m1 m2 m3 m4)
    obtain ⟨q1, q2⟩ := prod (f := S.ops.exp) (Or.inl rfl) hF
    unfold cornerS
    have q3 := O.mul (S.ops.exp (S.zA k * S.ops.ofK a))
      (S.zA k * S.ops.ofK qd + S.ops.ofK md * (S.ops.ofK d + S.zA k * S.ops.ofK ph)) (by
        rw [← norm_mul]; refine q2.trans ?_; norm_num at hQ1 ⊢; linarith)
    have q4 := roundErr_le h0 q2 (by norm_num at hQlo ⊢; linarith)
    have q5 := near_trans (q3.trans q4) q1
    refine ⟨q5.trans (by linarith), ?_⟩
    have := near_norm (q3.trans q4) q2
    have : ε * Q ≤ 1 / 1000 * Q := by gcongr
    linarith
  have hV := prod (f := S.ops.vexp) (Or.inr rfl) (factor_near hS hc hM M0 M1 hd (k := k)
      (fun Md m1 m2 m3 m4 => cornerV_near hS hk hd hph m1 m2 m3 m4))
  have ho : 0 ≤ ε * ‖val old‖ := by positivity
  have ho' : 0 ≤ ‖val old‖ := norm_nonneg _
  have hVo : ‖val (S.ops.vexp (S.zA k * S.ops.ofK a))‖ * ‖val (S.cornerV d ph md qd k)‖ + ‖val old‖ ≤
      2 ^ 110 := by
    rw [← norm_mul]
    refine (add_le_add hV.2 hold).trans ?_
    norm_num at hQ1 ⊢
    linarith
  have hlo : 1 / 2 ^ 80 ≤ 3.1 * Q + ‖val old‖ := by norm_num at hQlo ⊢; linarith
  have hlo' : 1 / 2 ^ 80 ≤ ‖val old‖ + 3.2 * Q := by norm_num at hQlo ⊢; linarith
  have hhi' : ‖val old‖ + 3.2 * Q ≤ 2 ^ 110 := by norm_num at hQ1 hold ⊢; linarith
  unfold cornF cornB eff
  constructor
  · split_ifs
    · have q1 := O.fma (S.ops.vexp (S.zA k * S.ops.ofK a)) (S.cornerV d ph md qd k) old hVo
      have q2 : roundErr ε (‖val (S.ops.vexp (S.zA k * S.ops.ofK a)) * val (S.cornerV d ph md qd k)‖ +
        ‖val old‖) ≤ ε * (3.1 * Q + ‖val old‖) := roundErr_le h0 (by linarith [hV.2]) hlo
      have q3 := near_trans (q1.trans q2) (near_add hV.1 (b := val old) (y := val old) (e' := 0) (by simp))
      rw [add_comm (val old)]
      refine q3.trans ?_
      linarith
    · have q1 := O.add' h0 (a := old) (x := val old) (e := 0) (by simp) hSc.1 le_rfl hSc.2 hlo' hhi'
      refine q1.trans ?_
      linarith
  · split_ifs
    · have q1 := O.fnma (S.ops.vexp (S.zA k * S.ops.ofK a)) (S.cornerV d ph md qd k) old hVo
      have q2 : roundErr ε (‖val (S.ops.vexp (S.zA k * S.ops.ofK a)) * val (S.cornerV d ph md qd k)‖ +
        ‖val old‖) ≤ ε * (3.1 * Q + ‖val old‖) := roundErr_le h0 (by linarith [hV.2]) hlo
      have q3 := near_trans (q1.trans q2) (near_add (a := -(val (S.ops.vexp (S.zA k * S.ops.ofK a)) *
        val (S.cornerV d ph md qd k))) (x := -(Complex.exp (z * a') * (MD * d' : ℝ))) (e := 101 * ε * Q)
        (by rw [← neg_sub', norm_neg]; exact hV.1) (b := val old) (y := val old) (e' := 0) (by simp))
      rw [add_comm (val old)]
      refine q3.trans ?_
      linarith
    · have q1 := O.sub' h0 (a := old) (x := val old) (e := 0) (by simp) hSc.1 le_rfl hSc.2 hlo' hhi'
      rw [← sub_eq_add_neg]
      refine q1.trans ?_
      linarith

end Sys
end Adwt
