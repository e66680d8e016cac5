import Verif.Proofs.FloatCorner

/-!
# Error of the boundary terms
-/

set_option linter.unusedSectionVars false

namespace Adwt
open Seg

variable {C : Type} [Zero C] [Add C] [Sub C] [Mul C] [Div C]

namespace Sys

/-- what is known of a line of the tables: `Mi`, `Qi` are the ideal slope and offset -/
structure LineOk (ε M Mi Qi m q : ℝ) : Prop where
  bm : |Mi| ≤ M
  bq : |Qi| ≤ M
  m : |m - Mi| ≤ 4 * ε * M
  q : |q - Qi| ≤ 6 * ε * M

variable {S : Sys ℝ C} {val : C → ℂ} {ε : ℝ} (hS : FloatSys S val ε)
include hS

theorem fl_near {x y e T : ℝ} (h : |x - y| ≤ e) (hy : |y| ≤ T)
    (lo : 1 / 2 ^ 80 ≤ T + e := by linarith) (hi : T + e ≤ 2 ^ 110 := by linarith) :
    |S.env.fl x - y| ≤ e + ε * (T + e) := by
  have hx := abs_near h hy
  have h1 := (hS.rel x (hx.trans hi)).trans (roundErr_le hS.ε0 hx lo)
  have := abs_add_le (S.env.fl x - x) (x - y)
  rw [sub_add_sub_cancel] at this
  linarith

theorem partA_near {M Mi Qi m q d d' : ℝ} (h : LineOk ε M Mi Qi m q) (hM : 0 ≤ M)
    (M0 : 1 / 2 ^ 40 ≤ M) (M1 : M ≤ 2 ^ 24) (hd : |d| ≤ 1)
    (hdd : |d - d'| ≤ 3 * ε) : |S.env.fl (m * d) - Mi * d'| ≤ 9 * ε * M ∧
      |S.env.fl (m * d)| ≤ 1.1 * M := by
  have h0 := hS.ε0
  have h1 := FloatSys.εs hS
  have E2 := eps_pows h0 h1 hM
  norm_num at M0 M1
  have u1 : ε * M ≤ 1 / 1000 * M := by gcongr
  have u2 : ε * (ε * M) ≤ 1 / 1000 * (ε * M) := by gcongr
  have u3 : 0 ≤ ε * M := by positivity
  have e1 : |m * d - Mi * d| ≤ 4 * ε * M := by
    rw [← sub_mul, abs_mul]
    calc |m - Mi| * |d| ≤ 4 * ε * M * 1 := mul_le_mul h.m hd (abs_nonneg _) (by positivity)
      _ = _ := by ring
  have b1 : |Mi * d| ≤ M := by
    rw [abs_mul]
    calc |Mi| * |d| ≤ M * 1 := mul_le_mul h.bm hd (abs_nonneg _) hM
      _ = _ := by ring
  have e2 := fl_near hS e1 b1
  have e3 : |Mi * d - Mi * d'| ≤ M * (3 * ε) := by
    rw [← mul_sub, abs_mul]
    exact mul_le_mul h.bm hdd (abs_nonneg _) hM
  have t := abs_add_le (S.env.fl (m * d) - Mi * d) (Mi * d - Mi * d')
  rw [sub_add_sub_cancel] at t
  have b2 := abs_near e2 b1
  constructor <;> linarith

theorem partB_near {M Mi Qi m q b : ℝ} (h : LineOk ε M Mi Qi m q) (hM : 0 ≤ M)
    (M0 : 1 / 2 ^ 40 ≤ M) (M1 : M ≤ 2 ^ 24) (hb : |b| ≤ 1)
    (hv : |Mi * b + Qi| ≤ M) :
    |S.env.mad m b q - (Mi * b + Qi)| ≤ 14 * ε * M ∧ |S.env.mad m b q| ≤ 1.1 * M := by
  obtain ⟨P, hP, hmad⟩ := WavetableData.mad_cases S.env m b q
  rw [hmad]
  have h0 := hS.ε0
  have h1 := FloatSys.εs hS
  have E2 := eps_pows h0 h1 hM
  norm_num at M0 M1
  have u1 : ε * M ≤ 1 / 1000 * M := by gcongr
  have u2 : ε * (ε * M) ≤ 1 / 1000 * (ε * M) := by gcongr
  have u2' : ε * (ε * (ε * M)) ≤ 1 / 1000 * (1 / 1000 * (ε * M)) := by gcongr
  have u3 : 0 ≤ ε * M := by positivity
  have e1 : |m * b - Mi * b| ≤ 4 * ε * M := by
    rw [← sub_mul, abs_mul]
    calc |m - Mi| * |b| ≤ 4 * ε * M * 1 := mul_le_mul h.m hb (abs_nonneg _) (by positivity)
      _ = _ := by ring
  have b1 : |Mi * b| ≤ M := by
    rw [abs_mul]
    calc |Mi| * |b| ≤ M * 1 := mul_le_mul h.bm hb (abs_nonneg _) hM
      _ = _ := by ring
  have e2 : |P - Mi * b| ≤ 4 * ε * M + ε * (M + 4 * ε * M) := by
    rcases hP with hP | hP <;> rw [hP]
    · refine e1.trans ?_
      have : 0 ≤ ε * (M + 4 * ε * M) := by positivity
      linarith
    · exact fl_near hS e1 b1
  have e3 : |P + q - (Mi * b + Qi)| ≤
      4 * ε * M + ε * (M + 4 * ε * M) + 6 * ε * M := by
    have e : P + q - (Mi * b + Qi) = (P - Mi * b) + (q - Qi) := by ring
    rw [e]
    have := abs_add_le (P - Mi * b) (q - Qi)
    have := h.q
    linarith
  have e4 := fl_near hS e3 hv
  have b2 := abs_near e4 hv
  constructor <;> linarith

set_option maxHeartbeats 1000000 in
theorem i0Val_near {k : ℕ} (hk : k < S.n) {M Mp Qp Mn Qn mp qp mn qn d d' pb nb : ℝ}
    (hp : LineOk ε M Mp Qp mp qp) (hn : LineOk ε M Mn Qn mn qn) (hM : 0 ≤ M)
    (M0 : 1 / 2 ^ 40 ≤ M) (M1 : M ≤ 2 ^ 24) (hd : |d| ≤ 1)
    (hdd : |d - d'| ≤ 3 * ε) (hpb : |pb| ≤ 1) (hnb : |nb| ≤ 1) (hvp : |Mp * pb + Qp| ≤ M)
    (hvn : |Mn * nb + Qn| ≤ M) :
    ‖val (S.i0Val mp qp mn qn d pb nb k) -
      (Complex.exp (val (S.zA k)) * (val (S.zA k) * ((Mp * pb + Qp : ℝ) : ℂ) + ((Mp * d' : ℝ) : ℂ)) -
        (val (S.zA k) * ((Mn * nb + Qn : ℝ) : ℂ) + ((Mn * d' : ℝ) : ℂ)))‖ ≤
      60 * ε * ((1 + ‖val (S.zA k)‖) * M) := by
  have h0 := hS.ε0
  have h1k := FloatSys.εs hS
  have O := hS.ops
  obtain ⟨-, z1, z2, -⟩ := z_range hS hk
  have hzr := z_re hS hk
  have hexp : S.expZA k = S.ops.exp (S.zA k) := by
    have : k < S.flt.z.length := by rw [← hS.len]; exact hk
    unfold expZA zA
    simp [List.getD_eq_getElem?_getD, this]
  obtain ⟨a1, a2⟩ := partA_near hS hp hM M0 M1 hd hdd
  obtain ⟨b1, b2⟩ := partB_near hS hp hM M0 M1 hpb hvp
  obtain ⟨c1, c2⟩ := partA_near hS hn hM M0 M1 hd hdd
  obtain ⟨d1, d2⟩ := partB_near hS hn hM M0 M1 hnb hvn
  unfold i0Val eff
  dsimp only
  rw [hexp]
  set pA := S.env.fl (mp * d)
  set pB := S.env.mad mp pb qp
  set pC := S.env.fl (mn * d)
  set pD := S.env.mad mn nb qn
  set z := val (S.zA k) with hz
  set Z := ‖z‖ with hZd
  have hZ : 0 ≤ Z := norm_nonneg _
  have nE : ‖Complex.exp z‖ ≤ 1 := by
    rw [Complex.norm_exp]; exact Real.exp_le_one_iff.2 hzr
  have eE : ‖val (S.ops.exp (S.zA k)) - Complex.exp z‖ ≤ ε := by
    have := (O.exp (S.zA k) (by linarith)).trans (roundErr_le h0 nE (by norm_num))
    linarith
  have mE := near_norm eE nE
  have zM : Z * M ≤ 32 * M := mul_le_mul_of_nonneg_right z2 hM
  have zM0 : 1 / 16 * M ≤ Z * M := mul_le_mul_of_nonneg_right z1 hM
  have E1 := eps_pows h0 h1k hZ
  have E2 := eps_pows h0 h1k hM
  have E3 := eps_pows h0 h1k (mul_nonneg hZ hM)
  norm_num at M0 M1
  have conv : ∀ {x y e : ℝ}, |x - y| ≤ e → ‖val (S.ops.ofK x) - (y : ℂ)‖ ≤ e := by
    intro x y e h
    rw [O.ofK, ← Complex.ofReal_sub]; exact norm_real_le h
  have hQ0 : 0 ≤ (1 + Z) * M := by positivity
  have e1 : ε * ε ≤ 1 / 1000 * ε := by gcongr
  have e2 : ε * (ε * ε) ≤ 1 / 1000 * (1 / 1000 * ε) := by gcongr
  have e3 : ε * (ε * (ε * ε)) ≤ 1 / 1000 * (1 / 1000 * (1 / 1000 * ε)) := by gcongr
  have e4 : ε * (ε * (ε * (ε * ε))) ≤ 1 / 1000 * (1 / 1000 * (1 / 1000 * (1 / 1000 * ε))) := by gcongr
  have e5 : ε * (ε * (ε * (ε * (ε * ε)))) ≤
      1 / 1000 * (1 / 1000 * (1 / 1000 * (1 / 1000 * (1 / 1000 * ε)))) := by gcongr
  have g0 : 0 ≤ Z * M := by positivity
  have f1 := mul_le_mul_of_nonneg_right e1 hM
  have f2 := mul_le_mul_of_nonneg_right e2 hM
  have f3 := mul_le_mul_of_nonneg_right e3 hM
  have f4 := mul_le_mul_of_nonneg_right e4 hM
  have g1 := mul_le_mul_of_nonneg_right e1 g0
  have g2 := mul_le_mul_of_nonneg_right e2 g0
  have g3 := mul_le_mul_of_nonneg_right e3 g0
  have g4 := mul_le_mul_of_nonneg_right e4 g0
  have f5 := mul_le_mul_of_nonneg_right e5 hM
  have g5 := mul_le_mul_of_nonneg_right e5 g0
  have k1 : 0 ≤ ε * M := by positivity
  have k2 : 0 ≤ ε * (Z * M) := by positivity
  -- ideal magnitudes
  have bA : |Mp * d'| ≤ 1.01 * M := by
    have : |d'| ≤ 1.01 := by
      have := abs_near (a := d') (b := d) (e := 3 * ε) (by rw [abs_sub_comm]; exact hdd) hd
      linarith
    rw [abs_mul]
    calc |Mp| * |d'| ≤ M * 1.01 := mul_le_mul hp.bm this (abs_nonneg _) hM
      _ = _ := by ring
  have n1 : ‖z * ((Mp * pb + Qp : ℝ) : ℂ)‖ ≤ Z * M :=
    norm_mul_le' (a := z) (A := Z) le_rfl (norm_real_le hvp)
  have n1' : ‖z * ((Mn * nb + Qn : ℝ) : ℂ)‖ ≤ Z * M :=
    norm_mul_le' (a := z) (A := Z) le_rfl (norm_real_le hvn)
  have n2 : ‖z * ((Mp * pb + Qp : ℝ) : ℂ) + ((Mp * d' : ℝ) : ℂ)‖ ≤ Z * M + 1.01 * M :=
    (norm_add_le _ _).trans (add_le_add n1 (norm_real_le bA))
  have zz : ‖val (S.zA k) - z‖ ≤ 0 := by simp [hz]
  split_ifs
  · have q1 := O.fma' h0 zz (conv b1) (conv a1) (A := Z) le_rfl (O.norm_ofK b2) (X := Z) le_rfl
      (O.norm_ofK a2)
    have r1 := near_norm q1 n2
    have q2 := O.fms' h0 eE q1 (conv c1) mE r1 nE (O.norm_ofK c2)
    have bC : |Mn * d'| ≤ 1.01 * M := by
      have : |d'| ≤ 1.01 := by
        have := abs_near (a := d') (b := d) (e := 3 * ε) (by rw [abs_sub_comm]; exact hdd) hd
        linarith
      rw [abs_mul]
      calc |Mn| * |d'| ≤ M * 1.01 := mul_le_mul hn.bm this (abs_nonneg _) hM
        _ = _ := by ring
    have n3 : ‖Complex.exp z * (z * ((Mp * pb + Qp : ℝ) : ℂ) + ((Mp * d' : ℝ) : ℂ)) -
        ((Mn * d' : ℝ) : ℂ)‖ ≤ 1 * (Z * M + 1.01 * M) + 1.01 * M :=
      (norm_sub_le _ _).trans (add_le_add (norm_mul_le' nE n2) (norm_real_le bC))
    have r2 := near_norm q2 n3
    have q3 := O.fnma' h0 zz (conv d1) q2 (A := Z) le_rfl (O.norm_ofK d2) (X := Z) le_rfl r2
    have e : Complex.exp z * (z * ((Mp * pb + Qp : ℝ) : ℂ) + ((Mp * d' : ℝ) : ℂ)) -
        (z * ((Mn * nb + Qn : ℝ) : ℂ) + ((Mn * d' : ℝ) : ℂ)) =
        Complex.exp z * (z * ((Mp * pb + Qp : ℝ) : ℂ) + ((Mp * d' : ℝ) : ℂ)) -
        ((Mn * d' : ℝ) : ℂ) - z * ((Mn * nb + Qn : ℝ) : ℂ) := by ring
    rw [e]
    refine q3.trans ?_
    linarith
  · have q1 := O.mul' h0 zz (conv b1) (A := Z) le_rfl (O.norm_ofK b2) (X := Z) le_rfl
    have r1 := near_norm q1 n1
    have q2 := O.add' h0 (conv a1) q1 (O.norm_ofK a2) r1
    have n2' : ‖((Mp * d' : ℝ) : ℂ) + z * ((Mp * pb + Qp : ℝ) : ℂ)‖ ≤ Z * M + 1.01 * M := by
      rw [add_comm]; exact n2
    have r2 := near_norm q2 n2'
    have q3 := O.mul' h0 eE q2 mE r2 nE
    have n3 := norm_mul_le' nE n2'
    have r3 := near_norm q3 n3
    have q4 := O.sub' h0 q3 (conv c1) r3 (O.norm_ofK c2)
    have bC : |Mn * d'| ≤ 1.01 * M := by
      have : |d'| ≤ 1.01 := by
        have := abs_near (a := d') (b := d) (e := 3 * ε) (by rw [abs_sub_comm]; exact hdd) hd
        linarith
      rw [abs_mul]
      calc |Mn| * |d'| ≤ M * 1.01 := mul_le_mul hn.bm this (abs_nonneg _) hM
        _ = _ := by ring
    have n4 : ‖Complex.exp z * (((Mp * d' : ℝ) : ℂ) + z * ((Mp * pb + Qp : ℝ) : ℂ)) -
        ((Mn * d' : ℝ) : ℂ)‖ ≤ 1 * (Z * M + 1.01 * M) + 1.01 * M :=
      (norm_sub_le _ _).trans (add_le_add n3 (norm_real_le bC))
    have r4 := near_norm q4 n4
    have q5 := O.mul' h0 zz (conv d1) (A := Z) le_rfl (O.norm_ofK d2) (X := Z) le_rfl
    have r5 := near_norm q5 n1'
    have q6 := O.sub' h0 q4 q5 r4 r5
    have e : Complex.exp z * (z * ((Mp * pb + Qp : ℝ) : ℂ) + ((Mp * d' : ℝ) : ℂ)) -
        (z * ((Mn * nb + Qn : ℝ) : ℂ) + ((Mn * d' : ℝ) : ℂ)) =
        Complex.exp z * (((Mp * d' : ℝ) : ℂ) + z * ((Mp * pb + Qp : ℝ) : ℂ)) -
        ((Mn * d' : ℝ) : ℂ) - z * ((Mn * nb + Qn : ℝ) : ℂ) := by ring
    rw [e]
    refine q6.trans ?_
    linarith

end Sys
end Adwt
