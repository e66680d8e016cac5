import Verif.Proofs.FloatMem
import Verif.Proofs.Convolution

/-!
# Whole runs in float arithmetic
-/

set_option linter.unusedSectionVars false

namespace Adwt
open Seg WavetableData

variable {C : Type} [Zero C] [Add C] [Sub C] [Mul C] [Div C]

theorem response_le {W : ℝ → ℝ} {A : ℝ} (hW : ∀ u, |W u| ≤ A) {z : ℂ} (hz : z.re ≤ 0)
    (x d : ℝ) : ‖response W z x d‖ ≤ A := by
  unfold response
  have := intervalIntegral.norm_integral_le_of_norm_le_const (a := (0 : ℝ)) (b := 1) (C := A)
    (f := fun t : ℝ => Complex.exp (z * (1 - t)) * (W (x + t * d) : ℂ)) (by
      intro t ht
      rw [Set.uIoc_of_le zero_le_one] at ht
      have h1 : ‖Complex.exp (z * (1 - (t : ℂ)))‖ ≤ 1 := by
        rw [Complex.norm_exp]
        apply Real.exp_le_one_iff.2
        have : (z * (1 - (t : ℂ))).re = z.re * (1 - t) := by simp
        rw [this]
        exact mul_nonpos_of_nonpos_of_nonneg hz (by linarith [ht.2])
      have := norm_mul_le' h1 (norm_real_le (hW (x + t * d)))
      linarith)
  simpa using this

namespace Sys
variable {S : Sys ℝ C} {val : C → ℂ} {ε A Λ : ℝ} {nw L : ℕ} {o o' : Osc ℝ C} {ws : List ℝ}

theorem mixture_le {E : Env ℝ} (hlen : ∀ w i : ℤ, 0 ≤ w → w < nw → 0 ≤ i → i < (L : ℤ) - 1 →
      (mipSamples E (waveformOf ws (2 ^ L) w.toNat) i.toNat).length = 2 ^ (L - i.toNat))
    (hA : TablesWithin E ws nw L A) {w : ℤ} (h0 : 0 ≤ w) (h1 : w < nw) {t : MipMapIndices ℝ}
    (b0 : 0 ≤ t.idx) (b1 : t.idx < (L : ℤ) - 1)
    (b2 : t.weightUp ≠ 0 → t.idxUp = t.idx + 1 ∧ t.idxUp < (L : ℤ) - 1)
    (hw : t.weight + t.weightUp ≤ 1.001) (hw0 : 0 ≤ t.weight) (hw1 : 0 ≤ t.weightUp) (u : ℝ) :
    |mixture E ws L w t u| ≤ 1.001 * A := by
  have key : ∀ i : ℤ, 0 ≤ i → i < (L : ℤ) - 1 → |waveAt E ws L w i u| ≤ A := by
    intro i c0 c1
    apply interp_bound (hA _ (by omega) _ (by omega))
    rw [hlen w i h0 h1 c0 c1]; positivity
  have hA0 : 0 ≤ A := (abs_nonneg _).trans (key _ b0 b1)
  unfold mixture
  refine (abs_add_le _ _).trans ?_
  rw [abs_mul, abs_mul, abs_of_nonneg hw0, abs_of_nonneg hw1]
  have a1 := mul_le_mul_of_nonneg_left (key _ b0 b1) hw0
  have a2 : t.weightUp * |waveAt E ws L w t.idxUp u| ≤ t.weightUp * A := by
    by_cases h : t.weightUp = 0
    · rw [h]; simp
    · obtain ⟨c1, c2⟩ := b2 h
      exact mul_le_mul_of_nonneg_left (key _ (by omega) c2) hw1
  calc _ ≤ t.weight * A + t.weightUp * A := add_le_add a1 a2
    _ = (t.weight + t.weightUp) * A := by ring
    _ ≤ _ := by gcongr

theorem val_getD (hS : FloatSys S val ε) (l : List C) (k : ℕ) :
    (l.map val).getD k 0 = val (l.getD k 0) := by
  rw [List.getD_eq_getElem?_getD, List.getD_eq_getElem?_getD, List.getElem?_map]
  cases l[k]? with
  | none => simp [hS.ops.zero]
  | some c => simp

theorem fcpxY_getD {y : List C} {a : ℕ → C} {k : ℕ} (hk : k < S.n) : (S.cpxY y a).getD k 0 =
    S.expZA k * y.getD k 0 + S.ops.ofK 2 * S.rA k * (a k / S.zPow2A k) := by
  unfold cpxY
  rw [List.getD_eq_getElem?_getD, List.getElem?_map, List.getElem?_range hk]
  rfl

theorem fcpxY_length {y : List C} {a : ℕ → C} : (S.cpxY y a).length = S.n := by
  unfold cpxY; simp

theorem fsum_getD {f : C → ℝ} (l : List C) : (l.map f).sum =
    ∑ k ∈ Finset.range l.length, f (l.getD k 0) := by
  induction l with
  | nil => simp
  | cons c l ih =>
    rw [List.map_cons, List.sum_cons, List.length_cons, Finset.sum_range_succ', ih, add_comm]
    simp

theorem csum_getD {f : C → ℂ} (l : List C) : (l.map f).sum =
    ∑ k ∈ Finset.range l.length, f (l.getD k 0) := by
  induction l with
  | nil => simp
  | cons c l ih =>
    rw [List.map_cons, List.sum_cons, List.length_cons, Finset.sum_range_succ', ih, add_comm]
    simp

/-- One sample. -/
theorem step_near (hS : FloatSys S val ε) (hl : Log2Spec S.env.log2f)
    (hA : TablesWithin S.env ws nw L A) (hΛ : SlopesWithin S.env ws nw L Λ)
    (M0 : 1 / 2 ^ 40 ≤ A + Λ) (M1 : A + Λ ≤ 2 ^ 24)
    (ho : Plays S ws nw L o) {dir : Direction} {p : ℝ}
    (hp : PhaseOk S.env.fl p) (hs : StepOk dir o.prevPhase p) {y : ℝ}
    (e : S.stepDir dir o p = .ok (o', y)) {t : MipMapIndices ℝ}
    (ht : NextIndices S o (dirDiff S.env.fl dir p o.prevPhase) t) (hm : TableMove o t.idx)
    (hx : OffDenormal (2 ^ (L - t.idx.toNat)) o.prevPhase) {ν : ℝ}
    (hν : 2 ^ (L - t.idx.toNat) * |trueStep S.env.fl dir p o.prevPhase| + 2 ≤ ν)
    (hdl : 1 / 2 ^ 100 ≤ |dirDiff S.env.fl dir p o.prevPhase|) :
    0 ≤ A + Λ ∧ 0 ≤ A ∧ A ≤ A + Λ ∧ (∀ u, |mixture S.env ws L o.crt t u| ≤ 1.001 * A) ∧
    (∀ k < S.n, ∀ (Y : ℂ) (err : ℝ), ‖val (o.prevY.getD k 0) - Y‖ ≤ err → ‖Y‖ + err ≤ 2 ^ 90 →
      ‖val (o'.prevY.getD k 0) - (Complex.exp (val (S.zA k)) * Y + 2 * val (S.rA k) *
        response (mixture S.env ws L o.crt t) (val (S.zA k)) o.prevPhase
          (trueStep S.env.fl dir p o.prevPhase))‖ ≤
      (1 + 4 * ε) * ‖Complex.exp (val (S.zA k))‖ * err +
        ε * (4 * ‖Complex.exp (val (S.zA k))‖ * ‖Y‖ + 2 * ‖val (S.rA k)‖ *
          ((132 * ν ^ 2 * (1 + ‖val (S.zA k)‖) / ‖val (S.zA k)‖ ^ 2 + 7) * (A + Λ)))) ∧
    o'.prevY.length = S.n ∧
    ((∀ k < S.n, ‖val (o'.prevY.getD k 0)‖ ≤ 2 ^ 95) → |y - output (o'.prevY.map val)| ≤
      2 * S.n * ε * (∑ k ∈ Finset.range S.n, ‖val (o'.prevY.getD k 0)‖ + 1 / 2 ^ 80)) := by
  have hf := hS.fl
  have e0 := hS.ε0
  have e1 := FloatSys.εs hS
  have hpl := reached_play hf hl hS.B ho.1
  obtain ⟨sr, dur, wt0, wt, hb, hwt, htt⟩ := ho.2
  have hlin := built_flines hf hl e0 e1 (FloatSys.relTo hS) hS.dbl M0 M1 hA hΛ hb htt
  obtain ⟨c, t', hn, hno, rfl, rfl, -, b0, b1, b2⟩ := step_form' hf hS.B hpl hwt hp hs e
  obtain ⟨wt1, wt2, hw1, hft⟩ := ht
  rw [hwt] at hw1; cases hw1
  have hw : WtOk nw L wt := by
    obtain ⟨wt', e', h⟩ := hpl.wt
    rw [hwt] at e'; cases e'; exact h
  unfold findMipMapIndices at hft
  rw [hn] at hft
  cases hft
  set d := dirDiff S.env.fl dir p o.prevPhase with hd
  set d' := trueStep S.env.fl dir p o.prevPhase with hd'
  obtain ⟨r0, r1, r2⟩ := dirDiff_range hf hpl.toOscOk hp hs
  rw [← hd] at r0 r1 r2
  obtain ⟨s1, s2, s3, -⟩ := true_step hS (dir := dir) hpl.toOscOk.phase hp
  rw [← hd, ← hd'] at s1 s2 s3
  obtain ⟨w0, w1, w2, w3⟩ := weight_facts hS hw.inv (abs_pos.2 r0) hn
  have hz : o.prevPhaseDiff < 0 → t.idx < o.prevMip → o.prevPhase ≠ 0 :=
    fun h1 h2 h3 => hno ⟨⟨h3, h1⟩, h2⟩
  have hmix := mixture_le hlin.len hA hpl.crt0 hpl.crt1 b0 b1 b2 w2 w0 w1
  have hA0 : 0 ≤ A := by
    have := (abs_nonneg _).trans (hmix 0)
    linarith
  have hΛ0 : 0 ≤ Λ := by
    have := hΛ o.crt.toNat (by have := hpl.crt0; have := hpl.crt1; omega) t.idx.toNat (by omega) 0
    exact (mul_nonneg (abs_nonneg _) (by positivity)).trans this
  have hM0 : 0 ≤ A + Λ := by positivity
  obtain ⟨ν', hν', hνν, hν19⟩ : ∃ ν', 2 ^ (L - t.idx.toNat) * |d'| + 2 ≤ ν' ∧ ν' ≤ ν ∧ ν' ≤ 2 ^ 19 := by
    refine ⟨2 ^ (L - t.idx.toNat) * |d'| + 2, le_rfl, hν, ?_⟩
    have h18 := hw.L18
    have h1 : (2 : ℝ) ^ (L - t.idx.toNat) ≤ 2 ^ 18 := pow_le_pow_right₀ (by norm_num) (by omega)
    have h2 : |d'| ≤ 1 := by
      have := abs_near (a := d') (b := d) (e := 3 * ε) (by rw [abs_sub_comm]; exact s1)
        (abs_le.2 ⟨r1, r2⟩)
      linarith
    calc (2 : ℝ) ^ (L - t.idx.toNat) * |d'| + 2 ≤ 2 ^ 18 * 1 + 2 := by gcongr
      _ ≤ _ := by norm_num
  have hν0 : 0 ≤ ν' := le_trans (by positivity) hν'
  have hacc : ∀ k < S.n, ‖val (S.acc wt L o t p d k) - val (S.zA k) ^ 2 *
      response (mixture S.env ws L o.crt t) (val (S.zA k)) o.prevPhase d'‖ ≤
      130 * ν' ^ 2 * ε * ((1 + ‖val (S.zA k)‖) * (A + Λ)) := by
    intro k hk
    unfold acc
    rcases lt_or_gt_of_ne r0 with h | h
    · rw [if_neg (by linarith)]
      exact accB_near hS hpl hlin hp h r1 (s3 h).1 s1 (s3 h).2 b0 b1 b2 w0 w1 w2 w3 hm hz hx hν' M0 M1 hdl hk
    · rw [if_pos h]
      exact accF_near hS hpl hlin hp h r2 (s2 h).1 s1 (s2 h).2 b0 b1 b2 w0 w1 w2 w3 hm hz hx hν' M0 M1 hdl hk
  refine ⟨hM0, hA0, by linarith, hmix, ?_, fcpxY_length, ?_⟩
  · intro k hk Y err hY hYb
    show ‖val ((S.cpxY o.prevY (S.acc wt L o t p d)).getD k 0) - _‖ ≤ _
    rw [fcpxY_getD hk]
    obtain ⟨-, z1, z2, -⟩ := z_range hS hk
    have hea : 130 * ν' ^ 2 * ε * ((1 + ‖val (S.zA k)‖) * (A + Λ)) ≤ 2 ^ 80 := by
      calc _ ≤ 130 * (2 ^ 19 : ℝ) ^ 2 * (1 / 1000) * ((1 + 32) * 2 ^ 24) := by gcongr
        _ ≤ _ := by norm_num
    have hR := (response_le hmix (z_re hS hk) o.prevPhase d').trans
      (show 1.001 * A ≤ 1.001 * (A + Λ) by linarith)
    refine (coef_near hS hk hYb hea (by linarith)
      (by norm_num at M1 ⊢; linarith) hY (hacc k hk) hR).trans ?_
    have zp : 0 < ‖val (S.zA k)‖ := by linarith
    have hνQ : 130 * ν' ^ 2 * ε * ((1 + ‖val (S.zA k)‖) * (A + Λ)) ≤
        130 * ν ^ 2 * ε * ((1 + ‖val (S.zA k)‖) * (A + Λ)) := by gcongr
    have hνZ := div_le_div_of_nonneg_right hνQ (by positivity : 0 ≤ ‖val (S.zA k)‖ ^ 2)
    set Z := ‖val (S.zA k)‖
    set M := A + Λ with hM
    have : 1.01 * (130 * ν ^ 2 * ε * ((1 + Z) * M) / Z ^ 2) + 6 * ε * (1.001 * M) ≤
        ε * ((132 * ν ^ 2 * (1 + Z) / Z ^ 2 + 7) * M) := by
      have k1 : 0 ≤ ε * (ν ^ 2 * (1 + Z) / Z ^ 2 * M) := by positivity
      have k2 : ε * A ≤ ε * M := by gcongr; linarith
      have k3 : 0 ≤ ε * M := by positivity
      have k4 : 130 * ν ^ 2 * ε * ((1 + Z) * M) / Z ^ 2 = 130 * (ε * (ν ^ 2 * (1 + Z) / Z ^ 2 * M)) := by
        ring
      rw [k4]
      have k5 : ε * ((132 * ν ^ 2 * (1 + Z) / Z ^ 2 + 7) * M) =
        132 * (ε * (ν ^ 2 * (1 + Z) / Z ^ 2 * M)) + 7 * (ε * M) := by ring
      rw [k5]
      linarith
    have hr : 0 ≤ 2 * ‖val (S.rA k)‖ := by positivity
    have := mul_le_mul_of_nonneg_left (show 1.01 * (130 * ν' ^ 2 * ε * ((1 + Z) * M) / Z ^ 2) +
      6 * ε * (1.001 * M) ≤ _ from le_trans (by linarith) this) hr
    linarith
  · intro hmem
    show |S.outReal (S.cpxY o.prevY (S.acc wt L o t p d)) -
      output ((S.cpxY o.prevY (S.acc wt L o t p d)).map val)| ≤
      2 * S.n * ε * (∑ k ∈ Finset.range S.n, ‖val ((S.cpxY o.prevY (S.acc wt L o t p d)).getD k 0)‖ +
        1 / 2 ^ 80)
    replace hmem : ∀ k < S.n, ‖val ((S.cpxY o.prevY (S.acc wt L o t p d)).getD k 0)‖ ≤ 2 ^ 95 := hmem
    set l := S.cpxY o.prevY (S.acc wt L o t p d) with hl'
    have hll : l.length = S.n := fcpxY_length
    have := sum_near hS l (by rw [hll]; exact hS.few) (by
      intro c hc
      obtain ⟨i, hi, rfl⟩ := List.getElem_of_mem hc
      have := hmem i (by rw [← hll]; exact hi)
      rwa [List.getD_eq_getElem?_getD, List.getElem?_eq_getElem hi, Option.getD_some] at this)
    rw [fsum_getD, hll] at this
    unfold outReal output
    rw [hS.ops.re, ← Complex.sub_re]
    exact (Complex.abs_re_le_norm _).trans this

end Sys
end Adwt
