import Verif.Proofs.FloatStep

/-!
# The sums of one sample in float arithmetic, both directions
-/

set_option linter.unusedSectionVars false

namespace Adwt
open Seg WavetableData

variable {C : Type} [Zero C] [Add C] [Sub C] [Mul C] [Div C]

namespace Sys
variable {S : Sys ℝ C} {val : C → ℂ} {ε M : ℝ} {nw L : ℕ} {o : Osc ℝ C} {ws : List ℝ}

theorem FLines_exact (hf : Rounding S.env.fl) {n : ℕ} (hn : n ≤ 18) {Y : ℤ → ℝ}
    {m q md qd ph : List ℝ} (h : FLines ε M (2 ^ n) Y m q md qd ph) (i : ℤ) (h0 : 0 ≤ i)
    (h1 : i < ((2 ^ n : ℕ) : ℤ)) :
    S.env.fl (ph.getD (i + 1).toNat 0) = ph.getD (i + 1).toNat 0 ∧
      S.env.fl (ph.getD (i + 1).toNat 0 - 1) = ph.getD (i + 1).toNat 0 - 1 := by
  rw [h.ph i h0 h1]
  have h18 : (2 : ℤ) ^ n ≤ 2 ^ 18 := pow_le_pow_right₀ (by norm_num) hn
  push_cast at h1
  have p1 : (2 : ℤ) ^ 18 ≤ 2 ^ 24 := by norm_num
  have e1 : ((i : ℝ) + 1) / ((2 ^ n : ℕ) : ℝ) = ((i + 1 : ℤ) : ℝ) / 2 ^ n := by push_cast; ring
  have e2 : ((i + 1 : ℤ) : ℝ) / 2 ^ n - 1 = ((i + 1 - 2 ^ n : ℤ) : ℝ) / 2 ^ n := by
    push_cast; field_simp
  rw [e1, e2]
  exact ⟨hf.dyadic _ _ (by rw [abs_le]; omega), hf.dyadic _ _ (by rw [abs_le]; omega)⟩

theorem mixture_response {E : Env ℝ} {w : ℤ} {t : MipMapIndices ℝ} (z : ℂ) (x d : ℝ) :
    z ^ 2 * response (mixture E ws L w t) z x d =
      t.weight * (z ^ 2 * response (waveAt E ws L w t.idx) z x d) +
      t.weightUp * (z ^ 2 * response (waveAt E ws L w t.idxUp) z x d) := by
  unfold mixture
  rw [response_add (W := waveAt E ws L w t.idx) (V := waveAt E ws L w t.idxUp)
    (interp_continuous _) (interp_continuous _)]
  ring

theorem accF_near (hS : FloatSys S val ε) {wt : WavetableData ℝ} (ho : OscPlay S nw L o)
    (hlin : HasFLines S.env ε M ws nw L wt) {p d d' : ℝ} (hp : PhaseOk S.env.fl p) (hd0 : 0 < d)
    (hd1 : d ≤ 1 / 2) (hd0' : 0 < d') (hdd : |d - d'| ≤ 3 * ε)
    (hd : d' = p - o.prevPhase ∨ d' = p - o.prevPhase + 1)
    {t : MipMapIndices ℝ} (ht0 : 0 ≤ t.idx) (ht1 : t.idx < (L : ℤ) - 1)
    (htu : t.weightUp ≠ 0 → t.idxUp = t.idx + 1 ∧ t.idxUp < (L : ℤ) - 1)
    (w0 : 0 ≤ t.weight) (w1 : 0 ≤ t.weightUp) (w2 : t.weight + t.weightUp ≤ 1.001)
    (hw : t.weightUp = 0 → t.weight = 1) (hm : TableMove o t.idx)
    (hz : o.prevPhaseDiff < 0 → t.idx < o.prevMip → o.prevPhase ≠ 0)
    (hx : OffDenormal (2 ^ (L - t.idx.toNat)) o.prevPhase) {ν : ℝ}
    (hν : 2 ^ (L - t.idx.toNat) * |d'| + 2 ≤ ν) (M0 : 1 / 2 ^ 40 ≤ M) (M1 : M ≤ 2 ^ 24)
    (hdl : 1 / 2 ^ 100 ≤ |d|) {k : ℕ} (hk : k < S.n) :
    ‖val (S.accF wt L o t p d k) - val (S.zA k) ^ 2 *
      response (mixture S.env ws L o.crt t) (val (S.zA k)) o.prevPhase d'‖ ≤
      130 * ν ^ 2 * ε * ((1 + ‖val (S.zA k)‖) * M) := by
  have e0 := hS.ε0
  have e1 := FloatSys.εs hS
  have hf := hS.fl
  unfold accF
  set n := L - t.idx.toNat with hn
  have hin := prevJF_in hf ho.toOscOk ht0 ht1 hm hz hx
  rw [← hn] at hin
  have hpz : (0 : ℤ) < 2 ^ n := by positivity
  have hn2 : 2 ≤ n := by omega
  have hn18 : n ≤ 18 := by
    obtain ⟨wt, -, h⟩ := ho.wt
    have := h.L18; omega
  have hN18 : ∀ {m : ℕ}, m ≤ 18 → ((2 ^ m : ℕ) : ℝ) ≤ 2 ^ 18 := by
    intro m hm
    push_cast
    exact pow_le_pow_right₀ (by norm_num) hm
  obtain ⟨hj0, hj1⟩ := floor_range hn18 hp.1 hp.2.1
  set jmin := (S.prevJF o n t.idx - 1) % 2 ^ n with hjm
  have hjm0 : 0 ≤ jmin := Int.emod_nonneg _ hpz.ne'
  have hjm1 : jmin < 2 ^ n := Int.emod_lt_of_pos _ hpz
  set jmax := ⌊p * 2 ^ n⌋ with hjx
  obtain ⟨hv, hv'⟩ := floor_in (n := n) p
  rw [← hjx] at hv hv'
  have hN4 : 4 ≤ 2 ^ n := by
    calc 4 = 2 ^ 2 := by norm_num
      _ ≤ 2 ^ n := Nat.pow_le_pow_right (by norm_num) hn2
  have hd2 := abs_le.1 hdd
  have hd1' : d' ≤ 0.6 := by linarith [hd2.1]
  have hpr : 0 ≤ o.prevPhaseRed ∧ o.prevPhaseRed < 1 ∧ S.env.fl o.prevPhaseRed = o.prevPhaseRed := by
    rw [ho.red]; exact ⟨ho.toOscOk.phase.1, ho.toOscOk.phase.2.1, ho.toOscOk.phase.2.2.1⟩
  rw [abs_of_pos hd0'] at hν
  rw [abs_of_pos hd0] at hdl
  have hM : 0 ≤ M := (abs_nonneg _).trans
    ((hlin.lines o.crt t.idx ho.crt0 ho.crt1 ht0 ht1).Y 0)
  have hp2 : (0 : ℝ) ≤ 2 ^ n * d' := by positivity
  obtain ⟨ν', hν', hνν, hν19⟩ : ∃ ν', 2 ^ n * d' + 2 ≤ ν' ∧ ν' ≤ ν ∧ ν' ≤ 2 ^ 19 := by
    refine ⟨2 ^ n * d' + 2, le_rfl, hν, ?_⟩
    have h1 : (2 : ℝ) ^ n ≤ 2 ^ 18 := pow_le_pow_right₀ (by norm_num) hn18
    calc (2 : ℝ) ^ n * d' + 2 ≤ 2 ^ 18 * 0.6 + 2 := by gcongr
      _ ≤ _ := by norm_num
  have hν2 : 2 ≤ ν' := by linarith
  have hQ : 0 ≤ (1 + ‖val (S.zA k)‖) * M := by positivity
  have hQl : 1 / 2 ^ 40 ≤ (1 + ‖val (S.zA k)‖) * M := by
    have := mul_nonneg (norm_nonneg (val (S.zA k))) hM
    linarith
  have hQh : (1 + ‖val (S.zA k)‖) * M ≤ 2 ^ 30 := by
    calc (1 + ‖val (S.zA k)‖) * M ≤ (1 + 32) * 2 ^ 24 := by
          gcongr
          exact (z_range hS hk).2.2.1
      _ ≤ _ := by norm_num
  refine le_trans ?_ (show 130 * ν' ^ 2 * ε * ((1 + ‖val (S.zA k)‖) * M) ≤
    130 * ν ^ 2 * ε * ((1 + ‖val (S.zA k)‖) * M) by gcongr)
  clear hν hνν ν
  rename' ν' => ν
  rw [mixture_response]
  have main := hlin.lines o.crt t.idx ho.crt0 ho.crt1 ht0 ht1
  apply mix_near hS hν2 hν19 hQl hQh w0 w1 w2 hw
  · have hlen := hlin.len o.crt t.idx ho.crt0 ho.crt1 ht0 ht1
    unfold waveAt
    rw [interp_eq, hlen]
    rw [← hn] at hlen main ⊢
    unfold fwdAt
    have key := fwdVal_near hS (N := 2 ^ n) (hN18 hn18)
      (fun i a b => (FLines_exact hf hn18 main i a b).1)
      (fun i => by rw [← hlen]; exact cyc_period _ i) main hjm0
      (by push_cast; exact hjm1) hj0 (by push_cast; exact hj1) hpr ⟨hp.1, hp.2.1⟩ hd0 (by linarith)
      hd0' (by linarith) hdd (by rw [ho.red]; exact hin)
      (in_of' (by positivity) hv hv'.le)
      (by rw [ho.red]
          exact wrapF hN4 ho.p0 hp.1 hp.2.1 hjm0 (by push_cast; exact hjm1) hin hv hv' hd0'
            (by linarith) hd) M0 M1 hdl hk
    rw [← ho.red]
    push_cast at key ⊢
    refine key.1.trans ?_
    gcongr
  · have hlen := hlin.len o.crt t.idx ho.crt0 ho.crt1 ht0 ht1
    unfold waveAt
    rw [interp_eq, hlen]
    rw [← hn] at hlen main ⊢
    have key := fwdVal_near hS (N := 2 ^ n) (hN18 hn18)
      (fun i a b => (FLines_exact hf hn18 main i a b).1)
      (fun i => by rw [← hlen]; exact cyc_period _ i) main hjm0
      (by push_cast; exact hjm1) hj0 (by push_cast; exact hj1) hpr ⟨hp.1, hp.2.1⟩ hd0 (by linarith)
      hd0' (by linarith) hdd (by rw [ho.red]; exact hin)
      (in_of' (by positivity) hv hv'.le)
      (by rw [ho.red]
          exact wrapF hN4 ho.p0 hp.1 hp.2.1 hjm0 (by push_cast; exact hjm1) hin hv hv' hd0'
            (by linarith) hd) M0 M1 hdl hk
    rw [← ho.red]
    push_cast at key ⊢
    refine key.2.trans ?_
    gcongr
  · intro hup
    obtain ⟨hu1, hu2⟩ := htu hup
    have hnu : L - t.idxUp.toNat = n - 1 := by omega
    have hlen := hlin.len o.crt t.idxUp ho.crt0 ho.crt1 (by omega) hu2
    have hl := hlin.lines o.crt t.idxUp ho.crt0 ho.crt1 (by omega) hu2
    unfold waveAt
    rw [interp_eq, hlen]
    rw [hnu] at hlen hl ⊢
    unfold fwdAt
    obtain ⟨-, e2, e3⟩ := half_range (n := n) (by omega) hjm0 hjm1
    obtain ⟨-, e5, e6⟩ := half_range (n := n) (by omega) hj0 hj1
    have hN4' : 4 ≤ 2 ^ (n - 1) := by
      calc 4 = 2 ^ 2 := by norm_num
        _ ≤ 2 ^ (n - 1) := Nat.pow_le_pow_right (by norm_num) (by omega)
    have hin' := half_in (n := n) (by omega) hin
    have hv2 := half_le (n := n) (by omega) hv
    have hv2' := half_gt (n := n) (by omega) hv'
    have key := fwdVal_near hS (N := 2 ^ (n - 1)) (hN18 (by omega))
      (fun i a b => (FLines_exact hf (by omega) hl i a b).1)
      (fun i => by rw [← hlen]; exact cyc_period _ i)
      hl e2 (by push_cast; exact e3) e5 (by push_cast; exact e6) hpr ⟨hp.1, hp.2.1⟩ hd0 (by linarith)
      hd0' (by linarith) hdd (by rw [ho.red]; exact hin')
      (in_of' (by positivity) hv2 hv2'.le)
      (by rw [ho.red]
          exact wrapF hN4' ho.p0 hp.1 hp.2.1 e2 (by push_cast; exact e3) hin' hv2 hv2' hd0'
            (by linarith) hd) M0 M1 hdl hk
    have hle : (2 : ℝ) ^ (n - 1) * d' + 2 ≤ ν := by
      have : (2 : ℝ) ^ (n - 1) ≤ 2 ^ n := pow_le_pow_right₀ (by norm_num) (by omega)
      have := mul_le_mul_of_nonneg_right this hd0'.le
      linarith
    rw [← ho.red]
    push_cast at key ⊢
    refine ⟨key.1.trans ?_, key.2.trans ?_⟩ <;> gcongr

theorem accB_near (hS : FloatSys S val ε) {wt : WavetableData ℝ} (ho : OscPlay S nw L o)
    (hlin : HasFLines S.env ε M ws nw L wt) {p d d' : ℝ} (hp : PhaseOk S.env.fl p) (hd0 : d < 0)
    (hd1 : -(1 / 2) ≤ d) (hd0' : d' < 0) (hdd : |d - d'| ≤ 3 * ε)
    (hd : d' = p - o.prevPhase ∨ d' = p - o.prevPhase - 1)
    {t : MipMapIndices ℝ} (ht0 : 0 ≤ t.idx) (ht1 : t.idx < (L : ℤ) - 1)
    (htu : t.weightUp ≠ 0 → t.idxUp = t.idx + 1 ∧ t.idxUp < (L : ℤ) - 1)
    (w0 : 0 ≤ t.weight) (w1 : 0 ≤ t.weightUp) (w2 : t.weight + t.weightUp ≤ 1.001)
    (hw : t.weightUp = 0 → t.weight = 1) (hm : TableMove o t.idx)
    (hz : o.prevPhaseDiff < 0 → t.idx < o.prevMip → o.prevPhase ≠ 0)
    (hx : OffDenormal (2 ^ (L - t.idx.toNat)) o.prevPhase) {ν : ℝ}
    (hν : 2 ^ (L - t.idx.toNat) * |d'| + 2 ≤ ν) (M0 : 1 / 2 ^ 40 ≤ M) (M1 : M ≤ 2 ^ 24)
    (hdl : 1 / 2 ^ 100 ≤ |d|) {k : ℕ} (hk : k < S.n) :
    ‖val (S.accB wt L o t p d k) - val (S.zA k) ^ 2 *
      response (mixture S.env ws L o.crt t) (val (S.zA k)) o.prevPhase d'‖ ≤
      130 * ν ^ 2 * ε * ((1 + ‖val (S.zA k)‖) * M) := by
  have e0 := hS.ε0
  have e1 := FloatSys.εs hS
  have hf := hS.fl
  unfold accB
  set n := L - t.idx.toNat with hn
  have hin := prevJB_in hf ho.toOscOk ht0 ht1 hm hz hx
  rw [← hn] at hin
  have hpz : (0 : ℤ) < 2 ^ n := by positivity
  have hn2 : 2 ≤ n := by omega
  have hn18 : n ≤ 18 := by
    obtain ⟨wt, -, h⟩ := ho.wt
    have := h.L18; omega
  have hN18 : ∀ {m : ℕ}, m ≤ 18 → ((2 ^ m : ℕ) : ℝ) ≤ 2 ^ 18 := by
    intro m hm
    push_cast
    exact pow_le_pow_right₀ (by norm_num) hm
  obtain ⟨hv, hv'⟩ := ceil_in (n := n) hp.1 hp.2.1
  set jmax := S.prevJB o n t.idx % 2 ^ n with hjx
  have hj0 : 0 ≤ jmax := Int.emod_nonneg _ hpz.ne'
  have hj1 : jmax < 2 ^ n := Int.emod_lt_of_pos _ hpz
  have hjm : ⌈p * 2 ^ n⌉ = 0 ↔ p = 0 := by
    constructor
    · intro h
      by_contra hc
      have hpos : 0 < p := lt_of_le_of_ne hp.1 (Ne.symm hc)
      have : 0 < ⌈p * 2 ^ n⌉ := Int.ceil_pos.2 (by positivity)
      omega
    · rintro rfl; simp
  set jmin := (⌈p * 2 ^ n⌉ - 1) % 2 ^ n with hjmd
  have hjm0 : 0 ≤ jmin := Int.emod_nonneg _ hpz.ne'
  have hjm1 : jmin < 2 ^ n := Int.emod_lt_of_pos _ hpz
  have hN4 : 4 ≤ 2 ^ n := by
    calc 4 = 2 ^ 2 := by norm_num
      _ ≤ 2 ^ n := Nat.pow_le_pow_right (by norm_num) hn2
  have hd2 := abs_le.1 hdd
  have hd1' : -0.6 ≤ d' := by linarith [hd2.2]
  have hpr : 0 ≤ o.prevPhaseRed ∧ o.prevPhaseRed < 1 := by
    rw [ho.red]; exact ⟨ho.toOscOk.phase.1, ho.toOscOk.phase.2.1⟩
  rw [abs_of_neg hd0'] at hν
  rw [abs_of_neg hd0] at hdl
  have hM : 0 ≤ M := (abs_nonneg _).trans
    ((hlin.lines o.crt t.idx ho.crt0 ho.crt1 ht0 ht1).Y 0)
  have hnd : 0 ≤ -d' := by linarith
  have hp2 : (0 : ℝ) ≤ 2 ^ n * -d' := by positivity
  obtain ⟨ν', hν', hνν, hν19⟩ : ∃ ν', 2 ^ n * -d' + 2 ≤ ν' ∧ ν' ≤ ν ∧ ν' ≤ 2 ^ 19 := by
    refine ⟨2 ^ n * -d' + 2, le_rfl, hν, ?_⟩
    have h1 : (2 : ℝ) ^ n ≤ 2 ^ 18 := pow_le_pow_right₀ (by norm_num) hn18
    calc (2 : ℝ) ^ n * -d' + 2 ≤ 2 ^ 18 * 0.6 + 2 := by gcongr; linarith
      _ ≤ _ := by norm_num
  have hν2 : 2 ≤ ν' := by linarith
  have hQ : 0 ≤ (1 + ‖val (S.zA k)‖) * M := by positivity
  have hQl : 1 / 2 ^ 40 ≤ (1 + ‖val (S.zA k)‖) * M := by
    have := mul_nonneg (norm_nonneg (val (S.zA k))) hM
    linarith
  have hQh : (1 + ‖val (S.zA k)‖) * M ≤ 2 ^ 30 := by
    calc (1 + ‖val (S.zA k)‖) * M ≤ (1 + 32) * 2 ^ 24 := by
          gcongr
          exact (z_range hS hk).2.2.1
      _ ≤ _ := by norm_num
  refine le_trans ?_ (show 130 * ν' ^ 2 * ε * ((1 + ‖val (S.zA k)‖) * M) ≤
    130 * ν ^ 2 * ε * ((1 + ‖val (S.zA k)‖) * M) by gcongr)
  clear hν hνν ν
  rename' ν' => ν
  rw [mixture_response]
  have main := hlin.lines o.crt t.idx ho.crt0 ho.crt1 ht0 ht1
  have low : ‖val (S.bwdAt wt o.crt t.idx (2 ^ n) o.prevPhaseRed ⌈p * 2 ^ n⌉ jmin jmax d p k) -
      val (S.zA k) ^ 2 * response (waveAt S.env ws L o.crt t.idx) (val (S.zA k)) o.prevPhase d'‖ ≤
      120 * ν ^ 2 * ε * ((1 + ‖val (S.zA k)‖) * M) ∧
      ‖val (S.zA k) ^ 2 * response (waveAt S.env ws L o.crt t.idx) (val (S.zA k)) o.prevPhase d'‖ ≤
      2.02 * ν * ((1 + ‖val (S.zA k)‖) * M) := by
    have hlen := hlin.len o.crt t.idx ho.crt0 ho.crt1 ht0 ht1
    unfold waveAt
    rw [interp_eq, hlen]
    rw [← hn] at hlen main ⊢
    unfold bwdAt
    obtain ⟨x1, x2⟩ := wrapB hN4 ho.p0 hp.1 hjm0 (by push_cast; exact hjm1) hin hv hv' hd0'
      (by linarith) hd
    have key := bwdVal_near hS (N := 2 ^ n) (hN18 hn18)
      (fun i a b => FLines_exact hf hn18 main i a b)
      (fun i => by rw [← hlen]; exact cyc_period _ i) main hjm0
      (by push_cast; exact hjm1) hj0 (by push_cast; exact hj1) hpr ⟨hp.1, hp.2.1, hp.2.2.1⟩ hd0
      (by linarith) hd0' (by linarith) hdd (by rw [ho.red]; exact hin)
      (in_of' (by positivity) hv.le hv') hjm x2 (by rw [ho.red]; exact x1) M0 M1 hdl hk
    rw [← ho.red]
    push_cast at key ⊢
    refine ⟨key.1.trans ?_, key.2.trans ?_⟩ <;> gcongr
  apply mix_near hS hν2 hν19 hQl hQh w0 w1 w2 hw low.1 low.2
  · intro hup
    obtain ⟨hu1, hu2⟩ := htu hup
    have hnu : L - t.idxUp.toNat = n - 1 := by omega
    have hlen := hlin.len o.crt t.idxUp ho.crt0 ho.crt1 (by omega) hu2
    have hl := hlin.lines o.crt t.idxUp ho.crt0 ho.crt1 (by omega) hu2
    unfold waveAt
    rw [interp_eq, hlen]
    rw [hnu] at hlen hl ⊢
    unfold bwdAt
    obtain ⟨-, e2, e3⟩ := half_range (n := n) (by omega) hjm0 hjm1
    obtain ⟨-, e5, e6⟩ := half_range (n := n) (by omega) hj0 hj1
    have hN4' : 4 ≤ 2 ^ (n - 1) := by
      calc 4 = 2 ^ 2 := by norm_num
        _ ≤ 2 ^ (n - 1) := Nat.pow_le_pow_right (by norm_num) (by omega)
    have hin' := half_in (n := n) (by omega) hin
    have hv2 := half_lt' (n := n) (by omega) hv
    have hv2' := half_ge (n := n) (by omega) hv'
    obtain ⟨x1, x2⟩ := wrapB hN4' ho.p0 hp.1 e2 (by push_cast; exact e3) hin' hv2 hv2' hd0'
      (by linarith) hd
    have key := bwdVal_near hS (N := 2 ^ (n - 1)) (hN18 (by omega))
      (fun i a b => FLines_exact hf (by omega) hl i a b)
      (fun i => by rw [← hlen]; exact cyc_period _ i)
      hl e2 (by push_cast; exact e3) e5 (by push_cast; exact e6) hpr ⟨hp.1, hp.2.1, hp.2.2.1⟩ hd0
      (by linarith) hd0' (by linarith) hdd (by rw [ho.red]; exact hin')
      (in_of' (by positivity) hv2.le hv2') hjm x2 (by rw [ho.red]; exact x1) M0 M1 hdl hk
    have hle : (2 : ℝ) ^ (n - 1) * -d' + 2 ≤ ν := by
      have : (2 : ℝ) ^ (n - 1) ≤ 2 ^ n := pow_le_pow_right₀ (by norm_num) (by omega)
      have := mul_le_mul_of_nonneg_right this hnd
      linarith
    rw [← ho.red]
    push_cast at key ⊢
    refine ⟨key.1.trans ?_, key.2.trans ?_⟩ <;> gcongr

end Sys
end Adwt
