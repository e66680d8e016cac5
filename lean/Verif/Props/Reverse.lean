import Verif.Proofs.OffByOneB
import Verif.Props.Tracking
import Verif.Props.ExactExamples
import Verif.Spec.Wedge

/-!
# C100: reverse playback when the pitch rises through an octave
-/

set_option linter.unusedSectionVars false

namespace Adwt.Props
open Seg MeasureTheory

/-- an error of the integrals appears in the output -/
theorem out_error_gen {S : Sys ℝ ℂ} (hS : ExactSys S) {a e : ℕ → ℂ} (y : List ℂ) {W : ℝ → ℝ} {x d : ℝ}
    (h : ∀ k < S.n, a k = S.zA k ^ 2 * (response W (S.zA k) x d + e k)) :
    S.outReal (S.cpxY y a) =
      output (nextMemory S.flt y W x d) + (∑ k ∈ Finset.range S.n, 2 * S.rA k * e k).re := by
  rw [Sys.outReal_eq hS]
  have e1 : S.cpxY y a = (List.range S.n).map fun k =>
      (Complex.exp (S.zA k) * y.getD k 0 + 2 * S.rA k * response W (S.zA k) x d) + 2 * S.rA k * e k := by
    unfold Sys.cpxY
    apply List.map_congr_left
    intro k hk
    have hk : k < S.n := List.mem_range.1 hk
    rw [h k hk, Sys.expZA_eq hS hk, Sys.zPow2A_eq hS hk, hS.ops,
      mul_div_cancel_left₀ _ (pow_ne_zero 2 (Sys.zA_ne hS hk))]
    simp [copsX]
    ring
  rw [e1]
  unfold output
  rw [List.sum_map_add, Complex.add_re]
  rfl

/-- the filtered line difference as a wedge -/
theorem wedge_eq {S : Sys ℝ ℂ} {N : ℕ} (hN : 0 < N) (Y : ℤ → ℝ) (a : ℤ) {p d : ℝ} (hd : d < 0) {x : ℝ}
    (hx : d = p - x) :
    (∑ k ∈ Finset.range S.n, 2 * S.rA k *
      ∫ s in x..((a + 1 : ℤ) / N : ℝ), f (fun s => line N Y (a + 1) s - line N Y a s) (S.zA k) p d s).re =
    wedge S.flt ((Y (a + 2) - 2 * Y (a + 1) + Y a) * N) ((a + 1) / N) p d := by
  have hNr : (N : ℝ) ≠ 0 := by exact_mod_cast hN.ne'
  set g : ℝ → ℝ := fun s => line N Y (a + 1) s - line N Y a s with hg
  have hgc : Continuous g := (line_continuous _).sub (line_continuous _)
  have hgv : ∀ s, g s = -((Y (a + 2) - 2 * Y (a + 1) + Y a) * N * ((a + 1) / N - s)) := by
    intro s
    have := line_diff hN Y (a + 1) s
    rw [add_sub_cancel_right, show a + 1 + 1 = a + 2 by ring] at this
    rw [hg]
    dsimp only
    rw [this]
    push_cast
    field_simp
    ring
  have hsub : ∀ z : ℂ, (∫ s in x..((a + 1 : ℤ) / N : ℝ), f g z p d s) =
      ∫ u in (1 : ℝ)..(p - (a + 1) / N) / d, Complex.exp (z * u) * ((-g (p - u * d) : ℝ) : ℂ) := by
    intro z
    have e := intervalIntegral.integral_comp_sub_mul (f g z p d) hd.ne p (a := 1)
      (b := (p - (a + 1) / N) / d)
    have e1 : p - d * 1 = x := by linarith
    have e2 : p - d * ((p - (a + 1) / N) / d) = ((a + 1 : ℤ) / N : ℝ) := by
      rw [mul_div_cancel₀ _ hd.ne]; push_cast; ring
    rw [e1, e2] at e
    have hd0 : (d : ℂ) ≠ 0 := by exact_mod_cast hd.ne
    have e3 : (∫ s in x..((a + 1 : ℤ) / N : ℝ), f g z p d s) =
        -(d : ℂ) * ∫ u in (1 : ℝ)..(p - (a + 1) / N) / d, f g z p d (p - d * u) := by
      rw [e, intervalIntegral.integral_symm, Complex.real_smul]
      push_cast
      field_simp
    rw [e3, ← intervalIntegral.integral_const_mul]
    congr 1
    funext u
    unfold f
    have e4 : (p - (p - d * u)) / d = u := by rw [sub_sub_cancel, mul_div_cancel_left₀ _ hd.ne]
    rw [e4, mul_comm u d]
    push_cast
    field_simp
  simp only [hsub]
  unfold wedge impulse
  have hc : ∀ z : ℂ, Continuous fun u : ℝ => Complex.exp (z * u) * ((-g (p - u * d) : ℝ) : ℂ) := by
    intro z; fun_prop
  have e5 : ∀ k, 2 * S.rA k * (∫ u in (1 : ℝ)..(p - (a + 1) / N) / d,
      Complex.exp (S.zA k * u) * ((-g (p - u * d) : ℝ) : ℂ)) =
      ∫ u in (1 : ℝ)..(p - (a + 1) / N) / d,
        2 * S.rA k * (Complex.exp (S.zA k * u) * ((-g (p - u * d) : ℝ) : ℂ)) := by
    intro k; rw [intervalIntegral.integral_const_mul]
  simp only [e5]
  have hk : ∀ k ∈ Finset.range S.n, IntervalIntegrable (fun u : ℝ =>
      2 * S.rA k * (Complex.exp (S.zA k * u) * ((-g (p - u * d) : ℝ) : ℂ))) volume 1 ((p - (a + 1) / N) / d) :=
    fun k _ => (continuous_const.mul (hc (S.zA k))).intervalIntegrable _ _
  rw [← intervalIntegral.integral_finsetSum hk]
  have hcs : Continuous fun u : ℝ => ∑ k ∈ Finset.range S.n,
      2 * S.rA k * (Complex.exp (S.zA k * u) * ((-g (p - u * d) : ℝ) : ℂ)) :=
    continuous_finsetSum _ fun k _ => continuous_const.mul (hc (S.zA k))
  have e6 := Complex.reCLM.intervalIntegral_comp_comm (μ := volume) (a := 1) (b := (p - (a + 1) / N) / d)
    (hcs.intervalIntegrable _ _)
  simp only [Complex.reCLM_apply] at e6
  rw [← e6]
  congr 1
  funext u
  have e7 : (∑ k ∈ Finset.range S.n, 2 * S.rA k * (Complex.exp (S.zA k * u) * ((-g (p - u * d) : ℝ) : ℂ))) =
      (∑ k ∈ Finset.range S.n, 2 * S.rA k * Complex.exp (S.zA k * u)) * ((-g (p - u * d) : ℝ) : ℂ) := by
    rw [Finset.sum_mul]
    apply Finset.sum_congr rfl
    intro k _; ring
  rw [e7, Complex.re_mul_ofReal, hgv, neg_neg]
  rfl

/-- a backward sample that does not wrap -/
theorem bwd_setup {S : Sys ℝ ℂ} (hS : ExactSys S) (hl : Log2Spec S.env.log2f) {ws : List ℝ}
    {nw L : ℕ} {o : Osc ℝ ℂ} (ho : Plays S ws nw L o) {p b : ℝ}
    (hp0 : 0 < p) (hp1 : p < o.prevPhase) (hp2 : o.prevPhase - p ≤ 1 / 2) {o' : Osc ℝ ℂ} {ys : List ℝ}
    (h : S.process .kBidirectionnal o [p] [b] = .ok (o', ys))
    {t : MipMapIndices ℝ} (ht : NextIndices S o (p - o.prevPhase) t) (hup : o.prevMip < t.idx) :
    ∃ wt, HasLines S.env ws nw L wt ∧ 0 ≤ t.idx ∧ t.idx < (L : ℤ) - 1 ∧
      ys = [S.outReal (S.cpxY o.prevY (S.accB wt L o t p (p - o.prevPhase)))] := by
  have hpl := Sys.reached_play (Sys.exact_rounding hS) hl hS.B ho.1
  obtain ⟨wt, hwt, hlin⟩ := ho.lines hS.fl hl
  obtain ⟨y, e, rfl⟩ := process_one (by rw [hwt]; rfl) h
  have hw : WtOk nw L wt := by
    obtain ⟨wt', e', h'⟩ := hpl.wt
    rw [hwt] at e'; cases e'; exact h'
  have hx1 := hpl.p1
  set x := o.prevPhase with hxd
  set d := p - x with hd
  have hd0 : d < 0 := by rw [hd]; linarith
  have hd1 : -(1 / 2) ≤ d := by rw [hd]; linarith
  have e : S.stepBi o p = .ok (o', y) := e
  have hbi : Sys.biDiff S.env.fl p o.prevPhase = d := by
    rw [hS.fl]
    unfold Sys.biDiff
    simp only [id]
    rw [← hxd, ← hd, if_neg (by linarith), if_neg (by linarith)]
  unfold Sys.stepBi at e
  dsimp only at e
  rw [hbi, if_neg (by linarith)] at e
  obtain ⟨wt1, wt', e1, hfind⟩ := ht
  rw [hwt] at e1; cases e1
  unfold WavetableData.findMipMapIndices at hfind
  obtain ⟨⟨c, t'⟩, hn, hfind⟩ := bind_ok hfind
  cases hfind
  obtain ⟨c', t', hn', -, -, -, ht0, ht1, -⟩ := Sys.find_spec (Sys.exact_rounding hS) hw (abs_pos.2 hd0.ne)
  rw [hn] at hn'; cases hn'
  rw [Sys.bwd_eq (Sys.exact_rounding hS) hS.B hwt hpl.toOscOk hw hpl.crt0 hpl.crt1 hp0.le (by linarith)
    (by rw [hS.fl]; rfl) hd0 hd1 hn (fun _ q => absurd q (by omega))] at e
  cases e
  exact ⟨wt, hlin, ht0, ht1, rfl⟩

/-- C100: playing backwards, when the lower table moves up by `k` octaves while one table is
selected. Let the new table have `N` samples and let the last phase, counted in samples of this
table, be behind the grid point `a` by more than 0 and at most `1 - 2^-k`. Then the output is not the
filtered integral of the table but differs from it by the answer of the filter to a ramp which the
waveform never contained: the continuation of the slope after the next grid point, with the change of
slope of the table there. -/
theorem C100_error (S : Sys ℝ ℂ) (hS : ExactSys S) (hl : Log2Spec S.env.log2f) (ws : List ℝ)
    (nw L : ℕ) (o : Osc ℝ ℂ) (ho : Plays S ws nw L o) (hneg : o.prevPhaseDiff < 0) (p b : ℝ)
    (hp0 : 0 < p) (hp1 : p < o.prevPhase) (hp2 : o.prevPhase - p ≤ 1 / 2) (o' : Osc ℝ ℂ) (ys : List ℝ)
    (h : S.process .kBidirectionnal o [p] [b] = .ok (o', ys))
    (t : MipMapIndices ℝ) (ht : NextIndices S o (p - o.prevPhase) t) (h0 : t.weightUp = 0)
    (hup : o.prevMip < t.idx) (N : ℕ) (hN : N = 2 ^ (L - t.idx.toNat)) (hx : OffDenormal N o.prevPhase)
    (a : ℤ) (ha0 : a < o.prevPhase * N)
    (ha1 : o.prevPhase * N ≤ a + 1 - 1 / 2 ^ (t.idx - o.prevMip).toNat) (ha2 : a + 1 < N)
    (V : ℝ → ℝ) (hV : V = waveAt S.env ws L o.crt t.idx) :
    ys = [output (nextMemory S.flt o.prevY V o.prevPhase (p - o.prevPhase)) +
      wedge S.flt ((V ((a + 2) / N) - 2 * V ((a + 1) / N) + V (a / N)) * N) ((a + 1) / N) p
        (p - o.prevPhase)] := by
  have hpl := Sys.reached_play (Sys.exact_rounding hS) hl hS.B ho.1
  obtain ⟨wt, hlin, ht0, ht1, rfl⟩ := bwd_setup hS hl ho hp0 hp1 hp2 h ht hup
  have hx1 := hpl.p1
  set x := o.prevPhase with hxd
  set d := p - x with hd
  have hd0 : d < 0 := by rw [hd]; linarith
  have hN0 : 0 < N := by rw [hN]; positivity
  have hNr : (0 : ℝ) < N := by exact_mod_cast hN0
  set k := (t.idx - o.prevMip).toNat with hk
  set n := L - t.idx.toNat with hnn
  have hm0 := hpl.mip0
  have hm1 := hpl.mip1
  have hnk : L - o.prevMip.toNat = n + k := by omega
  have hNz : (N : ℤ) = 2 ^ n := by rw [hN]; push_cast; rfl
  have hNR : (N : ℝ) = 2 ^ n := by rw [hN]; push_cast; rfl
  have hk2 : (0 : ℝ) < 2 ^ k := by positivity
  have hkz : (0 : ℤ) < 2 ^ k := by positivity
  have ha_lo : 0 ≤ a := by
    have : (0 : ℝ) < a + 1 := by
      have : (0 : ℝ) < x * N := mul_pos (by linarith) hNr
      have : (0 : ℝ) < 1 / 2 ^ k := by positivity
      linarith
    have : 0 < a + 1 := by exact_mod_cast this
    omega
  have hj := hpl.posB hneg
  have hadj : Sys.adj n t.idx o.prevMip o.jRed o.prevPhaseDiff o.prevPhaseRed = a := by
    unfold Sys.adj
    rw [if_pos hup, hj, hnk, ← hk, ← hxd]
    have q1 : a * 2 ^ k < ⌈x * 2 ^ (n + k)⌉ := by
      rw [Int.lt_ceil]
      push_cast
      rw [pow_add, ← mul_assoc, ← hNR]
      exact mul_lt_mul_of_pos_right ha0 hk2
    have q2 : ⌈x * 2 ^ (n + k)⌉ ≤ (a + 1) * 2 ^ k - 1 := by
      rw [Int.ceil_le]
      push_cast
      rw [pow_add, ← mul_assoc, ← hNR]
      have := mul_le_mul_of_nonneg_right ha1 hk2.le
      rw [sub_mul, div_mul_cancel₀ _ hk2.ne'] at this
      exact this
    rw [Int.ediv_eq_iff_of_pos hkz]
    constructor <;> linarith
  have hpj : S.prevJB o n t.idx = a + 1 := by
    unfold Sys.prevJB
    dsimp only
    rw [if_pos hneg.le, hadj, hpl.red, ← hxd]
    rcases Sys.sign_spec (Sys.exact_rounding hS) (n := n) (x := x) (by rw [← hN]; exact hx) a with ⟨s1, s2⟩ | ⟨s1, s2⟩ | ⟨s1, s2⟩
    · rw [hNR] at ha0; linarith
    · rw [hNR] at ha0; linarith
    · rw [s2]
  have hx_hi : x * N ≤ a + 1 := by
    have : (0 : ℝ) < 1 / 2 ^ k := by positivity
    linarith
  have hpN : p * N < x * N := mul_lt_mul_of_pos_right hp1 hNr
  have hc1 : 1 ≤ ⌈p * 2 ^ n⌉ := Int.one_le_ceil_iff.2 (by positivity)
  have hc2 : ⌈p * 2 ^ n⌉ ≤ a + 1 := by
    rw [Int.ceil_le, ← hNR]; push_cast; linarith
  have hacc : ∀ k < S.n, S.accB wt L o t p d k = S.zA k ^ 2 * (response V (S.zA k) x d +
      ∫ s in x..((a + 1 : ℤ) / N : ℝ), f (fun s =>
        line N (cyc (mipSamples S.env (waveformOf ws (2 ^ L) o.crt.toNat) t.idx.toNat)) (a + 1) s -
        line N (cyc (mipSamples S.env (waveformOf ws (2 ^ L) o.crt.toNat) t.idx.toNat)) a s) (S.zA k) p d s) := by
    intro i hi
    unfold Sys.accB Sys.mix
    rw [if_neg (by simp [h0]), ← hnn, hpj, hpl.red, ← hxd]
    unfold Sys.bwdAt
    have hll := hlin.lines o.crt t.idx hpl.crt0 hpl.crt1 ht0 ht1
    have hlen := hlin.len o.crt t.idx hpl.crt0 hpl.crt1 ht0 ht1
    rw [← hnn, ← hN] at hlen hll
    rw [hV]
    unfold waveAt
    rw [interp_eq, hlen, ← hNz, Int.emod_eq_of_lt (by omega) (by omega), Int.emod_eq_of_lt (by omega) (by omega)]
    exact Sys.bwdVal_high hS (fun i => by rw [← hlen]; exact cyc_period _ i) hll (by omega) (by omega)
      (by omega) hd0.ne hp0.ne' (by omega) hd
      (by constructor
          · rw [div_le_iff₀ hNr]; exact ha0.le
          · rw [le_div_iff₀ hNr]; exact hx_hi)
      (by constructor
          · rw [div_le_iff₀ hNr]; push_cast
            have := Int.ceil_lt_add_one (p * 2 ^ n)
            rw [← hNR] at this ⊢; linarith
          · rw [le_div_iff₀ hNr]; push_cast
            have := Int.le_ceil (p * 2 ^ n)
            rw [← hNR] at this ⊢; linarith) hi
  rw [out_error_gen hS o.prevY hacc, wedge_eq hN0 _ a hd0 hd]
  have hVy : ∀ i : ℤ, V (i / N) = cyc (mipSamples S.env (waveformOf ws (2 ^ L) o.crt.toNat) t.idx.toNat) i := by
    intro i
    have hlen := hlin.len o.crt t.idx hpl.crt0 hpl.crt1 ht0 ht1
    rw [← hnn, ← hN] at hlen
    rw [hV]
    unfold waveAt
    rw [interp_eq, hlen, W_eq hNr (i := i) le_rfl (by gcongr; linarith)]
    unfold line M
    field_simp
    ring
  have v1 := hVy (a + 1)
  have v2 := hVy (a + 2)
  push_cast at v1 v2
  rw [v1, v2, hVy a]


/-- C100: at all other phases the sample is exact: on a grid point of the new table, or less than
`2^-k` of its spacing before the next one. -/
theorem C100_right (S : Sys ℝ ℂ) (hS : ExactSys S) (hl : Log2Spec S.env.log2f) (ws : List ℝ)
    (nw L : ℕ) (o : Osc ℝ ℂ) (ho : Plays S ws nw L o) (hneg : o.prevPhaseDiff < 0) (p b : ℝ)
    (hp0 : 0 < p) (hp1 : p < o.prevPhase) (hp2 : o.prevPhase - p ≤ 1 / 2) (o' : Osc ℝ ℂ) (ys : List ℝ)
    (h : S.process .kBidirectionnal o [p] [b] = .ok (o', ys))
    (t : MipMapIndices ℝ) (ht : NextIndices S o (p - o.prevPhase) t) (h0 : t.weightUp = 0)
    (hup : o.prevMip < t.idx) (N : ℕ) (hN : N = 2 ^ (L - t.idx.toNat)) (hx : OffDenormal N o.prevPhase)
    (a : ℤ) (ha : o.prevPhase * N = a ∨
      (a + 1 - 1 / 2 ^ (t.idx - o.prevMip).toNat < o.prevPhase * N ∧ o.prevPhase * N < a + 1)) :
    ys = [output (nextMemory S.flt o.prevY (waveAt S.env ws L o.crt t.idx) o.prevPhase
      (p - o.prevPhase))] := by
  have hpl := Sys.reached_play (Sys.exact_rounding hS) hl hS.B ho.1
  obtain ⟨wt, hlin, ht0, ht1, rfl⟩ := bwd_setup hS hl ho hp0 hp1 hp2 h ht hup
  have hx1 := hpl.p1
  set x := o.prevPhase with hxd
  set d := p - x with hd
  have hd0 : d < 0 := by rw [hd]; linarith
  have hN0 : 0 < N := by rw [hN]; positivity
  have hNr : (0 : ℝ) < N := by exact_mod_cast hN0
  set k := (t.idx - o.prevMip).toNat with hk
  set n := L - t.idx.toNat with hnn
  have hm0 := hpl.mip0
  have hm1 := hpl.mip1
  have hnk : L - o.prevMip.toNat = n + k := by omega
  have hNz : (N : ℤ) = 2 ^ n := by rw [hN]; push_cast; rfl
  have hNR : (N : ℝ) = 2 ^ n := by rw [hN]; push_cast; rfl
  have hk2 : (0 : ℝ) < 2 ^ k := by positivity
  have hkz : (0 : ℤ) < 2 ^ k := by positivity
  have hx0 : (0 : ℝ) < x * N := mul_pos (by linarith) hNr
  have hxN : x * N < N := by
    have := mul_lt_mul_of_pos_right hx1 hNr
    linarith
  have hk1 : (1 : ℝ) / 2 ^ k ≤ 1 := by
    rw [div_le_one hk2]; exact one_le_pow₀ (by norm_num)
  have hlo : (a : ℝ) ≤ x * N := by
    rcases ha with ha | ha
    · exact ha.ge
    · linarith [ha.1]
  have hhi : x * N < a + 1 := by
    rcases ha with ha | ha
    · linarith
    · exact ha.2
  have ha_lo : 0 ≤ a := by
    have : (0 : ℝ) < a + 1 := by linarith
    have : 0 < a + 1 := by exact_mod_cast this
    omega
  have ha_hi : a < N := by
    have : (a : ℝ) < N := by linarith
    exact_mod_cast this
  have hj := hpl.posB hneg
  have hpj : S.prevJB o n t.idx = a := by
    unfold Sys.prevJB Sys.adj
    dsimp only
    rw [if_pos hneg.le, if_pos hup, hj, hnk, ← hk, hpl.red, ← hxd]
    rcases ha with ha | ⟨h1, h2⟩
    · have q : ⌈x * 2 ^ (n + k)⌉ = a * 2 ^ k := by
        rw [pow_add, ← mul_assoc, ← hNR, ha]
        have : ((a : ℝ) * 2 ^ k) = ((a * 2 ^ k : ℤ) : ℝ) := by push_cast; rfl
        rw [this, Int.ceil_intCast]
      rw [q, Int.mul_ediv_cancel _ hkz.ne']
      rcases Sys.sign_spec (Sys.exact_rounding hS) (n := n) (x := x) (by rw [← hN]; exact hx) a with ⟨s1, s2⟩ | ⟨s1, s2⟩ | ⟨s1, s2⟩
      · rw [s2, add_zero]
      · rw [hNR] at ha; linarith
      · rw [hNR] at ha; linarith
    · have q : ⌈x * 2 ^ (n + k)⌉ = (a + 1) * 2 ^ k := by
        rw [pow_add, ← mul_assoc, ← hNR, Int.ceil_eq_iff]
        push_cast
        have q1 := mul_lt_mul_of_pos_right h1 hk2
        have q2 := mul_lt_mul_of_pos_right h2 hk2
        rw [sub_mul, div_mul_cancel₀ _ hk2.ne'] at q1
        exact ⟨q1, q2.le⟩
      rw [q, Int.mul_ediv_cancel _ hkz.ne']
      rcases Sys.sign_spec (Sys.exact_rounding hS) (n := n) (x := x) (by rw [← hN]; exact hx) (a + 1) with ⟨s1, s2⟩ | ⟨s1, s2⟩ | ⟨s1, s2⟩
      · rw [hNR] at h2; push_cast at s1; linarith
      · rw [s2]; ring
      · rw [hNR] at h2; push_cast at s1; linarith
  have hpN : p * N < x * N := mul_lt_mul_of_pos_right hp1 hNr
  have hc1 : 1 ≤ ⌈p * 2 ^ n⌉ := Int.one_le_ceil_iff.2 (by positivity)
  have hc2 : ⌈p * 2 ^ n⌉ ≤ a + 1 := by
    rw [Int.ceil_le, ← hNR]; push_cast; linarith
  have hb1 : Sys.bar p = p := by unfold Sys.bar; rw [if_neg hp0.ne', add_zero]
  have hacc : ∀ i < S.n, S.accB wt L o t p d i =
      S.zA i ^ 2 * response (waveAt S.env ws L o.crt t.idx) (S.zA i) x d := by
    intro i hi
    unfold Sys.accB Sys.mix
    rw [if_neg (by simp [h0]), ← hnn, hpj, hpl.red, ← hxd]
    unfold Sys.bwdAt
    have hll := hlin.lines o.crt t.idx hpl.crt0 hpl.crt1 ht0 ht1
    have hlen := hlin.len o.crt t.idx hpl.crt0 hpl.crt1 ht0 ht1
    rw [← hnn, ← hN] at hlen hll
    unfold waveAt
    rw [interp_eq, hlen, ← hNz, Int.emod_eq_of_lt (by omega) (by omega), Int.emod_eq_of_lt (by omega) (by omega)]
    exact Sys.bwdVal_exact hS (fun i => by rw [← hlen]; exact cyc_period _ i) hll (by omega) (by omega)
      (by omega) (by omega) hd0.ne
      (by constructor
          · rw [div_le_iff₀ hNr]; exact hlo
          · rw [le_div_iff₀ hNr]; exact hhi.le)
      (by rw [hb1]
          constructor
          · rw [div_le_iff₀ hNr]; push_cast
            have := Int.ceil_lt_add_one (p * 2 ^ n)
            rw [← hNR] at this ⊢; linarith
          · rw [le_div_iff₀ hNr]; push_cast
            have := Int.le_ceil (p * 2 ^ n)
            rw [← hNR] at this ⊢; linarith)
      (by constructor
          · intro q; omega
          · intro q; exact absurd q hp0.ne')
      (fun q => absurd q hp0.ne') (by rw [if_neg (by omega), hb1, sub_zero]) hi
  rw [Sys.outReal_eq hS, Sys.cpxY_exact hS o.prevY hacc]

/-- The answer of `kType1` to a ramp at most half a sample long. -/
theorem wedge_pos {c p d : ℝ} (hd : d < 0) (h1 : c - (p - d) ≤ -d / 2) (hc : p - d < c) :
    0 < wedge (filterX .kType1) 1 c p d := by
  have e1 : (p - c) / d ≤ 3 / 2 := by rw [div_le_iff_of_neg hd]; linarith
  have e2 : 1 < (p - c) / d := by rw [lt_div_iff_of_neg hd]; linarith
  have hi : ∀ u : ℝ, impulse (filterX .kType1) u = (2 * r1 * Complex.exp (z1 * u)).re := by
    intro u
    unfold impulse
    rw [show filterX .kType1 = ⟨[r1], [z1]⟩ from filter1]
    simp
  unfold wedge
  simp only [hi]
  apply intervalIntegral.intervalIntegral_pos_of_pos_on
  · apply Continuous.intervalIntegrable
    exact (Complex.continuous_re.comp (by fun_prop)).mul (by fun_prop)
  · intro u hu
    apply mul_pos (impulse1_pos (by linarith [hu.1]) (by linarith [hu.2]))
    have := (lt_div_iff_of_neg hd).1 hu.2
    linarith
  · exact e2

theorem wedge_linear (flt : Filter ℂ) (g c p d : ℝ) : wedge flt g c p d = g * wedge flt 1 c p d := by
  unfold wedge
  rw [← intervalIntegral.integral_const_mul]
  congr 1
  funext u
  ring

/-- C100: the error is not always zero. For `kType1`, if the next grid point is at most half a step
away, the output is too high if the table bends up there and too low if it bends down. -/
theorem C100_click (ws : List ℝ)
    (nw L : ℕ) (o : Osc ℝ ℂ) (ho : Plays (sysOf envX .kType1) ws nw L o) (hneg : o.prevPhaseDiff < 0)
    (p b : ℝ) (hp0 : 0 < p) (hp1 : p < o.prevPhase) (hp2 : o.prevPhase - p ≤ 1 / 2) (o' : Osc ℝ ℂ)
    (y : ℝ) (h : (sysOf envX .kType1).process .kBidirectionnal o [p] [b] = .ok (o', [y]))
    (t : MipMapIndices ℝ) (ht : NextIndices (sysOf envX .kType1) o (p - o.prevPhase) t)
    (h0 : t.weightUp = 0)
    (hup : o.prevMip < t.idx) (N : ℕ) (hN : N = 2 ^ (L - t.idx.toNat)) (hx : OffDenormal N o.prevPhase)
    (a : ℤ) (ha0 : a < o.prevPhase * N)
    (ha1 : o.prevPhase * N ≤ a + 1 - 1 / 2 ^ (t.idx - o.prevMip).toNat) (ha2 : a + 1 < N)
    (hhalf : (a + 1) / N - o.prevPhase ≤ (o.prevPhase - p) / 2)
    (V : ℝ → ℝ) (hV : V = waveAt envX ws L o.crt t.idx) :
    (V ((a + 2) / N) + V (a / N) > 2 * V ((a + 1) / N) →
      y > output (nextMemory (filterX .kType1) o.prevY V o.prevPhase (p - o.prevPhase))) ∧
    (V ((a + 2) / N) + V (a / N) < 2 * V ((a + 1) / N) →
      y < output (nextMemory (filterX .kType1) o.prevY V o.prevPhase (p - o.prevPhase))) := by
  have key := C100_error (sysOf envX .kType1) (exactSys .kType1) log2X ws nw L o ho hneg p b hp0 hp1 hp2 o' [y] h t ht
    h0 hup N hN hx a ha0 ha1 ha2 V hV
  have key := List.head_eq_of_cons_eq key
  have hN0 : 0 < N := by rw [hN]; positivity
  have hNr : (0 : ℝ) < N := by exact_mod_cast hN0
  have hc : o.prevPhase < (a + 1) / N := by
    rw [lt_div_iff₀ hNr]
    have : (0 : ℝ) < 1 / 2 ^ (t.idx - o.prevMip).toNat := by positivity
    linarith
  have hw := wedge_pos (c := (a + 1) / N) (p := p) (d := p - o.prevPhase) (by linarith) (by linarith) (by linarith)
  change y = output (nextMemory (filterX .kType1) _ _ _ _) + wedge (filterX .kType1) _ _ _ _ at key
  rw [wedge_linear] at key
  constructor
  · intro hb
    have := mul_pos (mul_pos (show 0 < V ((a + 2) / N) - 2 * V ((a + 1) / N) + V (a / N) by linarith) hNr) hw
    linarith
  · intro hb
    have := mul_pos (mul_pos (show 0 < -(V ((a + 2) / N) - 2 * V ((a + 1) / N) + V (a / N)) by linarith) hNr) hw
    linarith

/-- eight samples, a fade of one sample; after `init` for a low note, two samples of a note an octave
higher are played backwards -/
theorem two_down (ws : List ℝ) (hws : ws.length = 8) (x : ℝ) (h0 : 5 / 16 < x) (h1 : x < 11 / 16) :
    ∃ (o o' : Osc ℝ ℂ) (y : ℝ) (t : MipMapIndices ℝ), Plays (sysOf envX .kType1) ws 1 3 o ∧
      o.prevPhaseDiff = -(5 / 16) ∧ o.prevPhase = x ∧ o.prevMip = 0 ∧ o.crt = 0 ∧
      (sysOf envX .kType1).process .kBidirectionnal o [x - 5 / 16] [0] = .ok (o', [y]) ∧
      NextIndices (sysOf envX .kType1) o (x - 5 / 16 - x) t ∧ t.idx = 1 ∧ t.weightUp = 0 := by
  have oct1 : IsOctave 3 1 (5 / 16 : ℝ) := by
    refine ⟨by norm_num, by norm_num, ?_, Or.inl (by norm_num)⟩
    right; norm_num
  obtain ⟨o1, h1, -⟩ := at_init .kType1 ws 3 (by norm_num) (by norm_num) hws 1
    le_rfl (by norm_num) (p := x + 5 / 16) (d := -(1 / 16)) ⟨by linarith, by linarith⟩ (by norm_num) (i := 0)
    (by refine ⟨le_rfl, by norm_num, Or.inl rfl, Or.inr ?_⟩; norm_num)
    (cf_idle (by norm_num) (by norm_num)
      (by refine ⟨le_rfl, by norm_num, Or.inl rfl, Or.inr ?_⟩; norm_num [abs_of_pos]))
  obtain ⟨⟨o2, y2, -, h2⟩, -⟩ := h1.step (dir := .kBidirectionnal) (p' := x) (d' := -(5 / 16))
    ⟨by linarith, by linarith⟩ (show x ≠ x + 5 / 16 by linarith) (Or.inl (by linarith))
    (by unfold Sys.dirDiff Sys.biDiff
        simp only [id]
        rw [show x - (x + 5 / 16) = -(5 / 16) by ring]
        norm_num)
    (cf_up (by norm_num) (by norm_num) (by norm_num) (k := 1)
      (by rw [show |(-(5 / 16) : ℝ)| = 5 / 16 by norm_num [abs_of_pos]]; exact oct1) (by norm_num))
  have hn := cf_last (n := 1) (i := 0) (k := 1) (L := 3) (d := |(-(5 / 16) : ℝ)|) (by norm_num) (by norm_num) (by norm_num)
    (by norm_num) (by rw [show |(-(5 / 16) : ℝ)| = 5 / 16 by norm_num [abs_of_pos]]; exact oct1)
  obtain ⟨⟨o3, y3, hp3, -⟩, hni⟩ := h2.step (dir := .kBidirectionnal) (p' := x - 5 / 16) (d' := -(5 / 16))
    ⟨by linarith, by linarith⟩ (show x - 5 / 16 ≠ x by linarith) (Or.inl (by linarith))
    (by unfold Sys.dirDiff Sys.biDiff
        simp only [id]
        rw [show x - 5 / 16 - x = -(5 / 16) by ring]
        norm_num) hn
  exact ⟨o2, o3, y3, _, h2.plays, h2.diff, h2.phase, by rw [h2.mip]; norm_num, h2.crt, hp3,
    by rw [show x - 5 / 16 - x = -(5 / 16) by ring]; exact hni, rfl, rfl⟩

/-- C100 applies, at phase 3/8: the second of the two samples is too high. -/
example : ∃ (o o' : Osc ℝ ℂ) (y : ℝ),
    Plays (sysOf envX .kType1) [0, 0, 0, 0, -1, 0, 0, 0] 1 3 o ∧ o.prevPhaseDiff = -(5 / 16) ∧
    o.prevPhase = 3 / 8 ∧
    (sysOf envX .kType1).process .kBidirectionnal o [3 / 8 - 5 / 16] [0] = .ok (o', [y]) ∧
    y > output (nextMemory (filterX .kType1) o.prevY (waveAt envX [0, 0, 0, 0, -1, 0, 0, 0] 3 0 1) (3 / 8)
      (3 / 8 - 5 / 16 - 3 / 8)) := by
  obtain ⟨o2, o3, y3, t, hpl, hd, hph, hm, hc, hp3, hni, ht1, ht2⟩ :=
    two_down [0, 0, 0, 0, -1, 0, 0, 0] rfl (3 / 8) (by norm_num) (by norm_num)
  refine ⟨o2, o3, y3, hpl, hd, hph, hp3, ?_⟩
  have hV : waveAt envX [0, 0, 0, 0, -1, 0, 0, 0] 3 0 1 = interp [0, 0, -1, 0] := by
    unfold waveAt
    rw [show (1 : ℤ).toNat = 1 from rfl, show (0 : ℤ).toNat = 0 from rfl, mip_one _ 3 4 (by norm_num) rfl]
    norm_num [List.range, List.range.loop]
  have key := C100_click [0, 0, 0, 0, -1, 0, 0, 0] 1 3 o2 hpl (by rw [hd]; norm_num) (3 / 8 - 5 / 16) 0
    (by norm_num) (by rw [hph]; norm_num) (by rw [hph]; norm_num) o3 y3 hp3 t
    (by rw [hph]; exact hni) ht2
    (by rw [hm, ht1]; norm_num) 4 (by rw [ht1]; norm_num)
    (by rw [hph]
        have := offDenormal_dyadic 3 3 2 (by norm_num) (by norm_num)
        norm_num at this ⊢
        exact this) 1 (by rw [hph]; norm_num) (by rw [hph, hm, ht1]; norm_num) (by norm_num)
    (by rw [hph]; norm_num) _ rfl
  rw [hph, hc, ht1] at key
  apply key.1
  rw [hV]
  norm_num [interp, cyc, tn2, tn3]

/-- C100 applies, at phase 7/16: the second of the two samples is exact. -/
example (ws : List ℝ) (hws : ws.length = 8) : ∃ (o o' : Osc ℝ ℂ) (y : ℝ),
    Plays (sysOf envX .kType1) ws 1 3 o ∧ o.prevPhaseDiff = -(5 / 16) ∧ o.prevPhase = 7 / 16 ∧
    (sysOf envX .kType1).process .kBidirectionnal o [7 / 16 - 5 / 16] [0] = .ok (o', [y]) ∧
    [y] = [output (nextMemory (filterX .kType1) o.prevY (waveAt envX ws 3 o.crt 1) o.prevPhase
      (7 / 16 - 5 / 16 - o.prevPhase))] := by
  obtain ⟨o2, o3, y3, t, hpl, hd, hph, hm, hc, hp3, hni, ht1, ht2⟩ :=
    two_down ws hws (7 / 16) (by norm_num) (by norm_num)
  refine ⟨o2, o3, y3, hpl, hd, hph, hp3, ?_⟩
  have key := C100_right _ (exactSys .kType1) log2X ws 1 3 o2 hpl (by rw [hd]; norm_num) (7 / 16 - 5 / 16) 0
    (by norm_num) (by rw [hph]; norm_num) (by rw [hph]; norm_num) o3 _ hp3 t
    (by rw [hph]; exact hni) ht2
    (by rw [hm, ht1]; norm_num) 4 (by rw [ht1]; norm_num)
    (by rw [hph]
        have := offDenormal_dyadic 7 4 2 (by norm_num) (by norm_num)
        norm_num at this ⊢
        exact this) 1 (Or.inr (by rw [hph, hm, ht1]; norm_num))
  rw [ht1] at key
  exact key

end Adwt.Props
