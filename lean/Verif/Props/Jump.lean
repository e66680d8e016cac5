import Verif.Proofs.OffByMany
import Verif.Props.Reverse
import Verif.Spec.Missed

/-!
# C101: a jump down over several octaves
-/

set_option linter.unusedSectionVars false

namespace Adwt.Props
open Seg MeasureTheory

/-- filtered functions of the phase as functions of time -/
theorem filt_eq {S : Sys ℝ ℂ} {g : ℝ → ℝ} (hgc : Continuous g) {p d x : ℝ} (hd : d ≠ 0)
    (hx : d = p - x) (c : ℝ) :
    (∑ k ∈ Finset.range S.n, 2 * S.rA k * ∫ s in c..x, f g (S.zA k) p d s).re =
      ∫ u in (1 : ℝ)..(p - c) / d, impulse S.flt u * g (p - u * d) := by
  have hsub : ∀ z : ℂ, (∫ s in c..x, f g z p d s) =
      ∫ u in (1 : ℝ)..(p - c) / d, Complex.exp (z * u) * ((g (p - u * d) : ℝ) : ℂ) := by
    intro z
    have e := intervalIntegral.integral_comp_sub_mul (f g z p d) hd p (a := 1) (b := (p - c) / d)
    have e1 : p - d * 1 = x := by linarith
    have e2 : p - d * ((p - c) / d) = c := by rw [mul_div_cancel₀ _ hd]; ring
    rw [e1, e2] at e
    have hd0 : (d : ℂ) ≠ 0 := by exact_mod_cast hd
    have e3 : (∫ s in c..x, f g z p d s) =
        (d : ℂ) * ∫ u in (1 : ℝ)..(p - c) / d, f g z p d (p - d * u) := by
      rw [e, Complex.real_smul]
      push_cast
      field_simp
    rw [e3, ← intervalIntegral.integral_const_mul]
    congr 1
    funext u
    unfold f
    have e4 : (p - (p - d * u)) / d = u := by rw [sub_sub_cancel, mul_div_cancel_left₀ _ hd]
    rw [e4, mul_comm u d]
    field_simp
  simp only [hsub]
  unfold impulse
  have hc : ∀ z : ℂ, Continuous fun u : ℝ => Complex.exp (z * u) * ((g (p - u * d) : ℝ) : ℂ) := by
    intro z; fun_prop
  have e5 : ∀ k, 2 * S.rA k * (∫ u in (1 : ℝ)..(p - c) / d,
      Complex.exp (S.zA k * u) * ((g (p - u * d) : ℝ) : ℂ)) =
      ∫ u in (1 : ℝ)..(p - c) / d,
        2 * S.rA k * (Complex.exp (S.zA k * u) * ((g (p - u * d) : ℝ) : ℂ)) := by
    intro k; rw [intervalIntegral.integral_const_mul]
  simp only [e5]
  have hk : ∀ k ∈ Finset.range S.n, IntervalIntegrable (fun u : ℝ =>
      2 * S.rA k * (Complex.exp (S.zA k * u) * ((g (p - u * d) : ℝ) : ℂ))) volume 1 ((p - c) / d) :=
    fun k _ => (continuous_const.mul (hc (S.zA k))).intervalIntegrable _ _
  rw [← intervalIntegral.integral_finsetSum hk]
  have hcs : Continuous fun u : ℝ => ∑ k ∈ Finset.range S.n,
      2 * S.rA k * (Complex.exp (S.zA k * u) * ((g (p - u * d) : ℝ) : ℂ)) :=
    continuous_finsetSum _ fun k _ => continuous_const.mul (hc (S.zA k))
  have e6 := Complex.reCLM.intervalIntegral_comp_comm (μ := volume) (a := 1) (b := (p - c) / d)
    (hcs.intervalIntegrable _ _)
  simp only [Complex.reCLM_apply] at e6
  rw [← e6]
  congr 1
  funext u
  have e7 : (∑ k ∈ Finset.range S.n, 2 * S.rA k * (Complex.exp (S.zA k * u) * ((g (p - u * d) : ℝ) : ℂ))) =
      (∑ k ∈ Finset.range S.n, 2 * S.rA k * Complex.exp (S.zA k * u)) * ((g (p - u * d) : ℝ) : ℂ) := by
    rw [Finset.sum_mul]
    apply Finset.sum_congr rfl
    intro k _; ring
  rw [e7, Complex.re_mul_ofReal]
  rfl

/-- the filtered difference of a table and one of its lines -/
theorem missed_eq {S : Sys ℝ ℂ} {N : ℕ} (hN : 0 < N) {Y : ℤ → ℝ} (b : ℤ) {p d x : ℝ} (hd : d ≠ 0)
    (hx : d = p - x) :
    (∑ k ∈ Finset.range S.n, 2 * S.rA k *
      ∫ s in ((b + 1 : ℤ) / N : ℝ)..x, f (fun s => W N Y s - line N Y b s) (S.zA k) p d s).re =
    missed S.flt (W N Y) (b / N) (1 / N) p d := by
  have hNr : (0 : ℝ) < N := by exact_mod_cast hN
  rw [filt_eq (g := fun s => W N Y s - line N Y b s) ((W_continuous hNr).sub (line_continuous b)) hd hx]
  unfold missed
  have e : (b : ℝ) / N + 1 / N = ((b + 1 : ℤ) : ℝ) / N := by push_cast; ring
  have w0 : W N Y (b / N) = Y b := by
    rw [W_eq hNr (i := b) le_rfl (by gcongr; linarith)]
    unfold line M; field_simp; ring
  have w1 : W N Y (((b + 1 : ℤ) : ℝ) / N) = Y (b + 1) := by
    rw [W_eq hNr (i := b) (by gcongr; linarith) (by push_cast; exact le_rfl)]
    unfold line M; field_simp; push_cast; ring
  rw [e, w0, w1]
  congr 1
  funext u
  congr 2
  unfold line M
  field_simp
  ring

/-- C101: playing forwards in exact arithmetic, when the lower table moves down by `k` octaves, from one
with `m` samples to one with `N`. Let `c` be the last grid point of the old table that has been passed, and
the phase be more than one sample of the new table behind it. Then the output is the filtered
integral of the mixture of tables, as it should be, plus for both tables the answer of the filter to an
input that was never played: the difference between the table and the straight line through two of
its first points after `c`. -/
theorem C101_error (S : Sys ℝ ℂ) (hS : ExactSys S) (hl : Log2Spec S.env.log2f) (ws : List ℝ)
    (nw L : ℕ) (o : Osc ℝ ℂ) (ho : Plays S ws nw L o) (hpos : 0 < o.prevPhaseDiff) (dir : Sys.Direction)
    (p b : ℝ) (hp0 : o.prevPhase < p) (hp1 : p < 1) (hp2 : p - o.prevPhase ≤ 1 / 2) (o' : Osc ℝ ℂ)
    (ys : List ℝ) (h : S.process dir o [p] [b] = .ok (o', ys))
    (t : MipMapIndices ℝ) (ht : NextIndices S o (p - o.prevPhase) t) (hdn : t.idx < o.prevMip)
    (N m : ℕ) (hN : N = 2 ^ (L - t.idx.toNat)) (hm : m = 2 ^ (L - o.prevMip.toNat))
    (hx : OffDenormal N o.prevPhase) (c : ℝ) (hc : c = ⌊o.prevPhase * m⌋ / m)
    (hlost : c + 1 / N < o.prevPhase) :
    ys = [output (nextMemory S.flt o.prevY (mixture S.env ws L o.crt t) o.prevPhase (p - o.prevPhase)) +
      (t.weight * missed S.flt (waveAt S.env ws L o.crt t.idx) (c + 1 / N) (1 / N) p (p - o.prevPhase) +
       t.weightUp * missed S.flt (waveAt S.env ws L o.crt t.idxUp) c (2 / N) p (p - o.prevPhase))] := by
  have hpl := Sys.reached_play (Sys.exact_rounding hS) hl hS.B ho.1
  obtain ⟨wt, hwt, hlin⟩ := ho.lines hS.fl hl
  obtain ⟨y, e, rfl⟩ := process_one (by rw [hwt]; rfl) h
  have hw : WtOk nw L wt := by
    obtain ⟨wt', e', h'⟩ := hpl.wt
    rw [hwt] at e'; cases e'; exact h'
  have hx0 := hpl.p0
  have hx1 := hpl.p1
  set x := o.prevPhase with hxd
  set d := p - x with hd
  have hd0 : 0 < d := by rw [hd]; linarith
  have e : S.processSampleFwd o p d = .ok (o', y) := by
    cases dir with
    | kForward =>
      have e : S.stepFwd o p = .ok (o', y) := e
      unfold Sys.stepFwd at e
      dsimp only at e
      rw [hS.fl] at e
      simp only [id] at e
      rw [← hxd, ← hd, if_neg (by linarith), chk_true ⟨hd0, hp2⟩, R.ok_bind] at e
      exact e
    | kBidirectionnal =>
      have e : S.stepBi o p = .ok (o', y) := e
      have hbi : Sys.biDiff S.env.fl p o.prevPhase = d := by
        rw [hS.fl]
        unfold Sys.biDiff
        simp only [id]
        rw [← hxd, ← hd, if_neg (by linarith), if_neg (by linarith)]
      unfold Sys.stepBi at e
      dsimp only at e
      rw [hbi, if_pos hd0.le] at e
      exact e
  obtain ⟨wt1, wt', e1, hfind⟩ := ht
  rw [hwt] at e1; cases e1
  unfold WavetableData.findMipMapIndices at hfind
  obtain ⟨⟨cf, t'⟩, hn, hfind⟩ := bind_ok hfind
  cases hfind
  obtain ⟨c', t', hn', -, -, -, ht0, ht1, htu⟩ := Sys.find_spec (Sys.exact_rounding hS) hw (abs_pos.2 hd0.ne')
  rw [hn] at hn'; cases hn'
  have hw1 := (Sys.weight_one hS.fl hw.inv (abs_pos.2 hd0.ne') hn).1
  rw [abs_of_pos hd0] at hn
  rw [Sys.fwd_eq (Sys.exact_rounding hS) hS.B hwt hpl.toOscOk hw hpl.crt0 hpl.crt1 (by linarith) hp1
    (by rw [hS.fl]; rfl) hd0 hp2 hn (fun q _ => absurd q (by linarith))] at e
  cases e
  have hN0 : 0 < N := by rw [hN]; positivity
  have hNr : (0 : ℝ) < N := by exact_mod_cast hN0
  set k := (o.prevMip - t.idx).toNat with hk
  set n := L - t.idx.toNat with hnn
  have hm0 := hpl.mip0
  have hm1 := hpl.mip1
  have hk1 : 1 ≤ k := by omega
  have hnk : n = L - o.prevMip.toNat + k := by omega
  have hNm : N = m * 2 ^ k := by rw [hN, hm, hnk, pow_add]
  have hmr : (0 : ℝ) < m := by rw [hm]; positivity
  have hNmr : (N : ℝ) = m * 2 ^ k := by rw [hNm]; push_cast; rfl
  have hNz : (N : ℤ) = 2 ^ n := by rw [hN]; push_cast; rfl
  have hNR : (N : ℝ) = 2 ^ n := by rw [hN]; push_cast; rfl
  have hj := hpl.posF hpos
  have hmR : (m : ℝ) = 2 ^ (L - o.prevMip.toNat) := by rw [hm]; push_cast; rfl
  rw [← hmR] at hj
  rw [← hj] at hc
  have hj0 : 0 ≤ o.jRed := by rw [hj]; exact Int.floor_nonneg.2 (by positivity)
  -- the segment the sample starts from
  set g : ℤ := o.jRed * 2 ^ k with hg
  have hg0 : 0 ≤ g := by positivity
  have hcg : c = g / N := by
    rw [hc, hg, hNmr]; push_cast
    rw [mul_div_mul_right _ _ (by positivity)]
  have hlost' : (g : ℝ) + 1 < x * N := by
    rw [hcg, ← add_div, div_lt_iff₀ hNr] at hlost
    exact hlost
  have hpj : S.prevJF o n t.idx = g + 2 := by
    unfold Sys.prevJF Sys.adj
    dsimp only
    rw [if_pos hpos.le, if_neg (by omega), if_pos hdn, if_pos hpos, ← hk, ← hg, hpl.red, ← hxd, if_pos]
    · rcases Sys.sign_spec (Sys.exact_rounding hS) (n := n) (x := x) (by rw [← hN]; exact hx) (g + 1) with ⟨s1, s2⟩ | ⟨s1, s2⟩ | ⟨s1, s2⟩
      · rw [hNR] at hlost'; push_cast at s1; linarith
      · rw [hNR] at hlost'; push_cast at s1; linarith
      · rw [s2]; ring
    · push_cast
      rw [← hNR, div_lt_iff₀ hNr]
      exact hlost'
  have hxN : x * N < N := by
    have := mul_lt_mul_of_pos_right hx1 hNr
    linarith
  have hpN : p * N < N := by
    have := mul_lt_mul_of_pos_right hp1 hNr
    linarith
  set a := ⌊x * N⌋ with ha
  have ha1 := Int.floor_le (x * N)
  have ha2 := Int.lt_floor_add_one (x * N)
  rw [← ha] at ha1 ha2
  have hga : g + 1 ≤ a := by
    rw [ha, Int.le_floor]; push_cast; exact hlost'.le
  set jx := ⌊p * N⌋ with hjx
  have hj1 := Int.floor_le (p * N)
  have hj2 := Int.lt_floor_add_one (p * N)
  rw [← hjx] at hj1 hj2
  have haj : a ≤ jx := by
    rw [ha, hjx]
    exact Int.floor_le_floor (mul_le_mul_of_nonneg_right hp0.le hNr.le)
  have hjN : jx < N := by
    have : (jx : ℝ) < N := by linarith
    exact_mod_cast this
  have hxne : x ≠ 0 := by
    intro q; rw [q, zero_mul] at hlost'
    have : (0 : ℝ) ≤ g := by exact_mod_cast hg0
    linarith
  have low : ∀ i < S.n, S.fwdAt wt o.crt t.idx (2 ^ n) o.prevPhaseRed (g + 1) jx d p i =
      S.zA i ^ 2 * (response (waveAt S.env ws L o.crt t.idx) (S.zA i) x d +
        ∫ s in ((g + 1 + 1 : ℤ) / N : ℝ)..x, f (fun s =>
          W N (cyc (mipSamples S.env (waveformOf ws (2 ^ L) o.crt.toNat) t.idx.toNat)) s -
          line N (cyc (mipSamples S.env (waveformOf ws (2 ^ L) o.crt.toNat) t.idx.toNat)) (g + 1) s)
          (S.zA i) p d s) := by
    intro i hi
    have hll := hlin.lines o.crt t.idx hpl.crt0 hpl.crt1 ht0 ht1
    have hlen := hlin.len o.crt t.idx hpl.crt0 hpl.crt1 ht0 ht1
    rw [← hnn, ← hN] at hlen hll
    unfold waveAt Sys.fwdAt
    rw [interp_eq, hlen, hpl.red, ← hxd, ← hNz]
    have key := Sys.fwdVal_lows hS (fun i => by rw [← hlen]; exact cyc_period _ i) hll haj hjN hd0.ne' hxne hd
      (by constructor
          · rw [div_le_iff₀ hNr]; exact ha1
          · rw [le_div_iff₀ hNr]; exact ha2.le)
      (by constructor
          · rw [div_le_iff₀ hNr]; exact hj1
          · rw [le_div_iff₀ hNr]; exact hj2.le) hi (a - (g + 1)).toNat (by omega)
    rw [show a - ((a - (g + 1)).toNat : ℤ) = g + 1 by omega] at key
    exact key
  have low2 : (∑ i ∈ Finset.range S.n, 2 * S.rA i * ∫ s in ((g + 1 + 1 : ℤ) / N : ℝ)..x, f (fun s =>
      W N (cyc (mipSamples S.env (waveformOf ws (2 ^ L) o.crt.toNat) t.idx.toNat)) s -
      line N (cyc (mipSamples S.env (waveformOf ws (2 ^ L) o.crt.toNat) t.idx.toNat)) (g + 1) s)
      (S.zA i) p d s).re = missed S.flt (waveAt S.env ws L o.crt t.idx) (c + 1 / N) (1 / N) p d := by
    have hlen := hlin.len o.crt t.idx hpl.crt0 hpl.crt1 ht0 ht1
    rw [← hnn, ← hN] at hlen
    unfold waveAt
    rw [missed_eq hN0 (g + 1) hd0.ne' hd, interp_eq, hlen, hcg]
    congr 1
    push_cast; ring
  -- the upper table
  have hn1 : 1 ≤ n := by omega
  have hN2 : N = 2 * 2 ^ (n - 1) := by
    rw [hN, ← pow_succ', Nat.sub_add_cancel hn1]
  have hg2 : g = 2 * (g / 2) := by
    have : (2 : ℤ) ∣ g := by
      rw [hg, show k = (k - 1) + 1 by omega, pow_succ]
      exact ⟨o.jRed * 2 ^ (k - 1), by ring⟩
    omega
  set M' : ℕ := 2 ^ (n - 1) with hM'
  have hM0 : 0 < M' := by positivity
  have hMr : (0 : ℝ) < M' := by exact_mod_cast hM0
  have hNM : (N : ℝ) = 2 * M' := by rw [hN2]; push_cast; rfl
  have up : t.weightUp ≠ 0 → ∀ i < S.n,
      S.fwdAt wt o.crt t.idxUp (2 ^ (n - 1)) o.prevPhaseRed ((g + 1) / 2) (jx / 2) d p i =
      S.zA i ^ 2 * (response (waveAt S.env ws L o.crt t.idxUp) (S.zA i) x d +
        ∫ s in ((g / 2 + 1 : ℤ) / M' : ℝ)..x, f (fun s =>
          W M' (cyc (mipSamples S.env (waveformOf ws (2 ^ L) o.crt.toNat) t.idxUp.toNat)) s -
          line M' (cyc (mipSamples S.env (waveformOf ws (2 ^ L) o.crt.toNat) t.idxUp.toNat)) (g / 2) s)
          (S.zA i) p d s) := by
    intro hup i hi
    obtain ⟨u1, u2⟩ := htu hup
    have hnu : L - t.idxUp.toNat = n - 1 := by omega
    have hll := hlin.lines o.crt t.idxUp hpl.crt0 hpl.crt1 (by omega) u2
    have hlen := hlin.len o.crt t.idxUp hpl.crt0 hpl.crt1 (by omega) u2
    rw [hnu, ← hM'] at hlen hll
    unfold waveAt Sys.fwdAt
    rw [interp_eq, hlen, hpl.red, ← hxd, show (2 : ℤ) ^ (n - 1) = (M' : ℤ) by rw [hM']; push_cast; rfl]
    have q1 : (2 * (a / 2 : ℤ) : ℝ) ≤ a ∧ (a : ℝ) ≤ 2 * (a / 2 : ℤ) + 1 := by
      have : 2 * (a / 2) ≤ a ∧ a ≤ 2 * (a / 2) + 1 := by omega
      exact_mod_cast this
    have q2 : (2 * (jx / 2 : ℤ) : ℝ) ≤ jx ∧ (jx : ℝ) ≤ 2 * (jx / 2 : ℤ) + 1 := by
      have : 2 * (jx / 2) ≤ jx ∧ jx ≤ 2 * (jx / 2) + 1 := by omega
      exact_mod_cast this
    have key := Sys.fwdVal_lows hS (N := M') (a := a / 2) (jmax := jx / 2)
      (fun i => by rw [← hlen]; exact cyc_period _ i) hll (by omega) (by omega) hd0.ne' hxne hd
      (by rw [hNM] at ha1 ha2
          constructor
          · rw [div_le_iff₀ hMr]; linarith [q1.1]
          · rw [le_div_iff₀ hMr]; linarith [q1.2])
      (by rw [hNM] at hj1 hj2
          constructor
          · rw [div_le_iff₀ hMr]; linarith [q2.1]
          · rw [le_div_iff₀ hMr]; linarith [q2.2]) hi (a / 2 - g / 2).toNat (by omega)
    rw [show a / 2 - ((a / 2 - g / 2).toNat : ℤ) = g / 2 by omega] at key
    rw [show (g + 1) / 2 = g / 2 by omega]
    exact key
  have up2 : t.weightUp ≠ 0 → (∑ i ∈ Finset.range S.n, 2 * S.rA i * ∫ s in ((g / 2 + 1 : ℤ) / M' : ℝ)..x, f (fun s =>
      W M' (cyc (mipSamples S.env (waveformOf ws (2 ^ L) o.crt.toNat) t.idxUp.toNat)) s -
      line M' (cyc (mipSamples S.env (waveformOf ws (2 ^ L) o.crt.toNat) t.idxUp.toNat)) (g / 2) s)
      (S.zA i) p d s).re = missed S.flt (waveAt S.env ws L o.crt t.idxUp) c (2 / N) p d := by
    intro hup
    obtain ⟨u1, u2⟩ := htu hup
    have hnu : L - t.idxUp.toNat = n - 1 := by omega
    have hlen := hlin.len o.crt t.idxUp hpl.crt0 hpl.crt1 (by omega) u2
    rw [hnu, ← hM'] at hlen
    unfold waveAt
    rw [missed_eq hM0 (g / 2) hd0.ne' hd, interp_eq, hlen, hcg, hNM]
    have : (g : ℝ) = 2 * ((g / 2 : ℤ) : ℝ) := by exact_mod_cast hg2
    congr 1
    · rw [this, mul_div_mul_left _ _ (by norm_num)]
    · field_simp
  have hjm : (S.prevJF o n t.idx - 1) % 2 ^ n = g + 1 := by
    rw [hpj, ← hNz, Int.emod_eq_of_lt (by omega) (by omega)]; ring
  set E0 : ℕ → ℂ := fun i => ∫ s in ((g + 1 + 1 : ℤ) / N : ℝ)..x, f (fun s =>
      W N (cyc (mipSamples S.env (waveformOf ws (2 ^ L) o.crt.toNat) t.idx.toNat)) s -
      line N (cyc (mipSamples S.env (waveformOf ws (2 ^ L) o.crt.toNat) t.idx.toNat)) (g + 1) s)
      (S.zA i) p d s with hE0
  set E1 : ℕ → ℂ := fun i => ∫ s in ((g / 2 + 1 : ℤ) / M' : ℝ)..x, f (fun s =>
      W M' (cyc (mipSamples S.env (waveformOf ws (2 ^ L) o.crt.toNat) t.idxUp.toNat)) s -
      line M' (cyc (mipSamples S.env (waveformOf ws (2 ^ L) o.crt.toNat) t.idxUp.toNat)) (g / 2) s)
      (S.zA i) p d s with hE1
  have hacc : ∀ i < S.n, S.accF wt L o t p d i = S.zA i ^ 2 *
      (response (mixture S.env ws L o.crt t) (S.zA i) x d + (t.weight * E0 i + t.weightUp * E1 i)) := by
    intro i hi
    unfold Sys.accF Sys.mix
    rw [← hnn, hjm, ← hNR, ← hjx, hS.ops]
    unfold mixture
    rw [response_add (W := waveAt S.env ws L o.crt t.idx) (V := waveAt S.env ws L o.crt t.idxUp)
      (interp_continuous _) (interp_continuous _)]
    by_cases hup : t.weightUp = 0
    · rw [if_neg (by simp [hup]), low i hi]
      rw [hup, add_zero] at hw1
      rw [hup, hw1, Complex.ofReal_one, Complex.ofReal_zero]
      simp only [hE0]
      ring
    · rw [if_pos hup, low i hi, up hup i hi]
      simp only [copsX]
      ring
  rw [out_error_gen hS o.prevY hacc]
  congr 2
  have hs : (∑ i ∈ Finset.range S.n, 2 * S.rA i * (t.weight * E0 i + t.weightUp * E1 i)) =
      ((t.weight : ℝ) : ℂ) * (∑ i ∈ Finset.range S.n, 2 * S.rA i * E0 i) +
      ((t.weightUp : ℝ) : ℂ) * (∑ i ∈ Finset.range S.n, 2 * S.rA i * E1 i) := by
    rw [Finset.mul_sum, Finset.mul_sum, ← Finset.sum_add_distrib]
    apply Finset.sum_congr rfl
    intro i _; ring
  rw [hs, Complex.add_re, Complex.re_ofReal_mul, Complex.re_ofReal_mul, low2]
  by_cases hup : t.weightUp = 0
  · rw [hup, zero_mul, zero_mul]
  · rw [up2 hup]

end Adwt.Props
