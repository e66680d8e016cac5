import Verif.Proofs.OffByManyB
import Verif.Props.Turn

/-!
# C101: jumps down, backwards
-/

set_option linter.unusedSectionVars false

namespace Adwt.Props
open Seg MeasureTheory

/-- a backward sample that does not wrap -/
theorem bwd_setup' {S : Sys ℝ ℂ} (hS : ExactSys S) (hl : Log2Spec S.env.log2f) {ws : List ℝ}
    {nw L : ℕ} {o : Osc ℝ ℂ} (ho : Plays S ws nw L o) {p b : ℝ}
    (hp0 : 0 < p) (hp1 : p < o.prevPhase) (hp2 : o.prevPhase - p ≤ 1 / 2) {o' : Osc ℝ ℂ} {ys : List ℝ}
    (h : S.process .kBidirectionnal o [p] [b] = .ok (o', ys))
    {t : MipMapIndices ℝ} (ht : NextIndices S o (p - o.prevPhase) t) :
    ∃ wt, HasLines S.env ws nw L wt ∧ 0 ≤ t.idx ∧ t.idx < (L : ℤ) - 1 ∧
      (t.weightUp ≠ 0 → t.idxUp = t.idx + 1 ∧ t.idxUp < (L : ℤ) - 1) ∧ t.weight + t.weightUp = 1 ∧
      ys = [S.outReal (S.cpxY o.prevY (S.accB wt L o t p (p - o.prevPhase)))] := by
  have hpl := Sys.reached_play (Sys.exact_rounding hS) hl hS.B ho.1
  obtain ⟨wt, hwt, hlin⟩ := ho.lines hS.fl hl
  obtain ⟨y, e, rfl⟩ := process_one (by rw [hwt]; rfl) h
  have hw : WtOk nw L wt := by
    obtain ⟨wt', e', h'⟩ := hpl.wt
    rw [hwt] at e'; cases e'; exact h'
  have hx1 := hpl.p1
  have hxne : o.prevPhase ≠ 0 := by linarith
  have hjb := fun q : o.prevPhaseDiff < 0 => hpl.jb q hxne
  set x := o.prevPhase with hxd
  set d := p - x with hd
  have hd0 : d < 0 := by rw [hd]; linarith
  have hd1 : -(1 / 2) ≤ d := by rw [hd]; linarith
  have e : S.stepBi o p = .ok (o', y) := e
  have hbi : Sys.biDiff S.env.fl p o.prevPhase = d := by
    rw [hS.fl]
    unfold Sys.biDiff
    simp only [id]
    rw [← hxd, ← hd, if_neg (by linarith), if_neg (by linarith)]
  unfold Sys.stepBi at e
  dsimp only at e
  rw [hbi, if_neg (by linarith)] at e
  obtain ⟨wt1, wt', e1, hfind⟩ := ht
  rw [hwt] at e1; cases e1
  unfold WavetableData.findMipMapIndices at hfind
  obtain ⟨⟨c, t'⟩, hn, hfind⟩ := bind_ok hfind
  cases hfind
  obtain ⟨c', t', hn', -, -, -, ht0, ht1, htu⟩ := Sys.find_spec (Sys.exact_rounding hS) hw (abs_pos.2 hd0.ne)
  rw [hn] at hn'; cases hn'
  have hw1 := (Sys.weight_one hS.fl hw.inv (abs_pos.2 hd0.ne) hn).1
  rw [Sys.bwd_eq (Sys.exact_rounding hS) hS.B hwt hpl.toOscOk hw hpl.crt0 hpl.crt1 hp0.le (by linarith)
    (by rw [hS.fl]; rfl) hd0 hd1 hn (fun q _ => hjb q)] at e
  cases e
  exact ⟨wt, hlin, ht0, ht1, htu, hw1, rfl⟩

/-- the filtered difference of a table and one of its lines, seen from above -/
theorem missed_eq' {S : Sys ℝ ℂ} {N : ℕ} (hN : 0 < N) {Y : ℤ → ℝ} (b : ℤ) {p d x : ℝ} (hd : d ≠ 0)
    (hx : d = p - x) :
    (∑ k ∈ Finset.range S.n, 2 * S.rA k *
      ∫ s in ((b : ℤ) / N : ℝ)..x, f (fun s => W N Y s - line N Y b s) (S.zA k) p d s).re =
    missed S.flt (W N Y) ((b + 1) / N) (-(1 / N)) p d := by
  have hNr : (0 : ℝ) < N := by exact_mod_cast hN
  rw [filt_eq (g := fun s => W N Y s - line N Y b s) ((W_continuous hNr).sub (line_continuous b)) hd hx]
  unfold missed
  have e : ((b : ℝ) + 1) / N + -(1 / N) = (b : ℝ) / N := by ring
  have w0 : W N Y (b / N) = Y b := by
    rw [W_eq hNr (i := b) le_rfl (by gcongr; linarith)]
    unfold line M; field_simp; ring
  have w1 : W N Y (((b : ℝ) + 1) / N) = Y (b + 1) := by
    rw [W_eq hNr (i := b) (by gcongr; linarith) le_rfl]
    unfold line M; field_simp; ring
  rw [e, w0, w1]
  congr 1
  funext u
  congr 2
  unfold line M
  field_simp
  ring

/-- a backward sample that starts from a segment `g` not below the right one -/
theorem bwd_high_out {S : Sys ℝ ℂ} (hS : ExactSys S) (hl : Log2Spec S.env.log2f) {ws : List ℝ}
    {nw L : ℕ} {o : Osc ℝ ℂ} (ho : Plays S ws nw L o) {p b : ℝ}
    (hp0 : 0 < p) (hp1 : p < o.prevPhase) (hp2 : o.prevPhase - p ≤ 1 / 2) {o' : Osc ℝ ℂ} {ys : List ℝ}
    (h : S.process .kBidirectionnal o [p] [b] = .ok (o', ys))
    {t : MipMapIndices ℝ} (ht : NextIndices S o (p - o.prevPhase) t)
    {N : ℕ} (hN : N = 2 ^ (L - t.idx.toNat)) {g : ℤ} (hg : S.prevJB o (L - t.idx.toNat) t.idx = g)
    (hg0 : o.prevPhase * N < g + 1) (hg1 : g < N) :
    ys = [output (nextMemory S.flt o.prevY (mixture S.env ws L o.crt t) o.prevPhase (p - o.prevPhase)) +
      (t.weight * missed S.flt (waveAt S.env ws L o.crt t.idx) ((g + 1) / N) (-(1 / N)) p (p - o.prevPhase) +
       t.weightUp * missed S.flt (waveAt S.env ws L o.crt t.idxUp) (2 * ((g / 2 : ℤ) + 1) / N) (-(2 / N)) p
        (p - o.prevPhase))] := by
  have hpl := Sys.reached_play (Sys.exact_rounding hS) hl hS.B ho.1
  obtain ⟨wt, hlin, ht0, ht1, htu, hw1, rfl⟩ := bwd_setup' hS hl ho hp0 hp1 hp2 h ht
  have hx1 := hpl.p1
  set x := o.prevPhase with hxd
  set d := p - x with hd
  have hd0 : d < 0 := by rw [hd]; linarith
  have hN0 : 0 < N := by rw [hN]; positivity
  have hNr : (0 : ℝ) < N := by exact_mod_cast hN0
  set n := L - t.idx.toNat with hnn
  have hNz : (N : ℤ) = 2 ^ n := by rw [hN]; push_cast; rfl
  have hNR : (N : ℝ) = 2 ^ n := by rw [hN]; push_cast; rfl
  set a := ⌊x * N⌋ with ha
  have ha1 := Int.floor_le (x * N)
  have ha2 := Int.lt_floor_add_one (x * N)
  rw [← ha] at ha1 ha2
  have ha0 : 0 ≤ a := Int.floor_nonneg.2 (mul_nonneg (by linarith) hNr.le)
  have hag : a ≤ g := by
    have : (a : ℝ) < g + 1 := by linarith
    have : a < g + 1 := by exact_mod_cast this
    omega
  have hpN : p * N < x * N := mul_lt_mul_of_pos_right hp1 hNr
  set j := ⌈p * 2 ^ n⌉ with hj
  have hj0 : 1 ≤ j := Int.one_le_ceil_iff.2 (by positivity)
  have hj1 := Int.ceil_lt_add_one (p * 2 ^ n)
  have hj2 := Int.le_ceil (p * 2 ^ n)
  rw [← hj, ← hNR] at hj1 hj2
  have hja : j - 1 ≤ a := by
    rw [ha, Int.le_floor]; push_cast; linarith
  have low : ∀ i < S.n, S.bwdAt wt o.crt t.idx (2 ^ n) o.prevPhaseRed j (j - 1) g d p i =
      S.zA i ^ 2 * (response (waveAt S.env ws L o.crt t.idx) (S.zA i) x d +
        ∫ s in ((g : ℤ) / N : ℝ)..x, f (fun s =>
          W N (cyc (mipSamples S.env (waveformOf ws (2 ^ L) o.crt.toNat) t.idx.toNat)) s -
          line N (cyc (mipSamples S.env (waveformOf ws (2 ^ L) o.crt.toNat) t.idx.toNat)) g s)
          (S.zA i) p d s) := by
    intro i hi
    have hll := hlin.lines o.crt t.idx hpl.crt0 hpl.crt1 ht0 ht1
    have hlen := hlin.len o.crt t.idx hpl.crt0 hpl.crt1 ht0 ht1
    rw [← hnn, ← hN] at hlen hll
    unfold waveAt Sys.bwdAt
    rw [interp_eq, hlen, hpl.red, ← hxd, ← hNz]
    have key := Sys.bwdVal_highs hS (fun i => by rw [← hlen]; exact cyc_period _ i) hll (jm := j) (jmin := j - 1)
      (a := a) (by omega) hja hd0.ne hp0.ne' (by omega) hd
      (by constructor
          · rw [div_le_iff₀ hNr]; exact ha1
          · rw [le_div_iff₀ hNr]; exact ha2.le)
      (by constructor
          · rw [div_le_iff₀ hNr]; push_cast; linarith
          · rw [le_div_iff₀ hNr]; push_cast; linarith) hi (g - a).toNat (by omega)
    rw [show a + ((g - a).toNat : ℤ) = g by omega] at key
    exact key
  have low2 : (∑ i ∈ Finset.range S.n, 2 * S.rA i * ∫ s in ((g : ℤ) / N : ℝ)..x, f (fun s =>
      W N (cyc (mipSamples S.env (waveformOf ws (2 ^ L) o.crt.toNat) t.idx.toNat)) s -
      line N (cyc (mipSamples S.env (waveformOf ws (2 ^ L) o.crt.toNat) t.idx.toNat)) g s)
      (S.zA i) p d s).re = missed S.flt (waveAt S.env ws L o.crt t.idx) ((g + 1) / N) (-(1 / N)) p d := by
    have hlen := hlin.len o.crt t.idx hpl.crt0 hpl.crt1 ht0 ht1
    rw [← hnn, ← hN] at hlen
    unfold waveAt
    rw [missed_eq' hN0 g hd0.ne hd, interp_eq, hlen]
  -- the upper table
  have hn1 : 1 ≤ n := by omega
  have hN2 : N = 2 * 2 ^ (n - 1) := by
    rw [hN, ← pow_succ', Nat.sub_add_cancel hn1]
  set M' : ℕ := 2 ^ (n - 1) with hM'
  have hM0 : 0 < M' := by positivity
  have hMr : (0 : ℝ) < M' := by exact_mod_cast hM0
  have hNM : (N : ℝ) = 2 * M' := by rw [hN2]; push_cast; rfl
  have up : t.weightUp ≠ 0 → ∀ i < S.n,
      S.bwdAt wt o.crt t.idxUp (2 ^ (n - 1)) o.prevPhaseRed j ((j - 1) / 2) (g / 2) d p i =
      S.zA i ^ 2 * (response (waveAt S.env ws L o.crt t.idxUp) (S.zA i) x d +
        ∫ s in ((g / 2 : ℤ) / M' : ℝ)..x, f (fun s =>
          W M' (cyc (mipSamples S.env (waveformOf ws (2 ^ L) o.crt.toNat) t.idxUp.toNat)) s -
          line M' (cyc (mipSamples S.env (waveformOf ws (2 ^ L) o.crt.toNat) t.idxUp.toNat)) (g / 2) s)
          (S.zA i) p d s) := by
    intro hup i hi
    obtain ⟨u1, u2⟩ := htu hup
    have hnu : L - t.idxUp.toNat = n - 1 := by omega
    have hll := hlin.lines o.crt t.idxUp hpl.crt0 hpl.crt1 (by omega) u2
    have hlen := hlin.len o.crt t.idxUp hpl.crt0 hpl.crt1 (by omega) u2
    rw [hnu, ← hM'] at hlen hll
    unfold waveAt Sys.bwdAt
    rw [interp_eq, hlen, hpl.red, ← hxd, show (2 : ℤ) ^ (n - 1) = (M' : ℤ) by rw [hM']; push_cast; rfl]
    have q1 : (2 * (a / 2 : ℤ) : ℝ) ≤ a ∧ (a : ℝ) ≤ 2 * (a / 2 : ℤ) + 1 := by
      have : 2 * (a / 2) ≤ a ∧ a ≤ 2 * (a / 2) + 1 := by omega
      exact_mod_cast this
    have q2 : (2 * ((j - 1) / 2 : ℤ) : ℝ) ≤ j - 1 ∧ (j : ℝ) - 1 ≤ 2 * ((j - 1) / 2 : ℤ) + 1 := by
      have : 2 * ((j - 1) / 2) ≤ j - 1 ∧ j - 1 ≤ 2 * ((j - 1) / 2) + 1 := by omega
      exact_mod_cast this
    have key := Sys.bwdVal_highs hS (N := M') (fun i => by rw [← hlen]; exact cyc_period _ i) hll
      (jm := j) (jmin := (j - 1) / 2)
      (a := a / 2) (by omega) (by omega) hd0.ne hp0.ne' (by omega) hd
      (by rw [hNM] at ha1 ha2
          constructor
          · rw [div_le_iff₀ hMr]; linarith [q1.1]
          · rw [le_div_iff₀ hMr]; linarith [q1.2])
      (by rw [hNM] at hj1 hj2
          constructor
          · rw [div_le_iff₀ hMr]; linarith [q2.1]
          · rw [le_div_iff₀ hMr]; linarith [q2.2]) hi (g / 2 - a / 2).toNat (by omega)
    rw [show a / 2 + ((g / 2 - a / 2).toNat : ℤ) = g / 2 by omega] at key
    exact key
  have up2 : t.weightUp ≠ 0 → (∑ i ∈ Finset.range S.n, 2 * S.rA i * ∫ s in ((g / 2 : ℤ) / M' : ℝ)..x, f (fun s =>
      W M' (cyc (mipSamples S.env (waveformOf ws (2 ^ L) o.crt.toNat) t.idxUp.toNat)) s -
      line M' (cyc (mipSamples S.env (waveformOf ws (2 ^ L) o.crt.toNat) t.idxUp.toNat)) (g / 2) s)
      (S.zA i) p d s).re = missed S.flt (waveAt S.env ws L o.crt t.idxUp) (2 * ((g / 2 : ℤ) + 1) / N) (-(2 / N)) p d := by
    intro hup
    obtain ⟨u1, u2⟩ := htu hup
    have hnu : L - t.idxUp.toNat = n - 1 := by omega
    have hlen := hlin.len o.crt t.idxUp hpl.crt0 hpl.crt1 (by omega) u2
    rw [hnu, ← hM'] at hlen
    unfold waveAt
    rw [missed_eq' hM0 (g / 2) hd0.ne hd, interp_eq, hlen, hNM]
    congr 1
    · rw [mul_div_mul_left _ _ (by norm_num)]
    · field_simp
  have hjm : (j - 1) % 2 ^ n = j - 1 := by
    rw [← hNz, Int.emod_eq_of_lt (by omega) (by omega)]
  have hgm : g % 2 ^ n = g := by
    rw [← hNz, Int.emod_eq_of_lt (by omega) (by omega)]
  set E0 : ℕ → ℂ := fun i => ∫ s in ((g : ℤ) / N : ℝ)..x, f (fun s =>
      W N (cyc (mipSamples S.env (waveformOf ws (2 ^ L) o.crt.toNat) t.idx.toNat)) s -
      line N (cyc (mipSamples S.env (waveformOf ws (2 ^ L) o.crt.toNat) t.idx.toNat)) g s)
      (S.zA i) p d s with hE0
  set E1 : ℕ → ℂ := fun i => ∫ s in ((g / 2 : ℤ) / M' : ℝ)..x, f (fun s =>
      W M' (cyc (mipSamples S.env (waveformOf ws (2 ^ L) o.crt.toNat) t.idxUp.toNat)) s -
      line M' (cyc (mipSamples S.env (waveformOf ws (2 ^ L) o.crt.toNat) t.idxUp.toNat)) (g / 2) s)
      (S.zA i) p d s with hE1
  have hacc : ∀ i < S.n, S.accB wt L o t p d i = S.zA i ^ 2 *
      (response (mixture S.env ws L o.crt t) (S.zA i) x d + (t.weight * E0 i + t.weightUp * E1 i)) := by
    intro i hi
    unfold Sys.accB Sys.mix
    rw [← hnn, hg, ← hj, hjm, hgm, hS.ops]
    unfold mixture
    rw [response_add (W := waveAt S.env ws L o.crt t.idx) (V := waveAt S.env ws L o.crt t.idxUp)
      (interp_continuous _) (interp_continuous _)]
    by_cases hup : t.weightUp = 0
    · rw [if_neg (by simp [hup]), low i hi]
      rw [hup, add_zero] at hw1
      rw [hup, hw1, Complex.ofReal_one, Complex.ofReal_zero]
      simp only [hE0]
      ring
    · rw [if_pos hup, low i hi, up hup i hi]
      simp only [copsX]
      ring
  rw [out_error_gen hS o.prevY hacc]
  congr 2
  have hs : (∑ i ∈ Finset.range S.n, 2 * S.rA i * (t.weight * E0 i + t.weightUp * E1 i)) =
      ((t.weight : ℝ) : ℂ) * (∑ i ∈ Finset.range S.n, 2 * S.rA i * E0 i) +
      ((t.weightUp : ℝ) : ℂ) * (∑ i ∈ Finset.range S.n, 2 * S.rA i * E1 i) := by
    rw [Finset.mul_sum, Finset.mul_sum, ← Finset.sum_add_distrib]
    apply Finset.sum_congr rfl
    intro i _; ring
  rw [hs, Complex.add_re, Complex.re_ofReal_mul, Complex.re_ofReal_mul, low2]
  by_cases hup : t.weightUp = 0
  · rw [hup, zero_mul, zero_mul]
  · rw [up2 hup]

/-- C101, playing backwards: let `c` be the last grid point of the old table that has been passed, now the next
one above the phase, and the phase more than one sample of the new table below it. -/
theorem C101_error_back (S : Sys ℝ ℂ) (hS : ExactSys S) (hl : Log2Spec S.env.log2f) (ws : List ℝ)
    (nw L : ℕ) (o : Osc ℝ ℂ) (ho : Plays S ws nw L o) (hneg : o.prevPhaseDiff < 0)
    (p b : ℝ) (hp0 : 0 < p) (hp1 : p < o.prevPhase) (hp2 : o.prevPhase - p ≤ 1 / 2) (o' : Osc ℝ ℂ)
    (ys : List ℝ) (h : S.process .kBidirectionnal o [p] [b] = .ok (o', ys))
    (t : MipMapIndices ℝ) (ht : NextIndices S o (p - o.prevPhase) t) (hdn : t.idx < o.prevMip)
    (N m : ℕ) (hN : N = 2 ^ (L - t.idx.toNat)) (hm : m = 2 ^ (L - o.prevMip.toNat))
    (hx : OffDenormal N o.prevPhase) (c : ℝ) (hc : c = ⌈o.prevPhase * m⌉ / m)
    (hlost : o.prevPhase < c - 1 / N) :
    ys = [output (nextMemory S.flt o.prevY (mixture S.env ws L o.crt t) o.prevPhase (p - o.prevPhase)) +
      (t.weight * missed S.flt (waveAt S.env ws L o.crt t.idx) (c - 1 / N) (-(1 / N)) p (p - o.prevPhase) +
       t.weightUp * missed S.flt (waveAt S.env ws L o.crt t.idxUp) c (-(2 / N)) p (p - o.prevPhase))] := by
  have hpl := Sys.reached_play (Sys.exact_rounding hS) hl hS.B ho.1
  have hx1 := hpl.p1
  set x := o.prevPhase with hxd
  have hN0 : 0 < N := by rw [hN]; positivity
  have hNr : (0 : ℝ) < N := by exact_mod_cast hN0
  obtain ⟨wt, -, ht0, ht1, -⟩ := bwd_setup' hS hl ho hp0 hp1 hp2 h ht
  set k := (o.prevMip - t.idx).toNat with hk
  set n := L - t.idx.toNat with hnn
  have hm0 := hpl.mip0
  have hm1 := hpl.mip1
  have hk1 : 1 ≤ k := by omega
  have hnk : n = L - o.prevMip.toNat + k := by omega
  have hNm : N = m * 2 ^ k := by rw [hN, hm, hnk, pow_add]
  have hm0' : 0 < m := by rw [hm]; positivity
  have hmr : (0 : ℝ) < m := by exact_mod_cast hm0'
  have hNmr : (N : ℝ) = m * 2 ^ k := by rw [hNm]; push_cast; rfl
  have hNR : (N : ℝ) = 2 ^ n := by rw [hN]; push_cast; rfl
  have hj := hpl.posB hneg
  have hmR : (m : ℝ) = 2 ^ (L - o.prevMip.toNat) := by rw [hm]; push_cast; rfl
  rw [← hmR] at hj
  rw [← hj] at hc
  have hjm : o.jRed ≤ m := by
    rw [hj, Int.ceil_le]
    have := mul_lt_mul_of_pos_right hx1 hmr
    push_cast; linarith
  set g : ℤ := o.jRed * 2 ^ k with hg
  have hgN : g ≤ N := by
    have : (N : ℤ) = m * 2 ^ k := by rw [hNm]; push_cast; rfl
    rw [hg, this]
    exact mul_le_mul_of_nonneg_right hjm (by positivity)
  have hcg : c = g / N := by
    rw [hc, hg, hNmr]; push_cast
    rw [mul_div_mul_right _ _ (by positivity)]
  have hlost' : x * N < g - 1 := by
    rw [hcg, ← sub_div, lt_div_iff₀ hNr] at hlost
    exact hlost
  have hpj : S.prevJB o n t.idx = g - 2 := by
    unfold Sys.prevJB Sys.adj
    dsimp only
    rw [if_pos hneg.le, if_neg (by omega), if_pos hdn, if_neg (by linarith), ← hk, ← hg, hpl.red, ← hxd, if_pos]
    · rcases Sys.sign_spec (Sys.exact_rounding hS) (n := n) (x := x) (by rw [← hN]; exact hx) (g - 1) with ⟨s1, s2⟩ | ⟨s1, s2⟩ | ⟨s1, s2⟩
      · rw [hNR] at hlost'; push_cast at s1; linarith
      · rw [s2]; ring
      · rw [hNR] at hlost'; push_cast at s1; linarith
    · push_cast
      rw [← hNR, gt_iff_lt, lt_div_iff₀ hNr]
      exact hlost'
  have key := bwd_high_out hS hl ho hp0 hp1 hp2 h ht hN hpj (by push_cast; linarith) (by omega)
  have hg2 : g = 2 * (g / 2) := by
    have : (2 : ℤ) ∣ g := by
      rw [hg, show k = (k - 1) + 1 by omega, pow_succ]
      exact ⟨o.jRed * 2 ^ (k - 1), by ring⟩
    omega
  have e1 : (((g - 2 : ℤ) : ℝ) + 1) / N = c - 1 / N := by rw [hcg]; push_cast; ring
  have e2 : 2 * ((((g - 2) / 2 : ℤ) : ℝ) + 1) / N = c := by
    have : 2 * ((g - 2) / 2 + 1) = g := by omega
    rw [hcg]
    congr 1
    exact_mod_cast this
  rw [e1, e2] at key
  exact key

/-- nothing is missed within one segment -/
theorem missed_zero' {S : Sys ℝ ℂ} {N : ℕ} (hN : 0 < N) {Y : ℤ → ℝ} (b : ℤ) {p d x : ℝ} (hd : d ≠ 0)
    (hx : d = p - x) (h0 : (b : ℝ) / N ≤ x) (h1 : x ≤ ((b : ℝ) + 1) / N) :
    missed S.flt (W N Y) ((b + 1) / N) (-(1 / N)) p d = 0 := by
  have hNr : (0 : ℝ) < N := by exact_mod_cast hN
  rw [← missed_eq' hN b hd hx]
  have e : ∀ k, (∫ s in ((b : ℝ) / N)..x, f (fun s => W N Y s - line N Y b s) (S.zA k) p d s) = 0 := by
    intro k
    rw [intervalIntegral.integral_congr (g := fun _ => (0 : ℂ))]
    · simp
    · intro s hs
      rw [Set.uIcc_of_le h0] at hs
      have : W N Y s - line N Y b s = 0 := by
        rw [W_eq hNr (i := b) hs.1 (hs.2.trans h1), sub_self]
      unfold f
      simp [this]
  rw [Finset.sum_eq_zero fun k _ => by rw [e k, mul_zero], Complex.zero_re]

/-- a backward sample that starts from the right segment -/
theorem bwd_in_out {S : Sys ℝ ℂ} (hS : ExactSys S) (hl : Log2Spec S.env.log2f) {ws : List ℝ}
    {nw L : ℕ} {o : Osc ℝ ℂ} (ho : Plays S ws nw L o) {p b : ℝ}
    (hp0 : 0 < p) (hp1 : p < o.prevPhase) (hp2 : o.prevPhase - p ≤ 1 / 2) {o' : Osc ℝ ℂ} {ys : List ℝ}
    (h : S.process .kBidirectionnal o [p] [b] = .ok (o', ys))
    {t : MipMapIndices ℝ} (ht : NextIndices S o (p - o.prevPhase) t)
    {N : ℕ} (hN : N = 2 ^ (L - t.idx.toNat)) {g : ℤ} (hg : S.prevJB o (L - t.idx.toNat) t.idx = g)
    (hg0 : o.prevPhase * N < g + 1) (hg1 : g ≤ o.prevPhase * N) :
    ys = [output (nextMemory S.flt o.prevY (mixture S.env ws L o.crt t) o.prevPhase (p - o.prevPhase))] := by
  have hpl := Sys.reached_play (Sys.exact_rounding hS) hl hS.B ho.1
  have hx1 := hpl.p1
  have hN0 : 0 < N := by rw [hN]; positivity
  have hNr : (0 : ℝ) < N := by exact_mod_cast hN0
  have hgN : g < N := by
    have : (g : ℝ) < N := by
      have := mul_lt_mul_of_pos_right hx1 hNr
      linarith
    exact_mod_cast this
  have key := bwd_high_out hS hl ho hp0 hp1 hp2 h ht hN hg hg0 hgN
  obtain ⟨wt, hlin, ht0, ht1, htu, -, -⟩ := bwd_setup' hS hl ho hp0 hp1 hp2 h ht
  rw [key]
  congr 1
  set x := o.prevPhase with hxd
  set n := L - t.idx.toNat with hnn
  have hd0 : p - x ≠ 0 := by linarith
  have low : missed S.flt (waveAt S.env ws L o.crt t.idx) ((g + 1) / N) (-(1 / N)) p (p - x) = 0 := by
    have hlen := hlin.len o.crt t.idx hpl.crt0 hpl.crt1 ht0 ht1
    rw [← hnn, ← hN] at hlen
    unfold waveAt
    rw [interp_eq, hlen]
    exact missed_zero' hN0 g hd0 rfl (by rw [div_le_iff₀ hNr]; exact hg1) (by rw [le_div_iff₀ hNr]; exact hg0.le)
  have up : t.weightUp ≠ 0 → missed S.flt (waveAt S.env ws L o.crt t.idxUp) (2 * ((g / 2 : ℤ) + 1) / N) (-(2 / N)) p
      (p - x) = 0 := by
    intro hup
    obtain ⟨u1, u2⟩ := htu hup
    have hn1 : 1 ≤ n := by omega
    have hN2 : N = 2 * 2 ^ (n - 1) := by
      rw [hN, ← pow_succ', Nat.sub_add_cancel hn1]
    set M' : ℕ := 2 ^ (n - 1) with hM'
    have hM0 : 0 < M' := by positivity
    have hMr : (0 : ℝ) < M' := by exact_mod_cast hM0
    have hNM : (N : ℝ) = 2 * M' := by rw [hN2]; push_cast; rfl
    have hnu : L - t.idxUp.toNat = n - 1 := by omega
    have hlen := hlin.len o.crt t.idxUp hpl.crt0 hpl.crt1 (by omega) u2
    rw [hnu, ← hM'] at hlen
    unfold waveAt
    rw [interp_eq, hlen]
    have q1 : (2 * (g / 2 : ℤ) : ℝ) ≤ g ∧ (g : ℝ) ≤ 2 * (g / 2 : ℤ) + 1 := by
      have : 2 * (g / 2) ≤ g ∧ g ≤ 2 * (g / 2) + 1 := by omega
      exact_mod_cast this
    have e1 : 2 * (((g / 2 : ℤ) : ℝ) + 1) / N = (((g / 2 : ℤ) : ℝ) + 1) / M' := by
      rw [hNM, mul_div_mul_left _ _ (by norm_num)]
    have e2 : (2 : ℝ) / N = 1 / M' := by rw [hNM]; field_simp
    rw [e1, e2]
    rw [hNM] at hg0 hg1
    exact missed_zero' hM0 (g / 2) hd0 rfl (by rw [div_le_iff₀ hMr]; linarith [q1.1])
      (by rw [le_div_iff₀ hMr]; linarith [q1.2])
  rw [low, mul_zero, zero_add]
  by_cases hup : t.weightUp = 0
  · rw [hup, zero_mul, add_zero]
  · rw [up hup, mul_zero, add_zero]

/-- C101, playing backwards: the phases at which a jump down is right. -/
theorem C101_right_back (S : Sys ℝ ℂ) (hS : ExactSys S) (hl : Log2Spec S.env.log2f) (ws : List ℝ)
    (nw L : ℕ) (o : Osc ℝ ℂ) (ho : Plays S ws nw L o) (hneg : o.prevPhaseDiff < 0)
    (p b : ℝ) (hp0 : 0 < p) (hp1 : p < o.prevPhase) (hp2 : o.prevPhase - p ≤ 1 / 2) (o' : Osc ℝ ℂ)
    (ys : List ℝ) (h : S.process .kBidirectionnal o [p] [b] = .ok (o', ys))
    (t : MipMapIndices ℝ) (ht : NextIndices S o (p - o.prevPhase) t) (hdn : t.idx < o.prevMip)
    (N m : ℕ) (hN : N = 2 ^ (L - t.idx.toNat)) (hm : m = 2 ^ (L - o.prevMip.toNat))
    (hx : OffDenormal N o.prevPhase) (c : ℝ) (hc : c = ⌈o.prevPhase * m⌉ / m)
    (hok : c - 2 / N ≤ o.prevPhase) :
    ys = [output (nextMemory S.flt o.prevY (mixture S.env ws L o.crt t) o.prevPhase (p - o.prevPhase))] := by
  have hpl := Sys.reached_play (Sys.exact_rounding hS) hl hS.B ho.1
  have hx1 := hpl.p1
  obtain ⟨wt, -, ht0, ht1, -⟩ := bwd_setup' hS hl ho hp0 hp1 hp2 h ht
  have out : ∀ g : ℤ, S.prevJB o (L - t.idx.toNat) t.idx = g → o.prevPhase * N < g + 1 → g ≤ o.prevPhase * N →
      ys = [output (nextMemory S.flt o.prevY (mixture S.env ws L o.crt t) o.prevPhase (p - o.prevPhase))] :=
    fun g h1 h2 h3 => bwd_in_out hS hl ho hp0 hp1 hp2 h ht hN h1 h2 h3
  set x := o.prevPhase with hxd
  have hN0 : 0 < N := by rw [hN]; positivity
  have hNr : (0 : ℝ) < N := by exact_mod_cast hN0
  set k := (o.prevMip - t.idx).toNat with hk
  set n := L - t.idx.toNat with hnn
  have hm0 := hpl.mip0
  have hm1 := hpl.mip1
  have hk1 : 1 ≤ k := by omega
  have hnk : n = L - o.prevMip.toNat + k := by omega
  have hNm : N = m * 2 ^ k := by rw [hN, hm, hnk, pow_add]
  have hm0' : 0 < m := by rw [hm]; positivity
  have hmr : (0 : ℝ) < m := by exact_mod_cast hm0'
  have hNmr : (N : ℝ) = m * 2 ^ k := by rw [hNm]; push_cast; rfl
  have hNR : (N : ℝ) = 2 ^ n := by rw [hN]; push_cast; rfl
  have hj := hpl.posB hneg
  have hmR : (m : ℝ) = 2 ^ (L - o.prevMip.toNat) := by rw [hm]; push_cast; rfl
  rw [← hmR] at hj
  rw [← hj] at hc
  set g : ℤ := o.jRed * 2 ^ k with hg
  have hcg : c = g / N := by
    rw [hc, hg, hNmr]; push_cast
    rw [mul_div_mul_right _ _ (by positivity)]
  have hxc : x * N ≤ g := by
    have := Int.le_ceil (x * m)
    rw [← hj] at this
    rw [hg, hNmr]; push_cast
    have h2 : (0 : ℝ) < 2 ^ k := by positivity
    have := mul_le_mul_of_nonneg_right this h2.le
    linarith
  have hok' : (g : ℝ) - 2 ≤ x * N := by
    rw [hcg, ← sub_div, div_le_iff₀ hNr] at hok
    exact hok
  have hadj : Sys.adj n t.idx o.prevMip o.jRed o.prevPhaseDiff o.prevPhaseRed =
      g - (if x * N < g - 1 then 1 else 0) := by
    unfold Sys.adj
    rw [if_neg (by omega), if_pos hdn, if_neg (by linarith), ← hk, ← hg, hpl.red, ← hxd]
    have : (((g - 1 : ℤ) : ℝ) / 2 ^ n > x) ↔ x * N < g - 1 := by
      push_cast
      rw [← hNR, gt_iff_lt, lt_div_iff₀ hNr]
    simp only [this]
  by_cases hl1 : x * N < g - 1
  · refine out (g - 2) ?_ (by push_cast; linarith) (by push_cast; exact hok')
    unfold Sys.prevJB
    dsimp only
    rw [if_pos hneg.le, hadj, if_pos hl1, hpl.red, ← hxd]
    rcases Sys.sign_spec (Sys.exact_rounding hS) (n := n) (x := x) (by rw [← hN]; exact hx) (g - 1) with ⟨s1, s2⟩ | ⟨s1, s2⟩ | ⟨s1, s2⟩
    · rw [hNR] at hl1; push_cast at s1; linarith
    · rw [s2]; ring
    · rw [hNR] at hl1; push_cast at s1; linarith
  · rw [not_lt] at hl1
    have hpj : S.prevJB o n t.idx = g + Maths.sign (S.env.fl (x - (g : ℝ) / 2 ^ n)) := by
      unfold Sys.prevJB
      dsimp only
      rw [if_pos hneg.le, hadj, if_neg (not_lt.2 hl1), sub_zero, hpl.red]
    rcases Sys.sign_spec (Sys.exact_rounding hS) (n := n) (x := x) (by rw [← hN]; exact hx) g with ⟨s1, s2⟩ | ⟨s1, s2⟩ | ⟨s1, s2⟩
    · rw [← hNR] at s1
      exact out g (by rw [hpj, s2, add_zero]) (by linarith) s1.ge
    · rw [← hNR] at s1
      exact out (g - 1) (by rw [hpj, s2]; ring) (by push_cast; linarith) (by push_cast; linarith)
    · rw [← hNR] at s1; linarith

/-- a state played backwards in the top octave, then a jump down two octaves -/
theorem jump_down_back (ws : List ℝ) (hws : ws.length = 2 ^ 4) (x : ℝ) (h0 : 9 / 16 ≤ x) (h1 : x ≤ 5 / 8) :
    ∃ (o o' : Osc ℝ ℂ) (y : ℝ) (c c' : CrossFader ℝ),
      At (sysOf envX .kType1) ws 4 o c 2 (x - 15 / 16) x ∧
      (sysOf envX .kType1).process .kBidirectionnal o [x - 1 / 16] [0] = .ok (o', [y]) ∧
      NextIndices (sysOf envX .kType1) o (-(1 / 16)) ⟨0, 0, 0 + 1, 1⟩ ∧
      At (sysOf envX .kType1) ws 4 o' c' 0 (-(1 / 16)) (x - 1 / 16) := by
  have e38 : |(-(3 / 8) : ℝ)| = 3 / 8 := by rw [abs_neg]; exact abs_of_pos (by norm_num)
  have octHi : ∀ e : ℝ, 1 / 4 ≤ e → IsOctave 4 2 e := by
    intro e he
    refine ⟨by norm_num, by norm_num, ?_, Or.inl (by norm_num)⟩
    right; rw [show (2 : ℤ).toNat = 2 from rfl]; norm_num; linarith
  have octLo : IsOctave 4 0 (1 / 16 : ℝ) := by
    refine ⟨le_rfl, by norm_num, Or.inl rfl, Or.inr ?_⟩
    norm_num
  have octMid : IsOctave 4 0 (1 / 10 : ℝ) := by
    refine ⟨le_rfl, by norm_num, Or.inl rfl, Or.inr ?_⟩
    norm_num
  obtain ⟨o0, -, a0, -⟩ := at_init' .kType1 ws 4 (by norm_num) (by norm_num) hws 1 le_rfl (by norm_num)
    (p := 15 / 16) (d := -(3 / 8)) (by norm_num) (by norm_num) octMid
    (cf_up (by norm_num) (by norm_num) (by norm_num) (k := 2) (by rw [e38]; exact octHi _ (by norm_num)) (by norm_num))
  have ab : |x - 15 / 16| = 15 / 16 - x := by rw [abs_of_neg (by linarith)]; ring
  obtain ⟨⟨o1, y1, -, a1⟩, -⟩ := a0.step (dir := .kBidirectionnal) (p' := x) (d' := x - 15 / 16)
    ⟨by linarith, by linarith⟩ (show x ≠ 15 / 16 by linarith) (Or.inl (by norm_num))
    (by unfold Sys.dirDiff Sys.biDiff
        simp only [id]
        rw [if_neg (by linarith), if_neg (by linarith)])
    (cf_last (n := 1) (i := 2 - 1) (k := 2) (L := 4) (by norm_num) (by norm_num) (by rw [ab]; linarith)
      (by norm_num) (by rw [ab]; exact octHi _ (by linarith)))
  have e16 : |(-(1 / 16) : ℝ)| = 1 / 16 := by rw [abs_neg]; exact abs_of_pos (by norm_num)
  obtain ⟨⟨o2, y2, hp2, a2⟩, hn2⟩ := a1.step (dir := .kBidirectionnal) (p' := x - 1 / 16) (d' := -(1 / 16))
    ⟨by linarith, by linarith⟩ (show x - 1 / 16 ≠ x by linarith) (Or.inl (by linarith))
    (by unfold Sys.dirDiff Sys.biDiff
        simp only [id]
        rw [show x - 1 / 16 - x = -(1 / 16) by ring, if_neg (by norm_num), if_neg (by norm_num)])
    (cf_down (n := 1) (i := 2) (k := 0) (L := 4) (by norm_num) (by norm_num) (by rw [e16]; norm_num)
      (by rw [e16]; exact octLo) (by norm_num))
  exact ⟨o1, o2, y2, _, _, a1, hp2, hn2, a2⟩

/-- C101 applies playing backwards: phase 9/16 is three samples before 3/4. -/
example (ws : List ℝ) (hws : ws.length = 2 ^ 4) :
    ∃ (o o' : Osc ℝ ℂ) (y : ℝ), Plays (sysOf envX .kType1) ws 1 4 o ∧ o.prevMip = 2 ∧ o.prevPhase = 9 / 16 ∧
      (sysOf envX .kType1).process .kBidirectionnal o [1 / 2] [0] = .ok (o', [y]) ∧
      y = output (nextMemory (filterX .kType1) o.prevY (waveAt envX ws 4 0 1) (9 / 16) (-(1 / 16))) +
        missed (filterX .kType1) (waveAt envX ws 4 0 1) (3 / 4) (-(2 / 16)) (1 / 2) (-(1 / 16)) := by
  obtain ⟨o, o', y, c, c', a, hp, hn, -⟩ := jump_down_back ws hws (9 / 16) le_rfl (by norm_num)
  rw [show (9 / 16 - 1 / 16 : ℝ) = 1 / 2 by norm_num] at hp
  refine ⟨o, o', y, a.plays, a.mip, a.phase, hp, ?_⟩
  have ed : (1 / 2 : ℝ) - 9 / 16 = -(1 / 16) := by norm_num
  have key := C101_error_back (sysOf envX .kType1) (exactSys .kType1) log2X ws 1 4 o a.plays
    (by rw [a.diff]; norm_num) (1 / 2) 0 (by norm_num) (by rw [a.phase]; norm_num)
    (by rw [a.phase]; norm_num) o' [y] hp ⟨0, 0, 0 + 1, 1⟩ (by rw [a.phase, ed]; exact hn)
    (by rw [a.mip]; norm_num) 16 4 (by norm_num) (by rw [a.mip]; rfl)
    (by rw [a.phase]
        have := offDenormal_dyadic 9 4 4 (by norm_num) le_rfl
        norm_num at this ⊢
        exact this) (3 / 4)
    (by rw [a.phase]
        have : ⌈(9 / 16 : ℝ) * ((4 : ℕ) : ℝ)⌉ = 3 := by rw [Int.ceil_eq_iff]; norm_num
        rw [this]; norm_num)
    (by rw [a.phase]; norm_num)
  have key := List.head_eq_of_cons_eq key
  rw [a.crt, a.phase, ed] at key
  rw [key]
  congr 1
  · congr 2
    funext u
    unfold mixture
    simp only [zero_add, zero_mul, one_mul]
    rfl
  · rw [zero_mul, zero_add, one_mul]
    push_cast
    rfl

/-- the other case of C101 playing backwards, right on the edge: phase 5/8 is two samples before 3/4. -/
example (ws : List ℝ) (hws : ws.length = 2 ^ 4) :
    ∃ (o o' : Osc ℝ ℂ) (y : ℝ), Plays (sysOf envX .kType1) ws 1 4 o ∧ o.prevMip = 2 ∧ o.prevPhase = 5 / 8 ∧
      (sysOf envX .kType1).process .kBidirectionnal o [9 / 16] [0] = .ok (o', [y]) ∧
      y = output (nextMemory (filterX .kType1) o.prevY (waveAt envX ws 4 0 1) (5 / 8) (-(1 / 16))) := by
  obtain ⟨o, o', y, c, c', a, hp, hn, -⟩ := jump_down_back ws hws (5 / 8) (by norm_num) le_rfl
  rw [show (5 / 8 - 1 / 16 : ℝ) = 9 / 16 by norm_num] at hp
  refine ⟨o, o', y, a.plays, a.mip, a.phase, hp, ?_⟩
  have ed : (9 / 16 : ℝ) - 5 / 8 = -(1 / 16) := by norm_num
  have key := C101_right_back (sysOf envX .kType1) (exactSys .kType1) log2X ws 1 4 o a.plays
    (by rw [a.diff]; norm_num) (9 / 16) 0 (by norm_num) (by rw [a.phase]; norm_num)
    (by rw [a.phase]; norm_num) o' [y] hp ⟨0, 0, 0 + 1, 1⟩ (by rw [a.phase, ed]; exact hn)
    (by rw [a.mip]; norm_num) 16 4 (by norm_num) (by rw [a.mip]; rfl)
    (by rw [a.phase]
        have := offDenormal_dyadic 10 4 4 (by norm_num) le_rfl
        norm_num at this ⊢
        exact this) (3 / 4)
    (by rw [a.phase]
        have : ⌈(5 / 8 : ℝ) * ((4 : ℕ) : ℝ)⌉ = 3 := by rw [Int.ceil_eq_iff]; norm_num
        rw [this]; norm_num)
    (by rw [a.phase]; norm_num)
  have key := List.head_eq_of_cons_eq key
  rw [a.crt, a.phase, ed] at key
  rw [key]
  congr 2
  funext u
  unfold mixture
  simp only [zero_add, zero_mul, one_mul]
  rfl

end Adwt.Props
