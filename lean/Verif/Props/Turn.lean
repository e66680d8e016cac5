import Verif.Props.JumpOk

/-!
# C100: turning round
-/

set_option linter.unusedSectionVars false

namespace Adwt.Props
open Seg MeasureTheory

/-- C100: turning round. After a backward step, playing forwards, take the sample on which the lower table
moves up by `k` octaves. At the phases of `C100_error` this sample, too, contains what was never played: the
difference between each table and the line of the segment before the right one. -/
theorem C100_turn (S : Sys ℝ ℂ) (hS : ExactSys S) (hl : Log2Spec S.env.log2f) (ws : List ℝ)
    (nw L : ℕ) (o : Osc ℝ ℂ) (ho : Plays S ws nw L o) (hneg : o.prevPhaseDiff < 0) (dir : Sys.Direction)
    (p b : ℝ) (hp0 : o.prevPhase < p) (hp1 : p < 1) (hp2 : p - o.prevPhase ≤ 1 / 2) (o' : Osc ℝ ℂ)
    (ys : List ℝ) (h : S.process dir o [p] [b] = .ok (o', ys))
    (t : MipMapIndices ℝ) (ht : NextIndices S o (p - o.prevPhase) t) (hup : o.prevMip < t.idx)
    (N : ℕ) (hN : N = 2 ^ (L - t.idx.toNat)) (a' : ℤ) (ha : 1 ≤ a') (ha0 : a' < o.prevPhase * N)
    (ha1 : o.prevPhase * N ≤ a' + 1 - 1 / 2 ^ (t.idx - o.prevMip).toNat) :
    ys = [output (nextMemory S.flt o.prevY (mixture S.env ws L o.crt t) o.prevPhase (p - o.prevPhase)) +
      (t.weight * missed S.flt (waveAt S.env ws L o.crt t.idx) ((a' - 1 : ℤ) / N) (1 / N) p (p - o.prevPhase) +
       t.weightUp * missed S.flt (waveAt S.env ws L o.crt t.idxUp) (2 * ((a' - 1) / 2 : ℤ) / N) (2 / N) p
        (p - o.prevPhase))] := by
  have hpl := Sys.reached_play (Sys.exact_rounding hS) hl hS.B ho.1
  obtain ⟨wt, hwt, hlin⟩ := ho.lines hS.fl hl
  obtain ⟨y, e, rfl⟩ := process_one (by rw [hwt]; rfl) h
  have hw : WtOk nw L wt := by
    obtain ⟨wt', e', h'⟩ := hpl.wt
    rw [hwt] at e'; cases e'; exact h'
  have hx0 := hpl.p0
  have hx1 := hpl.p1
  set x := o.prevPhase with hxd
  set d := p - x with hd
  have hd0 : 0 < d := by rw [hd]; linarith
  have e : S.processSampleFwd o p d = .ok (o', y) := by
    cases dir with
    | kForward =>
      have e : S.stepFwd o p = .ok (o', y) := e
      unfold Sys.stepFwd at e
      dsimp only at e
      rw [hS.fl] at e
      simp only [id] at e
      rw [← hxd, ← hd, if_neg (by linarith), chk_true ⟨hd0, hp2⟩, R.ok_bind] at e
      exact e
    | kBidirectionnal =>
      have e : S.stepBi o p = .ok (o', y) := e
      have hbi : Sys.biDiff S.env.fl p o.prevPhase = d := by
        rw [hS.fl]
        unfold Sys.biDiff
        simp only [id]
        rw [← hxd, ← hd, if_neg (by linarith), if_neg (by linarith)]
      unfold Sys.stepBi at e
      dsimp only at e
      rw [hbi, if_pos hd0.le] at e
      exact e
  obtain ⟨wt1, wt', e1, hfind⟩ := ht
  rw [hwt] at e1; cases e1
  unfold WavetableData.findMipMapIndices at hfind
  obtain ⟨⟨cf, t'⟩, hn, hfind⟩ := bind_ok hfind
  cases hfind
  obtain ⟨c', t', hn', -, -, -, ht0, ht1, htu⟩ := Sys.find_spec (Sys.exact_rounding hS) hw (abs_pos.2 hd0.ne')
  rw [hn] at hn'; cases hn'
  have hw1 := (Sys.weight_one hS.fl hw.inv (abs_pos.2 hd0.ne') hn).1
  rw [abs_of_pos hd0] at hn
  rw [Sys.fwd_eq (Sys.exact_rounding hS) hS.B hwt hpl.toOscOk hw hpl.crt0 hpl.crt1 (by linarith) hp1
    (by rw [hS.fl]; rfl) hd0 hp2 hn (fun q _ => absurd q (by linarith))] at e
  cases e
  have hN0 : 0 < N := by rw [hN]; positivity
  have hNr : (0 : ℝ) < N := by exact_mod_cast hN0
  set k := (t.idx - o.prevMip).toNat with hk
  set n := L - t.idx.toNat with hnn
  have hm0 := hpl.mip0
  have hm1 := hpl.mip1
  have hnk : L - o.prevMip.toNat = n + k := by omega
  have hNz : (N : ℤ) = 2 ^ n := by rw [hN]; push_cast; rfl
  have hNR : (N : ℝ) = 2 ^ n := by rw [hN]; push_cast; rfl
  have hk2 : (0 : ℝ) < 2 ^ k := by positivity
  have hkz : (0 : ℤ) < 2 ^ k := by positivity
  have hj := hpl.posB hneg
  set g : ℤ := a' - 1 with hg
  have hg0 : 0 ≤ g := by omega
  have hpj : S.prevJF o n t.idx = g + 1 := by
    unfold Sys.prevJF Sys.adj
    dsimp only
    rw [if_neg (not_le.2 hneg), if_pos hup, hj, hnk, ← hxd, hg, sub_add_cancel, ← hk]
    have q1 : a' * 2 ^ k < ⌈x * 2 ^ (n + k)⌉ := by
      rw [Int.lt_ceil, pow_add, ← mul_assoc, ← hNR]
      push_cast
      exact mul_lt_mul_of_pos_right ha0 hk2
    have q2 : ⌈x * 2 ^ (n + k)⌉ ≤ (a' + 1) * 2 ^ k - 1 := by
      rw [Int.ceil_le, pow_add, ← mul_assoc, ← hNR]
      push_cast
      have := mul_le_mul_of_nonneg_right ha1 hk2.le
      rw [sub_mul, div_mul_cancel₀ _ hk2.ne'] at this
      exact this
    apply Int.le_antisymm
    · have : ⌈x * 2 ^ (n + k)⌉ / 2 ^ k < a' + 1 := Int.ediv_lt_of_lt_mul hkz (by omega)
      omega
    · exact Int.le_ediv_of_mul_le hkz q1.le
  have hxN : x * N < N := by
    have := mul_lt_mul_of_pos_right hx1 hNr
    linarith
  have hpN : p * N < N := by
    have := mul_lt_mul_of_pos_right hp1 hNr
    linarith
  set a := ⌊x * N⌋ with hA
  have hA1 := Int.floor_le (x * N)
  have hA2 := Int.lt_floor_add_one (x * N)
  rw [← hA] at hA1 hA2
  have haa : a = a' := by
    rw [hA, Int.floor_eq_iff]
    have : (0 : ℝ) < 1 / 2 ^ k := by positivity
    exact ⟨ha0.le, by linarith⟩
  have hga : g ≤ a := by omega
  set jx := ⌊p * N⌋ with hjx
  have hj1 := Int.floor_le (p * N)
  have hj2 := Int.lt_floor_add_one (p * N)
  rw [← hjx] at hj1 hj2
  have haj : a ≤ jx := by
    rw [hA, hjx]
    exact Int.floor_le_floor (mul_le_mul_of_nonneg_right hp0.le hNr.le)
  have hjN : jx < N := by
    have : (jx : ℝ) < N := by linarith
    exact_mod_cast this
  have hxne : x ≠ 0 := by
    intro q; rw [q, zero_mul] at ha0
    have : (0 : ℝ) ≤ a' := by exact_mod_cast (by omega : 0 ≤ a')
    linarith
  have low : ∀ i < S.n, S.fwdAt wt o.crt t.idx (2 ^ n) o.prevPhaseRed g jx d p i =
      S.zA i ^ 2 * (response (waveAt S.env ws L o.crt t.idx) (S.zA i) x d +
        ∫ s in ((g + 1 : ℤ) / N : ℝ)..x, f (fun s =>
          W N (cyc (mipSamples S.env (waveformOf ws (2 ^ L) o.crt.toNat) t.idx.toNat)) s -
          line N (cyc (mipSamples S.env (waveformOf ws (2 ^ L) o.crt.toNat) t.idx.toNat)) g s)
          (S.zA i) p d s) := by
    intro i hi
    have hll := hlin.lines o.crt t.idx hpl.crt0 hpl.crt1 ht0 ht1
    have hlen := hlin.len o.crt t.idx hpl.crt0 hpl.crt1 ht0 ht1
    rw [← hnn, ← hN] at hlen hll
    unfold waveAt Sys.fwdAt
    rw [interp_eq, hlen, hpl.red, ← hxd, ← hNz]
    have key := Sys.fwdVal_lows hS (fun i => by rw [← hlen]; exact cyc_period _ i) hll haj hjN hd0.ne' hxne hd
      (by constructor
          · rw [div_le_iff₀ hNr]; exact hA1
          · rw [le_div_iff₀ hNr]; exact hA2.le)
      (by constructor
          · rw [div_le_iff₀ hNr]; exact hj1
          · rw [le_div_iff₀ hNr]; exact hj2.le) hi (a - g).toNat (by omega)
    rw [show a - ((a - g).toNat : ℤ) = g by omega] at key
    exact key
  have low2 : (∑ i ∈ Finset.range S.n, 2 * S.rA i * ∫ s in ((g + 1 : ℤ) / N : ℝ)..x, f (fun s =>
      W N (cyc (mipSamples S.env (waveformOf ws (2 ^ L) o.crt.toNat) t.idx.toNat)) s -
      line N (cyc (mipSamples S.env (waveformOf ws (2 ^ L) o.crt.toNat) t.idx.toNat)) g s)
      (S.zA i) p d s).re = missed S.flt (waveAt S.env ws L o.crt t.idx) (g / N) (1 / N) p d := by
    have hlen := hlin.len o.crt t.idx hpl.crt0 hpl.crt1 ht0 ht1
    rw [← hnn, ← hN] at hlen
    unfold waveAt
    rw [missed_eq hN0 g hd0.ne' hd, interp_eq, hlen]
  -- the upper table
  have hn1 : 1 ≤ n := by omega
  have hN2 : N = 2 * 2 ^ (n - 1) := by
    rw [hN, ← pow_succ', Nat.sub_add_cancel hn1]
  set M' : ℕ := 2 ^ (n - 1) with hM'
  have hM0 : 0 < M' := by positivity
  have hMr : (0 : ℝ) < M' := by exact_mod_cast hM0
  have hNM : (N : ℝ) = 2 * M' := by rw [hN2]; push_cast; rfl
  have up : t.weightUp ≠ 0 → ∀ i < S.n,
      S.fwdAt wt o.crt t.idxUp (2 ^ (n - 1)) o.prevPhaseRed (g / 2) (jx / 2) d p i =
      S.zA i ^ 2 * (response (waveAt S.env ws L o.crt t.idxUp) (S.zA i) x d +
        ∫ s in ((g / 2 + 1 : ℤ) / M' : ℝ)..x, f (fun s =>
          W M' (cyc (mipSamples S.env (waveformOf ws (2 ^ L) o.crt.toNat) t.idxUp.toNat)) s -
          line M' (cyc (mipSamples S.env (waveformOf ws (2 ^ L) o.crt.toNat) t.idxUp.toNat)) (g / 2) s)
          (S.zA i) p d s) := by
    intro hup i hi
    obtain ⟨u1, u2⟩ := htu hup
    have hnu : L - t.idxUp.toNat = n - 1 := by omega
    have hll := hlin.lines o.crt t.idxUp hpl.crt0 hpl.crt1 (by omega) u2
    have hlen := hlin.len o.crt t.idxUp hpl.crt0 hpl.crt1 (by omega) u2
    rw [hnu, ← hM'] at hlen hll
    unfold waveAt Sys.fwdAt
    rw [interp_eq, hlen, hpl.red, ← hxd, show (2 : ℤ) ^ (n - 1) = (M' : ℤ) by rw [hM']; push_cast; rfl]
    have q1 : (2 * (a / 2 : ℤ) : ℝ) ≤ a ∧ (a : ℝ) ≤ 2 * (a / 2 : ℤ) + 1 := by
      have : 2 * (a / 2) ≤ a ∧ a ≤ 2 * (a / 2) + 1 := by omega
      exact_mod_cast this
    have q2 : (2 * (jx / 2 : ℤ) : ℝ) ≤ jx ∧ (jx : ℝ) ≤ 2 * (jx / 2 : ℤ) + 1 := by
      have : 2 * (jx / 2) ≤ jx ∧ jx ≤ 2 * (jx / 2) + 1 := by omega
      exact_mod_cast this
    have key := Sys.fwdVal_lows hS (N := M') (a := a / 2) (jmax := jx / 2)
      (fun i => by rw [← hlen]; exact cyc_period _ i) hll (by omega) (by omega) hd0.ne' hxne hd
      (by rw [hNM] at hA1 hA2
          constructor
          · rw [div_le_iff₀ hMr]; linarith [q1.1]
          · rw [le_div_iff₀ hMr]; linarith [q1.2])
      (by rw [hNM] at hj1 hj2
          constructor
          · rw [div_le_iff₀ hMr]; linarith [q2.1]
          · rw [le_div_iff₀ hMr]; linarith [q2.2]) hi (a / 2 - g / 2).toNat (by omega)
    rw [show a / 2 - ((a / 2 - g / 2).toNat : ℤ) = g / 2 by omega] at key
    exact key
  have up2 : t.weightUp ≠ 0 → (∑ i ∈ Finset.range S.n, 2 * S.rA i * ∫ s in ((g / 2 + 1 : ℤ) / M' : ℝ)..x, f (fun s =>
      W M' (cyc (mipSamples S.env (waveformOf ws (2 ^ L) o.crt.toNat) t.idxUp.toNat)) s -
      line M' (cyc (mipSamples S.env (waveformOf ws (2 ^ L) o.crt.toNat) t.idxUp.toNat)) (g / 2) s)
      (S.zA i) p d s).re = missed S.flt (waveAt S.env ws L o.crt t.idxUp) (2 * (g / 2 : ℤ) / N) (2 / N) p d := by
    intro hup
    obtain ⟨u1, u2⟩ := htu hup
    have hnu : L - t.idxUp.toNat = n - 1 := by omega
    have hlen := hlin.len o.crt t.idxUp hpl.crt0 hpl.crt1 (by omega) u2
    rw [hnu, ← hM'] at hlen
    unfold waveAt
    rw [missed_eq hM0 (g / 2) hd0.ne' hd, interp_eq, hlen, hNM]
    congr 1
    · rw [mul_div_mul_left _ _ (by norm_num)]
    · field_simp
  have hjm : (S.prevJF o n t.idx - 1) % 2 ^ n = g := by
    rw [hpj, ← hNz, Int.emod_eq_of_lt (by omega) (by omega)]; ring
  set E0 : ℕ → ℂ := fun i => ∫ s in ((g + 1 : ℤ) / N : ℝ)..x, f (fun s =>
      W N (cyc (mipSamples S.env (waveformOf ws (2 ^ L) o.crt.toNat) t.idx.toNat)) s -
      line N (cyc (mipSamples S.env (waveformOf ws (2 ^ L) o.crt.toNat) t.idx.toNat)) g s)
      (S.zA i) p d s with hE0
  set E1 : ℕ → ℂ := fun i => ∫ s in ((g / 2 + 1 : ℤ) / M' : ℝ)..x, f (fun s =>
      W M' (cyc (mipSamples S.env (waveformOf ws (2 ^ L) o.crt.toNat) t.idxUp.toNat)) s -
      line M' (cyc (mipSamples S.env (waveformOf ws (2 ^ L) o.crt.toNat) t.idxUp.toNat)) (g / 2) s)
      (S.zA i) p d s with hE1
  have hacc : ∀ i < S.n, S.accF wt L o t p d i = S.zA i ^ 2 *
      (response (mixture S.env ws L o.crt t) (S.zA i) x d + (t.weight * E0 i + t.weightUp * E1 i)) := by
    intro i hi
    unfold Sys.accF Sys.mix
    rw [← hnn, hjm, ← hNR, ← hjx, hS.ops]
    unfold mixture
    rw [response_add (W := waveAt S.env ws L o.crt t.idx) (V := waveAt S.env ws L o.crt t.idxUp)
      (interp_continuous _) (interp_continuous _)]
    by_cases hup : t.weightUp = 0
    · rw [if_neg (by simp [hup]), low i hi]
      rw [hup, add_zero] at hw1
      rw [hup, hw1, Complex.ofReal_one, Complex.ofReal_zero]
      simp only [hE0]
      ring
    · rw [if_pos hup, low i hi, up hup i hi]
      simp only [copsX]
      ring
  rw [out_error_gen hS o.prevY hacc]
  congr 2
  have hs : (∑ i ∈ Finset.range S.n, 2 * S.rA i * (t.weight * E0 i + t.weightUp * E1 i)) =
      ((t.weight : ℝ) : ℂ) * (∑ i ∈ Finset.range S.n, 2 * S.rA i * E0 i) +
      ((t.weightUp : ℝ) : ℂ) * (∑ i ∈ Finset.range S.n, 2 * S.rA i * E1 i) := by
    rw [Finset.mul_sum, Finset.mul_sum, ← Finset.sum_add_distrib]
    apply Finset.sum_congr rfl
    intro i _; ring
  rw [hs, Complex.add_re, Complex.re_ofReal_mul, Complex.re_ofReal_mul, low2]
  by_cases hup : t.weightUp = 0
  · rw [hup, zero_mul, zero_mul]
  · rw [up2 hup]

/-- eight samples, a fade of one sample: `init` for a high note played backwards leaves the table at 0, and
the first sample moves it to 1 -/
theorem after_init (ws : List ℝ) (hws : ws.length = 8) (x p d : ℝ) (h0 : 0 < x) (h1 : x < 1) (hp0 : 0 < p)
    (hp1 : p < 1) (hd : d = p - x) (hdl : 1 / 4 ≤ |d|) (hdr : |d| ≤ 3 / 8) :
    ∃ (wt : WavetableData ℝ) (o o' : Osc ℝ ℂ) (y : ℝ) (t : MipMapIndices ℝ),
      (sysOf envX .kType1).init (sysOf envX .kType1).fresh (some wt) x (-(3 / 8)) = .ok (o, 0) ∧
      Plays (sysOf envX .kType1) ws 1 3 o ∧
      o.prevPhaseDiff = -(3 / 8) ∧ o.prevPhase = x ∧ o.prevMip = 0 ∧ o.crt = 0 ∧ (∀ c ∈ o.prevY, c = 0) ∧
      (sysOf envX .kType1).process .kBidirectionnal o [p] [0] = .ok (o', [y]) ∧
      NextIndices (sysOf envX .kType1) o (p - x) t ∧ t = ⟨1, 1, 1, 0⟩ := by
  have e38 : |(-(3 / 8) : ℝ)| = 3 / 8 := by norm_num [abs_of_pos]
  have oct1 : ∀ e : ℝ, 1 / 4 ≤ e → IsOctave 3 1 e := by
    intro e he
    refine ⟨by norm_num, by norm_num, ?_, Or.inl (by norm_num)⟩
    right; norm_num; linarith
  obtain ⟨o1, hi, h1', hy⟩ := at_init' .kType1 ws 3 (by norm_num) (by norm_num) hws 1
    le_rfl (by norm_num) (p := x) (d := -(3 / 8)) ⟨h0.le, h1⟩ (by norm_num) (i := 0)
    (by refine ⟨le_rfl, by norm_num, Or.inl rfl, Or.inr ?_⟩; norm_num)
    (cf_up (by norm_num) (by norm_num) (by norm_num) (k := 1)
      (by rw [e38]; exact oct1 _ (by norm_num)) (by norm_num))
  have hn := cf_last (n := 1) (i := 0) (k := 1) (L := 3) (d := |d|) (by norm_num) (by norm_num) (by linarith)
    (by norm_num) (oct1 _ hdl)
  have hr := abs_le.1 hdr
  obtain ⟨⟨o3, y3, hp3, -⟩, hni⟩ := h1'.step (dir := .kBidirectionnal) (p' := p) (d' := d)
    ⟨hp0.le, hp1⟩ (show p ≠ x by intro q; rw [q, sub_self] at hd; rw [hd] at hdl; norm_num at hdl) (Or.inl h0.ne')
    (by unfold Sys.dirDiff Sys.biDiff
        simp only [id]
        rw [← hd, if_neg (by linarith), if_neg (by linarith)]) hn
  refine ⟨_, o1, o3, y3, _, hi, h1'.plays, h1'.diff, h1'.phase, by rw [h1'.mip]; norm_num, h1'.crt, ?_, hp3,
    by rw [← hd]; exact hni, rfl⟩
  rw [hy]
  intro c hc
  exact (List.mem_replicate.1 hc).2

/-- C100 applies to the first sample of a sound: `init` at phase 3/8 for a high note played backwards, then one
sample. -/
example : ∃ (wt : WavetableData ℝ) (o o' : Osc ℝ ℂ) (y : ℝ),
    (sysOf envX .kType1).init (sysOf envX .kType1).fresh (some wt) (3 / 8) (-(3 / 8)) = .ok (o, 0) ∧
    (sysOf envX .kType1).process .kBidirectionnal o [1 / 8] [0] = .ok (o', [y]) ∧
    y > output (nextMemory (filterX .kType1) o.prevY (waveAt envX [0, 0, 0, 0, -1, 0, 0, 0] 3 0 1) (3 / 8)
      (1 / 8 - 3 / 8)) := by
  obtain ⟨wt, o2, o3, y3, t, hi, hpl, hd, hph, hm, hc, -, hp3, hni, rfl⟩ :=
    after_init [0, 0, 0, 0, -1, 0, 0, 0] rfl (3 / 8) (1 / 8) (1 / 8 - 3 / 8) (by norm_num) (by norm_num)
      (by norm_num) (by norm_num) rfl (by norm_num [abs_of_pos]) (by norm_num [abs_of_pos])
  refine ⟨wt, o2, o3, y3, hi, hp3, ?_⟩
  have hV : waveAt envX [0, 0, 0, 0, -1, 0, 0, 0] 3 0 1 = interp [0, 0, -1, 0] := by
    unfold waveAt
    rw [show (1 : ℤ).toNat = 1 from rfl, show (0 : ℤ).toNat = 0 from rfl, mip_one _ 3 4 (by norm_num) rfl]
    norm_num [List.range, List.range.loop]
  have key := C100_click [0, 0, 0, 0, -1, 0, 0, 0] 1 3 o2 hpl (by rw [hd]; norm_num) (1 / 8) 0
    (by norm_num) (by rw [hph]; norm_num) (by rw [hph]; norm_num) o3 y3 hp3 ⟨1, 1, 1, 0⟩
    (by rw [hph]; exact hni) rfl
    (by rw [hm]; norm_num) 4 (by norm_num)
    (by rw [hph]
        have := offDenormal_dyadic 3 3 2 (by norm_num) (by norm_num)
        norm_num at this ⊢
        exact this) 1 (by rw [hph]; norm_num) (by rw [hph, hm]; norm_num) (by norm_num)
    (by rw [hph]; norm_num) _ rfl
  rw [hph, hc] at key
  apply key.1
  rw [hV]
  norm_num [interp, cyc, tn2, tn3]

/-- C100 applies to a first sample in the other direction -/
example (ws : List ℝ) (hws : ws.length = 8) : ∃ (wt : WavetableData ℝ) (o o' : Osc ℝ ℂ) (y : ℝ),
    (sysOf envX .kType1).init (sysOf envX .kType1).fresh (some wt) (3 / 8) (-(3 / 8)) = .ok (o, 0) ∧
    (sysOf envX .kType1).process .kBidirectionnal o [5 / 8] [0] = .ok (o', [y]) ∧
    y = output (nextMemory (filterX .kType1) o.prevY (waveAt envX ws 3 0 1) (3 / 8) (5 / 8 - 3 / 8)) +
      missed (filterX .kType1) (waveAt envX ws 3 0 1) 0 (1 / 4) (5 / 8) (5 / 8 - 3 / 8) := by
  obtain ⟨wt, o2, o3, y3, t, hi, hpl, hd, hph, hm, hc, -, hp3, hni, rfl⟩ :=
    after_init ws hws (3 / 8) (5 / 8) (5 / 8 - 3 / 8) (by norm_num) (by norm_num)
      (by norm_num) (by norm_num) rfl (by norm_num [abs_of_pos]) (by norm_num [abs_of_pos])
  refine ⟨wt, o2, o3, y3, hi, hp3, ?_⟩
  have key := C100_turn (sysOf envX .kType1) (exactSys .kType1) log2X ws 1 3 o2 hpl (by rw [hd]; norm_num)
    .kBidirectionnal (5 / 8) 0 (by rw [hph]; norm_num) (by norm_num) (by rw [hph]; norm_num) o3 [y3] hp3
    ⟨1, 1, 1, 0⟩ (by rw [hph]; exact hni) (by rw [hm]; norm_num) 4 (by norm_num) 1 le_rfl
    (by rw [hph]; norm_num) (by rw [hph, hm]; norm_num)
  have key := List.head_eq_of_cons_eq key
  rw [hc, hph] at key
  rw [key]
  have hmix : mixture (sysOf envX .kType1).env ws 3 0 ⟨1, 1, 1, 0⟩ = waveAt envX ws 3 0 1 := by
    funext u
    unfold mixture
    simp only [zero_mul, one_mul, add_zero]
    rfl
  rw [hmix]
  simp only [zero_mul, one_mul, add_zero, sub_self, Int.cast_zero, zero_div]
  push_cast
  rfl

end Adwt.Props
