import Verif.Props.JumpLoud

/-!
# C101: when a jump down is right
-/

set_option linter.unusedSectionVars false

namespace Adwt
open Seg

variable {S : Sys ℝ ℂ} {nw L : ℕ} {o : Osc ℝ ℂ} {ws : List ℝ}

/-- a forward sample whose first segment contains the phase it starts from -/
theorem Sys.accF_exact_in (hS : ExactSys S) {wt : WavetableData ℝ} (ho : OscPlay S nw L o)
    (hlin : HasLines S.env ws nw L wt) {p d : ℝ} (hp : PhaseOk S.env.fl p) (hd0 : 0 < d)
    (hd1 : d < 3 / 4) (hd : d = p - o.prevPhase ∨ d = p - o.prevPhase + 1)
    {t : MipMapIndices ℝ} (ht0 : 0 ≤ t.idx) (ht1 : t.idx < (L : ℤ) - 1)
    (htu : t.weightUp ≠ 0 → t.idxUp = t.idx + 1 ∧ t.idxUp < (L : ℤ) - 1)
    (hw : t.weightUp = 0 → t.weight = 1)
    (hin : In ((2 ^ (L - t.idx.toNat) : ℕ) : ℝ) ((S.prevJF o (L - t.idx.toNat) t.idx - 1) % 2 ^ (L - t.idx.toNat))
      (Sys.bar o.prevPhase)) {k : ℕ} (hk : k < S.n) :
    S.accF wt L o t p d k =
      S.zA k ^ 2 * response (mixture S.env ws L o.crt t) (S.zA k) o.prevPhase d := by
  unfold accF
  set n := L - t.idx.toNat with hn
  have hpz : (0 : ℤ) < 2 ^ n := by positivity
  have hn2 : 2 ≤ n := by omega
  have hn18 : n ≤ 18 := by
    obtain ⟨wt, -, h⟩ := ho.wt
    have := h.L18; omega
  obtain ⟨hj0, hj1⟩ := floor_range hn18 hp.1 hp.2.1
  set jmin := (S.prevJF o n t.idx - 1) % 2 ^ n with hjm
  have hjm0 : 0 ≤ jmin := Int.emod_nonneg _ hpz.ne'
  have hjm1 : jmin < 2 ^ n := Int.emod_lt_of_pos _ hpz
  set jmax := ⌊p * 2 ^ n⌋ with hjx
  obtain ⟨hv, hv'⟩ := floor_in (n := n) p
  rw [← hjx] at hv hv'
  have hN4 : 4 ≤ 2 ^ n := by
    calc 4 = 2 ^ 2 := by norm_num
      _ ≤ 2 ^ n := Nat.pow_le_pow_right (by norm_num) hn2
  apply mix_exact hS hw
  · have hlen := hlin.len o.crt t.idx ho.crt0 ho.crt1 ht0 ht1
    have hl := hlin.lines o.crt t.idx ho.crt0 ho.crt1 ht0 ht1
    unfold waveAt
    rw [interp_eq, hlen]
    rw [← hn] at hlen hl ⊢
    unfold fwdAt
    rw [ho.red]
    have key := fwdVal_exact hS (N := 2 ^ n) (fun i => by rw [← hlen]; exact cyc_period _ i) hl hjm0
      (by push_cast; exact hjm1) hj0 (by push_cast; exact hj1) hd0.ne' hin
      (in_of' (by positivity) hv hv'.le)
      (wrapF hN4 ho.p0 hp.1 hp.2.1 hjm0 (by push_cast; exact hjm1) hin hv hv' hd0 (by linarith) hd) hk
    push_cast at key ⊢
    exact key
  · intro hup
    obtain ⟨hu1, hu2⟩ := htu hup
    have hnu : L - t.idxUp.toNat = n - 1 := by omega
    have hlen := hlin.len o.crt t.idxUp ho.crt0 ho.crt1 (by omega) hu2
    have hl := hlin.lines o.crt t.idxUp ho.crt0 ho.crt1 (by omega) hu2
    unfold waveAt
    rw [interp_eq, hlen]
    rw [hnu] at hlen hl ⊢
    unfold fwdAt
    rw [ho.red]
    obtain ⟨-, e2, e3⟩ := half_range (n := n) (by omega) hjm0 hjm1
    obtain ⟨-, e5, e6⟩ := half_range (n := n) (by omega) hj0 hj1
    have hN4' : 4 ≤ 2 ^ (n - 1) := by
      calc 4 = 2 ^ 2 := by norm_num
        _ ≤ 2 ^ (n - 1) := Nat.pow_le_pow_right (by norm_num) (by omega)
    have hin' := half_in (n := n) (by omega) hin
    have hv2 := half_le (n := n) (by omega) hv
    have hv2' := half_gt (n := n) (by omega) hv'
    have key := fwdVal_exact hS (N := 2 ^ (n - 1)) (fun i => by rw [← hlen]; exact cyc_period _ i)
      hl e2 (by push_cast; exact e3) e5 (by push_cast; exact e6) hd0.ne' hin'
      (in_of' (by positivity) hv2 hv2'.le)
      (wrapF hN4' ho.p0 hp.1 hp.2.1 e2 (by push_cast; exact e3) hin' hv2 hv2' hd0 (by linarith) hd) hk
    push_cast at key ⊢
    exact key

end Adwt

namespace Adwt.Props
open Seg MeasureTheory

/-- nothing is missed within one segment -/
theorem missed_zero {S : Sys ℝ ℂ} {N : ℕ} (hN : 0 < N) {Y : ℤ → ℝ} (b : ℤ) {p d x : ℝ} (hd : d ≠ 0)
    (hx : d = p - x) (h0 : (b : ℝ) / N ≤ x) (h1 : x ≤ ((b + 1 : ℤ) : ℝ) / N) :
    missed S.flt (W N Y) (b / N) (1 / N) p d = 0 := by
  have hNr : (0 : ℝ) < N := by exact_mod_cast hN
  rw [← missed_eq hN b hd hx]
  have e : ∀ k, (∫ s in (((b + 1 : ℤ) : ℝ) / N)..x, f (fun s => W N Y s - line N Y b s) (S.zA k) p d s) = 0 := by
    intro k
    rw [intervalIntegral.integral_congr (g := fun _ => (0 : ℂ))]
    · simp
    · intro s hs
      rw [Set.uIcc_of_ge h1] at hs
      have : W N Y s - line N Y b s = 0 := by
        rw [W_eq hNr (i := b) (h0.trans hs.1) (by have := hs.2; push_cast at this; exact this), sub_self]
      unfold f
      simp [this]
  rw [Finset.sum_eq_zero fun k _ => by rw [e k, mul_zero], Complex.zero_re]

/-- C101: the phases at which a jump down is right: those at most two samples of the new table after the
last grid point of the old table (for a move by one octave, all). -/
theorem C101_right (S : Sys ℝ ℂ) (hS : ExactSys S) (hl : Log2Spec S.env.log2f) (ws : List ℝ)
    (nw L : ℕ) (o : Osc ℝ ℂ) (ho : Plays S ws nw L o) (hpos : 0 < o.prevPhaseDiff) (dir : Sys.Direction)
    (p b : ℝ) (hp0 : o.prevPhase < p) (hp1 : p < 1) (hp2 : p - o.prevPhase ≤ 1 / 2) (o' : Osc ℝ ℂ)
    (ys : List ℝ) (h : S.process dir o [p] [b] = .ok (o', ys))
    (t : MipMapIndices ℝ) (ht : NextIndices S o (p - o.prevPhase) t) (hdn : t.idx < o.prevMip)
    (N m : ℕ) (hN : N = 2 ^ (L - t.idx.toNat)) (hm : m = 2 ^ (L - o.prevMip.toNat))
    (hx : OffDenormal N o.prevPhase) (c : ℝ) (hc : c = ⌊o.prevPhase * m⌋ / m)
    (hok : o.prevPhase ≤ c + 2 / N) :
    ys = [output (nextMemory S.flt o.prevY (mixture S.env ws L o.crt t) o.prevPhase (p - o.prevPhase))] := by
  by_cases hlost : c + 1 / N < o.prevPhase
  · have key := C101_error S hS hl ws nw L o ho hpos dir p b hp0 hp1 hp2 o' ys h t ht hdn N m hN hm hx c hc hlost
    rw [key]
    congr 1
    have hpl := Sys.reached_play (Sys.exact_rounding hS) hl hS.B ho.1
    obtain ⟨wt, hwt, hlin⟩ := ho.lines hS.fl hl
    have hw : WtOk nw L wt := by
      obtain ⟨wt', e', h'⟩ := hpl.wt
      rw [hwt] at e'; cases e'; exact h'
    have hx0 := hpl.p0
    set x := o.prevPhase with hxd
    set d := p - x with hd
    have hd0 : 0 < d := by rw [hd]; linarith
    obtain ⟨wt1, wt', e1, hfind⟩ := ht
    rw [hwt] at e1; cases e1
    unfold WavetableData.findMipMapIndices at hfind
    obtain ⟨⟨cf, t'⟩, hn, hfind⟩ := bind_ok hfind
    cases hfind
    obtain ⟨c', t', hn', -, -, -, ht0, ht1, htu⟩ := Sys.find_spec (Sys.exact_rounding hS) hw (abs_pos.2 hd0.ne')
    rw [hn] at hn'; cases hn'
    have hN0 : 0 < N := by rw [hN]; positivity
    have hNr : (0 : ℝ) < N := by exact_mod_cast hN0
    set k := (o.prevMip - t.idx).toNat with hk
    set n := L - t.idx.toNat with hnn
    have hm0 := hpl.mip0
    have hm1 := hpl.mip1
    have hk1 : 1 ≤ k := by omega
    have hnk : n = L - o.prevMip.toNat + k := by omega
    have hNm : N = m * 2 ^ k := by rw [hN, hm, hnk, pow_add]
    have hmr : (0 : ℝ) < m := by rw [hm]; push_cast; positivity
    have hNmr : (N : ℝ) = m * 2 ^ k := by rw [hNm]; push_cast; rfl
    have hNz : (N : ℤ) = 2 ^ n := by rw [hN]; push_cast; rfl
    have hNR : (N : ℝ) = 2 ^ n := by rw [hN]; push_cast; rfl
    have hj := hpl.posF hpos
    have hmR : (m : ℝ) = 2 ^ (L - o.prevMip.toNat) := by rw [hm]; push_cast; rfl
    rw [← hmR] at hj
    rw [← hj] at hc
    have hj0 : 0 ≤ o.jRed := by rw [hj]; exact Int.floor_nonneg.2 (by positivity)
    -- the segment the sample starts from
    set g : ℤ := o.jRed * 2 ^ k with hg
    have hg0 : 0 ≤ g := by positivity
    have hcg : c = g / N := by
      rw [hc, hg, hNmr]; push_cast
      rw [mul_div_mul_right _ _ (by positivity)]
    have low : missed S.flt (waveAt S.env ws L o.crt t.idx) (c + 1 / N) (1 / N) p d = 0 := by
      have hlen := hlin.len o.crt t.idx hpl.crt0 hpl.crt1 ht0 ht1
      rw [← hnn, ← hN] at hlen
      unfold waveAt
      rw [interp_eq, hlen]
      have e : c + 1 / N = ((g + 1 : ℤ) : ℝ) / N := by rw [hcg]; push_cast; ring
      have e' : c + 2 / N = ((g + 1 + 1 : ℤ) : ℝ) / N := by rw [hcg]; push_cast; ring
      rw [e] at hlost ⊢
      rw [e'] at hok
      exact missed_zero hN0 (g + 1) hd0.ne' hd hlost.le hok
    have up : t.weightUp ≠ 0 → missed S.flt (waveAt S.env ws L o.crt t.idxUp) c (2 / N) p d = 0 := by
      intro hup
      obtain ⟨u1, u2⟩ := htu hup
      have hn1 : 1 ≤ n := by omega
      have hN2 : N = 2 * 2 ^ (n - 1) := by
        rw [hN, ← pow_succ', Nat.sub_add_cancel hn1]
      have hg2 : g = 2 * (g / 2) := by
        have : (2 : ℤ) ∣ g := by
          rw [hg, show k = (k - 1) + 1 by omega, pow_succ]
          exact ⟨o.jRed * 2 ^ (k - 1), by ring⟩
        omega
      set M' : ℕ := 2 ^ (n - 1) with hM'
      have hM0 : 0 < M' := by positivity
      have hMr : (0 : ℝ) < M' := by exact_mod_cast hM0
      have hNM : (N : ℝ) = 2 * M' := by rw [hN2]; push_cast; rfl
      have hnu : L - t.idxUp.toNat = n - 1 := by omega
      have hlen := hlin.len o.crt t.idxUp hpl.crt0 hpl.crt1 (by omega) u2
      rw [hnu, ← hM'] at hlen
      unfold waveAt
      rw [interp_eq, hlen]
      have hgr : (g : ℝ) = 2 * ((g / 2 : ℤ) : ℝ) := by exact_mod_cast hg2
      have e : c = ((g / 2 : ℤ) : ℝ) / M' := by
        rw [hcg, hNM, hgr, mul_div_mul_left _ _ (by norm_num)]
      have e' : (2 : ℝ) / N = 1 / M' := by rw [hNM]; field_simp
      have e0 : (0 : ℝ) < 1 / N := by positivity
      rw [e'] at hok ⊢
      rw [e] at hok hlost ⊢
      exact missed_zero hM0 (g / 2) hd0.ne' hd (by linarith) (by push_cast; rw [add_div]; exact hok)
    rw [low, mul_zero, zero_add]
    by_cases hup : t.weightUp = 0
    · rw [hup, zero_mul, add_zero]
    · rw [up hup, mul_zero, add_zero]
  · rw [not_lt] at hlost
    have hpl := Sys.reached_play (Sys.exact_rounding hS) hl hS.B ho.1
    obtain ⟨wt, hwt, hlin⟩ := ho.lines hS.fl hl
    obtain ⟨y, e, rfl⟩ := process_one (by rw [hwt]; rfl) h
    have hw : WtOk nw L wt := by
      obtain ⟨wt', e', h'⟩ := hpl.wt
      rw [hwt] at e'; cases e'; exact h'
    have hx0 := hpl.p0
    have hx1 := hpl.p1
    set x := o.prevPhase with hxd
    set d := p - x with hd
    have hd0 : 0 < d := by rw [hd]; linarith
    have e : S.processSampleFwd o p d = .ok (o', y) := by
      cases dir with
      | kForward =>
        have e : S.stepFwd o p = .ok (o', y) := e
        unfold Sys.stepFwd at e
        dsimp only at e
        rw [hS.fl] at e
        simp only [id] at e
        rw [← hxd, ← hd, if_neg (by linarith), chk_true ⟨hd0, hp2⟩, R.ok_bind] at e
        exact e
      | kBidirectionnal =>
        have e : S.stepBi o p = .ok (o', y) := e
        have hbi : Sys.biDiff S.env.fl p o.prevPhase = d := by
          rw [hS.fl]
          unfold Sys.biDiff
          simp only [id]
          rw [← hxd, ← hd, if_neg (by linarith), if_neg (by linarith)]
        unfold Sys.stepBi at e
        dsimp only at e
        rw [hbi, if_pos hd0.le] at e
        exact e
    obtain ⟨wt1, wt', e1, hfind⟩ := ht
    rw [hwt] at e1; cases e1
    unfold WavetableData.findMipMapIndices at hfind
    obtain ⟨⟨cf, t'⟩, hn, hfind⟩ := bind_ok hfind
    cases hfind
    obtain ⟨c', t', hn', -, -, -, ht0, ht1, htu⟩ := Sys.find_spec (Sys.exact_rounding hS) hw (abs_pos.2 hd0.ne')
    rw [hn] at hn'; cases hn'
    have hw1 := (Sys.weight_one hS.fl hw.inv (abs_pos.2 hd0.ne') hn).1
    rw [abs_of_pos hd0] at hn
    rw [Sys.fwd_eq (Sys.exact_rounding hS) hS.B hwt hpl.toOscOk hw hpl.crt0 hpl.crt1 (by linarith) hp1
      (by rw [hS.fl]; rfl) hd0 hp2 hn (fun q _ => absurd q (by linarith))] at e
    cases e
    have hN0 : 0 < N := by rw [hN]; positivity
    have hNr : (0 : ℝ) < N := by exact_mod_cast hN0
    set k := (o.prevMip - t.idx).toNat with hk
    set n := L - t.idx.toNat with hnn
    have hm0 := hpl.mip0
    have hm1 := hpl.mip1
    have hk1 : 1 ≤ k := by omega
    have hnk : n = L - o.prevMip.toNat + k := by omega
    have hNm : N = m * 2 ^ k := by rw [hN, hm, hnk, pow_add]
    have hmr : (0 : ℝ) < m := by rw [hm]; push_cast; positivity
    have hNmr : (N : ℝ) = m * 2 ^ k := by rw [hNm]; push_cast; rfl
    have hNz : (N : ℤ) = 2 ^ n := by rw [hN]; push_cast; rfl
    have hNR : (N : ℝ) = 2 ^ n := by rw [hN]; push_cast; rfl
    have hj := hpl.posF hpos
    have hmR : (m : ℝ) = 2 ^ (L - o.prevMip.toNat) := by rw [hm]; push_cast; rfl
    rw [← hmR] at hj
    rw [← hj] at hc
    have hj0 : 0 ≤ o.jRed := by rw [hj]; exact Int.floor_nonneg.2 (by positivity)
    -- the segment the sample starts from
    set g : ℤ := o.jRed * 2 ^ k with hg
    have hg0 : 0 ≤ g := by positivity
    have hcg : c = g / N := by
      rw [hc, hg, hNmr]; push_cast
      rw [mul_div_mul_right _ _ (by positivity)]
    have hok' : x * N ≤ g + 1 := by
      rw [hcg, ← add_div, le_div_iff₀ hNr] at hlost
      exact hlost
    have hgx : (g : ℝ) ≤ x * N := by
      have := Int.floor_le (x * m)
      rw [← hj] at this
      rw [hg, hNmr]; push_cast
      have h2 : (0 : ℝ) < 2 ^ k := by positivity
      have := mul_le_mul_of_nonneg_right this h2.le
      linarith
    have hgN : g < N := by
      have : (g : ℝ) < N := by
        have := mul_lt_mul_of_pos_right hx1 hNr
        linarith
      exact_mod_cast this
    have hadj : Sys.adj n t.idx o.prevMip o.jRed o.prevPhaseDiff o.prevPhaseRed = g := by
      unfold Sys.adj
      rw [if_neg (by omega), if_pos hdn, if_pos hpos, ← hk, ← hg, hpl.red, ← hxd, if_neg, add_zero]
      push_cast
      rw [← hNR, not_lt, le_div_iff₀ hNr]
      exact hok'
    have hin : In ((2 ^ n : ℕ) : ℝ) ((S.prevJF o n t.idx - 1) % 2 ^ n) (Sys.bar x) := by
      rw [← hN]
      unfold Sys.prevJF
      dsimp only
      rw [if_pos hpos.le, hadj, hpl.red, ← hxd, ← hNz]
      unfold Sys.bar In
      rcases Sys.sign_spec (Sys.exact_rounding hS) (n := n) (x := x) (by rw [← hN]; exact hx) g with ⟨s1, s2⟩ | ⟨s1, s2⟩ | ⟨s1, s2⟩
      · rw [s2, add_zero]
        rw [← hNR] at s1
        by_cases hx0' : x = 0
        · have hg00 : g = 0 := by rw [hx0', zero_mul] at s1; exact_mod_cast s1.symm
          have : (0 - 1 : ℤ) % N = N - 1 := by
            rw [← Int.add_emod_right, Int.emod_eq_of_lt (by omega) (by omega)]; ring
          rw [if_pos hx0', hg00, this, hx0', zero_add]
          push_cast
          constructor
          · rw [div_le_iff₀ hNr]; linarith
          · rw [le_div_iff₀ hNr]; linarith
        · rw [if_neg hx0', add_zero]
          have hg1 : 1 ≤ g := by
            by_contra hcc
            have : g = 0 := by omega
            rw [this, Int.cast_zero] at s1
            exact hx0' ((mul_eq_zero.1 s1).resolve_right hNr.ne')
          rw [Int.emod_eq_of_lt (by omega) (by omega)]
          push_cast
          constructor
          · rw [div_le_iff₀ hNr]; linarith
          · rw [le_div_iff₀ hNr]; linarith
      · rw [← hNR] at s1; linarith
      · rw [s2]
        rw [← hNR] at s1
        have hx0' : x ≠ 0 := by
          intro q; rw [q, zero_mul] at s1
          have : (0 : ℝ) ≤ g := by exact_mod_cast hg0
          linarith
        rw [if_neg hx0', add_zero, Int.emod_eq_of_lt (by omega) (by omega)]
        push_cast
        constructor
        · rw [div_le_iff₀ hNr]; linarith
        · rw [le_div_iff₀ hNr]; linarith
    rw [Sys.outReal_eq hS]
    congr 2
    exact Sys.cpxY_exact hS _ fun i hi =>
      Sys.accF_exact_in hS hpl hlin ⟨by linarith, hp1, by rw [hS.fl]; exact isPhase_id _⟩ hd0 (by linarith)
        (Or.inl hd) ht0 ht1 htu (fun h => by rw [h, add_zero] at hw1; exact hw1) hin hi

/-- C101 applies, to the shortest such jump (16 samples, down two octaves) right on the edge: phase 3/8 is two
samples after 1/4. -/
example (ws : List ℝ) (hws : ws.length = 2 ^ 4) (dir : Sys.Direction) :
    ∃ (o o' : Osc ℝ ℂ) (y : ℝ), Plays (sysOf envX .kType1) ws 1 4 o ∧ o.prevMip = 2 ∧ o.prevPhase = 3 / 8 ∧
      (sysOf envX .kType1).process dir o [3 / 8 + 1 / 16] [0] = .ok (o', [y]) ∧
      y = output (nextMemory (filterX .kType1) o.prevY (waveAt envX ws 4 0 1) (3 / 8) (1 / 16)) := by
  obtain ⟨o0, o1, o2, y1, y2, c0, c1, c2, -, -, -, -, -, -, h1, hp2, hn2, -⟩ :=
    jump_down ws 4 le_rfl (by norm_num) hws dir
  rw [show (2 : ℝ) ^ 4 = 16 by norm_num] at hp2 hn2
  have ed : (3 / 8 + 1 / 16 : ℝ) - 3 / 8 = 1 / 16 := by ring
  have hm : o1.prevMip = 2 := by rw [h1.mip]; norm_num
  refine ⟨o1, o2, y2, h1.plays, hm, h1.phase, hp2, ?_⟩
  have key := C101_right (sysOf envX .kType1) (exactSys .kType1) log2X ws 1 4 o1 h1.plays
    (by rw [h1.diff]; norm_num) dir (3 / 8 + 1 / 16) 0 (by rw [h1.phase]; norm_num) (by norm_num)
    (by rw [h1.phase]; norm_num) o2 [y2] hp2 ⟨0, 0, 0 + 1, 1⟩ (by rw [h1.phase, ed]; exact hn2)
    (by rw [hm]; norm_num) 16 4 (by norm_num) (by rw [hm]; rfl)
    (by rw [h1.phase]
        have := offDenormal_dyadic 6 4 4 (by norm_num) le_rfl
        norm_num at this ⊢
        exact this) (1 / 4)
    (by rw [h1.phase]
        have : ⌊(3 / 8 : ℝ) * ((4 : ℕ) : ℝ)⌋ = 1 := by rw [Int.floor_eq_iff]; norm_num
        rw [this]; norm_num)
    (by rw [h1.phase]; norm_num)
  have key := List.head_eq_of_cons_eq key
  rw [h1.crt, h1.phase, ed] at key
  rw [key]
  congr 2
  funext u
  unfold mixture
  simp only [zero_add, zero_mul, one_mul]
  rfl

end Adwt.Props
