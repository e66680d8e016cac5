import Verif.Proofs.Track

/-!
# One sample in exact arithmetic
-/

set_option linter.unusedSectionVars false

namespace Adwt
open Seg WavetableData

/-- the getters return the tables made from `ws` -/
structure HasLines (E : Env ℝ) (ws : List ℝ) (nw L : ℕ) (wt : WavetableData ℝ) : Prop where
  lines : ∀ w i : ℤ, 0 ≤ w → w < nw → 0 ≤ i → i < (L : ℤ) - 1 →
    Lines (2 ^ (L - i.toNat)) (cyc (mipSamples E (waveformOf ws (2 ^ L) w.toNat) i.toNat))
      (Sys.getOr (wt.mSpan w i)) (Sys.getOr (wt.qSpan w i)) (Sys.getOr (wt.mDiffSpan w i))
      (Sys.getOr (wt.qDiffSpan w i)) (Sys.getOr (wt.phaseSpan i))
  len : ∀ w i : ℤ, 0 ≤ w → w < nw → 0 ≤ i → i < (L : ℤ) - 1 →
    (mipSamples E (waveformOf ws (2 ^ L) w.toNat) i.toNat).length = 2 ^ (L - i.toNat)

theorem HasLines.with_cf {E : Env ℝ} {ws : List ℝ} {nw L : ℕ} {wt : WavetableData ℝ}
    (h : HasLines E ws nw L wt) (c : CrossFader ℝ) : HasLines E ws nw L { wt with cf := c } :=
  ⟨h.lines, h.len⟩

theorem built_wtOf {K : Type} [Field K] [LinearOrder K] [IsStrictOrderedRing K] [FloorRing K]
    {E : Env K} (hf : Rounding E.fl) (hl : Log2Spec E.log2f) {ws : List K} {nw L : ℕ}
    {sr dur : K} {wt : WavetableData K} (h : Built E ws nw L sr dur wt) :
    0 < nw ∧ 2 ≤ L ∧ L ≤ 18 ∧ ∃ xf, wt = wtOf E ws nw L xf ∧ 1 ≤ xf := by
  obtain ⟨hs, hx, hlen, h⟩ := h
  obtain ⟨L', xf, h2, h18, hn, hs0, hlen', hxf, rfl⟩ := build_some hf hl hs h
  have e : ((nw : ℤ)).toNat = nw := by simp
  rw [e] at hlen' ⊢
  have : L' = L := pow_inj_of_mul (by omega) (hlen'.symm.trans hlen)
  subst this
  exact ⟨by omega, h2, h18, xf, rfl, toInt_ge_one hxf hx⟩

theorem tables_eq {K : Type} {wt wt0 : WavetableData K} (h : tablesOf wt = tablesOf wt0) :
    wt = { wt0 with cf := wt.cf } := by
  cases wt; cases wt0
  simp only [tablesOf, Prod.mk.injEq] at h
  obtain ⟨rfl, rfl, rfl, rfl, rfl⟩ := h
  rfl

theorem built_lines {E : Env ℝ} (he : E.fl = id) (hl : Log2Spec E.log2f) {ws : List ℝ} {nw L : ℕ}
    {sr dur : ℝ} {wt0 wt : WavetableData ℝ} (h : Built E ws nw L sr dur wt0)
    (ht : tablesOf wt = tablesOf wt0) : HasLines E ws nw L wt := by
  have hws := h.2.2.1
  obtain ⟨hnw, h2, h18, xf, rfl, -⟩ := built_wtOf (by rw [he]; exact rounding_id) hl h
  rw [tables_eq ht]
  apply HasLines.with_cf
  have hlen : ∀ w i : ℤ, 0 ≤ w → w < nw → 0 ≤ i → i < (L : ℤ) - 1 →
      (mipSamples E (waveformOf ws (2 ^ L) w.toNat) i.toNat).length = 2 ^ (L - i.toNat) := by
    intro w i a b c d
    exact mipSamples_length E (waveformOf_length hws (by omega)) _ (by omega)
  refine ⟨?_, hlen⟩
  intro w i a b c d
  have hl' := hlen w i a b c d
  obtain ⟨w, rfl⟩ := Int.eq_ofNat_of_zero_le a
  obtain ⟨i, rfl⟩ := Int.eq_ofNat_of_zero_le c
  rw [wtOf_mSpan (by omega) (by omega), wtOf_qSpan (by omega) (by omega),
    wtOf_mDiffSpan (by omega) (by omega), wtOf_qDiffSpan (by omega) (by omega),
    wtOf_phaseSpan (by omega)]
  exact tab_lines he hl'

namespace Sys
variable {S : Sys ℝ ℂ} {nw L : ℕ} {o : Osc ℝ ℂ} {ws : List ℝ}

theorem outReal_eq (hS : ExactSys S) (y : List ℂ) : S.outReal y = output y := by
  unfold outReal output
  rw [hS.ops, List.sum_eq_foldl]; rfl

/-- what `cpxY` computes from exact integrals -/
theorem cpxY_exact (hS : ExactSys S) (y : List ℂ) {a : ℕ → ℂ} {W : ℝ → ℝ} {x d : ℝ}
    (h : ∀ k < S.n, a k = S.zA k ^ 2 * response W (S.zA k) x d) :
    S.cpxY y a = nextMemory S.flt y W x d := by
  unfold cpxY nextMemory
  apply List.map_congr_left
  intro k hk
  have hk : k < S.n := List.mem_range.1 hk
  rw [h k hk, expZA_eq hS hk, zPow2A_eq hS hk, hS.ops,
    mul_div_cancel_left₀ _ (pow_ne_zero 2 (zA_ne hS hk))]
  show _ = Complex.exp (S.zA k) * y.getD k 0 + 2 * S.rA k * response W (S.zA k) x d
  simp [copsX]

theorem mix_exact (hS : ExactSys S) {E : Env ℝ} {w : ℤ} {t : MipMapIndices ℝ} {lo up : ℕ → ℂ}
    {x d : ℝ} {k : ℕ} (hw : t.weightUp = 0 → t.weight = 1)
    (hlo : lo k = S.zA k ^ 2 * response (waveAt E ws L w t.idx) (S.zA k) x d)
    (hup : t.weightUp ≠ 0 →
      up k = S.zA k ^ 2 * response (waveAt E ws L w t.idxUp) (S.zA k) x d) :
    S.mix t lo up k = S.zA k ^ 2 * response (mixture E ws L w t) (S.zA k) x d := by
  unfold mix mixture
  rw [response_add (W := waveAt E ws L w t.idx) (V := waveAt E ws L w t.idxUp)
    (interp_continuous _) (interp_continuous _), hS.ops]
  by_cases h : t.weightUp ≠ 0
  · rw [if_pos h, hlo, hup h]
    simp only [copsX]; ring
  · rw [if_neg h, hlo]
    rw [not_not] at h
    rw [h, hw h]; simp

theorem floor_in {n : ℕ} (p : ℝ) : ((⌊p * 2 ^ n⌋ : ℤ) : ℝ) ≤ p * ((2 ^ n : ℕ) : ℝ) ∧
    p * ((2 ^ n : ℕ) : ℝ) < (⌊p * 2 ^ n⌋ : ℤ) + 1 := by
  push_cast
  exact ⟨Int.floor_le _, Int.lt_floor_add_one _⟩

theorem ceil_in {n : ℕ} {p : ℝ} (h0 : 0 ≤ p) (h1 : p < 1) :
    ((((⌈p * 2 ^ n⌉ - 1) % 2 ^ n : ℤ)) : ℝ) < bar p * ((2 ^ n : ℕ) : ℝ) ∧
    bar p * ((2 ^ n : ℕ) : ℝ) ≤ (((⌈p * 2 ^ n⌉ - 1) % 2 ^ n : ℤ)) + 1 := by
  have hp : (0 : ℝ) < 2 ^ n := by positivity
  have hpz : (0 : ℤ) < 2 ^ n := by positivity
  unfold bar
  push_cast
  by_cases h : p = 0
  · subst h
    rw [zero_mul, Int.ceil_zero]
    have : (0 - 1 : ℤ) % 2 ^ n = 2 ^ n - 1 := by
      rw [← Int.add_emod_right, Int.emod_eq_of_lt (by omega) (by omega)]; ring
    rw [this]
    simp
  · rw [if_neg h, add_zero]
    have hpos : 0 < p := lt_of_le_of_ne h0 (Ne.symm h)
    have c0 : 0 < ⌈p * 2 ^ n⌉ := Int.ceil_pos.2 (by positivity)
    have c1 : ⌈p * 2 ^ n⌉ ≤ 2 ^ n := by
      rw [Int.ceil_le]; push_cast; nlinarith
    rw [Int.emod_eq_of_lt (by omega) (by omega)]
    have := Int.ceil_lt_add_one (p * 2 ^ n)
    have := Int.le_ceil (p * 2 ^ n)
    push_cast
    constructor <;> linarith

theorem in_of' {N : ℕ} (hN : 0 < N) {j : ℤ} {u : ℝ} (h0 : (j : ℝ) ≤ u * N) (h1 : u * N ≤ j + 1) :
    In N j u := by
  have hp : (0 : ℝ) < N := by exact_mod_cast hN
  exact ⟨by rwa [div_le_iff₀ hp], by rwa [le_div_iff₀ hp]⟩

theorem weight_one {E : Env ℝ} (he : E.fl = id) {c c' : CrossFader ℝ} (h : c.Inv) {d : ℝ}
    (hd : 0 < d) {t : MipMapIndices ℝ} (e : c.newIndices E d = .ok (c', t)) :
    t.weight + t.weightUp = 1 ∧ 0 ≤ t.weight ∧ 0 ≤ t.weightUp := by
  obtain ⟨-, -, -, h0, -, h1, -, f, -, -, -, hf⟩ := CrossFader.tuple_facts (E := E)
    (by rw [he]; exact rounding_id) h hd e
  refine ⟨?_, h0, h1⟩
  rw [he] at hf
  rcases hf with ⟨a, b⟩ | ⟨a, b⟩ <;> rw [a, b] <;> simp

theorem exact_rounding (hS : ExactSys S) : Rounding S.env.fl := by rw [hS.fl]; exact rounding_id

theorem accF_exact (hS : ExactSys S) {wt : WavetableData ℝ} (ho : OscPlay S nw L o)
    (hlin : HasLines S.env ws nw L wt) {p d : ℝ} (hp : PhaseOk S.env.fl p) (hd0 : 0 < d)
    (hd1 : d < 3 / 4) (hd : d = p - o.prevPhase ∨ d = p - o.prevPhase + 1)
    {t : MipMapIndices ℝ} (ht0 : 0 ≤ t.idx) (ht1 : t.idx < (L : ℤ) - 1)
    (htu : t.weightUp ≠ 0 → t.idxUp = t.idx + 1 ∧ t.idxUp < (L : ℤ) - 1)
    (hw : t.weightUp = 0 → t.weight = 1) (hm : TableMove o t.idx)
    (hz : o.prevPhaseDiff < 0 → t.idx < o.prevMip → o.prevPhase ≠ 0)
    (hx : OffDenormal (2 ^ (L - t.idx.toNat)) o.prevPhase) {k : ℕ} (hk : k < S.n) :
    S.accF wt L o t p d k =
      S.zA k ^ 2 * response (mixture S.env ws L o.crt t) (S.zA k) o.prevPhase d := by
  unfold accF
  set n := L - t.idx.toNat with hn
  have hin := prevJF_in (exact_rounding hS) ho.toOscOk ht0 ht1 hm hz hx
  rw [← hn] at hin
  have hpz : (0 : ℤ) < 2 ^ n := by positivity
  have hn2 : 2 ≤ n := by omega
  have hn18 : n ≤ 18 := by
    obtain ⟨wt, -, h⟩ := ho.wt
    have := h.L18; omega
  obtain ⟨hj0, hj1⟩ := floor_range hn18 hp.1 hp.2.1
  set jmin := (S.prevJF o n t.idx - 1) % 2 ^ n with hjm
  have hjm0 : 0 ≤ jmin := Int.emod_nonneg _ hpz.ne'
  have hjm1 : jmin < 2 ^ n := Int.emod_lt_of_pos _ hpz
  set jmax := ⌊p * 2 ^ n⌋ with hjx
  obtain ⟨hv, hv'⟩ := floor_in (n := n) p
  rw [← hjx] at hv hv'
  have hN4 : 4 ≤ 2 ^ n := by
    calc 4 = 2 ^ 2 := by norm_num
      _ ≤ 2 ^ n := Nat.pow_le_pow_right (by norm_num) hn2
  apply mix_exact hS hw
  · have hlen := hlin.len o.crt t.idx ho.crt0 ho.crt1 ht0 ht1
    have hl := hlin.lines o.crt t.idx ho.crt0 ho.crt1 ht0 ht1
    unfold waveAt
    rw [interp_eq, hlen]
    rw [← hn] at hlen hl ⊢
    unfold fwdAt
    rw [ho.red]
    have key := fwdVal_exact hS (N := 2 ^ n) (fun i => by rw [← hlen]; exact cyc_period _ i) hl hjm0
      (by push_cast; exact hjm1) hj0 (by push_cast; exact hj1) hd0.ne' hin
      (in_of' (by positivity) hv hv'.le)
      (wrapF hN4 ho.p0 hp.1 hp.2.1 hjm0 (by push_cast; exact hjm1) hin hv hv' hd0 (by linarith) hd) hk
    push_cast at key ⊢
    exact key
  · intro hup
    obtain ⟨hu1, hu2⟩ := htu hup
    have hnu : L - t.idxUp.toNat = n - 1 := by omega
    have hlen := hlin.len o.crt t.idxUp ho.crt0 ho.crt1 (by omega) hu2
    have hl := hlin.lines o.crt t.idxUp ho.crt0 ho.crt1 (by omega) hu2
    unfold waveAt
    rw [interp_eq, hlen]
    rw [hnu] at hlen hl ⊢
    unfold fwdAt
    rw [ho.red]
    obtain ⟨-, e2, e3⟩ := half_range (n := n) (by omega) hjm0 hjm1
    obtain ⟨-, e5, e6⟩ := half_range (n := n) (by omega) hj0 hj1
    have hN4' : 4 ≤ 2 ^ (n - 1) := by
      calc 4 = 2 ^ 2 := by norm_num
        _ ≤ 2 ^ (n - 1) := Nat.pow_le_pow_right (by norm_num) (by omega)
    have hin' := half_in (n := n) (by omega) hin
    have hv2 := half_le (n := n) (by omega) hv
    have hv2' := half_gt (n := n) (by omega) hv'
    have key := fwdVal_exact hS (N := 2 ^ (n - 1)) (fun i => by rw [← hlen]; exact cyc_period _ i)
      hl e2 (by push_cast; exact e3) e5 (by push_cast; exact e6) hd0.ne' hin'
      (in_of' (by positivity) hv2 hv2'.le)
      (wrapF hN4' ho.p0 hp.1 hp.2.1 e2 (by push_cast; exact e3) hin' hv2 hv2' hd0 (by linarith) hd) hk
    push_cast at key ⊢
    exact key

theorem accB_exact (hS : ExactSys S) {wt : WavetableData ℝ} (ho : OscPlay S nw L o)
    (hlin : HasLines S.env ws nw L wt) {p d : ℝ} (hp : PhaseOk S.env.fl p) (hd0 : d < 0)
    (hd1 : -(1 / 2) ≤ d) (hd : d = p - o.prevPhase ∨ d = p - o.prevPhase - 1)
    {t : MipMapIndices ℝ} (ht0 : 0 ≤ t.idx) (ht1 : t.idx < (L : ℤ) - 1)
    (htu : t.weightUp ≠ 0 → t.idxUp = t.idx + 1 ∧ t.idxUp < (L : ℤ) - 1)
    (hw : t.weightUp = 0 → t.weight = 1) (hm : TableMove o t.idx)
    (hz : o.prevPhaseDiff < 0 → t.idx < o.prevMip → o.prevPhase ≠ 0)
    (hx : OffDenormal (2 ^ (L - t.idx.toNat)) o.prevPhase) {k : ℕ} (hk : k < S.n) :
    S.accB wt L o t p d k =
      S.zA k ^ 2 * response (mixture S.env ws L o.crt t) (S.zA k) o.prevPhase d := by
  unfold accB
  set n := L - t.idx.toNat with hn
  have hin := prevJB_in (exact_rounding hS) ho.toOscOk ht0 ht1 hm hz hx
  rw [← hn] at hin
  have hpz : (0 : ℤ) < 2 ^ n := by positivity
  have hn2 : 2 ≤ n := by omega
  obtain ⟨hv, hv'⟩ := ceil_in (n := n) hp.1 hp.2.1
  set jmax := S.prevJB o n t.idx % 2 ^ n with hjx
  have hj0 : 0 ≤ jmax := Int.emod_nonneg _ hpz.ne'
  have hj1 : jmax < 2 ^ n := Int.emod_lt_of_pos _ hpz
  have hjm : ⌈p * 2 ^ n⌉ = 0 ↔ p = 0 := by
    constructor
    · intro h
      by_contra hc
      have hpos : 0 < p := lt_of_le_of_ne hp.1 (Ne.symm hc)
      have : 0 < ⌈p * 2 ^ n⌉ := Int.ceil_pos.2 (by positivity)
      omega
    · rintro rfl; simp
  set jmin := (⌈p * 2 ^ n⌉ - 1) % 2 ^ n with hjmd
  have hjm0 : 0 ≤ jmin := Int.emod_nonneg _ hpz.ne'
  have hjm1 : jmin < 2 ^ n := Int.emod_lt_of_pos _ hpz
  have hN4 : 4 ≤ 2 ^ n := by
    calc 4 = 2 ^ 2 := by norm_num
      _ ≤ 2 ^ n := Nat.pow_le_pow_right (by norm_num) hn2
  apply mix_exact hS hw
  · have hlen := hlin.len o.crt t.idx ho.crt0 ho.crt1 ht0 ht1
    have hl := hlin.lines o.crt t.idx ho.crt0 ho.crt1 ht0 ht1
    unfold waveAt
    rw [interp_eq, hlen]
    rw [← hn] at hlen hl ⊢
    unfold bwdAt
    rw [ho.red]
    obtain ⟨w1, w2⟩ := wrapB hN4 ho.p0 hp.1 hjm0 (by push_cast; exact hjm1) hin hv hv' hd0 (by linarith) hd
    have key := bwdVal_exact hS (N := 2 ^ n) (fun i => by rw [← hlen]; exact cyc_period _ i) hl hjm0
      (by push_cast; exact hjm1) hj0 (by push_cast; exact hj1) hd0.ne hin
      (in_of' (by positivity) hv.le hv') hjm w2 w1 hk
    push_cast at key ⊢
    exact key
  · intro hup
    obtain ⟨hu1, hu2⟩ := htu hup
    have hnu : L - t.idxUp.toNat = n - 1 := by omega
    have hlen := hlin.len o.crt t.idxUp ho.crt0 ho.crt1 (by omega) hu2
    have hl := hlin.lines o.crt t.idxUp ho.crt0 ho.crt1 (by omega) hu2
    unfold waveAt
    rw [interp_eq, hlen]
    rw [hnu] at hlen hl ⊢
    unfold bwdAt
    rw [ho.red]
    obtain ⟨-, e2, e3⟩ := half_range (n := n) (by omega) hjm0 hjm1
    obtain ⟨-, e5, e6⟩ := half_range (n := n) (by omega) hj0 hj1
    have hN4' : 4 ≤ 2 ^ (n - 1) := by
      calc 4 = 2 ^ 2 := by norm_num
        _ ≤ 2 ^ (n - 1) := Nat.pow_le_pow_right (by norm_num) (by omega)
    have hin' := half_in (n := n) (by omega) hin
    have hv2 := half_lt' (n := n) (by omega) hv
    have hv2' := half_ge (n := n) (by omega) hv'
    obtain ⟨w1, w2⟩ := wrapB hN4' ho.p0 hp.1 e2 (by push_cast; exact e3) hin' hv2 hv2' hd0 (by linarith) hd
    have key := bwdVal_exact hS (N := 2 ^ (n - 1)) (fun i => by rw [← hlen]; exact cyc_period _ i)
      hl e2 (by push_cast; exact e3) e5 (by push_cast; exact e6) hd0.ne hin'
      (in_of' (by positivity) hv2.le hv2') hjm w2 w1 hk
    push_cast at key ⊢
    exact key

/-- the steps of exact arithmetic -/
theorem dirDiff_exact (hS : ExactSys S) (dir : Direction) (p x : ℝ) :
    dirDiff S.env.fl dir p x = p - x ∨ dirDiff S.env.fl dir p x = p - x + 1 ∨
      (dirDiff S.env.fl dir p x = p - x - 1 ∧ 1 / 2 < p - x) := by
  rw [hS.fl]
  cases dir
  · unfold dirDiff fwdDiff
    simp only [id]
    split_ifs <;> simp
  · unfold dirDiff biDiff
    simp only [id]
    split_ifs with h1 h2
    · simp
    · right; right; exact ⟨rfl, h2⟩
    · simp

/-- One sample, exactly. -/
theorem step_exact (hS : ExactSys S) (ho : OscPlay S nw L o) {wt : WavetableData ℝ}
    (hwt : o.wt = some wt) (hlin : HasLines S.env ws nw L wt) {dir : Direction} {p : ℝ}
    (hp : PhaseOk S.env.fl p) (hstep : StepOk dir o.prevPhase p) {o' : Osc ℝ ℂ} {y : ℝ}
    (e : S.stepDir dir o p = .ok (o', y)) {t : MipMapIndices ℝ}
    (ht : NextIndices S o (dirDiff S.env.fl dir p o.prevPhase) t) (hm : TableMove o t.idx)
    (hx : OffDenormal (2 ^ (L - t.idx.toNat)) o.prevPhase) :
    o'.prevY = nextMemory S.flt o.prevY (mixture S.env ws L o.crt t) o.prevPhase
      (dirDiff S.env.fl dir p o.prevPhase) ∧ y = output o'.prevY ∧ o'.prevMip = t.idx ∧
      ∃ c, o'.wt = some { wt with cf := c } := by
  have hf := exact_rounding hS
  obtain ⟨wt1, wt2, hw1, hft⟩ := ht
  rw [hwt] at hw1; cases hw1
  have hw : WtOk nw L wt := by
    obtain ⟨wt', e', h⟩ := ho.wt
    rw [hwt] at e'; cases e'; exact h
  set d := dirDiff S.env.fl dir p o.prevPhase with hdd
  rcases step_cases hf hS.B ho hp hstep with ⟨-, hnz⟩ | ⟨he, -⟩
  swap
  · rw [e] at he; cases he
  rw [← hdd] at hnz
  have hdrop : ∀ h : t.idx < o.prevMip, ¬ AtZeroBackward o := fun h hz =>
    hnz ⟨hz, ⟨wt, wt2, t, hwt, hft, h⟩⟩
  have hz : o.prevPhaseDiff < 0 → t.idx < o.prevMip → o.prevPhase ≠ 0 :=
    fun h1 h2 h3 => hdrop h2 ⟨h3, h1⟩
  have hsafe : o.prevPhaseDiff < 0 → t.idx < o.prevMip → 1 ≤ o.jRed :=
    fun h1 h2 => ho.jb h1 (hz h1 h2)
  have hex := dirDiff_exact hS dir p o.prevPhase
  rw [← hdd] at hex
  -- a common tail
  have main : ∀ (h0 : d ≠ 0), (∃ c, wt.cf.newIndices S.env |d| = .ok (c, t)) ∧ 0 ≤ t.idx ∧
      t.idx < (L : ℤ) - 1 ∧ (t.weightUp ≠ 0 → t.idxUp = t.idx + 1 ∧ t.idxUp < (L : ℤ) - 1) ∧
      (t.weightUp = 0 → t.weight = 1) := by
    intro h0
    obtain ⟨c, t', hn, hfind, hw', hcs, ht0, ht1, htu⟩ := find_spec hf hw (abs_pos.2 h0)
    rw [hft] at hfind
    simp only [Except.ok.injEq, Prod.mk.injEq] at hfind
    obtain ⟨-, rfl⟩ := hfind
    have hw1 := weight_one hS.fl hw.inv (abs_pos.2 h0) hn
    exact ⟨⟨c, hn⟩, ht0, ht1, htu, fun h => by have := hw1.1; rw [h, add_zero] at this; exact this⟩
  have fwd : 0 < d → d ≤ 1 / 2 → S.processSampleFwd o p d = .ok (o', y) →
      (d = p - o.prevPhase ∨ d = p - o.prevPhase + 1) → 
      o'.prevY = nextMemory S.flt o.prevY (mixture S.env ws L o.crt t) o.prevPhase d ∧
        y = output o'.prevY ∧ o'.prevMip = t.idx ∧ ∃ c, o'.wt = some { wt with cf := c } := by
    intro h0 h1 hs hd'
    obtain ⟨⟨c, hn⟩, ht0, ht1, htu, hwu⟩ := main h0.ne'
    rw [abs_of_pos h0] at hn
    have := fwd_eq hf hS.B hwt ho.toOscOk hw ho.crt0 ho.crt1 hp.1 hp.2.1 hp.2.2.1 h0 h1 hn hsafe
    rw [hs] at this
    cases this
    refine ⟨?_, outReal_eq hS _, rfl, c, rfl⟩
    exact cpxY_exact hS _ fun k hk =>
      accF_exact hS ho hlin hp h0 (by linarith) hd' ht0 ht1 htu hwu hm hz hx hk
  cases dir with
  | kForward =>
    have hr := fwdDiff_range hf ho.toOscOk.phase hp hstep
    have e2 : S.stepFwd o p = .ok (o', y) := e
    rw [stepFwd_eq hf ho.toOscOk hp hstep] at e2
    have hde : d = fwdDiff S.env.fl p o.prevPhase := rfl
    refine fwd hr.1 hr.2 e2 ?_
    rcases hex with h | h | ⟨h, h'⟩
    · exact Or.inl h
    · exact Or.inr h
    · have := hr.1
      rw [← hde, h] at this
      have := hp.2.1; have := ho.p0; linarith
  | kBidirectionnal =>
    have hr := biDiff_range hf ho.toOscOk.phase hp
    have hde : d = biDiff S.env.fl p o.prevPhase := rfl
    rw [← hde] at hr
    have hne : d ≠ 0 := fun h => hstep (hr.2.2.1 h)
    have e2 : S.stepBi o p = .ok (o', y) := e
    unfold stepBi at e2
    dsimp only at e2
    rw [← hde] at e2
    by_cases hpos : d ≥ 0
    · rw [if_pos hpos] at e2
      refine fwd (lt_of_le_of_ne hpos (Ne.symm hne)) hr.2.1 e2 ?_
      rcases hex with h | h | ⟨h, h'⟩
      · exact Or.inl h
      · exact Or.inr h
      · have := hp.2.1; have := ho.p0; linarith
    · rw [if_neg hpos] at e2
      rw [ge_iff_le, not_le] at hpos
      obtain ⟨⟨c, hn⟩, ht0, ht1, htu, hwu⟩ := main hne
      have := bwd_eq hf hS.B hwt ho.toOscOk hw ho.crt0 ho.crt1 hp.1 hp.2.1 hp.2.2.1 hpos hr.1 hn hsafe
      rw [e2] at this
      cases this
      refine ⟨?_, outReal_eq hS _, rfl, c, rfl⟩
      have hd' : d = p - o.prevPhase ∨ d = p - o.prevPhase - 1 := by
        rcases hex with h | h | ⟨h, h'⟩
        · exact Or.inl h
        · exfalso
          have := ho.p1; have := hp.1
          linarith
        · exact Or.inr h
      exact cpxY_exact hS _ fun k hk =>
        accB_exact hS ho hlin hp hpos hr.1 hd' ht0 ht1 htu hwu hm hz hx hk

end Sys
end Adwt
