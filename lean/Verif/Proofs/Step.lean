import Verif.Proofs.Kernel

/-!
# One sample: closed form and invariant
-/

set_option linter.unusedSectionVars false

namespace Adwt
variable {K C : Type} [Field K] [LinearOrder K] [IsStrictOrderedRing K] [FloorRing K]
variable [Zero C] [Add C] [Sub C] [Mul C] [Div C]

/-- A wavetable with `nw` waveforms of length `2^L` and a crossfader between two calls. -/
structure WtOk (nw L : ℕ) (wt : WavetableData K) : Prop where
  nw0 : 0 < nw
  L2 : 2 ≤ L
  L18 : L ≤ 18
  tabs : ∀ w i : ℤ, 0 ≤ w → w < nw → 0 ≤ i → i < (L : ℤ) - 1 →
    ∃ m q md qd, Sys.Tabs wt w i (2 ^ (L - i.toNat)) m q md qd (WavetableData.grid K (L - i.toNat))
  rows : (wt.m.length : ℤ) = nw
  inv : wt.cf.Inv
  scale : wt.cf.scale = octaveScale K L
  num31 : wt.cf.numSamples < 2 ^ 31

namespace WtOk
variable {nw L : ℕ} {wt : WavetableData K}

theorem scale_len (h : WtOk nw L wt) : (wt.cf.scale.length : ℤ) = (L : ℤ) - 1 := by
  rw [h.scale, CrossFader.octaveScale_length]; have := h.L2; omega

theorem len_pos (h : WtOk nw L wt) {i : ℤ} (h0 : 0 ≤ i) (h1 : i < (L : ℤ) - 1) :
    (4 : ℤ) ≤ 2 ^ (L - i.toNat) ∧ (2 : ℤ) ^ (L - i.toNat) ≤ 2 ^ 18 := by
  have := h.L18
  constructor
  · calc (4 : ℤ) = 2 ^ 2 := by norm_num
      _ ≤ 2 ^ (L - i.toNat) := pow_le_pow_right₀ (by norm_num) (by omega)
  · exact pow_le_pow_right₀ (by norm_num) (by omega)

/-- replacing the crossfader -/
theorem with_cf (h : WtOk nw L wt) {c : CrossFader K} (hi : c.Inv) (hs : c.scale = wt.cf.scale)
    (hn : c.numSamples = wt.cf.numSamples) :
    WtOk nw L { wt with cf := c } := by
  refine ⟨h.nw0, h.L2, h.L18, ?_, h.rows, hi, by rw [← h.scale, ← hs], by
    show c.numSamples < 2 ^ 31
    rw [hn]; exact h.num31⟩
  intro w i a b c d
  obtain ⟨m, q, md, qd, T⟩ := h.tabs w i a b c d
  exact ⟨m, q, md, qd, ⟨T.em, T.eq, T.emd, T.eqd, T.eph, T.len, T.lm, T.lq, T.lmd, T.lqd, T.lph⟩⟩

theorem phaseSpan (h : WtOk nw L wt) {i : ℤ} (h0 : 0 ≤ i) (h1 : i < (L : ℤ) - 1) :
    wt.phaseSpan i = .ok (WavetableData.grid K (L - i.toNat)) := by
  have := h.nw0
  obtain ⟨_, _, _, _, T⟩ := h.tabs 0 i le_rfl (by omega) h0 h1
  exact T.eph

theorem waveformLen (h : WtOk nw L wt) {i : ℤ} (h0 : 0 ≤ i) (h1 : i < (L : ℤ) - 1) :
    wt.waveformLen i = .ok (2 ^ (L - i.toNat)) := by
  have := h.nw0
  obtain ⟨_, _, _, _, T⟩ := h.tabs 0 i le_rfl (by omega) h0 h1
  exact T.len

/-- a freshly built wavetable -/
theorem of_build {E : Env K} (hf : Rounding E.fl) (hl : Log2Spec E.log2f) {ws : List K} {nw : ℤ}
    {sr dur : K} (hs : IsRate E.fl sr) {wt : WavetableData K}
    (h : WavetableData.build E ws nw sr dur = .ok (some wt)) (hx : 1 ≤ wt.cf.numSamples) :
    ∃ L, WtOk nw.toNat L wt ∧ ws.length = nw.toNat * 2 ^ L := by
  obtain ⟨L, xf, h2, h18, hn, hs0, hlen, hxf, rfl⟩ := WavetableData.build_some hf hl hs h
  refine ⟨L, ⟨by omega, h2, h18, ?_, ?_, CrossFader.make_inv h2 hx _, rfl, ?_⟩, hlen⟩
  rotate_left 2
  · show xf < 2 ^ 31
    unfold toInt at hxf
    split_ifs at hxf with hr
    cases hxf; exact hr.2
  · intro w i hw0 hw1 hi0 hi1
    obtain ⟨w, rfl⟩ := Int.eq_ofNat_of_zero_le hw0
    obtain ⟨i, rfl⟩ := Int.eq_ofNat_of_zero_le hi0
    have hw : w < nw.toNat := by omega
    have hi : i < L - 1 := by omega
    obtain ⟨l1, l2, l3, l4⟩ := WavetableData.tabOf_len (E := E) (L := L) (waveformOf ws (2 ^ L) w) i
    have e : ((2 ^ (L - i) : ℕ) : ℤ) = 2 ^ (L - i) := by push_cast; rfl
    refine ⟨_, _, _, _, WavetableData.wtOf_mSpan hw hi, WavetableData.wtOf_qSpan hw hi,
      WavetableData.wtOf_mDiffSpan hw hi, WavetableData.wtOf_qDiffSpan hw hi,
      WavetableData.wtOf_phaseSpan hi, ?_, ?_, ?_, ?_, ?_, ?_⟩
    · rw [WavetableData.wtOf_waveformLen (by omega) hi, e]; rfl
    · rw [l1, e]; rfl
    · rw [l2, e]; rfl
    · rw [l3, e]; rfl
    · rw [l4, e]; rfl
    · rw [WavetableData.grid_length]; push_cast; rfl
  · simp [WavetableData.wtOf]

end WtOk

namespace Sys

/-- content of a getter that succeeds -/
def getOr {α : Type} (x : R (List α)) : List α := match x with | .ok l => l | .error _ => []

/-- reading the phase grid -/
theorem rd_grid {n : ℕ} {j : ℤ} (h0 : 0 ≤ j) (h1 : j ≤ 2 ^ n) :
    rd (WavetableData.grid K n) j = .ok ((j : K) / 2 ^ n) := by
  obtain ⟨k, rfl⟩ := Int.eq_ofNat_of_zero_le h0
  have hk : k ≤ 2 ^ n := by exact_mod_cast h1
  have := WavetableData.grid_get (K := K) hk
  unfold rd
  rw [if_pos h0]
  simp only [Int.toNat_natCast, this, Int.cast_natCast]

/-- `adjustJ` on the grid of a table with `2^n` samples -/
def adj (n : ℕ) (mip prevMip jRed : ℤ) (pd pr : K) : ℤ :=
  if mip > prevMip then jRed / 2 ^ (mip - prevMip).toNat
  else if mip < prevMip then
    if pd > 0 then jRed * 2 ^ (prevMip - mip).toNat +
      (if ((jRed * 2 ^ (prevMip - mip).toNat + 1 : ℤ) : K) / 2 ^ n < pr then 1 else 0)
    else jRed * 2 ^ (prevMip - mip).toNat -
      (if ((jRed * 2 ^ (prevMip - mip).toNat - 1 : ℤ) : K) / 2 ^ n > pr then 1 else 0)
  else jRed

theorem adjustJ_spec {L : ℕ} {mip prevMip jRed : ℤ} {pd pr : K} (hm0 : 0 ≤ mip)
    (hm1 : mip < (L : ℤ) - 1) (hp0 : 0 ≤ prevMip) (hp1 : prevMip < (L : ℤ) - 1) (hj0 : 0 ≤ jRed)
    (hj1 : jRed ≤ 2 ^ (L - prevMip.toNat)) (hf : 0 < pd → jRed < 2 ^ (L - prevMip.toNat))
    (hb : pd ≤ 0 → mip < prevMip → 1 ≤ jRed) :
    adjustJ (WavetableData.grid K (L - mip.toNat)) mip prevMip jRed pd pr =
      .ok (adj (L - mip.toNat) mip prevMip jRed pd pr) ∧
    0 ≤ adj (L - mip.toNat) mip prevMip jRed pd pr ∧
    adj (L - mip.toNat) mip prevMip jRed pd pr ≤ 2 ^ (L - mip.toNat) ∧
    (0 < pd → adj (L - mip.toNat) mip prevMip jRed pd pr < 2 ^ (L - mip.toNat)) := by
  unfold adjustJ adj
  by_cases h1 : mip > prevMip
  · simp only [if_pos h1]
    have hpow : (2 : ℤ) ^ (L - prevMip.toNat) =
        2 ^ (L - mip.toNat) * 2 ^ (mip - prevMip).toNat := by
      rw [← pow_add]; congr 1; omega
    have hk : (0 : ℤ) < 2 ^ (mip - prevMip).toNat := by positivity
    refine ⟨trivial, Int.ediv_nonneg hj0 hk.le, ?_, ?_⟩
    · rw [hpow] at hj1
      exact Int.ediv_le_of_le_mul hk hj1
    · intro h
      have := hf h
      rw [hpow] at this
      exact Int.ediv_lt_of_lt_mul hk this
  · simp only [if_neg h1]
    by_cases h2 : mip < prevMip
    · simp only [if_pos h2]
      have hpow : (2 : ℤ) ^ (L - mip.toNat) =
          2 ^ (L - prevMip.toNat) * 2 ^ (prevMip - mip).toNat := by
        rw [← pow_add]; congr 1; omega
      have hk : (2 : ℤ) ≤ 2 ^ (prevMip - mip).toNat := by
        calc (2 : ℤ) = 2 ^ 1 := by norm_num
          _ ≤ 2 ^ (prevMip - mip).toNat := pow_le_pow_right₀ (by norm_num) (by omega)
      generalize (2 : ℤ) ^ (prevMip - mip).toNat = p at hk hpow ⊢
      rw [hpow]
      generalize (2 : ℤ) ^ (L - prevMip.toNat) = N at hj1 hf hpow ⊢
      have hj0' : 0 ≤ jRed * p := mul_nonneg hj0 (by omega)
      have hj1' : jRed * p ≤ N * p := mul_le_mul_of_nonneg_right hj1 (by omega)
      by_cases h3 : pd > 0
      · simp only [if_pos h3]
        have hlt := hf h3
        have : jRed * p + p ≤ N * p := by nlinarith
        rw [rd_grid (by omega) (by rw [hpow]; omega), R.ok_bind]
        refine ⟨rfl, ?_, ?_, fun _ => ?_⟩ <;> split <;> omega
      · simp only [if_neg h3]
        have hge := hb (not_lt.1 h3) h2
        have : p ≤ jRed * p := by nlinarith
        rw [rd_grid (by omega) (by rw [hpow]; omega), R.ok_bind]
        refine ⟨rfl, ?_, ?_, fun h => absurd h h3⟩ <;> split <;> omega
    · simp only [if_neg h2]
      have : mip = prevMip := by omega
      subst this
      exact ⟨trivial, hj0, hj1, hf⟩

theorem sign_cases (x : K) : Maths.sign x = -1 ∨ Maths.sign x = 0 ∨ Maths.sign x = 1 := by
  unfold Maths.sign; split_ifs <;> simp

/-! ### state invariant -/

/-- What holds of an oscillator between two calls. -/
structure _root_.Adwt.OscOk (S : Sys K C) (nw L : ℕ) (o : Osc K C) : Prop where
  wt : ∃ wt, o.wt = some wt ∧ WtOk nw L wt
  mip0 : 0 ≤ o.prevMip
  mip1 : o.prevMip < (L : ℤ) - 1
  j0 : 0 ≤ o.jRed
  j1 : o.jRed ≤ 2 ^ (L - o.prevMip.toNat)
  jf : 0 < o.prevPhaseDiff → o.jRed < 2 ^ (L - o.prevMip.toNat)
  jb : o.prevPhaseDiff < 0 → o.prevPhase ≠ 0 → 1 ≤ o.jRed
  p0 : 0 ≤ o.prevPhase
  p1 : o.prevPhase < 1
  red : o.prevPhaseRed = o.prevPhase
  fl : IsPhase S.env.fl o.prevPhase
  diff : o.prevPhaseDiff ≠ 0
  posF : 0 < o.prevPhaseDiff → o.jRed = ⌊o.prevPhase * 2 ^ (L - o.prevMip.toNat)⌋
  posB : o.prevPhaseDiff < 0 → o.jRed = ⌈o.prevPhase * 2 ^ (L - o.prevMip.toNat)⌉

/-- the segment index before the step, forward -/
def prevJF (S : Sys K C) (o : Osc K C) (n : ℕ) (mip : ℤ) : ℤ :=
  let j := adj n mip o.prevMip o.jRed o.prevPhaseDiff o.prevPhaseRed
  if o.prevPhaseDiff ≥ 0 then j + Maths.sign (S.env.fl (o.prevPhaseRed - (j : K) / 2 ^ n)) else j

/-- the segment index before the step, backward -/
def prevJB (S : Sys K C) (o : Osc K C) (n : ℕ) (mip : ℤ) : ℤ :=
  let j := adj n mip o.prevMip o.jRed o.prevPhaseDiff o.prevPhaseRed
  if o.prevPhaseDiff ≤ 0 then j + Maths.sign (S.env.fl (o.prevPhaseRed - (j : K) / 2 ^ n)) else j

/-- mixture of two tables -/
def mix (S : Sys K C) (t : MipMapIndices K) (lo up : ℕ → C) (k : ℕ) : C :=
  if t.weightUp ≠ 0 then lo k * S.ops.ofK t.weight + up k * S.ops.ofK t.weightUp else lo k

theorem cpxY_congr (S : Sys K C) (y : List C) {a b : ℕ → C} (h : ∀ k < S.n, a k = b k) :
    S.cpxY y a = S.cpxY y b := by
  unfold cpxY
  apply List.map_congr_left
  intro k hk
  rw [h k (List.mem_range.1 hk)]

/-- forward value of one table for a wavetable -/
def fwdAt (S : Sys K C) (wt : WavetableData K) (crt mip : ℤ) (N : ℤ) (prev : K) (jmin jmax : ℤ)
    (d x : K) : ℕ → C :=
  S.fwdVal (getOr (wt.mSpan crt mip)) (getOr (wt.qSpan crt mip)) (getOr (wt.mDiffSpan crt mip))
    (getOr (wt.qDiffSpan crt mip)) (getOr (wt.phaseSpan mip)) N prev jmin jmax d x

/-- backward value of one table for a wavetable -/
def bwdAt (S : Sys K C) (wt : WavetableData K) (crt mip : ℤ) (N : ℤ) (prev : K) (jm jmin jmax : ℤ)
    (d x : K) : ℕ → C :=
  S.bwdVal (getOr (wt.mSpan crt mip)) (getOr (wt.qSpan crt mip)) (getOr (wt.mDiffSpan crt mip))
    (getOr (wt.qDiffSpan crt mip)) (getOr (wt.phaseSpan mip)) N prev jm jmin jmax d x

theorem fwdAt_spec {S : Sys K C} {wt : WavetableData K} {crt mip N : ℤ} {m q md qd ph : List K}
    (hB : 0 < S.B) (T : Tabs wt crt mip N m q md qd ph) {jmin jmax : ℤ}
    (h0 : 0 ≤ jmin) (h1 : jmin < N) (h2 : 0 ≤ jmax) (h3 : jmax < N) {d : K} (hd : d ≠ 0)
    (prev x : K) (a : ℕ → C) :
    Ok (S.computeFwdI wt crt prev mip jmin jmax d x a) fun a' => ∀ k < S.n,
      a' k = S.fwdAt wt crt mip N prev jmin jmax d x k := by
  have := computeFwdI_spec hB T h0 h1 h2 h3 hd prev x a
  unfold fwdAt
  rw [T.em, T.eq, T.emd, T.eqd, T.eph]
  exact this

theorem bwdAt_spec {S : Sys K C} {wt : WavetableData K} {crt mip N : ℤ} {m q md qd ph : List K}
    (hB : 0 < S.B) (T : Tabs wt crt mip N m q md qd ph) {jm jmin jmax : ℤ}
    (h0 : 0 ≤ jmin) (h1 : jmin < N) (h2 : 0 ≤ jmax) (h3 : jmax < N) {d : K} (hd : d < 0)
    (prev x : K) (a : ℕ → C) :
    Ok (S.computeBwdI wt crt prev mip jm jmin jmax d x a) fun a' => ∀ k < S.n,
      a' k = S.bwdAt wt crt mip N prev jm jmin jmax d x k := by
  have := computeBwdI_spec hB T (jm := jm) h0 h1 h2 h3 hd prev x a
  unfold bwdAt
  rw [T.em, T.eq, T.emd, T.eqd, T.eph]
  exact this

/-- the complex sums before the state update, forward -/
def accF (S : Sys K C) (wt : WavetableData K) (L : ℕ) (o : Osc K C) (t : MipMapIndices K)
    (phase d : K) : ℕ → C :=
  let n := L - t.idx.toNat
  let jmin := (S.prevJF o n t.idx - 1) % 2 ^ n
  let jmax := ⌊phase * 2 ^ n⌋
  S.mix t (S.fwdAt wt o.crt t.idx (2 ^ n) o.prevPhaseRed jmin jmax d phase)
    (S.fwdAt wt o.crt t.idxUp (2 ^ (n - 1)) o.prevPhaseRed (jmin / 2) (jmax / 2) d phase)

/-- the complex sums before the state update, backward -/
def accB (S : Sys K C) (wt : WavetableData K) (L : ℕ) (o : Osc K C) (t : MipMapIndices K)
    (phase d : K) : ℕ → C :=
  let n := L - t.idx.toNat
  let j := ⌈phase * 2 ^ n⌉
  let jmin := (j - 1) % 2 ^ n
  let jmax := S.prevJB o n t.idx % 2 ^ n
  S.mix t (S.bwdAt wt o.crt t.idx (2 ^ n) o.prevPhaseRed j jmin jmax d phase)
    (S.bwdAt wt o.crt t.idxUp (2 ^ (n - 1)) o.prevPhaseRed j (jmin / 2) (jmax / 2) d phase)

theorem pos_exact {fl : K → K} (hf : Rounding fl) {n : ℕ} (hn : n ≤ 18) {x : K} (hx : fl x = x)
    (h0 : 0 ≤ x) (h1 : x ≤ 1) :
    fl (x * fl (((2 : ℤ) ^ n : ℤ) : K)) = x * 2 ^ n := by
  have e : fl (((2 : ℤ) ^ n : ℤ) : K) = 2 ^ n := by
    rw [hf.int _ (by
      rw [abs_of_nonneg (by positivity)]
      exact pow_le_pow_right₀ (by norm_num) (by omega))]
    push_cast; rfl
  rw [e]
  refine hf.up x n hx ?_
  rw [abs_of_nonneg (by positivity)]
  calc x * 2 ^ n ≤ 1 * 2 ^ 127 := by gcongr; exacts [by norm_num, by omega]
    _ = 2 ^ 127 := one_mul _

theorem pos_range {n : ℕ} (hn : n ≤ 18) {x : K} (h0 : 0 ≤ x) (h1 : x < 1) :
    0 ≤ x * 2 ^ n ∧ x * 2 ^ n < 2 ^ n ∧ (2 : K) ^ n ≤ 2 ^ 24 := by
  have hp : (0 : K) < 2 ^ n := by positivity
  exact ⟨by positivity, by nlinarith, pow_le_pow_right₀ (by norm_num) (by omega)⟩

theorem floor_range {n : ℕ} (hn : n ≤ 18) {x : K} (h0 : 0 ≤ x) (h1 : x < 1) :
    0 ≤ ⌊x * 2 ^ n⌋ ∧ ⌊x * 2 ^ n⌋ < 2 ^ n := by
  obtain ⟨a, b, -⟩ := pos_range hn h0 h1
  refine ⟨Int.floor_nonneg.2 a, ?_⟩
  rw [Int.floor_lt]; push_cast; exact b

theorem ceil_range {n : ℕ} (hn : n ≤ 18) {x : K} (h0 : 0 ≤ x) (h1 : x < 1) :
    0 ≤ ⌈x * 2 ^ n⌉ ∧ ⌈x * 2 ^ n⌉ ≤ 2 ^ n ∧ (x ≠ 0 → 1 ≤ ⌈x * 2 ^ n⌉) := by
  obtain ⟨a, b, -⟩ := pos_range hn h0 h1
  refine ⟨Int.ceil_nonneg a, ?_, fun hx => ?_⟩
  · rw [Int.ceil_le]; push_cast; exact b.le
  · have : 0 < x * 2 ^ n := by
      have : 0 < x := lt_of_le_of_ne h0 (Ne.symm hx)
      positivity
    have := Int.ceil_pos.2 this; omega

variable {S : Sys K C} {nw L : ℕ} {o : Osc K C}

/-- the crossfader call inside a step -/
theorem find_spec (hf : Rounding S.env.fl) {wt : WavetableData K} (hw : WtOk nw L wt) {d : K}
    (hd : 0 < d) :
    ∃ c t, wt.cf.newIndices S.env d = .ok (c, t) ∧
      wt.findMipMapIndices S.env d = .ok ({ wt with cf := c }, t) ∧
      WtOk nw L { wt with cf := c } ∧ c = wt.cf.stepD d ∧ 0 ≤ t.idx ∧ t.idx < (L : ℤ) - 1 ∧
      (t.weightUp ≠ 0 → t.idxUp = t.idx + 1 ∧ t.idxUp < (L : ℤ) - 1) := by
  obtain ⟨t, e, -⟩ := CrossFader.newIndices_eq hf hw.inv hd
  refine ⟨_, t, e, ?_, ?_, rfl, ?_⟩
  · unfold WavetableData.findMipMapIndices; rw [e]; rfl
  · exact hw.with_cf (CrossFader.stepD_inv hw.inv d) (CrossFader.stepD_const _ _).1
      (CrossFader.stepD_const _ _).2
  · obtain ⟨a, b, c, -⟩ := CrossFader.tuple_facts hf hw.inv hd e
    rw [hw.scale_len] at b c
    exact ⟨a, b, c⟩

theorem prevJ_bounds {n : ℕ} {j s : ℤ} (h0 : 0 ≤ j) (h1 : j ≤ 2 ^ n)
    (hs : s = -1 ∨ s = 0 ∨ s = 1) : -1 ≤ j + s ∧ j + s ≤ 2 ^ n + 1 := by
  rcases hs with rfl | rfl | rfl <;> omega

theorem half_range {n : ℕ} (hn : 1 ≤ n) {j : ℤ} (h0 : 0 ≤ j) (h1 : j < 2 ^ n) :
    j.tdiv 2 = j / 2 ∧ 0 ≤ j / 2 ∧ j / 2 < 2 ^ (n - 1) := by
  have e : (2 : ℤ) ^ n = 2 ^ (n - 1) * 2 := by rw [← pow_succ]; congr 1; omega
  refine ⟨Int.tdiv_eq_ediv_of_nonneg h0, by omega, by omega⟩

/-- A forward sample up to the computation of the sums. -/
theorem fwd_pre (hf : Rounding S.env.fl) {wt : WavetableData K}
    (hwt : o.wt = some wt) (ho : OscOk S nw L o)
    {phase d : K} (hp0 : 0 ≤ phase) (hp1 : phase < 1)
    (hpf : S.env.fl phase = phase) (hchk : chk S.env.dbg (d > 0 ∧ d ≤ 1 / 2) = .ok ())
    {c : CrossFader K} {t : MipMapIndices K}
    (hfind : wt.findMipMapIndices S.env d = .ok ({ wt with cf := c }, t))
    (hw' : WtOk nw L { wt with cf := c }) (ht0 : 0 ≤ t.idx) (ht1 : t.idx < (L : ℤ) - 1)
    (hsafe : o.prevPhaseDiff < 0 → t.idx < o.prevMip → 1 ≤ o.jRed) :
    (∃ x : ℤ, x = (S.prevJF o (L - t.idx.toNat) t.idx - 1) % 2 ^ (L - t.idx.toNat) ∧ 0 ≤ x ∧
      x < 2 ^ (L - t.idx.toNat)) ∧
    0 ≤ ⌊phase * 2 ^ (L - t.idx.toNat)⌋ ∧ ⌊phase * 2 ^ (L - t.idx.toNat)⌋ < 2 ^ (L - t.idx.toNat) ∧
    S.processSampleFwd o phase d = (do
      let jmin := (S.prevJF o (L - t.idx.toNat) t.idx - 1) % 2 ^ (L - t.idx.toNat)
      let jmax := ⌊phase * 2 ^ (L - t.idx.toNat)⌋
      let a ← S.computeFwdI { wt with cf := c } o.crt o.prevPhaseRed t.idx jmin jmax d phase
        (fun _ => 0)
      let a ← S.withUpper t a (S.computeFwdI { wt with cf := c } o.crt o.prevPhaseRed t.idxUp
        (jmin.tdiv 2) (jmax.tdiv 2) d phase (fun _ => 0))
      let y := S.cpxY o.prevY a
      return ({ wt := some { wt with cf := c }, prevY := y, prevPhase := phase,
                prevPhaseRed := phase, prevPhaseDiff := d, prevMip := t.idx, jRed := jmax,
                prevJRed := S.prevJF o (L - t.idx.toNat) t.idx, crt := o.crt }, S.outReal y)) := by
  have hL := hw'.L18
  set n := L - t.idx.toNat with hnn
  have hn18 : n ≤ 18 := by omega
  have hn2 : 2 ≤ n := by omega
  obtain ⟨hlen4, -⟩ := hw'.len_pos ht0 ht1
  rw [← hnn] at hlen4
  obtain ⟨hadj, hadj0, hadj1, -⟩ := adjustJ_spec (K := K) (pd := o.prevPhaseDiff)
    (pr := o.prevPhaseRed) ht0 ht1 ho.mip0 ho.mip1 ho.j0 ho.j1 ho.jf
    (fun h => hsafe (lt_of_le_of_ne h ho.diff))
  rw [← hnn] at hadj hadj0 hadj1
  obtain ⟨hj0, hj1⟩ := floor_range hn18 hp0 hp1
  obtain ⟨hr0, hr1, hr2⟩ := pos_range hn18 hp0 hp1
  have hprevJ : -1 ≤ S.prevJF o n t.idx ∧ S.prevJF o n t.idx ≤ 2 ^ n + 1 := by
    unfold prevJF
    dsimp only
    split
    · exact prevJ_bounds hadj0 hadj1 (sign_cases _)
    · omega
  have hjm0 : 0 ≤ (S.prevJF o n t.idx - 1) % 2 ^ n := Int.emod_nonneg _ (by positivity)
  have hjm1 : (S.prevJF o n t.idx - 1) % 2 ^ n < 2 ^ n := Int.emod_lt_of_pos _ (by positivity)
  refine ⟨⟨_, rfl, hjm0, hjm1⟩, hj0, hj1, ?_⟩
  unfold processSampleFwd
  dsimp only
  rw [hchk, R.ok_bind, hwt]
  dsimp only
  rw [hfind, R.ok_bind]
  dsimp only
  rw [hw'.phaseSpan ht0 ht1, R.ok_bind, Maths.reduceF_unit hf hp0 hp1, R.ok_bind,
    hw'.waveformLen ht0 ht1, R.ok_bind, ← hnn, hadj, R.ok_bind]
  have hpj : prevJFwd S.env.fl (WavetableData.grid K n)
      (adj n t.idx o.prevMip o.jRed o.prevPhaseDiff o.prevPhaseRed) o.prevPhaseDiff o.prevPhaseRed
      = .ok (S.prevJF o n t.idx) := by
    unfold prevJF prevJFwd
    dsimp only
    split
    · rw [rd_grid hadj0 hadj1, R.ok_bind]; rfl
    · rfl
  rw [hpj, R.ok_bind, pos_exact hf hn18 hpf hp0 hp1.le,
    Maths.floor_small hf (by linarith) (by linarith), R.ok_bind,
    Maths.reduceI_eq (by positivity) (by omega) (by omega), R.ok_bind,
    Maths.reduceI_eq (by positivity) (by omega) (by omega), R.ok_bind,
    Int.emod_eq_of_lt hj0 hj1]

/-- A backward sample up to the computation of the sums. -/
theorem bwd_pre (hf : Rounding S.env.fl) {wt : WavetableData K}
    (hwt : o.wt = some wt) (ho : OscOk S nw L o)
    {phase d : K} (hp0 : 0 ≤ phase) (hp1 : phase < 1)
    (hpf : S.env.fl phase = phase) (hchk : chk S.env.dbg (d < 0 ∧ d ≥ -(1 / 2)) = .ok ())
    {c : CrossFader K} {t : MipMapIndices K}
    (hfind : wt.findMipMapIndices S.env |d| = .ok ({ wt with cf := c }, t))
    (hw' : WtOk nw L { wt with cf := c }) (ht0 : 0 ≤ t.idx) (ht1 : t.idx < (L : ℤ) - 1)
    (hsafe : o.prevPhaseDiff < 0 → t.idx < o.prevMip → 1 ≤ o.jRed) :
    S.processSampleBwd o phase d = (do
      let j := ⌈phase * 2 ^ (L - t.idx.toNat)⌉
      let jmin := (j - 1) % 2 ^ (L - t.idx.toNat)
      let jmax := S.prevJB o (L - t.idx.toNat) t.idx % 2 ^ (L - t.idx.toNat)
      let a ← S.computeBwdI { wt with cf := c } o.crt o.prevPhaseRed t.idx j jmin jmax d phase
        (fun _ => 0)
      let a ← S.withUpper t a (S.computeBwdI { wt with cf := c } o.crt o.prevPhaseRed t.idxUp
        j (jmin.tdiv 2) (jmax.tdiv 2) d phase (fun _ => 0))
      let y := S.cpxY o.prevY a
      return ({ wt := some { wt with cf := c }, prevY := y, prevPhase := phase,
                prevPhaseRed := phase, prevPhaseDiff := d, prevMip := t.idx, jRed := j,
                prevJRed := S.prevJB o (L - t.idx.toNat) t.idx, crt := o.crt }, S.outReal y)) := by
  have hL := hw'.L18
  set n := L - t.idx.toNat with hnn
  have hn18 : n ≤ 18 := by omega
  have hn2 : 2 ≤ n := by omega
  obtain ⟨hlen4, -⟩ := hw'.len_pos ht0 ht1
  rw [← hnn] at hlen4
  obtain ⟨hadj, hadj0, hadj1, -⟩ := adjustJ_spec (K := K) (pd := o.prevPhaseDiff)
    (pr := o.prevPhaseRed) ht0 ht1 ho.mip0 ho.mip1 ho.j0 ho.j1 ho.jf
    (fun h => hsafe (lt_of_le_of_ne h ho.diff))
  rw [← hnn] at hadj hadj0 hadj1
  obtain ⟨hj0, hj1, -⟩ := ceil_range hn18 hp0 hp1
  obtain ⟨hr0, hr1, hr2⟩ := pos_range hn18 hp0 hp1
  have hprevJ : -1 ≤ S.prevJB o n t.idx ∧ S.prevJB o n t.idx ≤ 2 ^ n + 1 := by
    unfold prevJB
    dsimp only
    split
    · exact prevJ_bounds hadj0 hadj1 (sign_cases _)
    · omega
  unfold processSampleBwd
  dsimp only
  rw [hchk, R.ok_bind, hwt]
  dsimp only
  rw [hfind, R.ok_bind]
  dsimp only
  rw [hw'.phaseSpan ht0 ht1, R.ok_bind, Maths.reduceF_unit hf hp0 hp1, R.ok_bind,
    hw'.waveformLen ht0 ht1, R.ok_bind, ← hnn, hadj, R.ok_bind]
  have hpj : prevJBwd S.env.fl (WavetableData.grid K n)
      (adj n t.idx o.prevMip o.jRed o.prevPhaseDiff o.prevPhaseRed) o.prevPhaseDiff o.prevPhaseRed
      = .ok (S.prevJB o n t.idx) := by
    unfold prevJB prevJBwd
    dsimp only
    split
    · rw [rd_grid hadj0 hadj1, R.ok_bind]; rfl
    · rfl
  rw [hpj, R.ok_bind, pos_exact hf hn18 hpf hp0 hp1.le,
    Maths.ceil_small hf (by linarith) (by linarith), R.ok_bind,
    Maths.reduceI_eq (by positivity) (by omega) (by omega), R.ok_bind,
    Maths.reduceI_eq (by positivity) (by omega) (by omega), R.ok_bind]

/-- Closed form of a forward sample. -/
theorem fwd_eq' (hf : Rounding S.env.fl) (hB : 0 < S.B) {wt : WavetableData K}
    (hwt : o.wt = some wt) (ho : OscOk S nw L o) (hw : WtOk nw L wt)
    (hc0 : 0 ≤ o.crt) (hc1 : o.crt < nw) {phase d : K} (hp0 : 0 ≤ phase) (hp1 : phase < 1)
    (hpf : S.env.fl phase = phase) (hd0 : 0 < d) (hchk : chk S.env.dbg (d > 0 ∧ d ≤ 1 / 2) = .ok ())
    {c : CrossFader K} {t : MipMapIndices K} (hn : wt.cf.newIndices S.env d = .ok (c, t))
    (hsafe : o.prevPhaseDiff < 0 → t.idx < o.prevMip → 1 ≤ o.jRed) :
    S.processSampleFwd o phase d = .ok
      ({ wt := some { wt with cf := c },
         prevY := S.cpxY o.prevY (S.accF wt L o t phase d), prevPhase := phase,
         prevPhaseRed := phase, prevPhaseDiff := d, prevMip := t.idx,
         jRed := ⌊phase * 2 ^ (L - t.idx.toNat)⌋,
         prevJRed := S.prevJF o (L - t.idx.toNat) t.idx, crt := o.crt },
       S.outReal (S.cpxY o.prevY (S.accF wt L o t phase d))) := by
  obtain ⟨c', t', hn', hfind, hw', hcs, ht0, ht1, htu⟩ := find_spec hf hw hd0
  rw [hn] at hn'; cases hn'
  have hL := hw.L18
  set n := L - t.idx.toNat with hnn
  have hn18 : n ≤ 18 := by omega
  have hn2 : 2 ≤ n := by omega
  obtain ⟨hlen4, -⟩ := hw.len_pos ht0 ht1
  rw [← hnn] at hlen4
  obtain ⟨hadj, hadj0, hadj1, -⟩ := adjustJ_spec (K := K) (pd := o.prevPhaseDiff)
    (pr := o.prevPhaseRed) ht0 ht1 ho.mip0 ho.mip1 ho.j0 ho.j1 ho.jf
    (fun h => hsafe (lt_of_le_of_ne h ho.diff))
  rw [← hnn] at hadj hadj0 hadj1
  obtain ⟨hj0, hj1⟩ := floor_range hn18 hp0 hp1
  obtain ⟨hr0, hr1, hr2⟩ := pos_range hn18 hp0 hp1
  have hprevJ : -1 ≤ S.prevJF o n t.idx ∧ S.prevJF o n t.idx ≤ 2 ^ n + 1 := by
    unfold prevJF
    dsimp only
    split
    · exact prevJ_bounds hadj0 hadj1 (sign_cases _)
    · omega
  have hjm0 : 0 ≤ (S.prevJF o n t.idx - 1) % 2 ^ n := Int.emod_nonneg _ (by positivity)
  have hjm1 : (S.prevJF o n t.idx - 1) % 2 ^ n < 2 ^ n := Int.emod_lt_of_pos _ (by positivity)
  obtain ⟨m, q, md, qd, T⟩ := hw'.tabs o.crt t.idx hc0 hc1 ht0 ht1
  rw [← hnn] at T
  have hlo := fwdAt_spec hB T hjm0 hjm1 hj0 hj1 hd0.ne' o.prevPhaseRed phase (fun _ => 0)
  rw [(fwd_pre hf hwt ho hp0 hp1 hpf hchk hfind hw' ht0 ht1 hsafe).2.2.2]
  dsimp only
  rw [← hnn]
  obtain ⟨a, ea, ha⟩ := hlo
  rw [ea, R.ok_bind]
  by_cases hup : t.weightUp ≠ 0
  · unfold withUpper
    rw [if_pos hup]
    obtain ⟨hu1, hu2⟩ := htu hup
    obtain ⟨e1, e2, e3⟩ := half_range (by omega) hjm0 hjm1
    obtain ⟨e4, e5, e6⟩ := half_range (by omega) hj0 hj1
    obtain ⟨m', q', md', qd', T'⟩ := hw'.tabs o.crt t.idxUp hc0 hc1 (by omega) hu2
    have hnu : L - t.idxUp.toNat = n - 1 := by omega
    rw [hnu] at T'
    obtain ⟨b, eb, hb⟩ := fwdAt_spec hB T' e2 e3 e5 e6 hd0.ne' o.prevPhaseRed phase (fun _ => 0)
    rw [e1, e4, eb, R.ok_bind]
    simp only [R.pure_eq, R.ok_bind]
    have : S.cpxY o.prevY (S.crossfade t.weight t.weightUp a b) =
        S.cpxY o.prevY (S.accF wt L o t phase d) := by
      apply cpxY_congr
      intro k hk
      unfold accF mix
      rw [if_pos hup]
      unfold crossfade
      have hupper := (upper_ge S.n S.B hB).2.2
      rw [if_pos (by split <;> [exact lt_of_lt_of_le hk hupper; exact hk]), ha k hk, hb k hk]
      rfl
    rw [this]
  · unfold withUpper
    rw [if_neg hup]
    simp only [R.pure_eq, R.ok_bind]
    have : S.cpxY o.prevY a = S.cpxY o.prevY (S.accF wt L o t phase d) := by
      apply cpxY_congr
      intro k hk
      unfold accF mix
      rw [if_neg hup, ha k hk]
      rfl
    rw [this]

theorem fwd_eq (hf : Rounding S.env.fl) (hB : 0 < S.B) {wt : WavetableData K}
    (hwt : o.wt = some wt) (ho : OscOk S nw L o) (hw : WtOk nw L wt)
    (hc0 : 0 ≤ o.crt) (hc1 : o.crt < nw) {phase d : K} (hp0 : 0 ≤ phase) (hp1 : phase < 1)
    (hpf : S.env.fl phase = phase) (hd0 : 0 < d) (hd1 : d ≤ 1 / 2)
    {c : CrossFader K} {t : MipMapIndices K} (hn : wt.cf.newIndices S.env d = .ok (c, t))
    (hsafe : o.prevPhaseDiff < 0 → t.idx < o.prevMip → 1 ≤ o.jRed) :
    S.processSampleFwd o phase d = .ok
      ({ wt := some { wt with cf := c },
         prevY := S.cpxY o.prevY (S.accF wt L o t phase d), prevPhase := phase,
         prevPhaseRed := phase, prevPhaseDiff := d, prevMip := t.idx,
         jRed := ⌊phase * 2 ^ (L - t.idx.toNat)⌋,
         prevJRed := S.prevJF o (L - t.idx.toNat) t.idx, crt := o.crt },
       S.outReal (S.cpxY o.prevY (S.accF wt L o t phase d))) :=
  fwd_eq' hf hB hwt ho hw hc0 hc1 hp0 hp1 hpf hd0 (chk_true ⟨hd0, hd1⟩) hn hsafe

/-- Closed form of a backward sample. -/
theorem bwd_eq (hf : Rounding S.env.fl) (hB : 0 < S.B) {wt : WavetableData K}
    (hwt : o.wt = some wt) (ho : OscOk S nw L o) (hw : WtOk nw L wt)
    (hc0 : 0 ≤ o.crt) (hc1 : o.crt < nw) {phase d : K} (hp0 : 0 ≤ phase) (hp1 : phase < 1)
    (hpf : S.env.fl phase = phase) (hd0 : d < 0) (hd1 : -(1 / 2) ≤ d)
    {c : CrossFader K} {t : MipMapIndices K} (hn : wt.cf.newIndices S.env |d| = .ok (c, t))
    (hsafe : o.prevPhaseDiff < 0 → t.idx < o.prevMip → 1 ≤ o.jRed) :
    S.processSampleBwd o phase d = .ok
      ({ wt := some { wt with cf := c },
         prevY := S.cpxY o.prevY (S.accB wt L o t phase d), prevPhase := phase,
         prevPhaseRed := phase, prevPhaseDiff := d, prevMip := t.idx,
         jRed := ⌈phase * 2 ^ (L - t.idx.toNat)⌉,
         prevJRed := S.prevJB o (L - t.idx.toNat) t.idx, crt := o.crt },
       S.outReal (S.cpxY o.prevY (S.accB wt L o t phase d))) := by
  obtain ⟨c', t', hn', hfind, hw', hcs, ht0, ht1, htu⟩ := find_spec hf hw (abs_pos.2 hd0.ne)
  rw [hn] at hn'; cases hn'
  have hL := hw.L18
  set n := L - t.idx.toNat with hnn
  have hn18 : n ≤ 18 := by omega
  have hn2 : 2 ≤ n := by omega
  obtain ⟨hlen4, -⟩ := hw.len_pos ht0 ht1
  rw [← hnn] at hlen4
  obtain ⟨hadj, hadj0, hadj1, -⟩ := adjustJ_spec (K := K) (pd := o.prevPhaseDiff)
    (pr := o.prevPhaseRed) ht0 ht1 ho.mip0 ho.mip1 ho.j0 ho.j1 ho.jf
    (fun h => hsafe (lt_of_le_of_ne h ho.diff))
  rw [← hnn] at hadj hadj0 hadj1
  obtain ⟨hj0, hj1, -⟩ := ceil_range hn18 hp0 hp1
  obtain ⟨hr0, hr1, hr2⟩ := pos_range hn18 hp0 hp1
  have hprevJ : -1 ≤ S.prevJB o n t.idx ∧ S.prevJB o n t.idx ≤ 2 ^ n + 1 := by
    unfold prevJB
    dsimp only
    split
    · exact prevJ_bounds hadj0 hadj1 (sign_cases _)
    · omega
  have hjm0 : 0 ≤ S.prevJB o n t.idx % 2 ^ n := Int.emod_nonneg _ (by positivity)
  have hjm1 : S.prevJB o n t.idx % 2 ^ n < 2 ^ n := Int.emod_lt_of_pos _ (by positivity)
  have hjn0 : 0 ≤ (⌈phase * 2 ^ n⌉ - 1) % 2 ^ n := Int.emod_nonneg _ (by positivity)
  have hjn1 : (⌈phase * 2 ^ n⌉ - 1) % 2 ^ n < 2 ^ n := Int.emod_lt_of_pos _ (by positivity)
  obtain ⟨m, q, md, qd, T⟩ := hw'.tabs o.crt t.idx hc0 hc1 ht0 ht1
  rw [← hnn] at T
  have hlo := bwdAt_spec hB T (jm := ⌈phase * 2 ^ n⌉) hjn0 hjn1 hjm0 hjm1 hd0 o.prevPhaseRed phase
    (fun _ => 0)
  rw [bwd_pre hf hwt ho hp0 hp1 hpf (chk_true ⟨hd0, hd1⟩) hfind hw' ht0 ht1 hsafe]
  dsimp only
  rw [← hnn]
  obtain ⟨a, ea, ha⟩ := hlo
  rw [ea, R.ok_bind]
  by_cases hup : t.weightUp ≠ 0
  · unfold withUpper
    rw [if_pos hup]
    obtain ⟨hu1, hu2⟩ := htu hup
    obtain ⟨e1, e2, e3⟩ := half_range (by omega) hjm0 hjm1
    obtain ⟨e4, e5, e6⟩ := half_range (by omega) hjn0 hjn1
    obtain ⟨m', q', md', qd', T'⟩ := hw'.tabs o.crt t.idxUp hc0 hc1 (by omega) hu2
    have hnu : L - t.idxUp.toNat = n - 1 := by omega
    rw [hnu] at T'
    obtain ⟨b, eb, hb⟩ := bwdAt_spec hB T' (jm := ⌈phase * 2 ^ n⌉) e5 e6 e2 e3 hd0 o.prevPhaseRed
      phase (fun _ => 0)
    rw [e1, e4, eb, R.ok_bind]
    simp only [R.pure_eq, R.ok_bind]
    have : S.cpxY o.prevY (S.crossfade t.weight t.weightUp a b) =
        S.cpxY o.prevY (S.accB wt L o t phase d) := by
      apply cpxY_congr
      intro k hk
      unfold accB mix
      rw [if_pos hup]
      unfold crossfade
      have hupper := (upper_ge S.n S.B hB).2.2
      rw [if_pos (by split <;> [exact lt_of_lt_of_le hk hupper; exact hk]), ha k hk, hb k hk]
      rfl
    rw [this]
  · unfold withUpper
    rw [if_neg hup]
    simp only [R.pure_eq, R.ok_bind]
    have : S.cpxY o.prevY a = S.cpxY o.prevY (S.accB wt L o t phase d) := by
      apply cpxY_congr
      intro k hk
      unfold accB mix
      rw [if_neg hup, ha k hk]
      rfl
    rw [this]

end Sys
end Adwt
