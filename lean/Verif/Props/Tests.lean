import Verif.Props.Samplerate
import Verif.Props.Hold
import Verif.Proofs.Sweep
import Verif.Proofs.Ovs
import Verif.Props.FloatExamples

/-!
# C79: the unit tests, for all random numbers
-/

set_option linter.unusedSectionVars false

namespace Adwt.Props
open WavetableData Drivers
variable {K C : Type} [Field K] [LinearOrder K] [IsStrictOrderedRing K] [FloorRing K]
variable [Zero C] [Add C] [Sub C] [Mul C] [Div C]

/-! ### adding a random number below 1/2 in IEEE floats -/

theorem pow_neg_nat (n : ℕ) : (2 : K) ^ (-(n : ℤ)) = 1 / 2 ^ n := by
  rw [zpow_neg, one_div, zpow_natCast]

/-- rounding on the grid of a binade -/
theorem ieee32_grid {x : K} (n : ℕ) (hn : n ≤ 100) (h0 : 1 / 2 ^ n ≤ x) (h1 : x < 2 * (1 / 2 ^ n)) :
    ieee32 x = roundEven (x * 2 ^ (n + 23)) / 2 ^ (n + 23) := by
  have hp : (0 : K) < 1 / 2 ^ n := by positivity
  have hx : 0 < x := by linarith
  have hlog : Int.log 2 x = -(n : ℤ) := by
    apply CrossFader.log_of_bounds
    · rw [pow_neg_nat]; exact h0
    · rw [zpow_add_one₀ (by norm_num), pow_neg_nat]; linarith
  have hu : ulpExp x = -((n + 23 : ℕ) : ℤ) := by
    unfold ulpExp; rw [abs_of_pos hx, hlog]; push_cast; ring
  have hb : (1 : K) / 2 ^ 126 ≤ x := by
    refine le_trans ?_ h0
    apply one_div_le_one_div_of_le (by positivity)
    exact pow_le_pow_right₀ (by norm_num) (by omega)
  have h2 : (1 : K) / 2 ^ n ≤ 1 := by
    rw [div_le_one (by positivity)]; exact one_le_pow₀ (by norm_num)
  rw [ieee32_normal (Or.inr (by rwa [abs_of_pos hx])) (by
    rw [abs_of_pos hx]; linarith [show (2 : K) ≤ 2 ^ 127 by norm_num])]
  unfold rne24
  rw [hu, pow_neg_nat, div_div_eq_mul_div, div_one, mul_one_div]

/-- floats below 1/2 -/
theorem below_half {r : K} (hr : ieee32 r = r) (h : r < 1 / 2) : r ≤ 1 / 2 - 1 / 2 ^ 25 := by
  rcases lt_or_ge r (1 / 4) with h4 | h4
  · linarith [show (1 : K) / 4 ≤ 1 / 2 - 1 / 2 ^ 25 by norm_num]
  have e := ieee32_grid (K := K) (x := r) 2 (by norm_num) (by norm_num; linarith) (by norm_num; linarith)
  rw [hr] at e
  generalize roundEven (r * 2 ^ (2 + 23)) = m at e
  have h1 : (m : K) < ((2 ^ 24 : ℤ) : K) := by
    rw [e, div_lt_iff₀ (by positivity)] at h; push_cast; norm_num at h ⊢; exact h
  have h2 : m ≤ 2 ^ 24 - 1 := by have := Int.cast_lt.1 h1; omega
  have h3 : (m : K) ≤ 2 ^ 24 - 1 := by exact_mod_cast h2
  rw [e, div_le_iff₀ (by positivity)]; norm_num at h3 ⊢; linarith

theorem round_half {z : K} {n : ℤ} (h : z < n + 1 / 2) : roundEven z ≤ n := by
  have := (abs_le.1 (roundEven_err z)).2
  have : (roundEven z : K) < ((n + 1 : ℤ) : K) := by push_cast; linarith
  have := Int.cast_lt.1 this
  omega

/-- floats of at least 1/2 and below 1 are multiples of `2^-24` -/
theorem upper_grid {x : K} (hx : ieee32 x = x) (h0 : 1 / 2 ≤ x) (h1 : x < 1) :
    ∃ m : ℤ, x = (m : K) / 2 ^ 24 := by
  have e := ieee32_grid (K := K) (x := x) 1 (by norm_num) (by norm_num; linarith) (by norm_num; linarith)
  rw [hx] at e
  exact ⟨_, e⟩

/-- One addition of a float in `(2^-25, 1/2)` to a phase: a forward step of at most half a cycle. -/
theorem add_forward {x r : K} (hx : PhaseOk ieee32 x) (hf : ieee32 x = x) (hr : ieee32 r = r)
    (h0 : 1 / 2 ^ 25 < r) (h1 : r < 1 / 2) :
    ieee32 (fmod1 (ieee32 (x + r))) = fmod1 (ieee32 (x + r)) ∧ 0 ≤ ieee32 (x + r) ∧ ieee32 (x + r) < 2 ∧
      PhaseOk ieee32 (fmod1 (ieee32 (x + r))) ∧ Forward x (fmod1 (ieee32 (x + r))) := by
  have hg := rounding_ieee32 (K := K)
  have hb := below_half hr h1
  obtain ⟨x0, x1, -⟩ := hx
  have c0 : (0 : K) < 1 / 2 ^ 25 := by positivity
  have c1 : (1 : K) / 2 ^ 126 ≤ 1 / 2 ^ 25 := by norm_num
  have c2 : (1 : K) / 2 ^ 25 < 1 / 2 ^ 24 := by norm_num
  have c3 : (1 : K) / 2 ^ 24 < 1 / 4 := by norm_num
  have e25 : (2 : K) ^ (-25 : ℤ) = 1 / 2 ^ 25 := by rw [zpow_neg, one_div]; norm_cast
  rcases lt_or_ge (x + r) 1 with hs | hs
  · have he := ieee32_err_below (x := x + r) 0 (by linarith) (by rw [zpow_zero]; exact hs) (by norm_num)
    rw [show (0 - 25 : ℤ) = -25 by norm_num, e25] at he
    have hle : ieee32 (x + r) ≤ 1 := hg.le_of_le hg.one hs.le
    have hgt : x < ieee32 (x + r) := by have := (abs_le.1 he).1; linarith
    -- at most half a cycle
    have hup : ieee32 (x + r) ≤ x + 1 / 2 := by
      rcases lt_or_ge (x + r) (1 / 2) with hh | hh
      · have := hg.le_of_le (x := x + r) (y := 1 / 2) (by
          have := hg.dyadic 1 1 (by norm_num); norm_num at this ⊢; exact this) hh.le
        linarith
      · rw [ieee32_grid 1 (by norm_num) (by norm_num; linarith) (by norm_num; linarith)]
        have hfl := Int.lt_floor_add_one ((x + 1 / 2) * 2 ^ 24)
        have hf2 := Int.floor_le ((x + 1 / 2) * 2 ^ 24 : K)
        have hrd : roundEven ((x + r) * 2 ^ (1 + 23)) ≤ ⌊(x + 1 / 2) * 2 ^ 24⌋ := by
          apply round_half
          have : (x + r) * 2 ^ (1 + 23) ≤ (x + 1 / 2) * 2 ^ 24 - 1 / 2 := by
            norm_num at hb ⊢; linarith
          linarith
        have hrd' : (roundEven ((x + r) * 2 ^ (1 + 23)) : K) ≤ (⌊(x + 1 / 2) * 2 ^ 24⌋ : K) :=
          Int.cast_le.2 hrd
        rw [div_le_iff₀ (by positivity)]
        exact hrd'.trans hf2
    rcases hle.lt_or_eq with hl | hl
    · have ef : fmod1 (ieee32 (x + r)) = ieee32 (x + r) := by
        unfold fmod1; rw [trunc_zero (by linarith) hl, Int.cast_zero, sub_zero]
      rw [ef]
      exact ⟨hg.idem _, by linarith, by linarith, ⟨by linarith, hl, isPhase_ieee32 (hg.idem _)⟩,
        Or.inl ⟨hgt, by linarith⟩⟩
    · have ef : fmod1 (ieee32 (x + r)) = 0 := by
        unfold fmod1; rw [hl, trunc_one le_rfl (by norm_num), Int.cast_one, sub_self]
      rw [ef, hl]
      rw [hl] at he hup
      have := (abs_le.1 he).2
      exact ⟨hg.zero, by norm_num, by norm_num, ⟨le_rfl, by norm_num, hg.zero_ph⟩,
        Or.inr ⟨by linarith, by linarith⟩⟩
  · have hx2 : 1 / 2 ≤ x := by linarith
    obtain ⟨m, hm⟩ := upper_grid hf hx2 x1
    obtain ⟨k, k0, k1, hk⟩ := ieee32_one_two hs (by linarith)
    have hge : 1 ≤ ieee32 (x + r) := hg.ge_of_ge hg.one hs
    have hup : ieee32 (x + r) ≤ x + 1 / 2 := by
      rw [ieee32_grid 0 (by norm_num) (by norm_num; linarith) (by norm_num; linarith)]
      have hrd : 2 * roundEven ((x + r) * 2 ^ (0 + 23)) ≤ m + 2 ^ 23 := by
        have hz : (x + r) * 2 ^ (0 + 23) ≤ (m + 2 ^ 23 : K) / 2 - 1 / 4 := by
          rw [hm]; norm_num at hb ⊢; linarith
        have : roundEven ((x + r) * 2 ^ (0 + 23)) ≤ (m + 2 ^ 23) / 2 := by
          apply round_half
          refine lt_of_le_of_lt hz ?_
          rcases Int.emod_two_eq_zero_or_one (m + 2 ^ 23) with hmod | hmod
          · have h5 : 2 * ((m + 2 ^ 23) / 2) = m + 2 ^ 23 := by omega
            have h6 : (2 : K) * (((m + 2 ^ 23) / 2 : ℤ) : K) = m + 2 ^ 23 := by exact_mod_cast h5
            linarith
          · have h5 : 2 * ((m + 2 ^ 23) / 2) + 1 = m + 2 ^ 23 := by omega
            have h6 : (2 : K) * (((m + 2 ^ 23) / 2 : ℤ) : K) + 1 = m + 2 ^ 23 := by exact_mod_cast h5
            linarith
        omega
      have hrd' : (2 : K) * (roundEven ((x + r) * 2 ^ (0 + 23)) : K) ≤ m + 2 ^ 23 := by exact_mod_cast hrd
      generalize (roundEven ((x + r) * 2 ^ (0 + 23)) : K) = y at hrd' ⊢
      rw [div_le_iff₀ (by positivity), hm]
      norm_num at hrd' ⊢
      linarith
    have ef : fmod1 (ieee32 (x + r)) = (k : K) / 2 ^ 23 := by
      unfold fmod1; rw [trunc_one hge (by linarith), Int.cast_one, hk]; ring
    have hfix : ieee32 ((k : K) / 2 ^ 23) = (k : K) / 2 ^ 23 := hg.dyadic k 23 (by
      rw [abs_of_nonneg k0]; linarith [show (2 : ℤ) ^ 23 ≤ 2 ^ 24 by norm_num])
    have e1 : (k : K) / 2 ^ 23 = ieee32 (x + r) - 1 := by rw [hk]; ring
    refine ⟨by rw [ef]; exact hfix, by linarith, by linarith, ?_, ?_⟩
    · rw [ef]; exact ⟨by rw [e1]; linarith, by rw [e1]; linarith, isPhase_ieee32 hfix⟩
    · rw [ef, e1]; right; constructor <;> linarith

theorem reduce_mod {E : Env K} (he : E.fl = ieee32) {v : K} (h0 : 0 ≤ v) (h2 : v < 2)
    (hf : ieee32 (fmod1 v) = fmod1 v) : Maths.reduceF E v 1 = .ok (fmod1 v) := by
  have hg := rounding_ieee32 (K := K)
  unfold Maths.reduceF
  have e2 : E.fl (2 * 1) = 2 := by
    rw [he]; have := hg.dyadic 2 0 (by norm_num); norm_num at this ⊢; exact this
  rw [chk_true (by norm_num), R.ok_bind, chk_true ⟨by rw [e2]; exact h2.le, by linarith⟩, R.ok_bind]
  rcases lt_or_ge v 1 with h | h
  · rw [if_neg (not_le.2 h), if_neg (not_lt.2 h0)]
    unfold fmod1
    rw [trunc_zero h0 h, Int.cast_zero, sub_zero]; rfl
  · rw [if_pos h, he]
    unfold fmod1 at hf ⊢
    rw [trunc_one h h2, Int.cast_one] at hf ⊢
    rw [hf]; rfl

/-- the phases of one block -/
theorem reducePhases_ok {E : Env K} (he : E.fl = ieee32) {x : K} (hx : PhaseOk ieee32 x)
    (hfx : ieee32 x = x) {rs : List K} (h : ∀ r ∈ rs, RandomStep r) :
    Tests.reducePhases E x rs = .ok (accumulate ieee32 x rs) ∧
      BlockSafe ieee32 .kForward x (accumulate ieee32 x rs) ∧
      PhaseOk ieee32 ((accumulate ieee32 x rs).getLastD x) ∧
      ieee32 ((accumulate ieee32 x rs).getLastD x) = (accumulate ieee32 x rs).getLastD x := by
  induction rs generalizing x with
  | nil => exact ⟨rfl, trivial, hx, hfx⟩
  | cons r rs ih =>
    obtain ⟨r0, r1, r2⟩ := h r List.mem_cons_self
    obtain ⟨a1, a2, a3, a4, a5⟩ := add_forward hx hfx r0 r1 r2
    obtain ⟨b1, b2, b3, b4⟩ := ih a4 a1 fun r hr => h r (List.mem_cons_of_mem _ hr)
    refine ⟨?_, ⟨a4, a5, b2⟩, ?_, ?_⟩
    · unfold Tests.reducePhases
      rw [he, reduce_mod he a2 a3 a1, R.ok_bind, b1, R.ok_bind]
      rfl
    · unfold accumulate; rw [List.getLastD_cons]; exact b3
    · unfold accumulate; rw [List.getLastD_cons]; exact b4

/-! ### the tests -/

theorem rate_built {E : Env K} (hf : Rounding E.fl) (hl : Log2Spec E.log2f) (hc : SrcContract E.src)
    {L : ℕ} (h2 : 2 ≤ L) (hL : L ≤ 18) {nw : ℕ} (hnw : 0 < nw) {ws : List K}
    (hws : ws.length = nw * 2 ^ L) {sr : K} (hr : RateOk E sr) :
    ∃ wt, Built E ws nw L sr (defaultDuration E) wt := by
  obtain ⟨wt, h⟩ := C02_succeeds E hf hl hc L h2 hL nw hnw ws hws sr (defaultDuration E) hr.1 hr.2.1
    ⟨le_trans (by norm_num) hr.2.2.1, hr.2.2.2⟩
  exact ⟨wt, hr.2.1, hr.2.2.1, hws, h⟩

theorem two_fifths {S : Sys K C} (hf : Rounding S.env.fl) : 0 < S.env.fl (2 / 5) := by
  have h1 : (1 : K) / 4 ≤ S.env.fl (2 / 5) := hf.ge_of_ge (by
    have := hf.dyadic 1 2 (by norm_num); norm_num at this ⊢; exact this) (by norm_num)
  linarith [show (0 : K) < 1 / 4 by norm_num]

theorem start_ok {S : Sys K C} (hf : Rounding S.env.fl) (hl : Log2Spec S.env.log2f)
    (hc : SrcContract S.env.src) {L : ℕ} (h2 : 2 ≤ L) (hL : L ≤ 18) {nw : ℕ} (hnw : 0 < nw) {ws : List K}
    (hws : ws.length = nw * 2 ^ L) {sr : K} (hr : RateOk S.env sr) :
    ∃ o, Tests.start S ws nw sr = .ok (o, true) ∧ OscSafe S nw L o ∧ o.prevPhase = 0 := by
  obtain ⟨wt, hb⟩ := rate_built hf hl hc h2 hL hnw hws hr
  have hz : PhaseOk S.env.fl (0 : K) := ⟨le_rfl, by norm_num, hf.zero_ph⟩
  have hd := two_fifths hf
  obtain ⟨⟨o, r⟩, e, i1, i2, i3, i4, i5, -⟩ := Sys.init_play hf S.fresh (hb.ok hf hl) hz hd.ne'
  dsimp only at e i1 i2 i3 i4 i5
  obtain ⟨wt1, hw1, hk⟩ := i1.wt
  have hn : wt1.numWaveforms = nw := hk.rows
  refine ⟨o, ?_, ⟨i1, fun h => absurd h (by rw [i3]; exact not_lt.2 hd.le)⟩, i2⟩
  unfold Tests.start
  rw [hb.2.2.2, R.ok_bind, e, R.ok_bind]
  dsimp only
  unfold Sys.numWaveforms
  rw [hw1]
  dsimp only
  rw [R.ok_bind, hn, i4, i5]
  simp

theorem swapIn_ok {S : Sys K C} (hf : Rounding S.env.fl) (hl : Log2Spec S.env.log2f)
    (hc : SrcContract S.env.src) {L : ℕ} (h2 : 2 ≤ L) (hL : L ≤ 18) {nw : ℕ} (hnw : 0 < nw) {ws : List K}
    (hws : ws.length = nw * 2 ^ L) {sr : K} (hr : RateOk S.env sr) {nw0 L0 : ℕ} {o : Osc K C}
    (ho : OscSafe S nw0 L0 o) :
    ∃ o', Tests.swapIn S o ws nw sr = .ok (o', true) ∧ OscSafe S nw L o' ∧ o'.prevPhase = 0 := by
  obtain ⟨wt, hb⟩ := rate_built hf hl hc h2 hL hnw hws hr
  have hz : PhaseOk S.env.fl (0 : K) := ⟨le_rfl, by norm_num, hf.zero_ph⟩
  have hd := two_fifths hf
  obtain ⟨⟨o', r⟩, e, i1, i2, i3, i4, i5, -⟩ := Sys.swap_play hf o (hb.ok hf hl) ⟨hz, hd.ne'⟩
  dsimp only at e i1 i2 i3 i4 i5
  obtain ⟨wt1, hw1, -⟩ := ho.wt
  refine ⟨o', ?_, ⟨i1, fun h => absurd h (by rw [i3]; exact not_lt.2 hd.le)⟩, i2⟩
  unfold Tests.swapIn
  rw [hb.2.2.2, R.ok_bind, e, R.ok_bind]
  dsimp only
  rw [i5, hw1]
  simp

theorem repeat_ok {S : Sys K C} (hf : Rounding S.env.fl) (hB : 0 < S.B) {nw L : ℕ} {ps : List K}
    (hl : BlockSafe S.env.fl .kBidirectionnal (ps.getLastD 0) ps) (n : ℕ) {o : Osc K C} {out : List K}
    (ho : OscSafe S nw L o) (h0 : BlockSafe S.env.fl .kBidirectionnal o.prevPhase ps)
    (hlen : ps.length = out.length) : ∃ r, Tests.repeatBlock S ps n o out = .ok r := by
  induction n generalizing o out with
  | zero => exact ⟨_, rfl⟩
  | succ n ih =>
    obtain ⟨wt, hwt, -⟩ := ho.wt
    obtain ⟨⟨o1, ys⟩, e, a1, a2, -, a4⟩ := Sys.run_ok hf hB ho h0
    dsimp only at a1 a2 a4
    unfold Tests.repeatBlock
    rw [Sys.process_runDir S _ (by rw [hwt]; rfl) hlen, e, R.ok_bind]
    refine ih a1 ?_ a4.symm
    rw [a2]
    cases ps with
    | nil => trivial
    | cons p ps => rw [List.getLastD_cons] at hl ⊢; exact hl

theorem forward_ok {S : Sys K C} (he : S.env.fl = ieee32) (hB : 0 < S.B) {nw L n : ℕ}
    {blocks : List (List K)} (hb : ∀ rs ∈ blocks, rs.length = n ∧ ∀ r ∈ rs, RandomStep r) {o : Osc K C}
    {prev : K} {out : List K} (ho : OscSafe S nw L o) (hp : o.prevPhase = prev)
    (hph : PhaseOk ieee32 prev) (hpf : ieee32 prev = prev) (hlen : out.length = n) :
    ∃ r, Tests.forwardBlocks S blocks o prev out = .ok r := by
  have hf : Rounding S.env.fl := by rw [he]; exact rounding_ieee32
  induction blocks generalizing o prev out with
  | nil => exact ⟨_, rfl⟩
  | cons rs blocks ih =>
    obtain ⟨b1, b2⟩ := hb rs List.mem_cons_self
    obtain ⟨c1, c2, c3, c4⟩ := reducePhases_ok he hph hpf b2
    obtain ⟨wt, hwt, -⟩ := ho.wt
    obtain ⟨⟨o1, ys⟩, e, a1, a2, -, a4⟩ := Sys.run_ok hf hB ho (by rw [he, hp]; exact c2)
    dsimp only at a1 a2 a4
    unfold Tests.forwardBlocks
    rw [c1, R.ok_bind, Sys.process_runDir S _ (by rw [hwt]; rfl) (by rw [accumulate_length, b1, hlen]), e,
      R.ok_bind]
    exact ih (fun rs hrs => hb rs (List.mem_cons_of_mem _ hrs)) a1 (by rw [a2, hp]) c3 c4
      (by rw [a4, accumulate_length, b1])

/-- C79: the sections "Then processing bidirectionnal" pass, in debug and release builds and in any
arithmetic, for every waveform, samplerate and every vector of phases in which no two neighbours are equal
(cyclically, as the vector is processed again and again) and phase 0 is not reached backwards. -/
theorem C79_bidirectional (S : Sys K C) (hf : Rounding S.env.fl) (hl : Log2Spec S.env.log2f) (hB : 0 < S.B)
    (hc : SrcContract S.env.src) (L : ℕ) (h2 : 2 ≤ L) (hL : L ≤ 18) (nw : ℕ) (hnw : 0 < nw) (ws : List K)
    (hws : ws.length = nw * 2 ^ L) (sr : K) (hr : RateOk S.env sr) (ps : List K)
    (h0 : BlockSafe S.env.fl .kBidirectionnal 0 ps)
    (h1 : BlockSafe S.env.fl .kBidirectionnal (ps.getLastD 0) ps) :
    Tests.bidirectional S ws nw sr ps = .ok true := by
  obtain ⟨o, e, ho, hp⟩ := start_ok hf hl hc h2 hL hnw hws hr
  obtain ⟨r, er⟩ := repeat_ok hf hB h1 9 ho (by rw [hp]; exact h0) (List.length_replicate).symm
  unfold Tests.bidirectional
  rw [e, R.ok_bind]
  dsimp only
  rw [er]; rfl

/-- C79: the same after a swap. -/
theorem C79_swap_bidirectional (S : Sys K C) (hf : Rounding S.env.fl) (hl : Log2Spec S.env.log2f)
    (hB : 0 < S.B) (hc : SrcContract S.env.src) (L L' : ℕ) (h2 : 2 ≤ L) (hL : L ≤ 18) (h2' : 2 ≤ L')
    (hL' : L' ≤ 18) (nw nw' : ℕ) (hnw : 0 < nw) (hnw' : 0 < nw') (ws ws' : List K)
    (hws : ws.length = nw * 2 ^ L) (hws' : ws'.length = nw' * 2 ^ L') (sr : K) (hr : RateOk S.env sr)
    (ps : List K) (h0 : BlockSafe S.env.fl .kBidirectionnal 0 ps)
    (h1 : BlockSafe S.env.fl .kBidirectionnal (ps.getLastD 0) ps) :
    Tests.swapBidirectional S ws ws' nw nw' sr ps = .ok true := by
  obtain ⟨o, e, ho, hp⟩ := start_ok hf hl hc h2 hL hnw hws hr
  obtain ⟨o', e', ho', hp'⟩ := swapIn_ok hf hl hc h2' hL' hnw' hws' hr ho
  obtain ⟨r, er⟩ := repeat_ok hf hB h1 9 ho' (by rw [hp']; exact h0) (List.length_replicate).symm
  unfold Tests.swapBidirectional
  rw [e, R.ok_bind]
  dsimp only
  rw [e', R.ok_bind]
  dsimp only
  rw [er]; rfl

/-- C79: the sections "Then processing forward" pass in IEEE arithmetic for all random numbers above `2^-25`
and below 1/2, any number of blocks, any block size. -/
theorem C79_forward (S : Sys K C) (he : S.env.fl = ieee32) (hl : Log2Spec S.env.log2f) (hB : 0 < S.B)
    (hc : SrcContract S.env.src) (L : ℕ) (h2 : 2 ≤ L) (hL : L ≤ 18) (nw : ℕ) (hnw : 0 < nw) (ws : List K)
    (hws : ws.length = nw * 2 ^ L) (sr : K) (hr : RateOk S.env sr) (n : ℕ) (blocks : List (List K))
    (hb : ∀ rs ∈ blocks, rs.length = n ∧ ∀ r ∈ rs, RandomStep r) :
    Tests.forward S ws nw sr n blocks = .ok true := by
  have hf : Rounding S.env.fl := by rw [he]; exact rounding_ieee32
  have hg := rounding_ieee32 (K := K)
  obtain ⟨o, e, ho, hp⟩ := start_ok hf hl hc h2 hL hnw hws hr
  obtain ⟨r, er⟩ := forward_ok he hB hb ho hp ⟨le_rfl, by norm_num, hg.zero_ph⟩ hg.zero
    (out := List.replicate n 0) List.length_replicate
  unfold Tests.forward
  rw [e, R.ok_bind]
  dsimp only
  rw [er]; rfl

/-- C79: the same after a swap. -/
theorem C79_swap_forward (S : Sys K C) (he : S.env.fl = ieee32) (hl : Log2Spec S.env.log2f)
    (hB : 0 < S.B) (hc : SrcContract S.env.src) (L L' : ℕ) (h2 : 2 ≤ L) (hL : L ≤ 18) (h2' : 2 ≤ L')
    (hL' : L' ≤ 18) (nw nw' : ℕ) (hnw : 0 < nw) (hnw' : 0 < nw') (ws ws' : List K)
    (hws : ws.length = nw * 2 ^ L) (hws' : ws'.length = nw' * 2 ^ L') (sr : K) (hr : RateOk S.env sr)
    (n : ℕ) (blocks : List (List K)) (hb : ∀ rs ∈ blocks, rs.length = n ∧ ∀ r ∈ rs, RandomStep r) :
    Tests.swapForward S ws ws' nw nw' sr n blocks = .ok true := by
  have hf : Rounding S.env.fl := by rw [he]; exact rounding_ieee32
  have hg := rounding_ieee32 (K := K)
  obtain ⟨o, e, ho, hp⟩ := start_ok hf hl hc h2 hL hnw hws hr
  obtain ⟨o', e', ho', hp'⟩ := swapIn_ok hf hl hc h2' hL' hnw' hws' hr ho
  obtain ⟨r, er⟩ := forward_ok he hB hb ho' hp' ⟨le_rfl, by norm_num, hg.zero_ph⟩ hg.zero
    (out := List.replicate n 0) List.length_replicate
  unfold Tests.swapForward
  rw [e, R.ok_bind]
  dsimp only
  rw [e', R.ok_bind]
  dsimp only
  rw [er]; rfl

/-- C79: and they abort in a build with assertions as soon as the generator returns the same phase twice in a
row, or phase 0 at the beginning. -/
theorem C79_repeated_phase (S : Sys K C) (hf : Rounding S.env.fl) (hl : Log2Spec S.env.log2f) (hB : 0 < S.B)
    (hdbg : S.env.dbg = true)
    (hc : SrcContract S.env.src) (L : ℕ) (h2 : 2 ≤ L) (hL : L ≤ 18) (nw : ℕ) (hnw : 0 < nw) (ws : List K)
    (hws : ws.length = nw * 2 ^ L) (sr : K) (hr : RateOk S.env sr) (a b : List K)
    (h0 : BlockSafe S.env.fl .kBidirectionnal 0 a) :
    Tests.bidirectional S ws nw sr (a ++ a.getLastD 0 :: b) = .error .assertFail := by
  obtain ⟨o, e, ho, hp⟩ := start_ok hf hl hc h2 hL hnw hws hr
  obtain ⟨wt, hwt, -⟩ := ho.wt
  obtain ⟨⟨o1, ys⟩, e1, a1, a2, -, -⟩ := Sys.run_ok hf hB ho (by rw [hp]; exact h0)
  dsimp only at a1 a2
  obtain ⟨wt1, hwt1, -⟩ := a1.wt
  have hstop : S.runDir .kBidirectionnal o1 (a.getLastD 0 :: b) = .error .assertFail := by
    have := C28_debug_aborts S hf hdbg .kBidirectionnal o1 (by rw [hwt1]; rfl) b (List.replicate (b.length + 1) 0)
      (by simp)
    rw [Sys.process_runDir S _ (by rw [hwt1]; rfl) (by simp), a2, hp] at this
    exact this
  unfold Tests.bidirectional
  rw [e, R.ok_bind]
  dsimp only
  unfold Tests.repeatBlock
  rw [Sys.process_runDir S _ (by rw [hwt]; rfl) (List.length_replicate).symm, runDir_append, e1, R.ok_bind]
  dsimp only
  rw [hstop]; rfl

/-- C79: the forward sections abort in a build with assertions when the generator returns 0, which is in
the range `[0, 0.5]` they ask for. -/
theorem C79_zero_step (S : Sys K C) (he : S.env.fl = ieee32) (hl : Log2Spec S.env.log2f) (hB : 0 < S.B)
    (hdbg : S.env.dbg = true)
    (hc : SrcContract S.env.src) (L : ℕ) (h2 : 2 ≤ L) (hL : L ≤ 18) (nw : ℕ) (hnw : 0 < nw) (ws : List K)
    (hws : ws.length = nw * 2 ^ L) (sr : K) (hr : RateOk S.env sr) (a b : List K)
    (ha : ∀ r ∈ a, RandomStep r) (hb : ∀ r ∈ b, RandomStep r) (blocks : List (List K)) :
    Tests.forward S ws nw sr (a.length + b.length + 1) ((a ++ 0 :: b) :: blocks) = .error .assertFail := by
  have hf : Rounding S.env.fl := by rw [he]; exact rounding_ieee32
  have hg := rounding_ieee32 (K := K)
  obtain ⟨o, e, ho, hp⟩ := start_ok hf hl hc h2 hL hnw hws hr
  obtain ⟨wt, hwt, -⟩ := ho.wt
  have hz : PhaseOk ieee32 (0 : K) := ⟨le_rfl, by norm_num, hg.zero_ph⟩
  obtain ⟨c1, c2, c3, c4⟩ := reducePhases_ok he hz hg.zero ha
  obtain ⟨d1, -, -, -⟩ := reducePhases_ok he c3 c4 hb
  obtain ⟨q, hq⟩ : ∃ q, q = (accumulate ieee32 (0 : K) a).getLastD 0 := ⟨_, rfl⟩
  rw [← hq] at c3 c4 d1
  have cat : ∀ (x : K) (l m : List K), (∀ r ∈ l, RandomStep r) → PhaseOk ieee32 x → ieee32 x = x → ∀ ps,
      Tests.reducePhases S.env ((accumulate ieee32 x l).getLastD x) m = .ok ps →
      Tests.reducePhases S.env x (l ++ m) = .ok (accumulate ieee32 x l ++ ps) := by
    intro x l m
    induction l generalizing x with
    | nil => intro _ _ _ ps h; exact h
    | cons r l ih =>
      intro hr hx hfx ps h
      obtain ⟨r0, r1, r2⟩ := hr r List.mem_cons_self
      obtain ⟨f1, f2, f3, f4, -⟩ := add_forward hx hfx r0 r1 r2
      unfold accumulate at h
      rw [List.getLastD_cons] at h
      have := ih _ (fun r h => hr r (List.mem_cons_of_mem _ h)) f4 f1 ps h
      rw [List.cons_append]
      unfold Tests.reducePhases
      rw [he, reduce_mod he f2 f3 f1, R.ok_bind, this]; rfl
  have htail : Tests.reducePhases S.env q (0 :: b) = .ok (q :: accumulate ieee32 q b) := by
    unfold Tests.reducePhases
    have em : fmod1 q = q := by
      unfold fmod1; rw [trunc_zero c3.1 c3.2.1, Int.cast_zero, sub_zero]
    have := reduce_mod (E := S.env) he c3.1 (by linarith [c3.2.1]) (by rw [em]; exact c4)
    rw [he, add_zero, c4, this, em, R.ok_bind, d1]; rfl
  have hall := cat 0 a (0 :: b) ha hz hg.zero _ (by rw [← hq]; exact htail)
  obtain ⟨⟨o1, ys⟩, e1, a1, a2, -, -⟩ := Sys.run_ok hf hB ho (by rw [he, hp]; exact c2)
  dsimp only at a1 a2
  obtain ⟨wt1, hwt1, -⟩ := a1.wt
  rw [hp, ← hq] at a2
  have hstop : S.runDir .kForward o1 (q :: accumulate ieee32 q b) = .error .assertFail := by
    have := C28_debug_aborts S hf hdbg .kForward o1 (by rw [hwt1]; rfl) (accumulate ieee32 q b)
      (List.replicate ((accumulate ieee32 q b).length + 1) 0) (by simp)
    rw [Sys.process_runDir S _ (by rw [hwt1]; rfl) (by simp), a2] at this
    exact this
  unfold Tests.forward
  rw [e, R.ok_bind]
  dsimp only
  unfold Tests.forwardBlocks
  rw [hall, R.ok_bind, Sys.process_runDir S _ (by rw [hwt]; rfl) (by
    simp [accumulate_length]; omega), runDir_append, e1, R.ok_bind]
  dsimp only
  rw [hstop]; rfl

/-- C79: 1/2 itself, the other end of that range, is not safe either: there are positive random numbers of
at most 1/2, the last one 1/2, with which a forward section aborts in a build with assertions (the sum
is rounded up, so that the step exceeds half a cycle). -/
theorem C79_half_step (S : Sys K C) (he : S.env.fl = ieee32) (hl : Log2Spec S.env.log2f) (hB : 0 < S.B)
    (hdbg : S.env.dbg = true)
    (hc : SrcContract S.env.src) (L : ℕ) (h2 : 2 ≤ L) (hL : L ≤ 18) (nw : ℕ) (hnw : 0 < nw) (ws : List K)
    (hws : ws.length = nw * 2 ^ L) (sr : K) (hr : RateOk S.env sr) :
    ∃ rs : List K, (∀ r ∈ rs, ieee32 r = r ∧ 0 < r ∧ r ≤ 1 / 2) ∧
      Tests.forward S ws nw sr rs.length [rs] = .error .assertFail := by
  have hf : Rounding S.env.fl := by rw [he]; exact rounding_ieee32
  have hg := rounding_ieee32 (K := K)
  have d1 : ieee32 (3 / 8 : K) = 3 / 8 := by
    have := hg.dyadic 3 3 (by norm_num); norm_num at this ⊢; exact this
  have d2 : ieee32 (2097155 / 16777216 : K) = 2097155 / 16777216 := by
    have := hg.dyadic 2097155 24 (by norm_num); norm_num at this ⊢; exact this
  have d3 : ieee32 (8388611 / 16777216 : K) = 8388611 / 16777216 := by
    have := hg.dyadic 8388611 24 (by norm_num); norm_num at this ⊢; exact this
  have d4 : ieee32 (1 / 2 : K) = 1 / 2 := by
    have := hg.dyadic 1 1 (by norm_num); norm_num at this ⊢; exact this
  have d5 : ieee32 (1 / 4194304 : K) = 1 / 4194304 := by
    have := hg.dyadic 1 22 (by norm_num); norm_num at this ⊢; exact this
  have d6 : ieee32 (1 / 4194304 - 8388611 / 16777216 : K) = 1 / 4194304 - 8388611 / 16777216 := by
    have := hg.dyadic (-8388607) 24 (by norm_num); norm_num at this ⊢; exact this
  have d7 : ieee32 (1 / 4194304 - 8388611 / 16777216 + 1 : K) = 1 / 4194304 - 8388611 / 16777216 + 1 := by
    have := hg.dyadic 8388609 24 (by norm_num); norm_num at this ⊢; exact this
  have d8 : ieee32 (8388611 / 16777216 + 1 / 2 : K) = 1 + 1 / 4194304 := by
    rw [ieee32_grid 0 (by norm_num) (by norm_num) (by norm_num)]
    have hfl : ⌊(8388611 / 16777216 + 1 / 2 : K) * 2 ^ (0 + 23)⌋ = 8388609 := by
      rw [Int.floor_eq_iff]; norm_num
    have : roundEven ((8388611 / 16777216 + 1 / 2 : K) * 2 ^ (0 + 23)) = 8388610 := by
      unfold roundEven
      rw [hfl, if_neg (by norm_num), if_neg (by norm_num), if_neg (by decide)]
      norm_num
    rw [this]; norm_num
  have hz : PhaseOk ieee32 (0 : K) := ⟨le_rfl, by norm_num, hg.zero_ph⟩
  have s1 : RandomStep (3 / 8 : K) := ⟨d1, by norm_num, by norm_num⟩
  have s2 : RandomStep (2097155 / 16777216 : K) := ⟨d2, by norm_num, by norm_num⟩
  obtain ⟨o, e, ho, hp⟩ := start_ok hf hl hc h2 hL hnw hws hr
  obtain ⟨wt, hwt, -⟩ := ho.wt
  have p1 : PhaseOk ieee32 (3 / 8 : K) := ⟨by norm_num, by norm_num, isPhase_ieee32 d1⟩
  have p2 : PhaseOk ieee32 (8388611 / 16777216 : K) := ⟨by norm_num, by norm_num, isPhase_ieee32 d3⟩
  have hsafe : BlockSafe ieee32 .kForward (0 : K) [3 / 8, 8388611 / 16777216] :=
    ⟨p1, Or.inl (by norm_num), p2, Or.inl (by norm_num), trivial⟩
  have red : ∀ v : K, 0 ≤ v → v < 1 → Maths.reduceF S.env v 1 = .ok v := by
    intro v h0 h1
    unfold Maths.reduceF
    have e2 : S.env.fl (2 * 1) = 2 := by
      rw [he]; have := hg.dyadic 2 0 (by norm_num); norm_num at this ⊢; exact this
    rw [chk_true (by norm_num), R.ok_bind, chk_true ⟨by rw [e2]; linarith, by linarith⟩, R.ok_bind,
      if_neg (not_le.2 h1), if_neg (not_lt.2 h0)]
    rfl
  have hph : Tests.reducePhases S.env 0 [3 / 8, 2097155 / 16777216, 1 / 2] =
      .ok ([3 / 8, 8388611 / 16777216] ++ [1 / 4194304] : List K) := by
    have r3 : Maths.reduceF S.env (1 + 1 / 4194304 : K) 1 = .ok (1 / 4194304) := by
      have ef : fmod1 (1 + 1 / 4194304 : K) = 1 / 4194304 := by
        unfold fmod1; rw [trunc_one (by norm_num) (by norm_num), Int.cast_one]; ring
      have := reduce_mod (E := S.env) he (v := 1 + 1 / 4194304) (by norm_num) (by norm_num)
        (by rw [ef]; exact d5)
      rw [ef] at this; exact this
    unfold Tests.reducePhases
    rw [he, zero_add, d1, red _ (by norm_num) (by norm_num), R.ok_bind]
    unfold Tests.reducePhases
    rw [he, show (3 / 8 + 2097155 / 16777216 : K) = 8388611 / 16777216 by norm_num, d3,
      red _ (by norm_num) (by norm_num), R.ok_bind]
    unfold Tests.reducePhases
    rw [he, d8, r3, R.ok_bind]
    rfl
  obtain ⟨⟨o1, ys⟩, e1, a1, a2, -, -⟩ := Sys.run_ok hf hB ho (by rw [he, hp]; exact hsafe)
  dsimp only at a1 a2
  have a3 : o1.prevPhase = 8388611 / 16777216 := by rw [a2]; rfl
  have hstop : S.runDir .kForward o1 [1 / 4194304] = .error .assertFail := by
    unfold Sys.runDir Sys.stepDir
    dsimp only
    unfold Sys.stepFwd
    dsimp only
    rw [a3, he, d6, if_pos (by norm_num), d7]
    have : chk S.env.dbg ((1 / 4194304 - 8388611 / 16777216 + 1 : K) > 0 ∧
        (1 / 4194304 - 8388611 / 16777216 + 1 : K) ≤ 1 / 2) = .error .assertFail := by
      unfold chk; rw [if_pos ⟨hdbg, by norm_num⟩]
    rw [this]; rfl
  refine ⟨[3 / 8, 2097155 / 16777216, 1 / 2], ?_, ?_⟩
  · intro r hr
    simp only [List.mem_cons, List.not_mem_nil, or_false] at hr
    rcases hr with rfl | rfl | rfl
    · exact ⟨d1, by norm_num, by norm_num⟩
    · exact ⟨d2, by norm_num, by norm_num⟩
    · exact ⟨d4, by norm_num, by norm_num⟩
  · unfold Tests.forward
    rw [e, R.ok_bind]
    dsimp only
    unfold Tests.forwardBlocks
    rw [hph, R.ok_bind, Sys.process_runDir S _ (by rw [hwt]; rfl) (by simp), runDir_append, e1, R.ok_bind]
    dsimp only
    rw [hstop]; rfl

theorem indices_ok {E : Env K} {S : Sys K C} (hE : S.env = E) (he : E.fl = ieee32) {nw L : ℕ} {ds : List K}
    (hd : ∀ d ∈ ds, 0 < d) {wt : WavetableData K} (hw : WtOk nw L wt) :
    Tests.indicesLoop E wt ds = .ok true := by
  have hf : Rounding E.fl := by rw [he]; exact rounding_ieee32
  induction ds generalizing wt with
  | nil => rfl
  | cons d ds ih =>
    have hd0 := hd d List.mem_cons_self
    subst hE
    obtain ⟨c, t, hn, hfind, hw', -, t0, t1, -⟩ := Sys.find_spec hf hw hd0
    have hL2 := hw.L2
    unfold Tests.indicesLoop
    rw [hfind, R.ok_bind]
    dsimp only
    rw [ih (fun d h => hd d (List.mem_cons_of_mem _ h)) hw', R.ok_bind]
    have hnum : ({ wt with cf := c } : WavetableData K).numMipMapTables = (L : ℤ) - 1 := by
      show CrossFader.numMipMapTables c = _
      have := hw'.scale_len
      unfold CrossFader.numMipMapTables
      exact this
    have hsum : ieee32 (t.weight + t.weightUp) = 1 := by
      obtain ⟨-, -, -, -, -, -, -, f, hfl, h0, h1', hw⟩ := CrossFader.tuple_facts hf hw.inv hd0 hn
      rw [he] at hfl hw
      rcases hw with ⟨ha, hb⟩ | ⟨ha, hb⟩
      · rw [ha, hb]; exact CrossFader.ieee32_complement h0 h1' hfl
      · rw [ha, hb, add_comm]; exact CrossFader.ieee32_complement h0 h1' hfl
    have hidx : t.idx + 1 = t.idxUp ∨ (t.idx = t.idxUp ∧ t.weight = 1) := by
      obtain ⟨t', e', ht⟩ := CrossFader.newIndices_eq hf hw.inv hd0
      rw [hn] at e'; cases e'
      rcases ht with ⟨-, -, rfl⟩ | ⟨-, f, ef, rfl⟩
      · exact Or.inl rfl
      · have hinv := CrossFader.nextState_inv hw.inv (CrossFader.findLoop_range hw.inv d).1
          (CrossFader.findLoop_range hw.inv d).2
        obtain ⟨f', ef', -, -, -, hz, -⟩ := CrossFader.computeFading_eq hf hinv
        rw [ef] at ef'; cases ef'
        by_cases hs : (wt.cf.nextState (CrossFader.findLoop d wt.cf.scale)).samplesLeft = 0
        · have h1 := hinv.idle hs
          rw [if_neg (by omega)]
          right
          dsimp only
          rw [hz hs, sub_zero]
          exact ⟨h1.symm, hf.one⟩
        · left
          rcases hinv.fading hs with h | h
          · rw [if_neg (by omega)]; dsimp only; omega
          · rw [if_pos (by omega)]; dsimp only; omega
    rw [hnum]
    unfold Tests.indicesRight
    rw [he, hsum]
    simp only [true_and, Bool.and_true]
    have : (t.idx ≥ 0 ∧ t.idx < (L : ℤ) - 1 ∧ (t.idx + 1 = t.idxUp ∨ t.idx = t.idxUp ∧ t.weight = 1)) :=
      ⟨t0, t1, hidx⟩
    rw [decide_eq_true this]; rfl


/-- C79: the loop of "Valid build" over random steps passes in IEEE arithmetic for every sequence of positive
requests, of any length and size. -/
theorem C79_indices (S : Sys K C) (he : S.env.fl = ieee32) (hl : Log2Spec S.env.log2f) (ws : List K)
    (nw L : ℕ) (sr dur : K) (wt : WavetableData K) (hb : Built S.env ws nw L sr dur wt) (ds : List K)
    (hd : ∀ d ∈ ds, 0 < d) : Tests.indicesLoop S.env wt ds = .ok true := by
  have hf : Rounding S.env.fl := by rw [he]; exact rounding_ieee32
  exact indices_ok (S := S) rfl he hd (hb.ok hf hl)

/-- C79: the generator of that loop may also return 0; then a debug build aborts. -/
theorem C79_indices_zero (S : Sys K C) (hdbg : S.env.dbg = true) (he : S.env.fl = ieee32)
    (hl : Log2Spec S.env.log2f) (ws : List K) (nw L : ℕ) (sr dur : K) (wt : WavetableData K)
    (hb : Built S.env ws nw L sr dur wt) (a b : List K) (hd : ∀ d ∈ a, 0 < d) :
    Tests.indicesLoop S.env wt (a ++ 0 :: b) = .error .assertFail := by
  have hf : Rounding S.env.fl := by rw [he]; exact rounding_ieee32
  have hw := hb.ok hf hl
  clear hb
  induction a generalizing wt with
  | nil =>
    show Tests.indicesLoop S.env wt (0 :: b) = _
    have h0 : CrossFader.findMipMapIndex S.env.dbg wt.cf.scale 0 = .error .assertFail := by
      unfold CrossFader.findMipMapIndex chk
      rw [if_pos ⟨hdbg, by norm_num⟩]; rfl
    unfold Tests.indicesLoop findMipMapIndices CrossFader.newIndices
    rw [h0]; rfl
  | cons d a ih =>
    obtain ⟨c, t, hn, hfind, hw', -⟩ := Sys.find_spec hf hw (hd d List.mem_cons_self)
    show Tests.indicesLoop S.env wt (d :: (a ++ 0 :: b)) = _
    unfold Tests.indicesLoop
    rw [hfind, R.ok_bind]
    dsimp only
    rw [ih _ (fun d h => hd d (List.mem_cons_of_mem _ h)) hw']; rfl

/-- one of the runs B.1, A.2, B.2 -/
theorem rerun_ok {S : Sys K C} (hf : Rounding S.env.fl) (hl : Log2Spec S.env.log2f) (hB : 0 < S.B)
    (hc : SrcContract S.env.src) {nw L : ℕ} {o : Osc K C} (ho : Reached S nw L o) {sr p d : K}
    (hr : RateOk S.env sr) (hi : InitOk S.env.fl p d) (hd : d < 0 → p ≠ 0) {ps : List K}
    (hps : BlockSafe S.env.fl .kBidirectionnal p ps) :
    ∃ o' ys, Tests.rerun S o sr p d ps = .ok (o', ys) ∧ ys.length = ps.length ∧ Reached S nw L o' := by
  obtain ⟨-, -, -, h4⟩ := C49_progress S hf hl hB hc nw L o ho
  obtain ⟨o1, e1, r1⟩ := h4 sr hr.1 hr.2.1 hr.2.2.1 hr.2.2.2
  have hp1 := Sys.reached_play hf hl hB r1
  obtain ⟨wt, hwt, hw⟩ := hp1.wt
  obtain ⟨o2, e2, i1, i2, i3, i4, i5⟩ := Sys.reset_play hf hwt hw hi.1 hi.2 hp1.crt0 hp1.crt1
  have r2 : Reached S nw L o2 := .reset r1 hi e2
  obtain ⟨wt2, hwt2, -⟩ := i1.wt
  obtain ⟨⟨o3, ys⟩, e3, a1, a2, -, a4⟩ := Sys.run_ok hf hB (o := o2) ⟨i1, fun h => by rw [i3] at h; rw [i2]; exact hd h⟩
    (by rw [i2]; exact hps)
  have e4 : S.process .kBidirectionnal o2 ps (List.replicate ps.length 0) = .ok (o3, ys) := by
    rw [Sys.process_runDir S _ (by rw [hwt2]; rfl) (by simp), e3]
  refine ⟨o3, ys, ?_, a4, ?_⟩
  · unfold Tests.rerun
    rw [e1, R.ok_bind, e2, R.ok_bind, e4]
  · refine .process r2 (dir := .kBidirectionnal) (ps := ps) (out := List.replicate ps.length 0) ?_ (by simp) e4
    rw [i2]; exact Sys.blockSafe_ok hps

/-- C79: the test "Update samplerate" runs to its end, in debug and release builds and in any arithmetic, for
every waveform, pair of samplerates, initial state and phases on which the oscillator is safe; each output
has the length of the phases. -/
theorem C79_update (S : Sys K C) (hf : Rounding S.env.fl) (hl : Log2Spec S.env.log2f) (hB : 0 < S.B)
    (hc : SrcContract S.env.src) (L : ℕ) (h2 : 2 ≤ L) (hL : L ≤ 18) (nw : ℕ) (hnw : 0 < nw) (ws : List K)
    (hws : ws.length = nw * 2 ^ L) (srA srB : K) (hA : RateOk S.env srA) (hB' : RateOk S.env srB) (p d : K)
    (hi : InitOk S.env.fl p d) (hd : d < 0 → p ≠ 0) (ps : List K)
    (hps : BlockSafe S.env.fl .kBidirectionnal p ps) :
    ∃ a1 b1 a2 b2, Tests.updateSamplerate S ws nw srA srB p d ps = .ok (some (a1, b1, a2, b2)) ∧
      a1.length = ps.length ∧ b1.length = ps.length ∧ a2.length = ps.length ∧ b2.length = ps.length := by
  obtain ⟨wt, hb⟩ := rate_built hf hl hc h2 hL hnw hws hA
  obtain ⟨⟨o, r⟩, e, i1, i2, i3, i4, i5, -⟩ := Sys.init_play hf S.fresh (hb.ok hf hl) hi.1 hi.2
  dsimp only at e i1 i2 i3 i4 i5
  have r1 : Reached S nw L o := .init hb hi e
  obtain ⟨wt1, hw1, -⟩ := i1.wt
  obtain ⟨⟨o2, a1⟩, e2, -, -, -, l1⟩ := Sys.run_ok hf hB (o := o) ⟨i1, fun h => by rw [i3] at h; rw [i2]; exact hd h⟩
    (by rw [i2]; exact hps)
  have e4 : S.process .kBidirectionnal o ps (List.replicate ps.length 0) = .ok (o2, a1) := by
    rw [Sys.process_runDir S _ (by rw [hw1]; rfl) (by simp), e2]
  have r2 : Reached S nw L o2 := by
    refine .process r1 (dir := .kBidirectionnal) (ps := ps) (out := List.replicate ps.length 0) ?_ (by simp) e4
    rw [i2]; exact Sys.blockSafe_ok hps
  obtain ⟨o3, b1, f1, l2, r3⟩ := rerun_ok hf hl hB hc r2 hB' hi hd hps
  obtain ⟨o4, a2, f2, l3, r4⟩ := rerun_ok hf hl hB hc r3 hA hi hd hps
  obtain ⟨o5, b2, f3, l4, -⟩ := rerun_ok hf hl hB hc r4 hB' hi hd hps
  refine ⟨a1, b1, a2, b2, ?_, l1, l2, l3, l4⟩
  unfold Tests.updateSamplerate
  rw [hb.2.2.2, R.ok_bind, e, R.ok_bind]
  dsimp only
  rw [if_neg (by rw [i5]; simp), e4, R.ok_bind]
  dsimp only
  rw [f1, R.ok_bind]
  dsimp only
  rw [f2, R.ok_bind]
  dsimp only
  rw [f3]; rfl

/-! ### the hypotheses are met -/

theorem rateOk (E : Env ℝ) (hf : Rounding E.fl) (n : ℕ) (h0 : 256 ≤ n) (h1 : n < 2 ^ 24) :
    RateOk E (n : ℝ) := by
  have hd0 : (1 : ℝ) / 256 ≤ defaultDuration E := hf.ge_of_ge (by
    have := hf.dyadic 1 8 (by norm_num); norm_num at this ⊢; exact this) (by norm_num)
  have hd1 : defaultDuration E ≤ (1 : ℝ) / 128 := hf.le_of_le (by
    have := hf.dyadic 1 7 (by norm_num); norm_num at this ⊢; exact this) (by norm_num)
  have hn : (256 : ℝ) ≤ n := by exact_mod_cast h0
  have hn1 : (n : ℝ) ≤ 2 ^ 24 := by exact_mod_cast h1.le
  refine ⟨by linarith, ?_, ?_, ?_⟩
  · have := hf.isRate n h1.le; simpa using this
  · refine hf.ge_of_ge hf.one ?_
    have := mul_le_mul hd0 hn (by norm_num) (by linarith)
    linarith
  · have : defaultDuration E * n ≤ (2 ^ 20 : ℝ) := by
      have := mul_le_mul hd1 hn1 (by linarith) (by norm_num)
      refine this.trans (by norm_num)
    refine lt_of_le_of_lt (hf.le_of_le (y := (2 ^ 20 : ℝ)) ?_ this) (by norm_num)
    have := hf.dyadic (2 ^ 20) 0 (by norm_num); norm_num at this ⊢; exact this

theorem phases_ok (fl : ℝ → ℝ) (hf : Rounding fl) :
    BlockSafe fl .kBidirectionnal 0 [1 / 4, 3 / 4] ∧
      BlockSafe fl .kBidirectionnal (3 / 4 : ℝ) [1 / 4, 3 / 4] := by
  have p1 : PhaseOk fl (1 / 4 : ℝ) := ⟨by norm_num, by norm_num, by
    have := hf.dyadic_ph 1 2 (by norm_num); norm_num at this ⊢; exact this⟩
  have p2 : PhaseOk fl (3 / 4 : ℝ) := ⟨by norm_num, by norm_num, by
    have := hf.dyadic_ph 3 2 (by norm_num); norm_num at this ⊢; exact this⟩
  exact ⟨⟨p1, ⟨by norm_num, by norm_num⟩, p2, ⟨by norm_num, by norm_num⟩, trivial⟩,
    ⟨p1, ⟨by norm_num, by norm_num⟩, p2, ⟨by norm_num, by norm_num⟩, trivial⟩⟩

/-- IEEE arithmetic, debug build, eight samples, 44100 Hz. -/
example : Tests.bidirectional (sysF .kType1) [0, 1, 0, -1, 0, 1, 0, -1] (1 : ℕ) ((44100 : ℕ) : ℝ) [1 / 4, 3 / 4] =
    .ok true := by
  obtain ⟨a, b⟩ := phases_ok ieee32 rounding_ieee32
  exact C79_bidirectional _ rounding_ieee32 log2I (by show 0 < 4; norm_num) envI_ok.2.2 3 (by norm_num) (by norm_num) 1
    (by norm_num) _ (by norm_num) _ (rateOk _ rounding_ieee32 _ (by norm_num) (by norm_num)) _ a b

theorem step38 : RandomStep (3 / 8 : ℝ) := ⟨by
  have := rounding_ieee32 (K := ℝ) |>.dyadic 3 3 (by norm_num); norm_num at this ⊢; exact this,
  by norm_num, by norm_num⟩

/-- Nine blocks of two steps. -/
example : Tests.forward (sysF .kType1) [0, 1, 0, -1, 0, 1, 0, -1] (1 : ℕ) ((44100 : ℕ) : ℝ) 2
    (List.replicate 9 [3 / 8, 3 / 8]) = .ok true := by
  refine C79_forward _ rfl log2I (by show 0 < 4; norm_num) envI_ok.2.2 3 (by norm_num) (by norm_num) 1
    (by norm_num) _ (by norm_num) _ (rateOk _ rounding_ieee32 _ (by norm_num) (by norm_num)) _ _ ?_
  intro rs h
  obtain rfl := List.eq_of_mem_replicate h
  exact ⟨rfl, by simpa using step38⟩

/-- A run in which the random number 0 is drawn. -/
example : Tests.forward (sysF .kType1) [0, 1, 0, -1, 0, 1, 0, -1] (1 : ℕ) ((44100 : ℕ) : ℝ) 3
    [[3 / 8, 0, 3 / 8]] = .error .assertFail :=
  C79_zero_step (sysF .kType1) rfl log2I (by show 0 < 4; norm_num) rfl envI_ok.2.2 3 (by norm_num) (by norm_num) 1
    (by norm_num) _ (by norm_num) _ (rateOk _ rounding_ieee32 _ (by norm_num) (by norm_num)) [3 / 8] [3 / 8]
    (by simpa using step38) (by simpa using step38) []

/-- The test "Update samplerate" runs, in IEEE and in exact arithmetic; so C78_unit_test and
C78_unit_test_ieee apply. -/
theorem update_runs {C : Type} [Zero C] [Add C] [Sub C] [Mul C] [Div C] (S : Sys ℝ C)
    (hE : Rounding S.env.fl ∧ Log2Spec S.env.log2f ∧ SrcContract S.env.src) (hB : 0 < S.B) :
    ∃ a1 b1 a2 b2, Tests.updateSamplerate S [0, 1, 0, -1, 0, 1, 0, -1] (1 : ℕ) ((44100 : ℕ) : ℝ)
      ((48000 : ℕ) : ℝ) 0 (1 / 4) [1 / 4, 3 / 4] = .ok (some (a1, b1, a2, b2)) ∧ a1.length = 2 := by
  obtain ⟨a, -⟩ := phases_ok S.env.fl hE.1
  obtain ⟨a1, b1, a2, b2, h, hl, -⟩ := C79_update S hE.1 hE.2.1 hB hE.2.2 3 (by norm_num) (by norm_num) 1 (by norm_num)
    [0, 1, 0, -1, 0, 1, 0, -1] (by norm_num) _ _ (rateOk _ hE.1 44100 (by norm_num) (by norm_num))
    (rateOk _ hE.1 48000 (by norm_num) (by norm_num)) 0 (1 / 4)
    ⟨⟨le_rfl, by norm_num, hE.1.zero_ph⟩, by norm_num⟩ (by norm_num) _ a
  exact ⟨a1, b1, a2, b2, h, hl⟩

example : ∃ wtA wtB a b, build envX [0, 1, 0, -1, 0, 1, 0, -1] (1 : ℕ) ((44100 : ℕ) : ℝ) (defaultDuration envX) =
      .ok (some wtA) ∧ build envX [0, 1, 0, -1, 0, 1, 0, -1] (1 : ℕ) ((48000 : ℕ) : ℝ) (defaultDuration envX) =
      .ok (some wtB) ∧
    Tests.updateSamplerate (sysOf envX .kType2) [0, 1, 0, -1, 0, 1, 0, -1] (1 : ℕ) ((44100 : ℕ) : ℝ)
      ((48000 : ℕ) : ℝ) 0 (1 / 4) [1 / 4, 3 / 4] = .ok (some (a, b, a, b)) := by
  obtain ⟨a1, b1, a2, b2, h, -⟩ := update_runs (sysOf envX .kType2) envX_ok (by show 0 < 4; norm_num)
  obtain ⟨wtA, wtB, c1, c2, -, rfl, -, rfl⟩ := C78_unit_test _ rfl envX_ok.2.1 _ 1 3 (by norm_num) _ _ _ _ _ _ _ _ _ h
  exact ⟨wtA, wtB, _, _, c1, c2, h⟩

example : ∃ ws' wt a2, List.Forall₂ (fun y y' => |y' - y| < 4 / 1000) [0, 1, 0, -1, 0, 1, 0, -1] ws' ∧
      build envI ws' (1 : ℕ) ((44100 : ℕ) : ℝ) (defaultDuration envI) = .ok (some wt) ∧
      freshRun (sysF .kType1) wt 0 (1 / 4) 0 [.process .kBidirectionnal [1 / 4, 3 / 4]] = .ok a2 := by
  obtain ⟨a1, b1, a2, b2, h, -⟩ := update_runs (sysF .kType1) envI_ok (by show 0 < 4; norm_num)
  obtain ⟨a, -⟩ := phases_ok ieee32 rounding_ieee32
  have hA : ∀ y ∈ ([0, 1, 0, -1, 0, 1, 0, -1] : List ℝ), |y| ≤ 1 := by
    intro y hy
    simp only [List.mem_cons, List.not_mem_nil, or_false] at hy
    rcases hy with rfl | rfl | rfl | rfl | rfl | rfl | rfl | rfl <;> norm_num
  obtain ⟨-, q⟩ := C78_unit_test_ieee _ rfl rne53_rel log2I _ 1 3 (by norm_num) (by norm_num) hA _ _
    (rateOk _ rounding_ieee32 44100 (by norm_num) (by norm_num))
    (rateOk _ rounding_ieee32 48000 (by norm_num) (by norm_num)) _ _
    ⟨⟨le_rfl, by norm_num, rounding_ieee32.zero_ph⟩, by norm_num⟩ _ _ _ _ _ (Sys.blockSafe_ok a) h
  obtain ⟨ws', wt, q1, q2, q3⟩ := q (((44100 : ℕ) : ℝ), a2) (List.mem_cons_of_mem _ List.mem_cons_self)
  exact ⟨ws', wt, a2, q1, q2, q3⟩

/-- A history of C80: `init`, then a change of the samplerate. -/
theorem exampleSince {C : Type} [Zero C] [Add C] [Sub C] [Mul C] [Div C] (S : Sys ℝ C)
    (hE : Rounding S.env.fl ∧ Log2Spec S.env.log2f ∧ SrcContract S.env.src) (hB : 0 < S.B) :
    ∃ o, Since S [0, 1, 0, -1, 0, 1, 0, -1] 1 3 1 o := by
  obtain ⟨wt, hb⟩ := rate_built (nw := 1) (ws := ([0, 1, 0, -1, 0, 1, 0, -1] : List ℝ)) hE.1 hE.2.1 hE.2.2 (L := 3)
    (by norm_num) (by norm_num) (by norm_num) (by norm_num) (rateOk S.env hE.1 44100 (by norm_num) (by norm_num))
  have hi : InitOk S.env.fl (0 : ℝ) (1 / 4) := ⟨⟨le_rfl, by norm_num, hE.1.zero_ph⟩, by norm_num⟩
  obtain ⟨⟨o, r⟩, e, -⟩ := Sys.init_play hE.1 S.fresh (hb.ok hE.1 hE.2.1) hi.1 hi.2
  have h0 : Since S [0, 1, 0, -1, 0, 1, 0, -1] 1 3 0 o := .init hb hi e
  obtain ⟨-, -, -, h4⟩ := C49_progress S hE.1 hE.2.1 hB hE.2.2 _ _ _ (Since.reached h0)
  have hr := rateOk S.env hE.1 48000 (by norm_num) (by norm_num)
  obtain ⟨o1, e1, -⟩ := h4 _ hr.1 hr.2.1 hr.2.2.1 hr.2.2.2
  exact ⟨o1, .updateSamplerate h0 hr.2.1 hr.2.2.1 e1⟩

example : ∃ o, HeldTables (sysOf envX .kType1) [0, 1, 0, -1, 0, 1, 0, -1] 1 3 o := by
  obtain ⟨o, h⟩ := exampleSince (sysOf envX .kType1) envX_ok (by show 0 < 4; norm_num)
  exact ⟨o, C80_exact _ rfl envX_ok.2.1 _ _ _ _ _ h⟩

end Adwt.Props
