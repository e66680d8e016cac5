import Verif.Proofs.BuildApi

/-!
# Per-waveform lengths from `2^20` up to `2^24`, power of two or not

`isPowerOfTwo` may be wrong here (`C46_false_above`); when it lets the length through, the
constructor throws `runtime_error`, as it does for powers of two.
-/

set_option linter.unusedSectionVars false

namespace Adwt
variable {K : Type} [Field K] [LinearOrder K] [IsStrictOrderedRing K] [FloorRing K]

/-! ### the phase grid of an arbitrary length -/

/-- a quotient `k/n` in the unit interval is in the normal range -/
theorem quot_normal {k n : ℕ} (hn0 : 0 < n) (hn : n < 2 ^ 24) (hk : k ≤ n) :
    ieee32 ((k : K) / n) = rne24 ((k : K) / n) := by
  have hnK : (0 : K) < n := by exact_mod_cast hn0
  have hnK' : (n : K) < 2 ^ 24 := by exact_mod_cast hn
  have hkK : (k : K) ≤ n := by exact_mod_cast hk
  have h0 : (0 : K) ≤ (k : K) / n := by positivity
  have h1 : (k : K) / n ≤ 1 := (div_le_one hnK).2 hkK
  apply ieee32_normal
  · rcases Nat.eq_zero_or_pos k with rfl | hp
    · left; simp
    · right
      rw [abs_of_nonneg h0, div_le_div_iff₀ (by positivity) hnK, one_mul]
      have hk1 : (1 : K) ≤ k := by exact_mod_cast hp
      have : (2 : K) ^ 24 ≤ 2 ^ 126 := by norm_num
      nlinarith
  · rw [abs_of_nonneg h0]
    exact h1.trans (by norm_num)

/-- rounding error of a grid point -/
theorem quot_err {k n : ℕ} (hn0 : 0 < n) (hk : k ≤ n) :
    |rne24 ((k : K) / n) - (k : K) / n| ≤ 1 / 2 ^ 25 := by
  have hnK : (0 : K) < n := by exact_mod_cast hn0
  rcases hk.lt_or_eq with h | rfl
  · have h0 : (0 : K) ≤ (k : K) / n := by positivity
    have h1 : (k : K) / n < 1 := (div_lt_one hnK).2 (by exact_mod_cast h)
    rcases h0.eq_or_lt with e | hp
    · rw [← e]; simp
    refine (rne24_err _).trans ?_
    have hu : ulpExp ((k : K) / n) ≤ -24 := by
      unfold ulpExp
      rw [abs_of_pos hp]
      have := (log_bounds hp).1
      have h2 : (2 : K) ^ Int.log 2 ((k : K) / n) < 2 ^ (0 : ℤ) := by
        rw [zpow_zero]; exact this.trans_lt h1
      have := (zpow_lt_zpow_iff_right₀ (by norm_num : (1 : K) < 2)).1 h2
      omega
    have h3 : (2 : K) ^ ulpExp ((k : K) / n) ≤ 2 ^ (-24 : ℤ) :=
      zpow_le_zpow_right₀ (by norm_num) hu
    have h4 : ((2 : K) ^ (-24 : ℤ)) = 1 / 2 ^ 24 := by
      rw [zpow_neg, one_div]; norm_cast
    rw [h4] at h3
    linarith [h3, (by norm_num : (1 : K) / 2 ^ 24 / 2 = 1 / 2 ^ 25)]
  · rw [div_self hnK.ne']
    have : rne24 (1 : K) = 1 := by
      have := rne24_int (K := K) 1 (by norm_num)
      exact_mod_cast this
    rw [this]; simp

/-- consecutive grid points are different floats whose difference is a float -/
theorem quot_gap {k n : ℕ} (hn0 : 0 < n) (hn : n < 2 ^ 24) (hk : k < n) :
    0 < ieee32 (((k + 1 : ℕ) : K) / n) - ieee32 ((k : K) / n) ∧
    ieee32 (ieee32 (((k + 1 : ℕ) : K) / n) - ieee32 ((k : K) / n)) =
      ieee32 (((k + 1 : ℕ) : K) / n) - ieee32 ((k : K) / n) := by
  have hnK : (0 : K) < n := by exact_mod_cast hn0
  have hnK' : (n : K) < 2 ^ 24 := by exact_mod_cast hn
  rw [quot_normal hn0 hn hk, quot_normal hn0 hn hk.le]
  have e0 := abs_le.1 (quot_err (K := K) hn0 hk.le)
  have e1 := abs_le.1 (quot_err (K := K) hn0 (Nat.succ_le_of_lt hk))
  have hstep : ((k + 1 : ℕ) : K) / n = (k : K) / n + 1 / n := by push_cast; ring
  have hinv : (1 : K) / 2 ^ 24 < 1 / n := one_div_lt_one_div_of_lt hnK hnK'
  have hpos : 0 < rne24 (((k + 1 : ℕ) : K) / n) - rne24 ((k : K) / n) := by
    have h5 : (1 : K) / 2 ^ 24 = 1 / 2 ^ 25 + 1 / 2 ^ 25 := by norm_num
    have := e1.1
    have := e0.2
    rw [Nat.succ_eq_add_one] at *
    linarith
  refine ⟨hpos, ?_⟩
  rcases Nat.eq_zero_or_pos k with rfl | hk0
  · simp only [Nat.cast_zero, zero_div, rne24_zero, sub_zero]
    rw [← quot_normal hn0 hn (by omega), rounding_ieee32.idem]
  -- Sterbenz
  set x : K := (k : K) / n with hx
  set y : K := ((k + 1 : ℕ) : K) / n with hy
  have hx0 : 0 < x := by
    have : (0 : K) < k := by exact_mod_cast hk0
    positivity
  have hxy : x ≤ y := by rw [hstep]; linarith [(by positivity : (0 : K) < 1 / n)]
  have hy0 : 0 < y := lt_of_lt_of_le hx0 hxy
  have hy2 : y ≤ 2 * x := by
    have : (1 : K) / n ≤ x := by
      rw [hx]; gcongr; exact_mod_cast hk0
    rw [hstep]; linarith
  have hr2 : rne24 y ≤ 2 * rne24 x := by
    have h1 := rne24_mono hy2
    have h2 := rne24_zscale x 1
    rw [zpow_one, mul_comm] at h2
    rw [h2] at h1; linarith
  have hlog : ulpExp x ≤ ulpExp y := by
    unfold ulpExp
    rw [abs_of_pos hx0, abs_of_pos hy0]
    have := Int.log_mono_right (b := 2) hx0 hxy
    omega
  obtain ⟨d, hd⟩ : ∃ d : ℕ, ulpExp y = ulpExp x + d := ⟨(ulpExp y - ulpExp x).toNat, by omega⟩
  have ea : rne24 x = (roundEven (x / 2 ^ ulpExp x) : K) * 2 ^ ulpExp x := rfl
  have eb : rne24 y = ((roundEven (y / 2 ^ ulpExp y) * 2 ^ d : ℤ) : K) * 2 ^ ulpExp x := by
    have : rne24 y = (roundEven (y / 2 ^ ulpExp y) : K) * 2 ^ ulpExp y := rfl
    rw [this]
    push_cast
    rw [mul_assoc]
    congr 1
    rw [hd, zpow_add₀ (by norm_num), zpow_natCast]; ring
  set a := roundEven (x / 2 ^ ulpExp x) with ha
  set b := roundEven (y / 2 ^ ulpExp y) * 2 ^ d with hb
  have p : (0 : K) < 2 ^ ulpExp x := by positivity
  have hgap : rne24 y - rne24 x = ((b - a : ℤ) : K) * 2 ^ ulpExp x := by
    rw [ea, eb]; push_cast; ring
  have ha24 : a ≤ 2 ^ 24 := (abs_le.1 (roundEven_abs_le x)).2
  have hab : 0 ≤ b - a := by
    rw [hgap] at hpos
    have := (mul_pos_iff_of_pos_right p).1 hpos
    exact_mod_cast this.le
  have hba : b ≤ 2 * a := by
    rw [ea, eb] at hr2
    have h2 : (b : K) * 2 ^ ulpExp x ≤ (2 * a : K) * 2 ^ ulpExp x := by linarith
    have := le_of_mul_le_mul_right h2 p
    exact_mod_cast this
  have hulo : -126 ≤ ulpExp x := by
    have h1 := (log_bounds hx0).2
    have h2 : (1 : K) / n ≤ x := by
      rw [hx]; gcongr; exact_mod_cast hk0
    have h3 : (2 : K) ^ (-24 : ℤ) < 2 ^ (Int.log 2 x + 1) := by
      rw [zpow_neg, ← one_div]
      have hnK24 : (n : K) ≤ 2 ^ 24 := by exact_mod_cast hn.le
      have h4 : (1 : K) / 2 ^ 24 ≤ 1 / n := one_div_le_one_div_of_le hnK hnK24
      exact lt_of_le_of_lt (by exact_mod_cast h4) (lt_of_le_of_lt h2 h1)
    have := (zpow_lt_zpow_iff_right₀ (by norm_num : (1 : K) < 2)).1 h3
    unfold ulpExp
    rw [abs_of_pos hx0]
    omega
  have huhi : ulpExp x ≤ 103 := by
    unfold ulpExp
    rw [abs_of_pos hx0]
    have h1 := (log_bounds hx0).1
    have hx1 : x ≤ 1 := by
      rw [hx, div_le_one hnK]; exact_mod_cast hk.le
    have h2 : (2 : K) ^ Int.log 2 x ≤ 2 ^ (0 : ℤ) := by
      rw [zpow_zero]; exact h1.trans hx1
    have := (zpow_le_zpow_iff_right₀ (by norm_num : (1 : K) < 2)).1 h2
    omega
  rw [hgap]
  exact rounding_ieee32.range _ _ (by rw [abs_of_nonneg hab]; omega) hulo huhi

namespace WavetableData

/-- the phase vector of an arbitrary length -/
def gridOf (K : Type) [Field K] [LinearOrder K] [FloorRing K] (n : ℕ) : List K :=
  (List.range (n + 1)).map fun (k : ℕ) => ieee32 ((k : K) / n)

theorem computePhaseVector_any {n : ℕ} (hn0 : 0 < n) (hn : n < 2 ^ 24) :
    computePhaseVector (ieee32 : K → K) n = .ok (gridOf K n) := by
  unfold computePhaseVector gridOf
  apply mapM_eq_map
  intro k hk
  have hk' : k ≤ n := by have := List.mem_range.1 hk; omega
  rw [rounding_ieee32.natCast k (by omega), rounding_ieee32.natCast _ hn.le]
  unfold fdiv
  rw [if_neg (by exact_mod_cast hn0.ne')]

theorem gridOf_length (n : ℕ) : (gridOf K n).length = n + 1 := by simp [gridOf]

theorem gridOf_getD {n k : ℕ} (h : k ≤ n) : (gridOf K n).getD k 0 = ieee32 ((k : K) / n) := by
  simp [gridOf, List.getD_eq_getElem?_getD, List.getElem?_map, List.getElem?_range,
    show k < n + 1 by omega]

theorem computeMQVector_any {E : Env K} (he : E.fl = ieee32) {y : List K}
    (hn0 : 0 < y.length) (hn : y.length < 2 ^ 24) :
    ∃ t, computeMQVector E (gridOf K y.length) y = .ok t := by
  refine ⟨_, computeMQVector_eq (by intro h; simp [h] at hn0) (by rw [gridOf_length]) ?_⟩
  intro k hk
  rw [gridOf_getD (by omega), gridOf_getD (by omega)]
  obtain ⟨h1, h2⟩ := quot_gap (K := K) hn0 hn hk
  rw [E.dbl_fl _ (by rw [he]; exact h2)]
  exact h1.ne'

theorem phases_any {num len i : ℕ} (h : i < num) :
    rd ((List.range num).map fun i => gridOf K (len / 2 ^ i)) (i : ℤ) =
      .ok (gridOf K (len / 2 ^ i)) := by
  rw [rd_get rfl (by simpa using h)]; simp

/-- 18 or more tables throw `runtime_error`, whatever the length -/
theorem waveformTables_any {E : Env K} (he : E.fl = ieee32) {num : ℕ} (h18 : 18 ≤ num)
    {og : List K} (h20 : 2 ^ 20 ≤ og.length) (h24 : og.length < 2 ^ 24) :
    waveformTables E num ((List.range num).map fun i => gridOf K (og.length / 2 ^ i)) og =
      .error .runtimeError := by
  unfold waveformTables
  have hne : ((List.range num).map fun i => gridOf K (og.length / 2 ^ i)) ≠ [] := by
    intro h; have := congrArg List.length h; simp at this; omega
  rw [chk_true hne, R.ok_bind]
  have h0 := phases_any (K := K) (num := num) (len := og.length) (i := 0) (by omega)
  rw [show ((0 : ℕ) : ℤ) = 0 from rfl, pow_zero, Nat.div_one] at h0
  obtain ⟨t0, ht0⟩ := computeMQVector_any he (y := og) (by omega) h24
  rw [h0, R.ok_bind, ht0, R.ok_bind]
  dsimp only
  have hkk : num - kMaxLibSamplerate - 1 = num - 9 := by simp [kMaxLibSamplerate]; omega
  rw [range'_split (by omega), List.foldlM_append]
  have := OkOr.foldlM_range' (p := False)
    (f := mipStep E ((List.range num).map fun i => gridOf K (og.length / 2 ^ i)) og)
    (fun j acc => acc.1[8]? = some [] ∧ acc.1.length = num - 9 ∧
      ∀ k, k < 8 → k + 1 < j → ∃ s, acc.1[k]? = some s ∧ s.length = og.length / 2 ^ (k + 1)) 1 16
    (b := (List.replicate (num - kMaxLibSamplerate - 1) [], [t0]))
    ⟨inter_init (by omega), by simp [hkk], fun k _ h => by omega⟩ (by
      intro j acc h1 h2 ⟨h8, hlen, hfil⟩
      obtain ⟨src, ratio, hsrc, hds⟩ : ∃ src ratio, mipSource og acc.1 j = .ok (src, ratio) ∧
          src.length / ratio = og.length / 2 ^ j := by
        unfold mipSource
        rcases Nat.lt_or_ge 8 j with h8 | h8
        · rw [if_neg (by simp [kMaxLibSamplerate]; omega)]
          obtain ⟨s, hk, hs⟩ := hfil (j - 9) (by omega) (by omega)
          have hlt : j - 9 < acc.1.length := by omega
          have hrd : rd acc.1 ((j : ℤ) - kMaxLibSamplerate - 1) = .ok s := by
            have e : ((j : ℤ) - kMaxLibSamplerate - 1) = ((j - 9 : ℕ) : ℤ) := by
              simp [kMaxLibSamplerate]; omega
            rw [e, rd_get rfl hlt]
            rw [List.getElem?_eq_getElem hlt] at hk
            rw [Option.some.inj hk]
          rw [hrd]
          refine ⟨_, _, rfl, ?_⟩
          rw [hs, Nat.div_div_eq_div_mul, show (256 : ℕ) = 2 ^ 8 by norm_num, ← pow_add]
          congr 2; omega
        · rw [if_pos (by simpa [kMaxLibSamplerate] using h8)]
          have hr : 2 * 2 ^ (j - 1) = 2 ^ j := by
            rw [← pow_succ']; congr 1; omega
          exact ⟨_, _, rfl, by rw [hr]⟩
      have hj16 : 2 ^ j ≤ 2 ^ 16 := Nat.pow_le_pow_right (by norm_num) (by omega)
      have hpos : 0 < og.length / 2 ^ j := Nat.div_pos (by omega) (by positivity)
      have hle : og.length / 2 ^ j ≤ og.length := Nat.div_le_self _ _
      unfold mipStep
      rw [hsrc, R.ok_bind]
      dsimp only
      by_cases hem : downsampleWaveform E src ratio = []
      · right; exact ⟨id, by simp [hem]⟩
      · left
        have hd : (downsampleWaveform E src ratio).length = og.length / 2 ^ j := by
          rw [(downsample_length hem).1, hds]
        obtain ⟨t, ht⟩ := computeMQVector_any he (y := downsampleWaveform E src ratio)
          (by omega) (by omega)
        rw [hd] at ht
        rw [if_neg (by simpa using hem), phases_any (by omega), R.ok_bind, ht, R.ok_bind]
        refine Ok.pure ⟨?_, ?_, ?_⟩
        · dsimp only
          split
          · rename_i hi
            simp only [kMaxLibSamplerate] at hi
            rw [List.getElem?_set_ne (by omega)]; exact h8
          · exact h8
        · dsimp only; split <;> simp [hlen]
        · intro k hk hkj
          dsimp only
          rcases Nat.lt_or_ge (k + 1) j with hlt | hge
          · have := hfil k hk hlt
            split
            · rw [List.getElem?_set_ne (by omega)]; exact this
            · exact this
          · have hkj' : k + 1 = j := by omega
            rw [if_pos (by rw [hlen]; simp [kMaxLibSamplerate]; omega)]
            rw [List.getElem?_set]
            rw [if_pos (by omega), if_pos (by omega), hkj']
            exact ⟨_, rfl, hd⟩)
  rcases this with ⟨b, e, h8, -⟩ | ⟨-, e⟩
  · rw [e, R.ok_bind, List.foldlM_cons, mipStep_17 h8]; rfl
  · rw [e]; rfl

theorem numTables_any {E : Env K} (hf : Rounding E.fl) (hl : Log2Spec E.log2f) {len : ℕ}
    (h20 : 2 ^ 20 ≤ len) (h24 : len < 2 ^ 24) :
    ∃ n : ℕ, CrossFader.computeNumMipMapTables E (len : ℤ) = .ok (n : ℤ) ∧ 19 ≤ n ∧ 2 ^ n ≤ len := by
  obtain ⟨L, hL1, hL2⟩ : ∃ k, 2 ^ k ≤ len ∧ len < 2 ^ (k + 1) :=
    ⟨Nat.log 2 len, Nat.pow_log_le_self 2 (by omega), Nat.lt_pow_succ_log_self (by norm_num) len⟩
  have hL20 : 20 ≤ L := by
    by_contra hc
    have : 2 ^ (L + 1) ≤ 2 ^ 20 := Nat.pow_le_pow_right (by norm_num) (by omega)
    omega
  have hL24 : L < 24 := by
    by_contra hc
    have : 2 ^ 24 ≤ 2 ^ L := Nat.pow_le_pow_right (by norm_num) (by omega)
    omega
  have e1 : E.fl (((len : ℤ)) : K) = len := by
    rw [Int.cast_natCast]; exact hf.natCast _ h24.le
  have e2 : E.fl ((len : K) / 4) = (len : K) / 4 := by
    have := hf.dyadic (len : ℤ) 2 (by rw [abs_of_nonneg (by positivity)]; omega)
    rw [Int.cast_natCast] at this
    rw [show (4 : K) = 2 ^ 2 by norm_num]; exact this
  have hlo : (2 : K) ^ (((L - 2 : ℕ) : ℤ)) ≤ (len : K) / 4 := by
    have h : (2 : K) ^ L ≤ len := by exact_mod_cast hL1
    have e : (2 : K) ^ L = 2 ^ (L - 2) * 4 := by
      rw [show (4 : K) = 2 ^ 2 by norm_num, ← pow_add]; congr 1; omega
    rw [zpow_natCast, le_div_iff₀ (by norm_num), ← e]; exact h
  have hhi : (len : K) / 4 ≤ (2 : K) ^ (((L - 1 : ℕ) : ℤ)) := by
    have h : (len : K) ≤ 2 ^ (L + 1) := by exact_mod_cast hL2.le
    have e : (2 : K) ^ (L + 1) = 2 ^ (L - 1) * 4 := by
      rw [show (4 : K) = 2 ^ 2 by norm_num, ← pow_add]; congr 1; omega
    rw [zpow_natCast, div_le_iff₀ (by norm_num), ← e]; exact h
  have g1 := hl.mono _ _ (by positivity) hlo
  have g2 := hl.mono _ _ (lt_of_lt_of_le (by positivity) hlo) hhi
  rw [hl.pow _ (by rw [abs_of_nonneg (by positivity)]; omega)] at g1 g2
  have hb1 : (0 : K) ≤ E.log2f ((len : K) / 4) := le_trans (by positivity) g1
  have hb2 : E.log2f ((len : K) / 4) ≤ 2 ^ 24 := by
    refine g2.trans ?_
    have : ((L - 1 : ℕ) : K) ≤ 24 := by exact_mod_cast (by omega : L - 1 ≤ 24)
    rw [Int.cast_natCast]
    exact this.trans (by norm_num)
  have hfl := Maths.floor_small hf (x := E.log2f ((len : K) / 4)) (by linarith [(by positivity : (0:K) < 2 ^ 24)]) hb2
  have q1 : ((L - 2 : ℕ) : ℤ) ≤ ⌊E.log2f ((len : K) / 4)⌋ := Int.le_floor.2 g1
  have q2 : ⌊E.log2f ((len : K) / 4)⌋ ≤ ((L - 1 : ℕ) : ℤ) := by
    have := Int.floor_mono g2
    rwa [Int.floor_intCast] at this
  refine ⟨(⌊E.log2f ((len : K) / 4)⌋ + 1).toNat, ?_, by omega, ?_⟩
  · unfold CrossFader.computeNumMipMapTables fdiv
    rw [e1, if_neg (by norm_num), R.ok_bind, e2, hfl, R.ok_bind]
    have : (((⌊E.log2f ((len : K) / 4)⌋ + 1).toNat : ℕ) : ℤ) = ⌊E.log2f ((len : K) / 4)⌋ + 1 := by
      omega
    rw [this]; rfl
  · refine le_trans (Nat.pow_le_pow_right (by norm_num) ?_) hL1
    omega

theorem make_any {E : Env K} (he : E.fl = ieee32) (hl : Log2Spec E.log2f) {len : ℕ}
    (h20 : 2 ^ 20 ≤ len) (h24 : len < 2 ^ 24) {ws : List K} {nw : ℕ} (hnw : 0 < nw)
    (hws : ws.length = nw * len) {sr : K} (hs0 : 0 < sr) (xf : ℤ) :
    make E ws nw sr xf len = .error .runtimeError := by
  have hf : Rounding E.fl := by rw [he]; exact rounding_ieee32
  obtain ⟨n, hn, h19, hn2⟩ := numTables_any hf hl h20 h24
  have hlen0 : E.fl ((len : ℤ) : K) ≠ 0 := by
    rw [Int.cast_natCast, hf.natCast _ h24.le]
    exact_mod_cast (by omega : len ≠ 0)
  obtain ⟨scale, hsc⟩ : ∃ scale : List K, CrossFader.computeMipMapScale E (len : ℤ) sr = .ok scale ∧
      scale.length = n := by
    unfold CrossFader.computeMipMapScale
    unfold fdiv
    rw [if_neg hlen0, R.ok_bind]
    dsimp only
    rw [hn, R.ok_bind, if_neg (by omega)]
    refine ⟨_, mapM_eq_map (g := fun i => E.fl (E.fl (E.fl (E.fl (sr / E.fl ((len : ℤ) : K)) * 2) * 2 ^ i) / sr)) ?_, by simp⟩
    intro i _
    unfold CrossFader.scaleEntry fdiv
    rw [if_neg hs0.ne']
  have hcf : ∃ cf, CrossFader.make E xf (len : ℤ) sr = .ok cf ∧ cf.numMipMapTables = n := by
    have h10 : E.fl (1 / 10 : K) > 0 := hf.pos_of_ge 4 (by norm_num)
    refine ⟨⟨xf, scale, 0, (CrossFader.findLoop (E.fl (1 / 10)) scale : ℕ),
      (CrossFader.findLoop (E.fl (1 / 10)) scale : ℕ)⟩, ?_, ?_⟩
    · unfold CrossFader.make CrossFader.findMipMapIndex
      rw [hsc.1, R.ok_bind, chk_true h10, R.ok_bind]
      rfl
    · simp [CrossFader.numMipMapTables, hsc.2]
  obtain ⟨cf, hcf, hcn⟩ := hcf
  unfold make
  rw [hcf, R.ok_bind, chk_true (by rw [hws]; ring), R.ok_bind]
  dsimp only
  rw [hcn, Int.toNat_natCast]
  have hph : computePhaseVectors E.fl n len =
      .ok ((List.range n).map fun i => gridOf K (len / 2 ^ i)) := by
    unfold computePhaseVectors
    rw [he]
    apply mapM_eq_map
    intro i hi
    have hi' := List.mem_range.1 hi
    have h2 : 2 ^ i ≤ len := le_trans (Nat.pow_le_pow_right (by norm_num) hi'.le) hn2
    exact computePhaseVector_any (Nat.div_pos h2 (by positivity))
      (lt_of_le_of_lt (Nat.div_le_self _ _) h24)
  rw [hph, R.ok_bind]
  obtain ⟨m, rfl⟩ : ∃ m, nw = m + 1 := ⟨nw - 1, by omega⟩
  rw [List.range_succ_eq_map, List.mapM_cons]
  have hw : (subspan ws len 0).length = len := waveformOf_length hws hnw
  have := waveformTables_any he (num := n) (by omega) (og := subspan ws len 0)
    (by rw [hw]; exact h20) (by rw [hw]; exact h24)
  rw [hw] at this
  rw [this]
  rfl

theorem build_any {E : Env K} (he : E.fl = ieee32) (hl : Log2Spec E.log2f) {len : ℕ}
    (h20 : 2 ^ 20 ≤ len) (h24 : len < 2 ^ 24) {ws : List K} {nw : ℕ} (hnw : 0 < nw)
    (hws : ws.length = nw * len) {sr : K} (hs0 : 0 < sr) {dur : K} {xf : ℤ}
    (hxf : toInt (E.fl (dur * sr)) = .ok xf) : build E ws (nw : ℤ) sr dur = .ok none := by
  have hf : Rounding E.fl := by rw [he]; exact rounding_ieee32
  rw [build_guards hnw (by omega) hws hs0]
  have e1 : E.fl (((len : ℤ)) : K) = len := by
    rw [Int.cast_natCast]; exact hf.natCast _ h24.le
  have hlo : (2 : K) ^ (0 : ℤ) ≤ (len : K) := by
    rw [zpow_zero]; exact_mod_cast (by omega : 1 ≤ len)
  have hhi : (len : K) ≤ (2 : K) ^ (24 : ℤ) := by
    have : (len : K) ≤ 2 ^ 24 := by exact_mod_cast h24.le
    exact_mod_cast this
  have g1 := hl.mono _ _ (by positivity) hlo
  have g2 := hl.mono _ _ (lt_of_lt_of_le (by positivity) hlo) hhi
  rw [hl.pow _ (by norm_num)] at g1 g2
  obtain ⟨rf, rc⟩ := Props.C44_any_rounding E.fl hf (E.log2f (len : K))
    (by rw [Int.cast_zero] at g1; linarith [(by positivity : (0:K) < 2 ^ 24)])
    (by refine g2.trans ?_; norm_num)
  have hp : ∃ b, Maths.isPowerOfTwo E (len : ℤ) = .ok b := by
    unfold Maths.isPowerOfTwo
    rw [if_neg (by omega)]
    simp only [e1]
    rw [rc, rf]
    exact ⟨_, rfl⟩
  obtain ⟨b, hb⟩ := hp
  rw [hb, R.ok_bind]
  cases b
  · rfl
  · rw [if_neg (by simp), hxf, R.ok_bind, make_any he hl h20 h24 hnw hws hs0]; rfl

end WavetableData
end Adwt
