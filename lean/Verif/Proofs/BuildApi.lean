import Verif.Proofs.Build

set_option linter.unusedSectionVars false

namespace Adwt
variable {K : Type} [Field K] [LinearOrder K] [IsStrictOrderedRing K] [FloorRing K]

namespace WavetableData

theorem isPowerOfTwo_pow {E : Env K} (hf : Rounding E.fl) (hl : Log2Spec E.log2f) {L : ℕ}
    (hL : L ≤ 24) : Maths.isPowerOfTwo E (((2 ^ L : ℕ)) : ℤ) = .ok true := by
  have h0 : (((2 ^ L : ℕ)) : ℤ) ≠ 0 := by positivity
  have hfv : E.fl ((((2 ^ L : ℕ)) : ℤ) : K) = 2 ^ L := by
    rw [hf.int _ (by
      rw [abs_of_nonneg (by positivity)]
      push_cast
      exact pow_le_pow_right₀ (by norm_num) hL)]
    push_cast; rfl
  have e : E.log2f ((2 : K) ^ L) = ((L : ℤ) : K) := by
    have := hl.pow (L : ℤ) (by rw [abs_of_nonneg (by positivity)]; omega)
    rw [zpow_natCast] at this; exact this
  have hLK : (L : K) ≤ 24 := by exact_mod_cast hL
  have hL0 : (0 : K) ≤ L := by positivity
  obtain ⟨rf, rc⟩ := Props.C44_any_rounding E.fl hf (((L : ℤ)) : K)
    (by push_cast; linarith)
    (by push_cast; have : (24 : K) ≤ 2 ^ 24 := by norm_num
        linarith)
  unfold Maths.isPowerOfTwo
  rw [if_neg h0]
  simp only [hfv, e]
  rw [rc, rf]; simp

theorem build_guards {E : Env K} {ws : List K} {nw : ℕ} (hnw : 0 < nw) {len : ℕ} (hlen : 0 < len)
    (hws : ws.length = nw * len) {sr : K} (hs0 : 0 < sr) (dur : K) :
    build E ws (nw : ℤ) sr dur = (do
      let p ← Maths.isPowerOfTwo E (len : Int)
      if p = false then return none
      else do
        let xfade ← toInt (E.fl (dur * sr))
        catchRuntime (make E ws nw sr xfade len)) := by
  have hne : ws.isEmpty = false := by
    have : 0 < ws.length := by rw [hws]; positivity
    cases ws with
    | nil => simp at this
    | cons a l => rfl
  have hdiv : ws.length / nw = len := by rw [hws]; exact Nat.mul_div_cancel_left _ hnw
  unfold build
  rw [if_neg (by simp [hne]), if_neg (by omega), if_neg (not_le.2 hs0),
    if_neg (by simp [hws])]
  simp only [Int.toNat_natCast, hdiv]

theorem build_pow {E : Env K} (hf : Rounding E.fl) (hl : Log2Spec E.log2f) {L : ℕ} (hL : L ≤ 24)
    {ws : List K} {nw : ℕ} (hnw : 0 < nw) (hws : ws.length = nw * 2 ^ L) {sr : K} (hs0 : 0 < sr)
    {dur : K} {xf : ℤ} (hxf : toInt (E.fl (dur * sr)) = .ok xf) :
    build E ws (nw : ℤ) sr dur = catchRuntime (make E ws nw sr xf (2 ^ L)) := by
  rw [build_guards hnw (by positivity) hws hs0, isPowerOfTwo_pow hf hl hL, R.ok_bind,
    if_neg (by simp), hxf]; rfl

/-- with the contract, or if it succeeds at all, the result is known -/
theorem build_spec {E : Env K} (hf : Rounding E.fl) (hl : Log2Spec E.log2f) {L : ℕ} (h2 : 2 ≤ L)
    (hL : L ≤ 18) {ws : List K} {nw : ℕ} (hnw : 0 < nw) (hws : ws.length = nw * 2 ^ L) {sr : K}
    (hs0 : 0 < sr) (hs : IsRate E.fl sr) {dur : K} {xf : ℤ}
    (hxf : toInt (E.fl (dur * sr)) = .ok xf) :
    build E ws (nw : ℤ) sr dur = .ok (some (wtOf E ws nw L xf)) ∨
    (¬ SrcContract E.src ∧ build E ws (nw : ℤ) sr dur = .ok none) := by
  rw [build_pow hf hl (by omega) hnw hws hs0 hxf]
  rcases make_spec hf hl h2 hL hws hs0 hs xf with ⟨a, e, rfl⟩ | ⟨hc, e⟩
  · left; rw [e]; rfl
  · right; rw [e]; exact ⟨hc, rfl⟩

theorem build_big {E : Env K} (hf : Rounding E.fl) (hl : Log2Spec E.log2f) {L : ℕ} (h2 : 19 ≤ L)
    (hL : L ≤ 24) {ws : List K} {nw : ℕ} (hnw : 0 < nw) (hws : ws.length = nw * 2 ^ L) {sr : K}
    (hs0 : 0 < sr) (hs : IsRate E.fl sr) {dur : K} {xf : ℤ}
    (hxf : toInt (E.fl (dur * sr)) = .ok xf) :
    build E ws (nw : ℤ) sr dur = .ok none := by
  rw [build_pow hf hl hL hnw hws hs0 hxf, make_big hf hl h2 hL hnw hws hs0 hs]; rfl

/-! ### what a successful build means -/

theorem floor_ge_18 {fl : K → K} (hf : Rounding fl) {x : K} (hx : 18 ≤ x) {n : ℤ}
    (h : Maths.floor fl x = .ok n) : 18 ≤ n := by
  unfold Maths.floor at h
  obtain ⟨i, hi, h⟩ := bind_ok h
  unfold toInt at hi
  split at hi
  · cases hi
    have h18 : 18 ≤ trunc x := by
      rw [trunc_nonneg (by linarith), Int.le_floor]; exact_mod_cast hx
    cases h
    split
    · exact h18
    · rename_i hlt
      rcases h18.lt_or_eq with h' | h'
      · omega
      · exfalso; apply hlt
        rw [← h', hf.int 18 (by norm_num)]; exact_mod_cast hx
  · cases hi

theorem numTables_big {E : Env K} (hf : Rounding E.fl) (hl : Log2Spec E.log2f) {len : ℕ}
    (hlen : 2 ^ 20 ≤ len) {n : ℤ}
    (h : CrossFader.computeNumMipMapTables E (len : ℤ) = .ok n) : 19 ≤ n := by
  unfold CrossFader.computeNumMipMapTables at h
  obtain ⟨q, hq, h⟩ := bind_ok h
  obtain ⟨f, hfl, h⟩ := bind_ok h
  cases h
  have h4 : (4 : K) ≠ 0 := by norm_num
  simp only [fdiv, h4, if_false] at hq
  cases hq
  have e1 : (2 : K) ^ 20 ≤ E.fl (((len : ℤ)) : K) := by
    have h20 : E.fl ((2 : K) ^ 20) = 2 ^ 20 := by
      have := hf.int (2 ^ 20) (by norm_num)
      rw [Int.cast_pow] at this; exact_mod_cast this
    apply hf.ge_of_ge h20
    exact_mod_cast hlen
  have e2 : (2 : K) ^ 18 ≤ E.fl (E.fl (((len : ℤ)) : K) / 4) := by
    have h18 : E.fl ((2 : K) ^ 18) = 2 ^ 18 := by
      have := hf.int (2 ^ 18) (by norm_num)
      rw [Int.cast_pow] at this; exact_mod_cast this
    apply hf.ge_of_ge h18
    have : (2 : K) ^ 20 / 4 = 2 ^ 18 := by norm_num
    linarith
  have e3 := hl.mono _ _ (by positivity) e2
  have e4 := hl.pow 18 (by norm_num)
  have e5 : ((2 : K) ^ (18 : ℤ)) = 2 ^ 18 := by norm_cast
  rw [e5] at e4
  rw [e4] at e3
  have := floor_ge_18 hf (by simpa using e3) hfl
  omega

theorem make_big_len {E : Env K} (hf : Rounding E.fl) (hl : Log2Spec E.log2f) {len : ℕ}
    (hlen : 2 ^ 20 ≤ len) {ws : List K} {nw : ℕ} (hnw : 0 < nw) {sr : K} {xf : ℤ} {wt} :
    make E ws nw sr xf len ≠ .ok wt := by
  intro h
  unfold make at h
  obtain ⟨cf, hcf, h⟩ := bind_ok h
  obtain ⟨_, -, h⟩ := bind_ok h
  dsimp only at h
  obtain ⟨ph, -, h⟩ := bind_ok h
  obtain ⟨tabs, ht, -⟩ := bind_ok h
  have hn : 18 ≤ cf.numMipMapTables.toNat := by
    unfold CrossFader.make at hcf
    obtain ⟨scale, hsc, hcf⟩ := bind_ok hcf
    obtain ⟨i, -, hcf⟩ := bind_ok hcf
    cases hcf
    unfold CrossFader.computeMipMapScale at hsc
    obtain ⟨q, -, hsc⟩ := bind_ok hsc
    obtain ⟨num, hnum, hsc⟩ := bind_ok hsc
    have := numTables_big hf hl hlen hnum
    rw [if_neg (by omega)] at hsc
    have := (mapM_range_getElem hsc).1
    simp only [CrossFader.numMipMapTables]
    omega
  obtain ⟨m, rfl⟩ : ∃ m, nw = m + 1 := ⟨nw - 1, by omega⟩
  rw [List.range_succ_eq_map, List.mapM_cons] at ht
  obtain ⟨r, hr, -⟩ := bind_ok ht
  exact waveformTables_fails hn _ _ _ hr

theorem make_one {E : Env K} (hf : Rounding E.fl) (hl : Log2Spec E.log2f) {ws : List K} {nw : ℕ}
    {sr : K} {xf : ℤ} : make E ws nw sr xf 1 = .error .lengthError := by
  unfold make CrossFader.make CrossFader.computeMipMapScale
  have h := CrossFader.numTables_eq hf hl (L := 0) (by norm_num)
  have e1 : E.fl (((((1 : ℕ)) : ℤ)) : K) = 1 := by simpa using hf.one
  simp only [fdiv, e1, one_ne_zero, if_false, R.ok_bind]
  rw [show ((((1 : ℕ)) : ℤ)) = 2 ^ 0 by norm_num, h]
  simp

theorem make_two {E : Env K} (hf : Rounding E.fl) (hl : Log2Spec E.log2f) {ws : List K} {nw : ℕ}
    (hnw : 0 < nw) (hws : ws.length = nw * 2) {sr : K} (hs0 : 0 < sr) (hs : IsRate E.fl sr)
    {xf : ℤ} : make E ws nw sr xf 2 = .error (if E.dbg then .assertFail else .outOfBounds) := by
  unfold make
  have h := CrossFader.make_eq hf hl (L := 1) (by norm_num) (by norm_num) hs0 hs xf
  rw [show (2 : ℤ) ^ 1 = (((2 : ℕ)) : ℤ) by norm_num] at h
  rw [h, R.ok_bind, chk_true (by rw [hws]; ring), R.ok_bind]
  have : (CrossFader.numMipMapTables (⟨xf, octaveScale K 1, 0,
      CrossFader.findLoop (E.fl (1 / 10)) (octaveScale K 1),
      CrossFader.findLoop (E.fl (1 / 10)) (octaveScale K 1)⟩ : CrossFader K)).toNat = 0 := by
    simp [CrossFader.numMipMapTables, octaveScale]
  simp only [this]
  obtain ⟨m, rfl⟩ : ∃ m, nw = m + 1 := ⟨nw - 1, by omega⟩
  have hp : computePhaseVectors E.fl 0 2 = .ok [] := rfl
  rw [hp, R.ok_bind, List.range_succ_eq_map, List.mapM_cons]
  have : waveformTables E 0 [] (subspan ws 2 0) =
      .error (if E.dbg then .assertFail else .outOfBounds) := by
    unfold waveformTables
    cases E.dbg
    · simp [rd]
    · simp [chk]
  rw [this]; rfl

/-- A wavetable only ever comes out of `build` for power-of-two lengths `2^2 .. 2^18`, positive
samplerate and waveform count, and then it is the one of the closed form. -/
theorem build_some {E : Env K} (hf : Rounding E.fl) (hl : Log2Spec E.log2f) {ws : List K}
    {nw : ℤ} {sr dur : K} (hs : IsRate E.fl sr) {wt : WavetableData K}
    (h : build E ws nw sr dur = .ok (some wt)) :
    ∃ L xf, 2 ≤ L ∧ L ≤ 18 ∧ 0 < nw ∧ 0 < sr ∧ ws.length = nw.toNat * 2 ^ L ∧
      toInt (E.fl (dur * sr)) = .ok xf ∧ wt = wtOf E ws nw.toNat L xf := by
  have h' := h
  unfold build at h
  split at h
  · cases h
  rename_i hne
  split at h
  · cases h
  rename_i hnw
  split at h
  · cases h
  rename_i hsr
  split at h
  · cases h
  rename_i hmod
  have hnw : 0 < nw := by omega
  have hsr : 0 < sr := not_le.1 hsr
  obtain ⟨len, hlen⟩ : ∃ len, ws.length = nw.toNat * len := by
    refine ⟨ws.length / nw.toNat, ?_⟩
    rw [Nat.mul_div_cancel' (Nat.dvd_of_mod_eq_zero (by simpa using hmod))]
  have hlen0 : 0 < len := by
    rcases Nat.eq_zero_or_pos len with rfl | h0
    · simp at hlen; simp [hlen] at hne
    · exact h0
  clear h
  obtain ⟨n, rfl⟩ : ∃ n : ℕ, nw = n := ⟨nw.toNat, by omega⟩
  simp only [Int.toNat_natCast] at hlen ⊢
  have hn : 0 < n := by omega
  rw [build_guards hn hlen0 hlen hsr] at h'
  obtain ⟨p, hp, h'⟩ := bind_ok h'
  split at h'
  · cases h'
  rename_i hpt
  obtain ⟨xf, hxf, h'⟩ := bind_ok h'
  have hmk : make E ws n sr xf len = .ok wt := by
    unfold catchRuntime at h'
    split at h'
    · cases h'; assumption
    · cases h'
    · cases h'
  have hsmall : len < 2 ^ 20 := by
    by_contra hc
    exact make_big_len hf hl (not_lt.1 hc) hn hmk
  obtain ⟨b, hb, hbb⟩ := Props.C46_isPowerOfTwo E hf hl len hsmall
  rw [hp] at hb; cases hb
  have hpt' : p = true := by simpa using hpt
  obtain ⟨L, rfl⟩ := hbb.1 hpt'
  have hL20 : L < 20 := (Nat.pow_lt_pow_iff_right (by norm_num)).1 hsmall
  have hL0 : L ≠ 0 := by
    rintro rfl
    rw [pow_zero, make_one hf hl] at hmk; cases hmk
  have hL1 : L ≠ 1 := by
    rintro rfl
    rw [pow_one, make_two hf hl hn (by simpa using hlen) hsr hs] at hmk; cases hmk
  have hL19 : L ≠ 19 := by
    rintro rfl
    rw [make_big hf hl (by norm_num) (by norm_num) hn hlen hsr hs] at hmk; cases hmk
  refine ⟨L, xf, by omega, by omega, hnw, hsr, hlen, hxf, ?_⟩
  rcases make_spec hf hl (by omega) (by omega) hlen hsr hs xf with ⟨a, e, rfl⟩ | ⟨-, e⟩
  · rw [e] at hmk; cases hmk; rfl
  · rw [e] at hmk; cases hmk

end WavetableData
end Adwt
