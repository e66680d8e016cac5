import Verif.Model.TestsBuild
import Verif.Props.Tests

/-!
# C79: the tests of `wavetable_data_tests.cpp` for all sizes
-/

set_option linter.unusedSectionVars false

namespace Adwt.Props
open WavetableData
variable {K C : Type} [Field K] [LinearOrder K] [IsStrictOrderedRing K] [FloorRing K]

theorem mapM_true {ι : Type} (f : ι → R Bool) (l : List ι) (h : ∀ i ∈ l, f i = .ok true) :
    ∃ bs, l.mapM f = .ok bs ∧ bs.all id = true := by
  induction l with
  | nil => exact ⟨[], rfl, rfl⟩
  | cons i l ih =>
    obtain ⟨bs, e, hb⟩ := ih fun j hj => h j (List.mem_cons_of_mem _ hj)
    refine ⟨true :: bs, ?_, by simpa using hb⟩
    rw [List.mapM_cons, h i List.mem_cons_self, R.ok_bind, e, R.ok_bind]; rfl

/-- C79: "Valid build" passes in IEEE arithmetic for every waveform length from 4 to `2^18`, any number of
waveforms with any samples, any samplerate of the kind used, and any positive random numbers. -/
theorem C79_valid_build (E : Env K) (he : E.fl = ieee32) (hl : Log2Spec E.log2f)
    (hc : SrcContract E.src) (L : ℕ) (h2 : 2 ≤ L) (hL : L ≤ 18) (nw : ℕ) (hnw : 0 < nw) (ws : List K)
    (hws : ws.length = nw * 2 ^ L) (sr : K) (hr : RateOk E sr) (ds : List K) (hd : ∀ d ∈ ds, 0 < d) :
    Tests.validBuild E (2 ^ L) nw ws sr ds = .ok true := by
  have hf : Rounding E.fl := by rw [he]; exact rounding_ieee32
  obtain ⟨hs0, hs, hx1, hx2⟩ := hr
  obtain ⟨wt, hb⟩ := C02_succeeds E hf hl hc L h2 hL nw hnw ws hws sr (defaultDuration E) hs0 hs
    ⟨by linarith [show (-2 ^ 31 : K) ≤ 1 by norm_num], hx2⟩
  obtain ⟨e1, e2, e3⟩ := C04_shape E hf hl ws nw L hws sr _ hs wt hb
  have hi : Tests.indicesLoop E wt ds = .ok true :=
    C79_indices (C := K) ⟨E, ⟨id, id, id, id, fun a _ _ => a, fun a _ _ => a, fun a _ _ => a⟩, ⟨[], []⟩, 1⟩ he hl
      ws nw L sr _ wt ⟨hs, hx1, hws, hb⟩ ds hd
  obtain ⟨bs, eb, hbs⟩ := mapM_true (Tests.levelSizes wt (2 ^ L)) (List.range wt.numMipMapTables.toNat) (by
    intro i hi
    rw [List.mem_range, e2] at hi
    have hi : i + 1 < L := by omega
    have hpow : 2 ^ L / 2 ^ i = 2 ^ (L - i) := Nat.pow_div (by omega) (by norm_num)
    obtain ⟨cs, ec, hcs⟩ := mapM_true (Tests.sizesOf wt (2 ^ L / 2 ^ i) i) (List.range wt.numWaveforms.toNat) (by
      intro w hw
      rw [List.mem_range, e1] at hw
      obtain ⟨m, q, md, qd, ph, a1, a2, a3, a4, a5, l1, l2, l3, l4, -⟩ := e3 w i (by simpa using hw) hi
      unfold Tests.sizesOf
      rw [a1, R.ok_bind, a2, R.ok_bind, a3, R.ok_bind, a4, R.ok_bind, hpow]
      show Except.ok _ = _
      rw [decide_eq_true ⟨l1, l2, l3, l4⟩])
    obtain ⟨m, q, md, qd, ph, a1, a2, a3, a4, a5, l1, l2, l3, l4, l5, -⟩ := e3 0 i hnw hi
    unfold Tests.levelSizes
    rw [a5, R.ok_bind, ec, R.ok_bind, hcs, hpow, decide_eq_true l5]; rfl)
  unfold Tests.validBuild
  rw [hb, R.ok_bind]
  dsimp only
  rw [eb, R.ok_bind, hi, R.ok_bind, hbs,
    decide_eq_true ⟨e1, by rw [e2, Nat.log2_two_pow]⟩]
  rfl

/-- C79: "Invalid samplerate" passes for all samples, sizes and samplerates that are not positive. -/
theorem C79_invalid_samplerate (E : Env K) (hf : Rounding E.fl) (hl : Log2Spec E.log2f) (ws : List K)
    (nw : ℤ) (sr : K) (h : sr ≤ 0) : Tests.returnsNull E ws nw sr = .ok true := by
  unfold Tests.returnsNull
  rw [C01_rejects E hf hl ws nw sr _ (.inr (.inr (.inl h)))]; rfl

/-- C79: "Invalid num_waveforms" passes for all samples and all numbers that are not positive. -/
theorem C79_invalid_num (E : Env K) (hf : Rounding E.fl) (hl : Log2Spec E.log2f) (ws : List K)
    (nw : ℤ) (sr : K) (h : nw ≤ 0) : Tests.returnsNull E ws nw sr = .ok true := by
  unfold Tests.returnsNull
  rw [C01_rejects E hf hl ws nw sr _ (.inr (.inl h))]; rfl

/-- C79: "Invalid waveform span" passes for all samples, numbers of waveforms and lengths, and every offset
of less than half the number of samples. -/
theorem C79_invalid_span (E : Env K) (hf : Rounding E.fl) (hl : Log2Spec E.log2f) (L nw : ℕ) (hnw : 0 < nw)
    (hL : L < 19) (off : ℤ) (h0 : off ≠ 0) (h1 : 2 * |off| < nw * 2 ^ L) (ws : List K)
    (hws : (ws.length : ℤ) = nw * 2 ^ L + off) (sr : K) : Tests.returnsNull E ws nw sr = .ok true := by
  unfold Tests.returnsNull
  have habs := abs_lt.1 (show |off| < nw * 2 ^ L / 2 + 1 by omega)
  have key : build E ws nw sr (defaultDuration E) = .ok none := by
    by_cases hdv : (nw : ℤ) ∣ ws.length
    · obtain ⟨len, hlen⟩ := hdv
      have hn : (0 : ℤ) < nw := by exact_mod_cast hnw
      have hpos : (0 : ℤ) ≤ len := by
        by_contra hneg
        push Not at hneg
        have := mul_neg_of_pos_of_neg hn hneg
        omega
      obtain ⟨l, rfl⟩ := Int.eq_ofNat_of_zero_le hpos
      have ho : off = nw * ((l : ℤ) - 2 ^ L) := by linarith
      have hk : 2 * |(l : ℤ) - 2 ^ L| < 2 ^ L := by
        rw [ho, abs_mul, abs_of_pos hn] at h1
        have : (nw : ℤ) * (2 * |(l : ℤ) - 2 ^ L|) < nw * 2 ^ L := by linarith
        exact lt_of_mul_lt_mul_left this hn.le
      have hne : (l : ℤ) ≠ 2 ^ L := fun h => h0 (by rw [ho, h]; ring)
      have h2L : (2 : ℤ) ^ L ≤ 2 ^ 18 := by exact_mod_cast Nat.pow_le_pow_right (by norm_num) (by omega : L ≤ 18)
      have hk1 := le_abs_self ((l : ℤ) - 2 ^ L)
      have hk2 := neg_abs_le ((l : ℤ) - 2 ^ L)
      have hp : (0 : ℤ) < 2 ^ L := by positivity
      refine C01_rejects E hf hl ws nw sr _ (.inr (.inr (.inr (.inr ⟨l, hlen, ?_, ?_⟩))))
      · zify
        norm_num at h2L ⊢
        linarith
      · rintro ⟨k, rfl⟩
        push_cast at hk1 hk2 hk hne
        rcases lt_trichotomy k L with hk' | hk' | hk'
        · have : (2 : ℤ) ^ k * 2 ≤ 2 ^ L := by
            rw [← pow_succ]; exact pow_le_pow_right₀ (by norm_num) hk'
          linarith
        · exact hne (by rw [hk'])
        · have : (2 : ℤ) ^ L * 2 ≤ 2 ^ k := by
            rw [← pow_succ]; exact pow_le_pow_right₀ (by norm_num) hk'
          linarith
    · exact C01_rejects E hf hl ws nw sr _ (.inr (.inr (.inr (.inl hdv))))
  rw [key]; rfl

/-- The tests as the authors run them (one of the combinations each). -/
example (ds : List ℝ) (hd : ∀ d ∈ ds, 0 < d) :
    Tests.validBuild envI (2 ^ 11) 8 (List.replicate (8 * 2 ^ 11) 0) ((44100 : ℕ) : ℝ) ds = .ok true ∧
    Tests.returnsNull envI (List.replicate (2 ^ 10 * 2) 0) 2 (-16000) = .ok true ∧
    Tests.returnsNull envI (List.replicate (2 ^ 12 * 64) 0) (-64) 44100 = .ok true ∧
    Tests.returnsNull envI (List.replicate (2 * 2 ^ 11 - 2) 0) (2 : ℕ) 44100 = .ok true :=
  ⟨C79_valid_build envI rfl envI_ok.2.1 envI_ok.2.2 11 (by norm_num) (by norm_num) 8 (by norm_num) _
    (by rw [List.length_replicate]) _ (rateOk _ rounding_ieee32 44100 (by norm_num) (by norm_num)) ds hd,
    C79_invalid_samplerate envI envI_ok.1 envI_ok.2.1 _ _ _ (by norm_num),
    C79_invalid_num envI envI_ok.1 envI_ok.2.1 _ _ _ (by norm_num),
    C79_invalid_span envI envI_ok.1 envI_ok.2.1 11 2 (by norm_num) (by norm_num) (-2) (by norm_num)
      (by norm_num) _ (by rw [List.length_replicate]; norm_num) _⟩

end Adwt.Props
