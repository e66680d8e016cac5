import Verif.Proofs.WtOf
import Verif.Proofs.Long
import Verif.Props.CrossFader

/-!
# C01-C12: building a wavetable (`adwt/wavetable_data.cpp`)

`WavetableData.build` returns `R (Option _)`: `.ok none` is a returned null pointer, `.ok (some _)`
a returned wavetable, `.error _` is anything else (exception, failed assertion, undefined
behaviour). The vocabulary (`SrcContract`, `mipSamples`, `waveformOf`, `sampleAt`) is in
`Verif/Spec/Tables.lean`.
-/

set_option linter.unusedSectionVars false

namespace Adwt.Props
open WavetableData
variable {K : Type} [Field K] [LinearOrder K] [IsStrictOrderedRing K] [FloorRing K]

/-! ### an environment for the examples -/

/-- A resampler honouring its contract: reports success, fills the output by picking every
`ratio`-th input sample. -/
def pickSrc (K : Type) [Zero K] : List K → Nat → Nat → SrcResult K :=
  fun inp out ratio => ⟨0, fun i => inp.getD (i * ratio) 0, inp.length, out⟩

omit [LinearOrder K] [IsStrictOrderedRing K] [FloorRing K] in
theorem pickSrc_contract : SrcContract (pickSrc K) := by
  intro inp out ratio _ _ _; exact ⟨rfl, rfl, rfl⟩

/-- IEEE rounding, correctly rounded `log2f`, a contract-honouring resampler; debug build. -/
noncomputable def envI : Env ℝ :=
  ⟨true, ieee32, rne53, rne53_of_ieee32,
  fun a b c => ieee32 (ieee32 (a * b) + c), fun _ _ _ => .inr rfl,
  fun a b c d => rne53 (rne53 (a * b) - rne53 (c * d)), fun _ _ _ _ => .inl rfl,
  fun x => ieee32 (Real.logb 2 x), pickSrc ℝ⟩
/-- Exact arithmetic, otherwise the same; debug build. -/
noncomputable def envX : Env ℝ := ⟨true, id, id, fun _ _ => rfl,
  fun a b c => a * b + c, fun _ _ _ => .inl rfl, fun a b c d => a * b - c * d, fun _ _ _ _ => .inl rfl,
  Real.logb 2, pickSrc ℝ⟩

theorem envI_ok : Rounding envI.fl ∧ Log2Spec envI.log2f ∧ SrcContract envI.src :=
  ⟨rounding_ieee32, log2Spec_ieee32, pickSrc_contract⟩
theorem envX_ok : Rounding envX.fl ∧ Log2Spec envX.log2f ∧ SrcContract envX.src :=
  ⟨rounding_id, log2Spec_real, pickSrc_contract⟩

/-! ### C01 -/

/-- C01: every malformed argument is answered by a null pointer. (Power-of-two clause: here for
per-waveform lengths below `2^20`, where the length test is right; `C01_rejects_long` for `2^20` to
`2^24`, where it may be wrong and the constructor's exception gives the null pointer;
`C01_accepts_only` without any bound.) -/
theorem C01_rejects (E : Env K) (hf : Rounding E.fl) (hl : Log2Spec E.log2f) (ws : List K) (nw : ℤ)
    (sr dur : K)
    (hbad : ws = [] ∨ nw ≤ 0 ∨ sr ≤ 0 ∨ ¬ (nw ∣ (ws.length : ℤ)) ∨
      ∃ len : ℕ, (ws.length : ℤ) = nw * len ∧ len < 2 ^ 20 ∧ ¬ ∃ k, len = 2 ^ k) :
    build E ws nw sr dur = .ok none := by
  by_cases h1 : ws = []
  · subst h1; rfl
  by_cases h2 : nw ≤ 0
  · unfold build; split_ifs <;> first | rfl | contradiction
  by_cases h3 : sr ≤ 0
  · unfold build; split_ifs <;> first | rfl | contradiction
  have h2' : 0 < nw := not_le.1 h2
  obtain ⟨n, rfl⟩ : ∃ n : ℕ, nw = n := ⟨nw.toNat, by omega⟩
  rcases hbad with h | h | h | h | ⟨len, h4, h5, h6⟩
  · contradiction
  · contradiction
  · contradiction
  · unfold build
    rw [if_neg (by simpa using h1), if_neg h2, if_neg h3, if_pos]
    intro hm
    apply h
    exact_mod_cast Nat.dvd_of_mod_eq_zero (by simpa using hm)
  · have hlen : ws.length = n * len := by exact_mod_cast h4
    have hn : 0 < n := by omega
    have hlen0 : 0 < len := by
      rcases Nat.eq_zero_or_pos len with rfl | h0
      · simp at hlen; contradiction
      · exact h0
    rw [build_guards hn hlen0 hlen (not_le.1 h3)]
    obtain ⟨b, hb, hbb⟩ := C46_isPowerOfTwo E hf hl len h5
    have : b = false := by
      by_contra hc
      exact h6 (hbb.1 (by simpa using hc))
    rw [hb, R.ok_bind, if_pos this]; rfl

/-- C01: with IEEE rounding, per-waveform lengths from `2^20` to `2^24` (exclusive) are all answered
by a null pointer, in particular the non-powers of two among them - although the power-of-two test
lets some of those through (`C46_false_above`). -/
theorem C01_rejects_long (E : Env K) (he : E.fl = ieee32) (hl : Log2Spec E.log2f) (ws : List K)
    (nw len : ℕ) (hnw : 0 < nw) (hws : ws.length = nw * len) (h20 : 2 ^ 20 ≤ len)
    (h24 : len < 2 ^ 24) (sr dur : K) (hs0 : 0 < sr)
    (hd : -2 ^ 31 ≤ E.fl (dur * sr) ∧ E.fl (dur * sr) < 2 ^ 31) :
    build E ws nw sr dur = .ok none :=
  build_any he hl h20 h24 hnw hws hs0 (toInt_ok hd.1 hd.2)

/-- C01, converse direction without any bound: a wavetable is only ever returned for well-formed
arguments. -/
theorem C01_accepts_only (E : Env K) (hf : Rounding E.fl) (hl : Log2Spec E.log2f) (ws : List K)
    (nw : ℤ) (sr dur : K) (hs : IsRate E.fl sr) (wt : WavetableData K)
    (h : build E ws nw sr dur = .ok (some wt)) :
    ws ≠ [] ∧ 0 < nw ∧ 0 < sr ∧ ∃ L : ℕ, (ws.length : ℤ) = nw * 2 ^ L ∧ 2 ≤ L ∧ L ≤ 18 := by
  obtain ⟨L, xf, h2, h18, hn, hs0, hlen, -, -⟩ := build_some hf hl hs h
  refine ⟨?_, hn, hs0, L, ?_, h2, h18⟩
  · rintro rfl
    have h1 : 0 < nw.toNat := by omega
    have : 0 < nw.toNat * 2 ^ L := by positivity
    simp at hlen; omega
  · rw [hlen]; push_cast; rw [Int.toNat_of_nonneg hn.le]

-- one waveform of 2^21 + 1 samples, which the power-of-two test accepts (`C46_false_above`)
example : Maths.isPowerOfTwo envI (2 ^ 21 + 1) = .ok true ∧
    build envI (List.replicate (2 ^ 21 + 1) 0) (1 : ℕ) 44100 0 = .ok none := by
  refine ⟨(C46_false_above envI rfl rfl).1, C01_rejects_long envI rfl envI_ok.2.1 _ 1 (2 ^ 21 + 1)
    (by norm_num) (by rw [List.length_replicate, one_mul]) (by norm_num) (by norm_num) 44100 0
    (by norm_num) ?_⟩
  have : envI.fl 0 = 0 := envI_ok.1.zero
  rw [zero_mul, this]
  constructor <;> norm_num

-- six samples in two waveforms of length three: rejected; 12 in three of length 4: not malformed
example : build envI (List.replicate 6 0) 2 44100 1 = .ok none := by
  apply C01_rejects _ envI_ok.1 envI_ok.2.1
  refine Or.inr (Or.inr (Or.inr (Or.inr ⟨3, by simp, by norm_num, ?_⟩)))
  rintro ⟨k, hk⟩
  rcases k with - | - | k
  · norm_num at hk
  · norm_num at hk
  · have : 4 ≤ 2 ^ (k + 2) := by
      calc 4 = 2 ^ 2 := by norm_num
        _ ≤ 2 ^ (k + 2) := Nat.pow_le_pow_right (by norm_num) (by omega)
    omega

/-! ### C02 -/

/-- C02: with a resampler that honours its contract, every positive number of waveforms of length
`2^L`, `2 ≤ L ≤ 18`, and every positive float samplerate give a wavetable. -/
theorem C02_succeeds (E : Env K) (hf : Rounding E.fl) (hl : Log2Spec E.log2f)
    (hc : SrcContract E.src) (L : ℕ) (h2 : 2 ≤ L) (hL : L ≤ 18) (nw : ℕ) (hnw : 0 < nw)
    (ws : List K) (hws : ws.length = nw * 2 ^ L) (sr dur : K) (hs0 : 0 < sr) (hs : IsRate E.fl sr)
    (hd : -2 ^ 31 ≤ E.fl (dur * sr) ∧ E.fl (dur * sr) < 2 ^ 31) :
    ∃ wt, build E ws nw sr dur = .ok (some wt) := by
  rcases build_spec hf hl h2 hL hnw hws hs0 hs (toInt_ok hd.1 hd.2) with h | ⟨h, -⟩
  · exact ⟨_, h⟩
  · contradiction

/-- C02: longer waveforms give a null pointer, whatever the resampler does (the ninth intermediate
table is never filled). -/
theorem C02_rejects_long (E : Env K) (hf : Rounding E.fl) (hl : Log2Spec E.log2f) (L : ℕ)
    (h2 : 19 ≤ L) (hL : L ≤ 24) (nw : ℕ) (hnw : 0 < nw) (ws : List K)
    (hws : ws.length = nw * 2 ^ L) (sr dur : K) (hs0 : 0 < sr) (hs : IsRate E.fl sr)
    (hd : -2 ^ 31 ≤ E.fl (dur * sr) ∧ E.fl (dur * sr) < 2 ^ 31) :
    build E ws nw sr dur = .ok none :=
  build_big hf hl h2 hL hnw hws hs0 hs (toInt_ok hd.1 hd.2)

/-- C02: and whatever the resampler does, lengths `2^2..2^18` give a wavetable or a null pointer,
never anything worse. -/
theorem C02_never_crashes (E : Env K) (hf : Rounding E.fl) (hl : Log2Spec E.log2f) (L : ℕ)
    (h2 : 2 ≤ L) (hL : L ≤ 18) (nw : ℕ) (hnw : 0 < nw)
    (ws : List K) (hws : ws.length = nw * 2 ^ L) (sr dur : K) (hs0 : 0 < sr) (hs : IsRate E.fl sr)
    (hd : -2 ^ 31 ≤ E.fl (dur * sr) ∧ E.fl (dur * sr) < 2 ^ 31) :
    ∃ r, build E ws nw sr dur = .ok r := by
  rcases build_spec hf hl h2 hL hnw hws hs0 hs (toInt_ok hd.1 hd.2) with h | ⟨-, h⟩ <;> exact ⟨_, h⟩

/-- The wavetable of the examples: one waveform, 8 samples, 5 ms crossfade at 44.1 kHz. -/
theorem example_build (E : Env ℝ) (hE : Rounding E.fl ∧ Log2Spec E.log2f ∧ SrcContract E.src) (ws : List ℝ) (h : ws.length = 8) :
    ∃ wt, build E ws 1 44100 (1 / 256) = .ok (some wt) := by
  have h44 : IsRate E.fl (44100 : ℝ) := by
    have := hE.1.isRate 44100 (by norm_num); simpa using this
  have hd : (-2 ^ 31 : ℝ) ≤ E.fl (1 / 256 * 44100) ∧ E.fl (1 / 256 * 44100 : ℝ) < 2 ^ 31 := by
    have e : (1 / 256 * 44100 : ℝ) = ((44100 : ℤ) : ℝ) / 2 ^ 8 := by norm_num
    rw [e, hE.1.dyadic 44100 8 (by norm_num)]; norm_num
  exact C02_succeeds _ hE.1 hE.2.1 hE.2.2 3 (by norm_num) (by norm_num) 1
    (by norm_num) ws (by simpa using h) 44100 _ (by norm_num) h44 hd

/-! ### C03 -/

/-- C03 is false for length 1: `std::length_error` escapes from `build`, for all sample values,
waveform counts and samplerates. -/
theorem C03_false_length_one (E : Env K) (hf : Rounding E.fl) (hl : Log2Spec E.log2f) (nw : ℕ)
    (hnw : 0 < nw) (ws : List K) (hws : ws.length = nw) (sr dur : K) (hs0 : 0 < sr)
    (hd : -2 ^ 31 ≤ E.fl (dur * sr) ∧ E.fl (dur * sr) < 2 ^ 31) :
    build E ws nw sr dur = .error .lengthError := by
  rw [build_pow hf hl (L := 0) (by norm_num) hnw (by simpa using hws) hs0 (toInt_ok hd.1 hd.2),
    pow_zero, make_one hf hl]; rfl

/-- C03 is false for length 2: a debug build aborts, a release build reads out of bounds. -/
theorem C03_false_length_two (E : Env K) (hf : Rounding E.fl) (hl : Log2Spec E.log2f) (nw : ℕ)
    (hnw : 0 < nw) (ws : List K) (hws : ws.length = nw * 2) (sr dur : K) (hs0 : 0 < sr)
    (hs : IsRate E.fl sr) (hd : -2 ^ 31 ≤ E.fl (dur * sr) ∧ E.fl (dur * sr) < 2 ^ 31) :
    build E ws nw sr dur = .error (if E.dbg then .assertFail else .outOfBounds) := by
  rw [build_pow hf hl (L := 1) (by norm_num) hnw (by simpa using hws) hs0 (toInt_ok hd.1 hd.2),
    pow_one, make_two hf hl hnw hws hs0 hs]
  cases E.dbg <;> rfl

/-! ### C04, C05 -/

/-- C04: shape of every wavetable that `build` returns. -/
theorem C04_shape (E : Env K) (hf : Rounding E.fl) (hl : Log2Spec E.log2f) (ws : List K)
    (nw L : ℕ) (hws : ws.length = nw * 2 ^ L) (sr dur : K) (hs : IsRate E.fl sr)
    (wt : WavetableData K) (h : build E ws nw sr dur = .ok (some wt)) :
    wt.numWaveforms = nw ∧ wt.numMipMapTables = L - 1 ∧
    ∀ w i : ℕ, w < nw → i + 1 < L → ∃ m q md qd ph,
      wt.mSpan w i = .ok m ∧ wt.qSpan w i = .ok q ∧ wt.mDiffSpan w i = .ok md ∧
      wt.qDiffSpan w i = .ok qd ∧ wt.phaseSpan i = .ok ph ∧
      m.length = 2 ^ (L - i) ∧ q.length = 2 ^ (L - i) ∧ md.length = 2 ^ (L - i) ∧
      qd.length = 2 ^ (L - i) ∧ ph.length = 2 ^ (L - i) + 1 ∧
      wt.waveformLen i = .ok (2 ^ (L - i)) ∧ 4 ≤ 2 ^ (L - i) := by
  obtain ⟨L', xf, h2, h18, hn, hs0, hlen, -, rfl⟩ := build_some hf hl hs h
  simp only [Int.toNat_natCast] at hlen ⊢
  have hnw : 0 < nw := by omega
  have hLL : L = L' := by
    rw [hws] at hlen
    exact Nat.pow_right_injective (le_refl 2) (Nat.eq_of_mul_eq_mul_left hnw hlen)
  subst hLL
  refine ⟨wtOf_numWaveforms, wtOf_numMipMapTables (by omega), ?_⟩
  intro w i hw hi
  obtain ⟨l1, l2, l3, l4⟩ := tabOf_len (E := E) (L := L) (waveformOf ws (2 ^ L) w) i
  refine ⟨_, _, _, _, _, wtOf_mSpan hw (by omega), wtOf_qSpan hw (by omega),
    wtOf_mDiffSpan hw (by omega), wtOf_qDiffSpan hw (by omega), wtOf_phaseSpan (by omega),
    l1, l2, l3, l4, grid_length _, ?_, ?_⟩
  · rw [wtOf_waveformLen hnw (by omega)]; push_cast; rfl
  · calc 4 = 2 ^ 2 := by norm_num
      _ ≤ 2 ^ (L - i) := Nat.pow_le_pow_right (by norm_num) (by omega)

/-- C05: the phase grid of table `i` is exactly `k / 2^(L-i)`, `k = 0 .. 2^(L-i)`, whatever the
rounding. -/
theorem C05_grid (E : Env K) (hf : Rounding E.fl) (hl : Log2Spec E.log2f) (ws : List K)
    (nw L : ℕ) (hws : ws.length = nw * 2 ^ L) (sr dur : K) (hs : IsRate E.fl sr)
    (wt : WavetableData K) (h : build E ws nw sr dur = .ok (some wt)) (i : ℕ) (hi : i + 1 < L) :
    ∃ ph, wt.phaseSpan i = .ok ph ∧ ph.length = 2 ^ (L - i) + 1 ∧
      (∀ k : ℕ, k ≤ 2 ^ (L - i) → ph[k]? = some ((k : K) / 2 ^ (L - i))) ∧
      ph[0]? = some 0 ∧ ph[2 ^ (L - i)]? = some 1 ∧ ph.Pairwise (· < ·) := by
  obtain ⟨L', xf, h2, h18, hn, hs0, hlen, -, rfl⟩ := build_some hf hl hs h
  simp only [Int.toNat_natCast] at hlen ⊢
  have hLL : L = L' := by
    rw [hws] at hlen
    exact Nat.pow_right_injective (le_refl 2) (Nat.eq_of_mul_eq_mul_left (by omega) hlen)
  subst hLL
  refine ⟨_, wtOf_phaseSpan (by omega), grid_length _, fun k hk => grid_get hk, ?_, ?_, ?_⟩
  · rw [grid_get (by positivity)]; simp
  · rw [grid_get le_rfl]; push_cast; rw [div_self (by positivity)]
  · unfold grid
    rw [List.pairwise_map]
    refine List.Pairwise.imp ?_ (List.pairwise_lt_range)
    intro a b hab
    have : (a : K) < b := by exact_mod_cast hab
    exact div_lt_div_of_pos_right this (by positivity)

/-! ### C06, C07, C08 -/

/-- C06: in exact arithmetic, line `k` of table `i` of waveform `w` goes through sample `k` at phase
`k/len` and through the cyclically next sample at `(k+1)/len`, where the samples are those of the
waveform decimated to level `i` (`mipSamples`, C08). -/
theorem C06_lines (E : Env K) (he : E.fl = id) (hl : Log2Spec E.log2f) (ws : List K)
    (nw L : ℕ) (hws : ws.length = nw * 2 ^ L) (sr dur : K)
    (wt : WavetableData K) (h : build E ws nw sr dur = .ok (some wt)) (w i k : ℕ) (hw : w < nw)
    (hi : i + 1 < L) (hk : k < 2 ^ (L - i)) :
    ∃ m q ph a b x0 x1, wt.mSpan w i = .ok m ∧ wt.qSpan w i = .ok q ∧ wt.phaseSpan i = .ok ph ∧
      m[k]? = some a ∧ q[k]? = some b ∧ ph[k]? = some x0 ∧ ph[k + 1]? = some x1 ∧
      a * x0 + b = sampleAt (mipSamples E (waveformOf ws (2 ^ L) w) i) k ∧
      a * x1 + b = sampleAt (mipSamples E (waveformOf ws (2 ^ L) w) i) (k + 1) := by
  have hf : Rounding E.fl := by rw [he]; exact rounding_id
  obtain ⟨L', xf, h2, h18, hn, hs0, hlen, -, rfl⟩ := build_some hf hl (by rw [he]; exact isRate_id _) h
  simp only [Int.toNat_natCast] at hlen ⊢
  have hLL : L = L' := by
    rw [hws] at hlen
    exact Nat.pow_right_injective (le_refl 2) (Nat.eq_of_mul_eq_mul_left (by omega) hlen)
  subst hLL
  have hl := mipSamples_length E (waveformOf_length hws hw) i (by omega)
  refine ⟨_, _, _, mF E (fun k => (k : K) / 2 ^ (L - i)) ((mipSamples E (waveformOf ws (2 ^ L) w) i).getD · 0)
      (2 ^ (L - i)) k, qF E (fun k => (k : K) / 2 ^ (L - i))
      ((mipSamples E (waveformOf ws (2 ^ L) w) i).getD · 0) (2 ^ (L - i)) k, _, _,
    wtOf_mSpan hw (by omega), wtOf_qSpan hw (by omega), wtOf_phaseSpan (by omega), ?_, ?_,
    grid_get hk.le, grid_get hk, ?_, ?_⟩
  · simp [tabOf, mqOf, hk, he]
  · simp [tabOf, mqOf, hk, he]
  · rw [mF_id he, qF_id he]
    unfold sampleAt
    rw [hl, Nat.mod_eq_of_lt hk]
    field_simp; ring
  · rw [mF_id he, qF_id he]
    unfold sampleAt
    rw [hl]
    push_cast
    field_simp; ring

/-- C07: in exact arithmetic, `mDiff[k] = m[k+1] - m[k]` cyclically, `qDiff[k] = q[k+1] - q[k]`
except that the last one sees line 0 one period later, i.e. as `m[0]*(x-1) + q[0]`; hence the two
lines that meet at corner `k+1` agree there: `mDiff[k]*phases[k+1] + qDiff[k] = 0`. -/
theorem C07_corners (E : Env K) (he : E.fl = id) (hl : Log2Spec E.log2f) (ws : List K)
    (nw L : ℕ) (hws : ws.length = nw * 2 ^ L) (sr dur : K)
    (wt : WavetableData K) (h : build E ws nw sr dur = .ok (some wt)) (w i k : ℕ) (hw : w < nw)
    (hi : i + 1 < L) (hk : k < 2 ^ (L - i)) :
    ∃ m q md qd ph a a' b b' da db x1 m0, wt.mSpan w i = .ok m ∧ wt.qSpan w i = .ok q ∧
      wt.mDiffSpan w i = .ok md ∧ wt.qDiffSpan w i = .ok qd ∧ wt.phaseSpan i = .ok ph ∧
      m[k]? = some a ∧ m[(k + 1) % 2 ^ (L - i)]? = some a' ∧
      q[k]? = some b ∧ q[(k + 1) % 2 ^ (L - i)]? = some b' ∧ md[k]? = some da ∧
      qd[k]? = some db ∧ ph[k + 1]? = some x1 ∧ m[0]? = some m0 ∧
      da = a' - a ∧ db = (if k + 1 = 2 ^ (L - i) then (b' - m0) - b else b' - b) ∧
      da * x1 + db = 0 := by
  have hf : Rounding E.fl := by rw [he]; exact rounding_id
  obtain ⟨L', xf, h2, h18, hn, hs0, hlen, -, rfl⟩ := build_some hf hl (by rw [he]; exact isRate_id _) h
  simp only [Int.toNat_natCast] at hlen ⊢
  have hLL : L = L' := by
    rw [hws] at hlen
    exact Nat.pow_right_injective (le_refl 2) (Nat.eq_of_mul_eq_mul_left (by omega) hlen)
  subst hLL
  have hk' : (k + 1) % 2 ^ (L - i) < 2 ^ (L - i) := Nat.mod_lt _ (by positivity)
  have h0 : 0 < 2 ^ (L - i) := by positivity
  set y : ℕ → K := ((mipSamples E (waveformOf ws (2 ^ L) w) i).getD · 0) with hy
  set x : ℕ → K := fun k => (k : K) / 2 ^ (L - i) with hx
  have hdb : qdF E x y (2 ^ (L - i)) k =
      if k + 1 = 2 ^ (L - i) then (qF E x y (2 ^ (L - i)) ((k + 1) % 2 ^ (L - i)) -
        mF E x y (2 ^ (L - i)) 0) - qF E x y (2 ^ (L - i)) k
      else qF E x y (2 ^ (L - i)) ((k + 1) % 2 ^ (L - i)) - qF E x y (2 ^ (L - i)) k := by
    unfold qdF
    by_cases hc : k + 1 = 2 ^ (L - i)
    · rw [if_pos (by omega), if_pos hc, he]; simp only [id]; ring
    · rw [if_neg (by omega), if_neg hc, he]; rfl
  refine ⟨_, _, _, _, _, mF E x y (2 ^ (L - i)) k, mF E x y (2 ^ (L - i)) ((k + 1) % 2 ^ (L - i)),
    qF E x y (2 ^ (L - i)) k, qF E x y (2 ^ (L - i)) ((k + 1) % 2 ^ (L - i)),
    mdF E x y (2 ^ (L - i)) k, qdF E x y (2 ^ (L - i)) k, _, mF E x y (2 ^ (L - i)) 0,
    wtOf_mSpan hw (by omega), wtOf_qSpan hw (by omega), wtOf_mDiffSpan hw (by omega),
    wtOf_qDiffSpan hw (by omega), wtOf_phaseSpan (by omega), ?_, ?_, ?_, ?_, ?_, ?_,
    grid_get hk, ?_, by unfold mdF; rw [he]; rfl, hdb, ?_⟩
  · simp [tabOf, mqOf, hk, he, hx, hy]
  · simp [tabOf, mqOf, hk', he, hx, hy]
  · simp [tabOf, mqOf, hk, he, hx, hy]
  · simp [tabOf, mqOf, hk', he, hx, hy]
  · simp [tabOf, mqOf, hk, he, hx, hy]
  · simp [tabOf, mqOf, hk, he, hx, hy]
  · simp [tabOf, mqOf, h0, he, hx, hy]
  · rw [hdb]
    have hmd : mdF E x y (2 ^ (L - i)) k = mF E x y (2 ^ (L - i)) ((k + 1) % 2 ^ (L - i)) -
        mF E x y (2 ^ (L - i)) k := by
      unfold mdF; rw [he]; rfl
    rw [hmd]
    have hp : (2 : K) ^ (L - i) ≠ 0 := by positivity
    by_cases hc : k + 1 = 2 ^ (L - i)
    · rw [if_pos hc]
      have hm : (k + 1) % 2 ^ (L - i) = 0 := by rw [hc]; exact Nat.mod_self _
      have hkK : ((k + 1 : ℕ) : K) = 2 ^ (L - i) := by rw [hc]; push_cast; rfl
      have hkK' : (k : K) = 2 ^ (L - i) - 1 := by rw [← hkK]; push_cast; ring
      rw [hkK, hm, hx, mF_id he, qF_id he, mF_id he, qF_id he, div_self hp, hm, hkK']
      push_cast; ring
    · rw [if_neg hc]
      have hm : (k + 1) % 2 ^ (L - i) = k + 1 := Nat.mod_eq_of_lt (by omega)
      rw [hm, hx, mF_id he, qF_id he, mF_id he, qF_id he, hm]
      push_cast
      field_simp; ring

-- the corner of C07 at the wrap, and a mipmap level that uses the resampler, occur in a built table
example : ∃ wt, build envX [0, 1, 0, -1, 0, 3, 0, -1] 1 44100 (1 / 256) = .ok (some wt) ∧
    1 + 1 < 3 ∧ 3 + 1 = 2 ^ (3 - 1) := by
  obtain ⟨wt, h⟩ := example_build envX envX_ok [0, 1, 0, -1, 0, 3, 0, -1] rfl
  exact ⟨wt, h, by norm_num, by norm_num⟩

/-- C08: the samples behind table `i` are `mipSamples` (see C06): their length is the original one
divided by `2^i`; up to `i = 8` they are one decimation of the original by `2^i`, beyond that one
decimation by 256 of the samples behind table `i-8`. -/
theorem C08_cascade (E : Env K) (y : List K) (L : ℕ) (hy : y.length = 2 ^ L) (i : ℕ) (hi : i ≤ L) :
    (mipSamples E y i).length = 2 ^ (L - i) ∧
    (i = 0 → mipSamples E y i = y) ∧
    (1 ≤ i → i ≤ 8 → mipSamples E y i = decimate E y (2 ^ i)) ∧
    (8 < i → mipSamples E y i = decimate E (mipSamples E y (i - 8)) 256) :=
  ⟨mipSamples_length E hy i hi, fun h => by rw [h, mipSamples_zero],
    fun h1 h2 => mipSamples_low E y (by omega) h2, fun h => mipSamples_high E y h⟩

theorem downsample_congr (E E' : Env K) {r : ℕ} (h : ∀ inp out, E.src inp out r = E'.src inp out r)
    (w : List K) : downsampleWaveform E w r = downsampleWaveform E' w r := by
  unfold downsampleWaveform; simp only [h]

/-- C08: the resampler is only ever asked for ratios between 2 and 256: `build` cannot distinguish
two resamplers that agree on those. -/
theorem C08_ratio_range (E E' : Env K) (h1 : E.dbg = E'.dbg) (h2 : E.fl = E'.fl)
    (hd : E.dbl = E'.dbl) (hm : E.mad = E'.mad) (hdmm : E.dmm = E'.dmm) (h3 : E.log2f = E'.log2f)
    (h4 : ∀ inp out ratio, 2 ≤ ratio → ratio ≤ 256 → E.src inp out ratio = E'.src inp out ratio)
    (ws : List K) (nw : ℤ) (sr dur : K) : build E ws nw sr dur = build E' ws nw sr dur := by
  obtain ⟨dbg, fl, db, hdb, md, hmd, dm, hdm, lg, src⟩ := E
  obtain ⟨dbg', fl', db', hdb', md', hmd', dm', hdm', lg', src'⟩ := E'
  dsimp only at h1 h2 hd hm hdmm h3 h4
  subst h1; subst h2; subst h3; subst hd; subst hm; subst hdmm
  have hstep : ∀ phases og acc i, 1 ≤ i →
      mipStep ⟨dbg, fl, db, hdb, md, hmd, dm, hdm, lg, src⟩ phases og acc i =
        mipStep ⟨dbg, fl, db, hdb, md, hmd, dm, hdm, lg, src'⟩ phases og acc i := by
    intro phases og acc i hi
    unfold mipStep
    cases hms : mipSource og acc.1 i with
    | error e => rfl
    | ok a =>
      obtain ⟨s, r⟩ := a
      have hr : 2 ≤ r ∧ r ≤ 256 := by
        unfold mipSource at hms
        split at hms
        · cases hms
          rename_i hle
          rw [← pow_succ', show i - 1 + 1 = i by omega]
          constructor
          · calc 2 = 2 ^ 1 := rfl
              _ ≤ 2 ^ i := Nat.pow_le_pow_right (by norm_num) hi
          · calc 2 ^ i ≤ 2 ^ 8 := Nat.pow_le_pow_right (by norm_num) hle
              _ = 256 := by norm_num
        · obtain ⟨b, -, hb⟩ := bind_ok hms
          cases hb; norm_num
      simp only [R.ok_bind]
      rw [downsample_congr ⟨dbg, fl, db, hdb, md, hmd, dm, hdm, lg, src⟩ ⟨dbg, fl, db, hdb, md, hmd, dm, hdm, lg, src'⟩ (fun inp out => h4 inp out r hr.1 hr.2)]
      rfl
  have hfold : ∀ phases og (l : List ℕ) (acc), (∀ i ∈ l, 1 ≤ i) →
      l.foldlM (mipStep ⟨dbg, fl, db, hdb, md, hmd, dm, hdm, lg, src⟩ phases og) acc =
      l.foldlM (mipStep ⟨dbg, fl, db, hdb, md, hmd, dm, hdm, lg, src'⟩ phases og) acc := by
    intro phases og l
    induction l with
    | nil => intros; rfl
    | cons a l ih =>
      intro acc hl
      rw [List.foldlM_cons, List.foldlM_cons, hstep _ _ _ _ (hl a (by simp))]
      congr 1
      funext b
      exact ih b fun i hi => hl i (by simp [hi])
  have hwt : waveformTables ⟨dbg, fl, db, hdb, md, hmd, dm, hdm, lg, src⟩ = waveformTables ⟨dbg, fl, db, hdb, md, hmd, dm, hdm, lg, src'⟩ := by
    funext num phases og
    unfold waveformTables
    simp only []
    congr 1; funext _; congr 1; funext _; congr 1; funext _
    rw [hfold _ _ _ _ (fun i hi => by have := List.mem_range'.1 hi; omega)]
  unfold build make
  rw [hwt]
  rfl

/-! ### C09, C10 -/

/-- C09: in exact arithmetic the samples recovered from the tables are the original ones, and
`updateSamplerate` gives exactly the wavetable which `build` gives for the original samples. This
also holds in the middle of any playback: `c` is any crossfader state. -/
theorem C09_update (E : Env K) (he : E.fl = id) (hl : Log2Spec E.log2f) (ws : List K) (nw : ℤ)
    (sr dur : K) (wt : WavetableData K) (h : build E ws nw sr dur = .ok (some wt))
    (c : CrossFader K) (sr' dur' : K) :
    rebuildWaveforms E { wt with cf := c } = .ok ws ∧
    ∀ wt', updateSamplerate E { wt with cf := c } sr' dur' = .ok wt' ↔
      build E ws nw sr' dur' = .ok (some wt') := by
  have hf : Rounding E.fl := by rw [he]; exact rounding_id
  obtain ⟨L, xf, h2, h18, hn, hs0, hlen, -, rfl⟩ := build_some hf hl (by rw [he]; exact isRate_id _) h
  have hreb : rebuildWaveforms E { wtOf E ws nw.toNat L xf with cf := c } = .ok ws := by
    rw [rebuild_wtOf (by omega) (by omega)]
    conv_rhs => rw [← flatten_chunks hlen]
    congr 2
    apply List.map_congr_left
    intro w hw
    exact rebuilt_id he (waveformOf_length hlen (List.mem_range.1 hw))
  refine ⟨hreb, fun wt' => ?_⟩
  have hnum : ({ wtOf E ws nw.toNat L xf with cf := c } : WavetableData K).numWaveforms = nw := by
    have := wtOf_numWaveforms (E := E) (ws := ws) (nw := nw.toNat) (L := L) (xf := xf)
    unfold numWaveforms at this ⊢
    rw [this]; omega
  unfold updateSamplerate
  rw [hreb, R.ok_bind, hnum]
  constructor
  · intro e
    obtain ⟨nd, hnd, e⟩ := bind_ok e
    rw [hnd]
    cases nd with
    | none => cases e
    | some d => cases e; rfl
  · intro e; rw [e]; rfl

/-- C09: number of waveforms, mipmap count and all tables are unchanged by `updateSamplerate` in
exact arithmetic; only the crossfader is new. -/
theorem C09_same_tables (E : Env K) (he : E.fl = id) (hl : Log2Spec E.log2f) (ws : List K) (nw : ℤ)
    (sr dur : K) (wt : WavetableData K) (h : build E ws nw sr dur = .ok (some wt))
    (c : CrossFader K) (sr' dur' : K) (wt' : WavetableData K)
    (h' : updateSamplerate E { wt with cf := c } sr' dur' = .ok wt') :
    wt'.m = wt.m ∧ wt'.q = wt.q ∧ wt'.mDiff = wt.mDiff ∧ wt'.qDiff = wt.qDiff ∧
      wt'.phases = wt.phases ∧ wt'.numMipMapTables = wt.numMipMapTables := by
  have hf : Rounding E.fl := by rw [he]; exact rounding_id
  rw [(C09_update E he hl ws nw sr dur wt h c sr' dur').2] at h'
  obtain ⟨L, xf, h2, h18, hn, hs0, hlen, -, rfl⟩ := build_some hf hl (by rw [he]; exact isRate_id _) h
  obtain ⟨L', xf', _, _, _, _, hlen', -, rfl⟩ := build_some hf hl (by rw [he]; exact isRate_id _) h'
  have hLL : L = L' := by
    rw [hlen] at hlen'
    exact Nat.pow_right_injective (le_refl 2) (Nat.eq_of_mul_eq_mul_left (by omega) hlen')
  subst hLL
  exact ⟨rfl, rfl, rfl, rfl, rfl, rfl⟩

/-- C10 is false: for every wavetable and every rounding, `updateSamplerate` with a samplerate that
is not positive dereferences a null pointer. -/
theorem C10_false (E : Env K) (hf : Rounding E.fl) (hl : Log2Spec E.log2f) (ws : List K) (nw : ℤ)
    (sr dur : K) (hs : IsRate E.fl sr) (wt : WavetableData K)
    (h : build E ws nw sr dur = .ok (some wt)) (sr' dur' : K) (hs' : sr' ≤ 0) :
    updateSamplerate E wt sr' dur' = .error .nullDeref := by
  obtain ⟨L, xf, h2, h18, hn, hs0, hlen, -, rfl⟩ := build_some hf hl hs h
  unfold updateSamplerate
  have := rebuild_wtOf (E := E) (ws := ws) (nw := nw.toNat) (L := L) (xf := xf)
    (c := (wtOf E ws nw.toNat L xf).cf) (by omega) (by omega)
  rw [show ({ wtOf E ws nw.toNat L xf with cf := (wtOf E ws nw.toNat L xf).cf } :
    WavetableData K) = wtOf E ws nw.toNat L xf from rfl] at this
  rw [this, R.ok_bind, C01_rejects E hf hl _ _ _ _ (Or.inr (Or.inr (Or.inl hs')))]
  rfl

/-! ### C11 -/

/-- C11: two wavetables built from the same samples at different samplerates differ only in the
number of crossfade samples. -/
theorem C11_only_crossfade (E : Env K) (hf : Rounding E.fl) (hl : Log2Spec E.log2f) (ws : List K)
    (nw : ℤ) (sr1 sr2 dur1 dur2 : K) (h1 : IsRate E.fl sr1) (h2 : IsRate E.fl sr2)
    (wt1 wt2 : WavetableData K) (e1 : build E ws nw sr1 dur1 = .ok (some wt1))
    (e2 : build E ws nw sr2 dur2 = .ok (some wt2)) :
    wt2 = { wt1 with cf := { wt1.cf with numSamples := wt2.cf.numSamples } } := by
  obtain ⟨L, xf, _, _, hn, _, hlen, -, rfl⟩ := build_some hf hl h1 e1
  obtain ⟨L', xf', _, _, _, _, hlen', -, rfl⟩ := build_some hf hl h2 e2
  have hLL : L = L' := by
    rw [hlen] at hlen'
    exact Nat.pow_right_injective (le_refl 2) (Nat.eq_of_mul_eq_mul_left (by omega) hlen')
  subst hLL
  rfl

/-! ### C12 -/

/-- C12: with IEEE single precision (with subnormals and overflow) and 53 bits for the `double` steps,
`updateSamplerate` is `build` applied to samples that differ from the original ones by at most
`(6*len + 5) * A / 2^24`, where `A` bounds the samples and lies between the smallest normal number
and `2^100`. -/
theorem C12_accuracy (E : Env K) (he : E.fl = ieee32)
    (hdbl : ∀ x, |E.dbl x - x| ≤ |x| / 2 ^ 53) (hl : Log2Spec E.log2f) (ws : List K)
    (nw L : ℕ) (hws : ws.length = nw * 2 ^ L) (sr dur : K) (hs : IsRate E.fl sr)
    (wt : WavetableData K) (h : build E ws nw sr dur = .ok (some wt)) (c : CrossFader K)
    (A : K) (hA0 : 1 / 2 ^ 126 ≤ A) (hA1 : A ≤ 2 ^ 100) (hA : ∀ y ∈ ws, |y| ≤ A) (sr' dur' : K) (wt' : WavetableData K)
    (h' : updateSamplerate E { wt with cf := c } sr' dur' = .ok wt') :
    ∃ ws', build E ws' nw sr' dur' = .ok (some wt') ∧
      List.Forall₂ (fun y y' => |y' - y| ≤ (6 * 2 ^ L + 5) * A / 2 ^ 24) ws ws' := by
  have hf : Rounding E.fl := by rw [he]; exact rounding_ieee32
  obtain ⟨L', xf, h2, h18, hn, hs0, hlen, -, rfl⟩ := build_some hf hl hs h
  simp only [Int.toNat_natCast] at *
  have hnw : 0 < nw := by omega
  have hLL : L = L' := by
    rw [hws] at hlen
    exact Nat.pow_right_injective (le_refl 2) (Nat.eq_of_mul_eq_mul_left hnw hlen)
  subst hLL
  have hreb := rebuild_wtOf (E := E) (ws := ws) (nw := nw) (L := L) (xf := xf) (c := c) (by omega)
    (by omega)
  refine ⟨(List.map (fun w => rebuilt E L (waveformOf ws (2 ^ L) w)) (List.range nw)).flatten,
    ?_, ?_⟩
  · unfold updateSamplerate at h'
    rw [hreb, R.ok_bind] at h'
    obtain ⟨nd, hnd, e⟩ := bind_ok h'
    have hnum : ({ wtOf E ws nw L xf with cf := c } : WavetableData K).numWaveforms = nw := by
      have := wtOf_numWaveforms (E := E) (ws := ws) (nw := nw) (L := L) (xf := xf)
      unfold numWaveforms at this ⊢
      rw [this]
    rw [hnum] at hnd
    rw [hnd]
    cases nd with
    | none => cases e
    | some d => cases e; rfl
  · conv => arg 2; rw [← flatten_chunks hws]
    apply List.rel_flatten
    rw [List.forall₂_map_left_iff, List.forall₂_map_right_iff, List.forall₂_same]
    intro w hw
    have hl2 := waveformOf_length hws (List.mem_range.1 hw)
    apply rebuilt_err he hdbl (by omega) hl2 hA0 hA1
    intro y hy
    apply hA
    unfold waveformOf at hy
    exact List.mem_of_mem_drop (List.mem_of_mem_take hy)

/-- C12: for `len ≤ 2048` and samples in `[-1,1]` the change is below `4e-3`. -/
theorem C12_documented (E : Env K) (he : E.fl = ieee32)
    (hdbl : ∀ x, |E.dbl x - x| ≤ |x| / 2 ^ 53) (hl : Log2Spec E.log2f) (ws : List K)
    (nw L : ℕ) (hws : ws.length = nw * 2 ^ L) (hL : 2 ^ L ≤ 2048) (sr dur : K)
    (hs : IsRate E.fl sr)
    (wt : WavetableData K) (h : build E ws nw sr dur = .ok (some wt)) (c : CrossFader K)
    (hA : ∀ y ∈ ws, |y| ≤ 1) (sr' dur' : K) (wt' : WavetableData K)
    (h' : updateSamplerate E { wt with cf := c } sr' dur' = .ok wt') :
    ∃ ws', build E ws' nw sr' dur' = .ok (some wt') ∧
      List.Forall₂ (fun y y' => |y' - y| < 4 / 1000) ws ws' := by
  obtain ⟨ws', e, hr⟩ := C12_accuracy E he hdbl hl ws nw L hws sr dur hs wt h c 1
    (by norm_num) (by norm_num) hA sr' dur' wt' h'
  refine ⟨ws', e, hr.imp ?_⟩
  intro a b hab
  have : (2 : K) ^ L ≤ 2048 := by exact_mod_cast hL
  have : (6 * 2 ^ L + 5) * 1 / 2 ^ 24 ≤ (6 * 2048 + 5) * 1 / (2 : K) ^ 24 := by gcongr
  have h3 : (6 * 2048 + 5) * 1 / (2 : K) ^ 24 < 4 / 1000 := by norm_num
  linarith

-- the hypotheses of C09-C12 are met: a wavetable is built and its samplerate updated, both in exact
-- arithmetic and with IEEE rounding
example (E : Env ℝ) (hE : Rounding E.fl ∧ Log2Spec E.log2f ∧ SrcContract E.src) :
    ∃ wt wt', build E [0, 1, 0, -1, 0, 1 / 2, 0, -1] 1 44100 (1 / 256) = .ok (some wt) ∧
      updateSamplerate E wt 44100 (1 / 256) = .ok wt' ∧
      ∀ y ∈ ([0, 1, 0, -1, 0, 1 / 2, 0, -1] : List ℝ), |y| ≤ 1 := by
  obtain ⟨wt, h⟩ := example_build E hE [0, 1, 0, -1, 0, 1 / 2, 0, -1] rfl
  have hok : Rounding E.fl ∧ Log2Spec E.log2f := ⟨hE.1, hE.2.1⟩
  have h44 : IsRate E.fl (44100 : ℝ) := by
    have := hok.1.isRate 44100 (by norm_num); simpa using this
  obtain ⟨L, xf, h2, h18, hn, hs0, hlen, -, rfl⟩ := build_some hok.1 hok.2 h44 h
  have hr := rebuild_wtOf (E := E) (ws := [0, 1, 0, -1, 0, 1 / 2, 0, -1]) (nw := 1) (L := L)
    (xf := xf) (c := (wtOf E [0, 1, 0, -1, 0, 1 / 2, 0, -1] 1 L xf).cf) (by norm_num) h2
  have hL : 2 ^ L = 8 := by simpa using hlen.symm
  obtain ⟨wt', h'⟩ := example_build E hE (((List.range 1).map fun w =>
    rebuilt E L (waveformOf [0, 1, 0, -1, 0, 1 / 2, 0, -1] (2 ^ L) w)).flatten) (by
      simp [rebuilt, hL])
  refine ⟨_, wt', h, ?_, ?_⟩
  · unfold updateSamplerate
    rw [show ((1 : ℤ).toNat) = 1 from rfl]
    erw [hr]
    rw [R.ok_bind, wtOf_numWaveforms, show ((1 : ℕ) : ℤ) = 1 from rfl, h']; rfl
  · intro y hy
    simp only [List.mem_cons, List.not_mem_nil, or_false] at hy
    rcases hy with rfl | rfl | rfl | rfl | rfl | rfl | rfl | rfl <;> norm_num [abs_le]

end Adwt.Props
