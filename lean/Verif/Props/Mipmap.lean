import Verif.Props.CrossFader

/-!
# C57: the table selected for a step holds every harmonic that can be played, and few others
-/

namespace Adwt.Props
open CrossFader
variable {K : Type} [Field K] [LinearOrder K] [IsStrictOrderedRing K] [FloorRing K]

/-- C57: in every history, let `i` be the table found for a step `0 < d ≤ 1/2`, which has `N = 2^(L-i)` samples, hence
harmonics up to `N/2`. Every harmonic `k` below Nyquist (`k d ≤ 1/2`) that the original waveform of
`2^L` samples has (`k ≤ 2^L/2`) is one of them, and none of them is above the samplerate: even the
highest aliases at most once. -/
theorem C57_bandwidth (E : Env K) (hf : Rounding E.fl) (hl : Log2Spec E.log2f) (L : ℕ) (num : ℤ)
    (hn : 1 ≤ num) (c : CrossFader K) (hc : Reachable E L num c) (d : K) (hd : 0 < d)
    (hd2 : d ≤ 1 / 2) :
    ∃ i : ℤ, findMipMapIndex E.dbg c.scale d = .ok i ∧ 0 ≤ i ∧ i ≤ (L : ℤ) - 2 ∧
      (∀ k : ℕ, (k : K) * d ≤ 1 / 2 → k ≤ 2 ^ L / 2 → k ≤ 2 ^ (L - i.toNat) / 2) ∧
      (∀ k : ℕ, k ≤ 2 ^ (L - i.toNat) / 2 → (k : K) * d ≤ 1) := by
  obtain ⟨-, hs, -⟩ := hc.inv hf hl hn
  have hL := hc.1
  rw [hs]
  obtain ⟨i0, i1, i2, i3⟩ := findLoop_octave (K := K) hL d
  refine ⟨_, findMipMapIndex_eq hd, i0, i1, ?_, ?_⟩
  all_goals
    set i := findLoop d (octaveScale K L) with hi
    have hiL : i ≤ L - 2 := by omega
    have e1 : (2 : K) ^ L = 2 ^ (L - i) * 2 ^ i := by rw [← pow_add]; congr 1; omega
    have hp : (0 : K) < 2 ^ i := by positivity
    have hq : (0 : K) < 2 ^ (L - i) := by positivity
    have hN : 2 ^ (L - i) = 2 * 2 ^ (L - i - 1) := by rw [← pow_succ']; congr 1; omega
    simp only [Int.toNat_natCast] at i2 i3 ⊢
    intro k hk
  · intro hk2
    rcases i2 with i2 | i2
    · have : i = 0 := by omega
      rw [this]; exact hk2
    · have h1 : 1 ≤ d * 2 ^ (L - i) := by
        rw [e1, div_le_iff₀ (by positivity)] at i2
        have : (1 : K) * 2 ^ i ≤ d * 2 ^ (L - i) * 2 ^ i := by rw [one_mul, mul_assoc]; exact i2
        exact le_of_mul_le_mul_right this hp
      have h2 : (k : K) * 2 ≤ 2 ^ (L - i) := by
        have hk0 : (0 : K) ≤ k := by positivity
        have a1 : (k : K) * 1 ≤ k * (d * 2 ^ (L - i)) := mul_le_mul_of_nonneg_left h1 hk0
        have a2 : (k : K) * d * 2 ^ (L - i) ≤ 1 / 2 * 2 ^ (L - i) :=
          mul_le_mul_of_nonneg_right hk hq.le
        rw [← mul_assoc] at a1
        linarith
      have h3 : k * 2 ≤ 2 ^ (L - i) := by exact_mod_cast h2
      omega
  · have hk' : (k : K) ≤ 2 ^ (L - i) / 2 := by
      have h3 : k * 2 ≤ 2 ^ (L - i) := by omega
      have : (k : K) * 2 ≤ 2 ^ (L - i) := by exact_mod_cast h3
      linarith
    have a1 : (k : K) * d ≤ 2 ^ (L - i) / 2 * d := mul_le_mul_of_nonneg_right hk' hd.le
    rcases i3 with i3 | i3
    · have : L - i = 2 := by omega
      rw [this] at a1
      have : (2 : K) ^ 2 / 2 * d = 2 * d := by ring
      linarith
    · rw [e1, pow_succ, lt_div_iff₀ (by positivity)] at i3
      have : d * 2 ^ (L - i) * 2 ^ i < 2 * 2 ^ i := by
        calc d * 2 ^ (L - i) * 2 ^ i = d * (2 ^ (L - i) * 2 ^ i) := by ring
          _ < 2 ^ i * 2 := i3
          _ = 2 * 2 ^ i := by ring
      have := lt_of_mul_lt_mul_right this hp.le
      linarith

/-- The hypotheses are met: at 44.1 kHz, 1 kHz in a wavetable of 2048 samples. Table 5, of 64 samples,
is used; harmonic 22 is below Nyquist and is in the table. -/
example : IsOctave 11 5 (1000 / 44100 : ℚ) ∧ (22 : ℚ) * (1000 / 44100) ≤ 1 / 2 ∧
    22 ≤ 2 ^ (11 - 5) / 2 := by
  refine ⟨⟨by norm_num, by norm_num, Or.inr ?_, Or.inr ?_⟩, ?_, ?_⟩ <;>
    norm_num [show Int.toNat 5 = 5 from rfl]

end Adwt.Props
