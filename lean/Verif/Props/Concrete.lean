import Verif.Props.Examples
import Verif.Proofs.Plays

/-!
# Concrete runs in exact arithmetic, for examples and counterexamples
-/

set_option linter.unusedSectionVars false

namespace Adwt.Props
open WavetableData

/-- the built-in filters in exact arithmetic -/
theorem exactSys (t : FilterType) : ExactSys (sysOf envX t) := by
  refine ⟨rfl, rfl, by norm_num [sysOf], ?_, ?_⟩
  · cases t <;> rfl
  · intro z hz
    have : ∃ c ∈ zLit t, clit c = z := by simpa [sysOf, filterX] using hz
    obtain ⟨c, hc, rfl⟩ := this
    intro h
    have hre : (clit c).re = 0 := by rw [h]; rfl
    have : (c.1 : ℝ) = 0 := hre
    have h0 : c.1 = 0 := by exact_mod_cast this
    have : ∀ c ∈ zLit t, c.1 ≠ 0 := by cases t <;> simp [zLit] <;> norm_num
    exact this c hc h0

theorem log2X : Log2Spec envX.log2f := envX_ok.2.1

/-- A wavetable built from `nw` waveforms, with a crossfade of `xf` samples. -/
theorem builtX (ws : List ℝ) (L : ℕ) (h2 : 2 ≤ L) (h18 : L ≤ 18) (hws : ws.length = 2 ^ L) (xf : ℕ)
    (h1 : 1 ≤ xf) (hx : xf < 2 ^ 31) : Built envX ws 1 L 44100 (xf / 44100) (wtOf envX ws 1 L xf) := by
  have e : (xf : ℝ) / 44100 * 44100 = xf := by norm_num
  refine ⟨isRate_id _, ?_, by simpa using hws, ?_⟩
  · show (1 : ℝ) ≤ (xf : ℝ) / 44100 * 44100
    rw [e]; exact_mod_cast h1
  · obtain ⟨wt, h⟩ := C02_succeeds envX envX_ok.1 envX_ok.2.1 envX_ok.2.2 L h2 h18 1 (by norm_num) ws
      (by simpa using hws) 44100 (xf / 44100) (by norm_num) (isRate_id _)
      (by show (-2 ^ 31 : ℝ) ≤ (xf : ℝ) / 44100 * 44100 ∧ (xf : ℝ) / 44100 * 44100 < 2 ^ 31
          rw [e]
          have a : (0 : ℝ) ≤ xf := by positivity
          have b : (xf : ℝ) < 2 ^ 31 := by exact_mod_cast hx
          exact ⟨by linarith [show (0:ℝ) ≤ 2^31 by positivity], b⟩)
    obtain ⟨L', xf', h2', h18', hn, hs0, hlen, hxf, rfl⟩ := build_some envX_ok.1 envX_ok.2.1 (isRate_id _) h
    have hL : L' = L := by
      have : (2 : ℕ) ^ L' = 2 ^ L := by rw [← hws]; simpa using hlen.symm
      exact Nat.pow_right_injective le_rfl this
    subst hL
    have hxe : xf' = xf := by
      have e2 : envX.fl ((xf : ℝ) / 44100 * 44100) = ((xf : ℤ) : ℝ) := by
        show (xf : ℝ) / 44100 * 44100 = _
        rw [e]; simp
      rw [e2] at hxf
      have ht : trunc (((xf : ℤ) : ℝ)) = xf := by unfold trunc; simp
      unfold toInt at hxf
      rw [ht, if_pos ⟨by omega, by omega⟩] at hxf
      cases hxf; rfl
    rw [h, hxe]; rfl

/-! ### the crossfader in exact arithmetic -/

section cf
variable {n i k : ℤ} {L : ℕ} {d : ℝ}

theorem fadeX (c : CrossFader ℝ) (h : 1 ≤ c.numSamples) :
    CrossFader.computeFading envX c = .ok ((c.samplesLeft : ℝ) / c.numSamples) := by
  have hn' : (c.numSamples : ℝ) ≠ 0 := by exact_mod_cast (by omega : c.numSamples ≠ 0)
  unfold CrossFader.computeFading fdiv
  exact if_neg hn'

theorem cf_idle {E : Env ℝ} (hL : 2 ≤ L) (hd : 0 < d) (h : IsOctave L i d) :
    (⟨n, octaveScale ℝ L, 0, i, i⟩ : CrossFader ℝ).newIndices E d =
      .ok (⟨n, octaveScale ℝ L, 0, i, i⟩, ⟨i, 1, i + 1, 0⟩) := by
  unfold CrossFader.newIndices
  rw [CrossFader.findMipMapIndex_eq hd, R.ok_bind]
  dsimp only
  rw [CrossFader.findLoop_of_octave hL h, if_neg (by simp), if_pos rfl, chk_true rfl]
  rfl

theorem cf_up (hL : 2 ≤ L) (hn : 1 ≤ n) (hd : 0 < d) (h : IsOctave L k d) (hk : i < k) :
    (⟨n, octaveScale ℝ L, 0, i, i⟩ : CrossFader ℝ).newIndices envX d =
      .ok (⟨n, octaveScale ℝ L, n, k - 1, k⟩, ⟨k - 1, 1, k, 0⟩) := by
  have hn' : (n : ℝ) ≠ 0 := by exact_mod_cast (by omega : n ≠ 0)
  unfold CrossFader.newIndices
  rw [CrossFader.findMipMapIndex_eq hd, R.ok_bind]
  dsimp only
  rw [CrossFader.findLoop_of_octave hL h, if_neg (by simp), if_neg (by omega)]
  unfold CrossFader.updateIndices
  dsimp only
  rw [if_pos (by omega)]
  unfold CrossFader.fadeTuple
  rw [fadeX _ hn, R.ok_bind]
  dsimp only
  rw [if_pos (by omega), div_self hn', sub_self]
  rfl

theorem cf_down (hL : 2 ≤ L) (hn : 1 ≤ n) (hd : 0 < d) (h : IsOctave L k d) (hk : k < i) :
    (⟨n, octaveScale ℝ L, 0, i, i⟩ : CrossFader ℝ).newIndices envX d =
      .ok (⟨n, octaveScale ℝ L, n, k + 1, k⟩, ⟨k, 0, k + 1, 1⟩) := by
  have hn' : (n : ℝ) ≠ 0 := by exact_mod_cast (by omega : n ≠ 0)
  unfold CrossFader.newIndices
  rw [CrossFader.findMipMapIndex_eq hd, R.ok_bind]
  dsimp only
  rw [CrossFader.findLoop_of_octave hL h, if_neg (by simp), if_neg (by omega)]
  unfold CrossFader.updateIndices
  dsimp only
  rw [if_neg (by omega)]
  unfold CrossFader.fadeTuple
  rw [fadeX _ hn, R.ok_bind]
  dsimp only
  rw [if_neg (by omega), div_self hn', sub_self]
  rfl

/-- the last call of a fade -/
theorem cf_last (hL : 2 ≤ L) (hn : 1 ≤ n) (hd : 0 < d) (hik : i ≠ k) (h : IsOctave L k d) :
    (⟨n, octaveScale ℝ L, 1, i, k⟩ : CrossFader ℝ).newIndices envX d =
      .ok (⟨n, octaveScale ℝ L, 0, k, k⟩, ⟨k, 1, k, 0⟩) := by
  have hn' : (n : ℝ) ≠ 0 := by exact_mod_cast (by omega : n ≠ 0)
  unfold CrossFader.newIndices
  rw [CrossFader.findMipMapIndex_eq hd, R.ok_bind]
  dsimp only
  rw [CrossFader.findLoop_of_octave hL h, if_pos (by simp), chk_true hik, R.ok_bind]
  unfold CrossFader.continueFade
  dsimp only
  have h1 : ¬ (k ≠ k ∧ k ≠ i) := fun h => h.1 rfl
  simp only [if_neg h1, sub_self, if_true]
  unfold CrossFader.fadeTuple
  rw [fadeX _ hn, R.ok_bind]
  dsimp only
  rw [if_neg (by omega), Int.cast_zero, zero_div, sub_zero]
  rfl

end cf

/-! ### distance from the grid -/

/-- Any dyadic phase with a denominator of at most `2^100` is far from denormal trouble. -/
theorem offDenormal_dyadic (m : ℤ) (e n : ℕ) (he : e ≤ 100) (hn : n ≤ e) :
    OffDenormal (2 ^ n) ((m : ℝ) / 2 ^ e) := by
  intro k
  obtain ⟨c, rfl⟩ := Nat.exists_eq_add_of_le hn
  have h2 : (0 : ℝ) < 2 ^ n := by positivity
  have e1 : (k : ℝ) / ((2 ^ n : ℕ) : ℝ) = ((k * 2 ^ c : ℤ) : ℝ) / 2 ^ (n + c) := by
    push_cast; rw [pow_add]; field_simp
  rw [e1]
  by_cases h : m = k * 2 ^ c
  · left; rw [h]
  · right
    rw [← sub_div, abs_div, abs_of_pos (show (0 : ℝ) < 2 ^ (n + c) by positivity)]
    have h1 : (1 : ℝ) ≤ |(m : ℝ) - ((k * 2 ^ c : ℤ) : ℝ)| := by
      rw [← Int.cast_sub, ← Int.cast_abs]
      exact_mod_cast Int.one_le_abs (sub_ne_zero.2 h)
    calc (1 : ℝ) / 2 ^ 126 ≤ 1 / 2 ^ (n + c) := by
          apply one_div_le_one_div_of_le (by positivity)
          exact pow_le_pow_right₀ (by norm_num) (by omega)
      _ ≤ _ := by gcongr

end Adwt.Props
