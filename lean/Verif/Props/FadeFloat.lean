import Verif.Props.CrossFader
import Verif.Proofs.Accum

/-!
# C18 in float arithmetic
-/

set_option linter.unusedSectionVars false

namespace Adwt.Props
open CrossFader

variable {K : Type} [Field K] [LinearOrder K] [IsStrictOrderedRing K] [FloorRing K]

/-- the change of the state behind two consecutive calls -/
theorem stateWeight_step {E : Env K} (hf : Rounding E.fl) {L : ℕ} (hL : 2 ≤ L)
    {num : ℤ} (hn : 1 ≤ num) {c1 c2 : CrossFader K} (hinv1 : c1.Inv)
    (hcon1 : c1.scale = octaveScale K L ∧ c1.numSamples = num)
    {d2 : K} (hd2 : 0 < d2) {t2} (e2 : c1.newIndices E d2 = .ok (c2, t2))
    {i : ℤ} (hi : IsOctave L i d2)
    (hrun : c1.samplesLeft ≠ 0 → i = c1.prevIdx ∨ i = c1.nextIdx)
    (hidle : c1.samplesLeft = 0 → |i - c1.nextIdx| ≤ 1) (k : ℤ) :
    |stateWeight c2 k - stateWeight c1 k| ≤ 1 / num := by
  have ec2 := newIndices_stepD hf hinv1 hd2 e2
  have hloop : (findLoop d2 c1.scale : ℤ) = i := by
    rw [hcon1.1]; exact findLoop_of_octave hL hi
  have ec2' : c2 = c1.nextState i := by rw [ec2]; unfold stepD; rw [hloop]
  have hnK : (0 : K) < num := by exact_mod_cast (by omega : 0 < num)
  have hn1 : (0 : K) ≤ 1 / num := by positivity
  by_cases h0 : c1.samplesLeft = 0
  · -- idle: nothing changes, or a fade starts with full weight on the current table
    have hid := hinv1.idle h0
    have habs := abs_le.1 (hidle h0)
    by_cases heq : i = c1.nextIdx
    · have : c2 = c1 := by
        rw [ec2']; unfold nextState; rw [if_neg (by simpa using h0), if_pos heq]
      rw [this]; simpa using hn1
    · have h2 : c2.frac = 1 := by
        rw [ec2']
        have hl2 : (c1.nextState i).samplesLeft = num ∧ (c1.nextState i).numSamples = num := by
          refine ⟨?_, (nextState_const c1 i).2.trans hcon1.2⟩
          unfold nextState updateIndices
          rw [if_neg (by simpa using h0), if_neg heq]
          dsimp only; split_ifs <;> exact hcon1.2
        unfold frac; rw [hl2.1, hl2.2, div_self hnK.ne']
      have hprev : c2.prevIdx = c1.nextIdx := by
        rw [ec2']
        unfold nextState updateIndices
        rw [if_neg (by simpa using h0), if_neg heq]
        dsimp only; split_ifs <;> dsimp only <;> omega
      unfold stateWeight
      rw [h2, hprev, frac_idle h0, hid]
      simpa using hn1
  · -- fading: same pair of tables, fraction moves by 1/num
    have hfs : c2.frac = c1.frac - 1 / num := by
      rw [ec2', frac_step hinv1 h0, hcon1.2]
    have hne := hinv1.fading h0
    have hnext : c2.nextIdx = c1.nextIdx := by
      have hr := hrun h0
      rw [ec2']
      unfold nextState continueFade updateIndices
      dsimp only; split_ifs <;> first | rfl | omega
    have hprev : c2.prevIdx = c1.prevIdx ∨ (c2.prevIdx = c1.nextIdx ∧ c2.frac = 0) := by
      by_cases hlast : c1.samplesLeft - 1 = 0
      · right
        have hz : c2.samplesLeft = 0 := by rw [ec2', left_step h0]; exact hlast
        refine ⟨?_, frac_idle hz⟩
        have : c2.Inv := by rw [ec2]; exact stepD_inv hinv1 d2
        rw [this.idle hz, hnext]
      · left
        have hr := hrun h0
        rw [ec2']
        unfold nextState continueFade updateIndices
        dsimp only; split_ifs <;> first | rfl | omega | contradiction
    have haux : ∀ a b : K, |a - 1 / num - a| ≤ 1 / num ∧ |(1 - (a - 1 / num)) - (1 - a)| ≤ 1 / (num : K) := by
      intro a _
      constructor
      · rw [show a - 1 / num - a = -(1 / (num : K)) by ring, abs_neg, abs_of_nonneg hn1]
      · rw [show (1 - (a - 1 / num)) - (1 - a) = 1 / (num : K) by ring, abs_of_nonneg hn1]
    have hx := haux c1.frac 0
    have hpn : c1.prevIdx ≠ c1.nextIdx := by omega
    unfold stateWeight
    rw [hnext]
    rcases hprev with hp | ⟨hp, hz⟩
    · rw [hp, hfs]
      by_cases hk1 : c1.prevIdx = k
      · have hk2 : c1.nextIdx ≠ k := fun h => hpn (hk1.trans h.symm)
        simp only [hk1, hk2, if_true, if_false, add_zero]; exact hx.1
      · by_cases hk2 : c1.nextIdx = k
        · simp only [hk1, hk2, if_true, if_false, zero_add]; exact hx.2
        · simp only [hk1, hk2, if_false]; simpa using hn1
    · rw [hz] at hfs
      have hf1 : c1.frac = 1 / num := by linarith
      rw [hp, hz, hf1]
      by_cases hk1 : c1.prevIdx = k
      · have hk2 : c1.nextIdx ≠ k := fun h => hpn (hk1.trans h.symm)
        simp only [hk1, hk2, if_true, if_false, add_zero]
        rw [zero_sub, abs_neg, abs_of_nonneg hn1]
      · by_cases hk2 : c1.nextIdx = k
        · simp only [hk1, hk2, if_true, if_false, zero_add]
          rw [show (1 - 0 - (1 - 1 / (num : K))) = 1 / num by ring, abs_of_nonneg hn1]
        · simp only [hk1, hk2, if_false]; simpa using hn1


/-- a float weight is within half a unit in the last place -/
theorem ieee32_unit {x : K} (h0 : x = 0 ∨ 1 / 2 ^ 126 ≤ x) (h1 : x ≤ 1) : |ieee32 x - x| ≤ 1 / 2 ^ 25 := by
  rcases h0 with rfl | h0
  · rw [rounding_ieee32.zero]; simp
  · rcases h1.lt_or_eq with h1 | rfl
    · have := Drivers.ieee32_err_below 0 h0 (by simpa using h1) (by norm_num)
      refine this.trans (le_of_eq ?_)
      norm_num [zpow_neg]
    · rw [rounding_ieee32.one]; simp

/-- the weights returned, against the ratio of the counters -/
theorem weight_near {E : Env K} (he : E.fl = ieee32) {c c' : CrossFader K} (h : c.Inv)
    (hnum : c.numSamples ≤ 2 ^ 24) {d : K} (hd : 0 < d) {t} (e : c.newIndices E d = .ok (c', t)) (k : ℤ) :
    |t.weightOf k - stateWeight c' k| ≤ 1 / 2 ^ 24 := by
  have hf : Rounding E.fl := by rw [he]; exact rounding_ieee32
  have e0 : (0 : K) ≤ 1 / 2 ^ 24 := by positivity
  obtain ⟨t', e', ht⟩ := newIndices_eq hf h hd
  rw [e] at e'; cases e'
  rcases ht with ⟨h1, h2, rfl⟩ | ⟨hne, f, ef, rfl⟩
  · have : c.nextState (findLoop d c.scale) = c := by
      unfold nextState; rw [if_neg (by simpa using h1), if_pos h2]
    rw [this]
    unfold MipMapIndices.weightOf stateWeight
    rw [frac_idle h1, h.idle h1]; simp
  · have hinv := nextState_inv h (findLoop_range h d).1 (findLoop_range h d).2
    have hcn := (nextState_const c (findLoop d c.scale)).2
    obtain ⟨f', ef', -, -, -, -, -, hfe⟩ := computeFading_eq hf hinv
    rw [ef] at ef'; cases ef'
    generalize c.nextState (findLoop d c.scale) = s at *
    have hN : (1 : K) ≤ s.numSamples := by exact_mod_cast hinv.num
    have hN2 : (s.numSamples : K) ≤ 2 ^ 24 := by rw [hcn]; exact_mod_cast hnum
    have hle : (s.samplesLeft : K) ≤ s.numSamples := by exact_mod_cast hinv.left1
    have hl0 : (0 : K) ≤ s.samplesLeft := by exact_mod_cast hinv.left0
    have exact1 : ∀ j : ℤ, 0 ≤ j → j ≤ 2 ^ 24 → ieee32 (j : K) = j := by
      intro j h0 h1
      have := rounding_ieee32.range (K := K) j 0 (by rw [abs_of_nonneg h0]; exact h1) (by norm_num) (by norm_num)
      simpa using this
    have hn24 : s.numSamples ≤ 2 ^ 24 := by rw [hcn]; exact hnum
    rw [he, exact1 _ hinv.left0 (hinv.left1.trans hn24), exact1 _ (by have := hinv.num; omega) hn24] at hfe
    have hfr : (s.samplesLeft : K) / s.numSamples = s.frac := rfl
    rw [hfr] at hfe
    have hN0 : (0 : K) < s.numSamples := by linarith
    have f1 : s.frac ≤ 1 := by rw [← hfr, div_le_one hN0]; exact hle
    have f0 : s.frac = 0 ∨ 1 / 2 ^ 24 ≤ s.frac := by
      rcases eq_or_lt_of_le hinv.left0 with h0 | h0
      · left; rw [← hfr, ← h0]; simp
      · right
        rw [← hfr]
        have : (1 : K) ≤ s.samplesLeft := by exact_mod_cast h0
        gcongr
    have f2 : s.frac = 1 ∨ s.frac ≤ 1 - 1 / 2 ^ 24 := by
      rcases eq_or_lt_of_le hinv.left1 with h0 | h0
      · left; rw [← hfr, h0, div_self hN0.ne']
      · right
        have : (s.samplesLeft : K) + 1 ≤ s.numSamples := by exact_mod_cast h0
        rw [← hfr, div_le_iff₀ hN0]
        have h3 : (1 / 2 ^ 24 : K) * s.numSamples ≤ 1 := by
          rw [div_mul_eq_mul_div, one_mul, div_le_one (by positivity)]; exact hN2
        linarith
    have w1 : |f - s.frac| ≤ 1 / 2 ^ 25 := by
      rw [hfe]
      refine ieee32_unit (f0.imp id fun h => le_trans ?_ h) f1
      apply one_div_le_one_div_of_le (by positivity)
      exact pow_le_pow_right₀ (by norm_num) (by norm_num)
    have w1' := abs_le.1 w1
    have w2 : |E.fl (1 - f) - (1 - s.frac)| ≤ 1 / 2 ^ 24 := by
      rw [he]
      have hf0 : 0 ≤ f := by
        rw [hfe]; exact rounding_ieee32.nonneg (by rcases f0 with h | h
                                                   · rw [h]
                                                   · exact le_trans (by positivity) h)
      have hz : 1 - f = 0 ∨ 1 / 2 ^ 126 ≤ 1 - f := by
        rcases f2 with h | h
        · left; rw [hfe, h, rounding_ieee32.one, sub_self]
        · right
          have h1 : f ≤ 1 - 1 / 2 ^ 24 := by
            rw [hfe]
            have hm := rounding_ieee32.mono h
            have e1 : ieee32 (1 - 1 / 2 ^ 24 : K) = 1 - 1 / 2 ^ 24 := by
              have := rounding_ieee32.range (K := K) (2 ^ 24 - 1) (-24) (by norm_num) (by norm_num) (by norm_num)
              have e2 : (((2 ^ 24 - 1 : ℤ) : K) * 2 ^ (-24 : ℤ)) = 1 - 1 / 2 ^ 24 := by
                norm_num [zpow_neg]
              rwa [e2] at this
            rwa [e1] at hm
          have h2 : (1 / 2 ^ 126 : K) ≤ 1 / 2 ^ 24 := by
            apply one_div_le_one_div_of_le (by positivity)
            exact pow_le_pow_right₀ (by norm_num) (by norm_num)
          linarith
      have w3 := ieee32_unit hz (by linarith)
      have e3 : ieee32 (1 - f) - (1 - s.frac) = (ieee32 (1 - f) - (1 - f)) - (f - s.frac) := by ring
      rw [e3]
      refine (abs_sub _ _).trans ?_
      have : (1 / 2 ^ 24 : K) = 1 / 2 ^ 25 + 1 / 2 ^ 25 := by norm_num
      linarith
    have w1'' : |f - s.frac| ≤ 1 / 2 ^ 24 := w1.trans (by
      apply one_div_le_one_div_of_le (by positivity)
      exact pow_le_pow_right₀ (by norm_num) (by norm_num))
    unfold MipMapIndices.weightOf stateWeight
    by_cases hpn : s.prevIdx = s.nextIdx
    · have hz : s.samplesLeft = 0 := by
        by_contra h0; have := hinv.fading h0; omega
      have hfz : s.frac = 0 := frac_idle hz
      have hf0 : f = 0 := by rw [hfe, hfz, rounding_ieee32.zero]
      rw [if_neg (show ¬ s.nextIdx > s.prevIdx by omega), hpn, hfz, hf0, he, sub_zero, rounding_ieee32.one]
      dsimp only
      split_ifs <;> simp
    · split
      · dsimp only
        by_cases hk1 : s.prevIdx = k
        · have hk2 : s.nextIdx ≠ k := fun h => hpn (hk1.trans h.symm)
          simp only [hk1, hk2, if_true, if_false, add_zero]; exact w1''
        · by_cases hk2 : s.nextIdx = k
          · simp only [hk1, hk2, if_true, if_false, zero_add]; exact w2
          · simp only [hk1, hk2, if_false]; simp
      · dsimp only
        by_cases hk1 : s.prevIdx = k
        · have hk2 : s.nextIdx ≠ k := fun h => hpn (hk1.trans h.symm)
          simp only [hk1, hk2, if_true, if_false, add_zero, zero_add]; exact w1''
        · by_cases hk2 : s.nextIdx = k
          · simp only [hk1, hk2, if_true, if_false, zero_add, add_zero]; exact w2
          · simp only [hk1, hk2, if_false]; simp

/-- C18 in IEEE single precision: for two consecutive calls, the weight of every single table, as computed
in floats, changes by at most `1/num` plus two roundings. -/
theorem C18_float (E : Env K) (he : E.fl = ieee32) (hl : Log2Spec E.log2f) (L : ℕ)
    (num : ℤ) (hn : 1 ≤ num) (hn24 : num ≤ 2 ^ 24) (c c1 c2 : CrossFader K) (hc : Reachable E L num c)
    (d1 d2 : K) (hd1 : 0 < d1) (hd2 : 0 < d2) (t1 t2)
    (e1 : c.newIndices E d1 = .ok (c1, t1)) (e2 : c1.newIndices E d2 = .ok (c2, t2))
    (i : ℤ) (hi : IsOctave L i d2)
    (hrun : c1.samplesLeft ≠ 0 → i = c1.prevIdx ∨ i = c1.nextIdx)
    (hidle : c1.samplesLeft = 0 → |i - c1.nextIdx| ≤ 1) (k : ℤ) :
    |t2.weightOf k - t1.weightOf k| ≤ 1 / num + 1 / 2 ^ 23 := by
  have hf : Rounding E.fl := by rw [he]; exact rounding_ieee32
  obtain ⟨hinv, hs, hnum⟩ := hc.inv hf hl hn
  have ec1 := newIndices_stepD hf hinv hd1 e1
  have hinv1 : c1.Inv := by rw [ec1]; exact stepD_inv hinv d1
  have hcon1 : c1.scale = octaveScale K L ∧ c1.numSamples = num := by
    rw [ec1]; exact ⟨(stepD_const c d1).1.trans hs, (stepD_const c d1).2.trans hnum⟩
  have a := stateWeight_step hf hc.1 hn hinv1 hcon1 hd2 e2 hi hrun hidle k
  have b1 := weight_near he hinv (by rw [hnum]; exact hn24) hd1 e1 k
  have b2 := weight_near he hinv1 (by rw [hcon1.2]; exact hn24) hd2 e2 k
  have e : t2.weightOf k - t1.weightOf k = (stateWeight c2 k - stateWeight c1 k) +
      ((t2.weightOf k - stateWeight c2 k) - (t1.weightOf k - stateWeight c1 k)) := by ring
  rw [e]
  have h1 := abs_add_le (stateWeight c2 k - stateWeight c1 k)
    ((t2.weightOf k - stateWeight c2 k) - (t1.weightOf k - stateWeight c1 k))
  have h2 := abs_sub (t2.weightOf k - stateWeight c2 k) (t1.weightOf k - stateWeight c1 k)
  have h3 : (1 / 2 ^ 23 : K) = 1 / 2 ^ 24 + 1 / 2 ^ 24 := by norm_num
  linarith

end Adwt.Props
