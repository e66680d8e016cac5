import Verif.Proofs.FloatI0

/-!
# The tables in float arithmetic
-/

set_option linter.unusedSectionVars false

namespace Adwt
open Seg WavetableData

/-- `Y` as a table of lines, up to rounding; `M` bounds samples and slopes -/
structure FLines (ε M : ℝ) (N : ℕ) (Y : ℤ → ℝ) (lm lq lmd lqd lph : List ℝ) : Prop where
  line : ∀ i : ℤ, 0 ≤ i → i < N → Sys.LineOk ε M (Seg.M N Y i) (Y i - i * (Y (i + 1) - Y i))
    (lm.getD i.toNat 0) (lq.getD i.toNat 0)
  corner : ∀ i : ℤ, 0 ≤ i → i < N → Sys.CornerOk ε M (Seg.M N Y (i + 1) - Seg.M N Y i)
    (lmd.getD i.toNat 0) (lqd.getD i.toNat 0) (lph.getD (i + 1).toNat 0)
  ph : ∀ i : ℤ, 0 ≤ i → i < N → lph.getD (i + 1).toNat 0 = (i + 1) / N
  Y : ∀ i, |Y i| ≤ M

/-- the value of a line inside its segment -/
theorem Seg.line_bound {N : ℝ} {Y : ℤ → ℝ} {A : ℝ} (hN : 0 < N) (hY : ∀ i, |Y i| ≤ A) {i : ℤ}
    {u : ℝ} (h : In N i u) : |line N Y i u| ≤ A := by
  obtain ⟨a, b⟩ := h
  rw [div_le_iff₀ hN] at a
  rw [le_div_iff₀ hN] at b
  have e : line N Y i u = (1 - (u * N - i)) * Y i + (u * N - i) * Y (i + 1) := by
    unfold line Seg.M; ring
  rw [e]
  refine (abs_add_le _ _).trans ?_
  rw [abs_mul, abs_mul, abs_of_nonneg (by linarith : 0 ≤ 1 - (u * N - i)),
    abs_of_nonneg (by linarith : 0 ≤ u * N - i)]
  have := mul_le_mul_of_nonneg_left (hY i) (by linarith : 0 ≤ 1 - (u * N - i))
  have := mul_le_mul_of_nonneg_left (hY (i + 1)) (by linarith : 0 ≤ u * N - i)
  linarith

theorem tab_flines {E : Env ℝ} (hf : Rounding E.fl) {ε A Λ : ℝ} (h0 : 0 ≤ ε) (h1 : ε ≤ 1 / 1000)
    (hfl : RelTo E.fl ε (1 / 2 ^ 80) (2 ^ 110)) (hdbl : ∀ x, |E.dbl x - x| ≤ ε * |x|) {L i : ℕ} (hL : L ≤ 24)
    {w : List ℝ} (hlen : (mipSamples E w i).length = 2 ^ (L - i))
    (hA : ∀ k, |cyc (mipSamples E w i) k| ≤ A)
    (hΛ : ∀ k, |cyc (mipSamples E w i) (k + 1) - cyc (mipSamples E w i) k| * 2 ^ (L - i) ≤ Λ)
    (M0 : 1 / 2 ^ 40 ≤ A + Λ) (M1 : A + Λ ≤ 2 ^ 24) :
    FLines ε (A + Λ) (2 ^ (L - i)) (cyc (mipSamples E w i)) (tabOf E L w i).m (tabOf E L w i).q
      (tabOf E L w i).mDiff (tabOf E L w i).qDiff (grid ℝ (L - i)) := by
  set n := L - i with hn
  set y := mipSamples E w i with hy
  have hp : (0 : ℝ) < 2 ^ n := by positivity
  have hA0 : 0 ≤ A := (abs_nonneg _).trans (hA 0)
  have hΛ0 : 0 ≤ Λ := (mul_nonneg (abs_nonneg _) hp.le).trans (hΛ 0)
  set M := A + Λ with hM
  have hM0 : 0 ≤ M := by positivity
  have bM : ∀ k, |Seg.M ((2 ^ n : ℕ) : ℝ) (cyc y) k| ≤ Λ := by
    intro k
    unfold Seg.M
    push_cast
    rw [abs_mul, abs_of_pos hp]
    exact hΛ k
  have e1 : ∀ k : ℕ, k < 2 ^ n → y.getD ((k + 1) % 2 ^ n) 0 = cyc y (k + 1) := by
    intro k hk
    have := cyc_mod y (k + 1)
    push_cast at this
    rw [this, hlen]
  have hm : ∀ k : ℕ, k < 2 ^ n → |mF E (fun k => (k : ℝ) / 2 ^ n) (y.getD · 0) (2 ^ n) k -
      Seg.M ((2 ^ n : ℕ) : ℝ) (cyc y) k| ≤ 4 * ε * M := by
    intro k hk
    have := mF_err hf h0 (by linarith) h0 (by linarith) hfl hdbl (n := n) (k := k) (hn := by omega)
      (y := (y.getD · 0)) (T := M) (by
        rw [e1 k hk, ← cyc_nat y (by rw [hlen]; exact hk), abs_mul, abs_of_pos hp]
        exact (hΛ k).trans (by linarith)) (le_trans (by norm_num) M0)
      (by norm_num at M1 ⊢; linarith)
    rw [e1 k hk, ← cyc_nat y (by rw [hlen]; exact hk)] at this
    unfold Seg.M
    push_cast
    refine this.trans ?_
    linarith
  have bk : ∀ k : ℕ, k < 2 ^ n → |cyc y k| + k * |cyc y (k + 1) - cyc y k| ≤ M := by
    intro k hk
    have hk' : (k : ℝ) ≤ 2 ^ n := by exact_mod_cast hk.le
    have h2 : (k : ℝ) * |cyc y (k + 1) - cyc y k| ≤ 2 ^ n * |cyc y (k + 1) - cyc y k| := by gcongr
    have := hΛ k
    have := hA k
    linarith
  have hq : ∀ k : ℕ, k < 2 ^ n → |qF E (fun k => (k : ℝ) / 2 ^ n) (y.getD · 0) (2 ^ n) k -
      (cyc y k - k * (cyc y (k + 1) - cyc y k))| ≤ 6 * ε * M := by
    intro k hk
    have := qF_err hf h0 (by linarith) h0 (by linarith) hfl hdbl (n := n) (k := k) (hn := by omega)
      (y := (y.getD · 0)) (T := M) (by
        rw [e1 k hk, ← cyc_nat y (by rw [hlen]; exact hk)]; exact bk k hk) (le_trans (by norm_num) M0)
      (by norm_num at M1 ⊢; linarith)
    rw [e1 k hk, ← cyc_nat y (by rw [hlen]; exact hk)] at this
    refine this.trans ?_
    linarith
  have bq : ∀ k : ℕ, k < 2 ^ n → |cyc y k - k * (cyc y (k + 1) - cyc y k)| ≤ M := by
    intro k hk
    refine le_trans ?_ (bk k hk)
    have := abs_sub (cyc y k) (k * (cyc y (k + 1) - cyc y k))
    rw [abs_mul, abs_of_nonneg (by positivity : (0 : ℝ) ≤ k)] at this
    exact this
  have hMp : ∀ k : ℕ, Seg.M ((2 ^ n : ℕ) : ℝ) (cyc y) ((k % 2 ^ n : ℕ) : ℤ) =
      Seg.M ((2 ^ n : ℕ) : ℝ) (cyc y) k := by
    intro k
    unfold Seg.M cyc
    rw [hlen]
    push_cast
    rw [Int.emod_emod_of_dvd _ dvd_rfl, ← Int.emod_add_cancel_right 1 |>.mpr (Int.emod_emod_of_dvd (k : ℤ) (dvd_refl ((2 : ℤ) ^ n)))]
  have hΛM : Λ ≤ M := by linarith
  have u1 : ε * (ε * M) ≤ 1 / 1000 * (ε * M) := by gcongr
  have u2 : ε * Λ ≤ ε * M := by gcongr
  have u3 : 0 ≤ ε * M := by positivity
  have u4 : ε * (ε * (ε * M)) ≤ 1 / 1000 * (1 / 1000 * (ε * M)) := by gcongr
  have u5 : ε * M ≤ 1 / 1000 * M := by gcongr
  norm_num at M0 M1
  have hmd : ∀ k : ℕ, k < 2 ^ n → |mdF E (fun k => (k : ℝ) / 2 ^ n) (y.getD · 0) (2 ^ n) k -
      (Seg.M ((2 ^ n : ℕ) : ℝ) (cyc y) (k + 1) - Seg.M ((2 ^ n : ℕ) : ℝ) (cyc y) k)| ≤ 11 * ε * M := by
    intro k hk
    unfold mdF
    have a := hm _ (Nat.mod_lt (k + 1) (by positivity : 0 < 2 ^ n))
    rw [hMp] at a
    have b := hm k hk
    push_cast at a b ⊢
    have c : |mF E (fun k => (k : ℝ) / 2 ^ n) (y.getD · 0) (2 ^ n) ((k + 1) % 2 ^ n) -
      mF E (fun k => (k : ℝ) / 2 ^ n) (y.getD · 0) (2 ^ n) k -
      (Seg.M (2 ^ n : ℝ) (cyc y) (k + 1) - Seg.M (2 ^ n : ℝ) (cyc y) k)| ≤ 8 * ε * M := by
      have := abs_sub (mF E (fun k => (k : ℝ) / 2 ^ n) (y.getD · 0) (2 ^ n) ((k + 1) % 2 ^ n) -
        Seg.M (2 ^ n : ℝ) (cyc y) (k + 1)) (mF E (fun k => (k : ℝ) / 2 ^ n) (y.getD · 0) (2 ^ n) k -
        Seg.M (2 ^ n : ℝ) (cyc y) k)
      rw [sub_sub_sub_comm] at this
      linarith
    have d : |Seg.M (2 ^ n : ℝ) (cyc y) (k + 1) - Seg.M (2 ^ n : ℝ) (cyc y) k| ≤ 2 * M := by
      have := abs_sub (Seg.M (2 ^ n : ℝ) (cyc y) (k + 1)) (Seg.M (2 ^ n : ℝ) (cyc y) k)
      have g1 := bM (k + 1)
      have g2 := bM k
      push_cast at g1 g2
      linarith
    refine (relTo_step hfl c d (by norm_num; linarith) (by norm_num; linarith)).trans ?_
    linarith
  refine ⟨?_, ?_, ?_, fun k => (hA k).trans (by linarith)⟩
  · intro j h0' h1'
    obtain ⟨k, rfl⟩ := Int.eq_ofNat_of_zero_le h0'
    have hk : k < 2 ^ n := by exact_mod_cast h1'
    unfold tabOf mqOf
    rw [Int.toNat_natCast, getD_map_range hk, getD_map_range hk]
    refine ⟨(bM k).trans hΛM, ?_, hm k hk, ?_⟩
    · have := bq k hk; push_cast at this ⊢; exact this
    · have := hq k hk; push_cast at this ⊢; exact this
  · intro j h0' h1'
    obtain ⟨k, rfl⟩ := Int.eq_ofNat_of_zero_le h0'
    have hk : k < 2 ^ n := by exact_mod_cast h1'
    have : ((k : ℤ) + 1).toNat = k + 1 := by omega
    rw [this]
    have eg : (grid ℝ n).getD (k + 1) 0 = ((k + 1 : ℕ) : ℝ) / 2 ^ n := by
      unfold grid
      rw [getD_map_range (by omega)]
    unfold tabOf mqOf
    dsimp only
    rw [← hn, ← hy, eg, Int.toNat_natCast, getD_map_range hk, getD_map_range hk]
    have hk1 : ((k + 1 : ℕ) : ℝ) ≤ 2 ^ n := by exact_mod_cast hk
    refine ⟨?_, hmd k hk, ?_, by positivity, by rw [div_le_one hp]; exact hk1⟩
    · have := abs_sub (Seg.M ((2 ^ n : ℕ) : ℝ) (cyc y) (k + 1)) (Seg.M ((2 ^ n : ℕ) : ℝ) (cyc y) k)
      have := bM (k + 1)
      have := bM k
      linarith
    · -- the offsets
      have hpn : 0 < 2 ^ n := by positivity
      have a := hq _ (Nat.mod_lt (k + 1) hpn)
      have b := hq k hk
      have ba := bq _ (Nat.mod_lt (k + 1) hpn)
      have bb := bq k hk
      set Qa := cyc y ((k + 1) % 2 ^ n : ℕ) - ((k + 1) % 2 ^ n : ℕ) *
        (cyc y (((k + 1) % 2 ^ n : ℕ) + 1) - cyc y ((k + 1) % 2 ^ n : ℕ)) with hQa
      set Qb := cyc y k - k * (cyc y (k + 1) - cyc y k) with hQb
      have c : |qF E (fun k => (k : ℝ) / 2 ^ n) (y.getD · 0) (2 ^ n) ((k + 1) % 2 ^ n) -
          qF E (fun k => (k : ℝ) / 2 ^ n) (y.getD · 0) (2 ^ n) k - (Qa - Qb)| ≤ 12 * ε * M := by
        have := abs_sub (qF E (fun k => (k : ℝ) / 2 ^ n) (y.getD · 0) (2 ^ n) ((k + 1) % 2 ^ n) - Qa)
          (qF E (fun k => (k : ℝ) / 2 ^ n) (y.getD · 0) (2 ^ n) k - Qb)
        rw [sub_sub_sub_comm] at this
        linarith
      have d : |Qa - Qb| ≤ 2 * M := by
        have := abs_sub Qa Qb; linarith
      have r1 := relTo_step hfl c d (by norm_num; linarith) (by norm_num; linarith)
      unfold qdF
      by_cases hl : k = 2 ^ n - 1
      · rw [if_pos hl]
        have hk1 : k + 1 = 2 ^ n := by omega
        have hkr : (k : ℝ) + 1 = 2 ^ n := by exact_mod_cast hk1
        have g0 := hm 0 hpn
        have c2 : |E.fl (qF E (fun k => (k : ℝ) / 2 ^ n) (y.getD · 0) (2 ^ n) ((k + 1) % 2 ^ n) -
            qF E (fun k => (k : ℝ) / 2 ^ n) (y.getD · 0) (2 ^ n) k) -
            mF E (fun k => (k : ℝ) / 2 ^ n) (y.getD · 0) (2 ^ n) 0 -
            (Qa - Qb - Seg.M ((2 ^ n : ℕ) : ℝ) (cyc y) (0 : ℕ))| ≤
            12 * ε * M + ε * (2 * M + 12 * ε * M) + 4 * ε * M := by
          have := abs_sub (E.fl (qF E (fun k => (k : ℝ) / 2 ^ n) (y.getD · 0) (2 ^ n) ((k + 1) % 2 ^ n) -
            qF E (fun k => (k : ℝ) / 2 ^ n) (y.getD · 0) (2 ^ n) k) - (Qa - Qb))
            (mF E (fun k => (k : ℝ) / 2 ^ n) (y.getD · 0) (2 ^ n) 0 -
              Seg.M ((2 ^ n : ℕ) : ℝ) (cyc y) (0 : ℕ))
          rw [sub_sub_sub_comm] at this
          linarith
        have d2 : |Qa - Qb - Seg.M ((2 ^ n : ℕ) : ℝ) (cyc y) (0 : ℕ)| ≤ 3 * M := by
          have := abs_sub (Qa - Qb) (Seg.M ((2 ^ n : ℕ) : ℝ) (cyc y) (0 : ℕ))
          have := bM (0 : ℕ)
          linarith
        have r2 := relTo_step hfl c2 d2 (by norm_num; linarith) (by norm_num; linarith)
        have e : Qa - Qb - Seg.M ((2 ^ n : ℕ) : ℝ) (cyc y) (0 : ℕ) =
            -((Seg.M ((2 ^ n : ℕ) : ℝ) (cyc y) ((k : ℤ) + 1) - Seg.M ((2 ^ n : ℕ) : ℝ) (cyc y) k) *
              (((k + 1 : ℕ) : ℝ) / 2 ^ n)) := by
          have f1 : cyc y ((k : ℤ) + 1) = cyc y 0 := by
            have := cyc_mod y (k + 1)
            push_cast at this
            rw [this, hlen, hk1, Nat.mod_self]
            have := cyc_mod y 0
            simp at this; simp [this]
          have f2 : cyc y ((k : ℤ) + 1 + 1) = cyc y (0 + 1) := by
            have := cyc_period y 1
            rw [hlen, ← hk1] at this
            rw [zero_add, ← this]
            congr 1; push_cast; ring
          rw [hQa, hQb, hk1, Nat.mod_self]
          unfold Seg.M
          rw [f1, f2]
          push_cast
          have : (k : ℝ) = 2 ^ n - 1 := by linarith
          rw [this]
          field_simp
          ring
        rw [e, sub_neg_eq_add] at r2
        refine r2.trans ?_
        linarith
      · rw [if_neg hl]
        have e : Qa - Qb =
            -((Seg.M ((2 ^ n : ℕ) : ℝ) (cyc y) ((k : ℤ) + 1) - Seg.M ((2 ^ n : ℕ) : ℝ) (cyc y) k) *
              (((k + 1 : ℕ) : ℝ) / 2 ^ n)) := by
          rw [hQa, hQb, Nat.mod_eq_of_lt (by omega)]
          unfold Seg.M
          push_cast
          field_simp
          ring
        rw [e, sub_neg_eq_add] at r1
        refine r1.trans ?_
        linarith
  · intro j h0' h1'
    obtain ⟨k, rfl⟩ := Int.eq_ofNat_of_zero_le h0'
    have hk : k < 2 ^ n := by exact_mod_cast h1'
    have : ((k : ℤ) + 1).toNat = k + 1 := by omega
    rw [this]
    unfold grid
    rw [getD_map_range (by omega)]
    push_cast; rfl

end Adwt
