import Verif.Proofs.Interp

/-!
# Position tracking
-/

set_option linter.unusedSectionVars false

namespace Adwt
open Seg

namespace Sys
variable {C : Type} [Zero C] [Add C] [Sub C] [Mul C] [Div C]
variable {S : Sys ℝ C} {nw L : ℕ} {o : Osc ℝ C}

theorem floor_pow_div {x : ℝ} {a k : ℕ} : ⌊x * 2 ^ (a + k)⌋ / 2 ^ k = ⌊x * 2 ^ a⌋ := by
  have h := Int.floor_div_natCast (x * 2 ^ (a + k)) (2 ^ k)
  have e : x * 2 ^ (a + k) / ((2 ^ k : ℕ) : ℝ) = x * 2 ^ a := by
    rw [pow_add]; push_cast; field_simp
  rw [e] at h
  rw [h]; push_cast; rfl

/-- where the tracked index is, after a forward step -/
theorem adj_fwd (ho : OscOk S nw L o) (hd : 0 < o.prevPhaseDiff) {mip : ℤ} (h0 : 0 ≤ mip)
    (h1 : mip < (L : ℤ) - 1) (hm : TableMove o mip) :
    let j := adj (L - mip.toNat) mip o.prevMip o.jRed o.prevPhaseDiff o.prevPhaseRed
    (j : ℝ) ≤ o.prevPhase * 2 ^ (L - mip.toNat) ∧ o.prevPhase * 2 ^ (L - mip.toNat) ≤ j + 1 ∧
      0 ≤ j ∧ j < 2 ^ (L - mip.toNat) := by
  intro j
  obtain ⟨-, a0, -, a1⟩ := adjustJ_spec (K := ℝ) (pd := o.prevPhaseDiff) (pr := o.prevPhaseRed)
    h0 h1 ho.mip0 ho.mip1 ho.j0 ho.j1 ho.jf (fun h => absurd hd (not_lt.2 h))
  have p0 := ho.mip0
  have p1 := ho.mip1
  have hj := ho.posF hd
  suffices h : (j : ℝ) ≤ o.prevPhase * 2 ^ (L - mip.toNat) ∧
      o.prevPhase * 2 ^ (L - mip.toNat) ≤ j + 1 from ⟨h.1, h.2, a0, a1 hd⟩
  rcases hm with hm | ⟨-, hm⟩ | hm
  · have : j = o.jRed := by
      simp only [j, adj]; rw [if_neg (by omega), if_neg (by omega)]
    rw [this, hj, hm]
    exact ⟨Int.floor_le _, (Int.lt_floor_add_one _).le⟩
  · have : j = ⌊o.prevPhase * 2 ^ (L - mip.toNat)⌋ := by
      simp only [j, adj]
      rw [if_pos hm, hj]
      have e : L - o.prevMip.toNat = (L - mip.toNat) + (mip - o.prevMip).toNat := by omega
      rw [e, floor_pow_div]
    rw [this]
    exact ⟨Int.floor_le _, (Int.lt_floor_add_one _).le⟩
  · have e1 : (o.prevMip - mip).toNat = 1 := by omega
    have e2 : (2 : ℝ) ^ (L - mip.toNat) = 2 ^ (L - o.prevMip.toNat) * 2 := by
      rw [← pow_succ]; congr 1; omega
    have b1 := Int.floor_le (o.prevPhase * 2 ^ (L - o.prevMip.toNat))
    have b2 := Int.lt_floor_add_one (o.prevPhase * 2 ^ (L - o.prevMip.toNat))
    rw [← hj] at b1 b2
    have hp : (0 : ℝ) < 2 ^ (L - mip.toNat) := by positivity
    simp only [j, adj]
    rw [if_neg (by omega), if_pos (by omega), if_pos hd, e1, ho.red]
    split_ifs with hc
    · rw [div_lt_iff₀ hp] at hc
      rw [e2] at hc ⊢
      push_cast at hc ⊢
      constructor <;> linarith
    · rw [not_lt, le_div_iff₀ hp] at hc
      rw [e2] at hc ⊢
      push_cast at hc ⊢
      constructor <;> linarith

/-- where the tracked index is, after a backward step -/
theorem adj_bwd (ho : OscOk S nw L o) (hd : o.prevPhaseDiff < 0) {mip : ℤ} (h0 : 0 ≤ mip)
    (h1 : mip < (L : ℤ) - 1) (hm : TableMove o mip)
    (hz : mip < o.prevMip → o.prevPhase ≠ 0) :
    let j := adj (L - mip.toNat) mip o.prevMip o.jRed o.prevPhaseDiff o.prevPhaseRed
    (j : ℝ) - 1 ≤ o.prevPhase * 2 ^ (L - mip.toNat) ∧ o.prevPhase * 2 ^ (L - mip.toNat) ≤ j ∧
      0 ≤ j ∧ j ≤ 2 ^ (L - mip.toNat) ∧ (o.prevPhase = 0 → j = 0) := by
  intro j
  obtain ⟨-, a0, a1, -⟩ := adjustJ_spec (K := ℝ) (pd := o.prevPhaseDiff) (pr := o.prevPhaseRed)
    h0 h1 ho.mip0 ho.mip1 ho.j0 ho.j1 ho.jf (fun _ h => ho.jb hd (hz h))
  have p0 := ho.mip0
  have p1 := ho.mip1
  have hj := ho.posB hd
  suffices h : (j : ℝ) - 1 ≤ o.prevPhase * 2 ^ (L - mip.toNat) ∧
      o.prevPhase * 2 ^ (L - mip.toNat) ≤ j ∧ (o.prevPhase = 0 → j = 0) from
    ⟨h.1, h.2.1, a0, a1, h.2.2⟩
  rcases hm with hm | ⟨hm, -⟩ | hm
  · have : j = o.jRed := by
      simp only [j, adj]; rw [if_neg (by omega), if_neg (by omega)]
    rw [this, hj, hm]
    refine ⟨?_, Int.le_ceil _, fun h => by rw [h]; simp⟩
    have := Int.ceil_lt_add_one (o.prevPhase * 2 ^ (L - o.prevMip.toNat))
    linarith
  · exact absurd hm (not_lt.2 hd.le)
  · have e1 : (o.prevMip - mip).toNat = 1 := by omega
    have e2 : (2 : ℝ) ^ (L - mip.toNat) = 2 ^ (L - o.prevMip.toNat) * 2 := by
      rw [← pow_succ]; congr 1; omega
    have b1 := Int.le_ceil (o.prevPhase * 2 ^ (L - o.prevMip.toNat))
    have b2 := Int.ceil_lt_add_one (o.prevPhase * 2 ^ (L - o.prevMip.toNat))
    rw [← hj] at b1 b2
    have hp : (0 : ℝ) < 2 ^ (L - mip.toNat) := by positivity
    refine ⟨?_, ?_, fun h => absurd h (hz (by omega))⟩
    all_goals
      simp only [j, adj]
      rw [if_neg (by omega), if_pos (by omega), if_neg (not_lt.2 hd.le), e1, ho.red]
      split_ifs with hc
      · rw [gt_iff_lt, lt_div_iff₀ hp] at hc
        rw [e2] at hc ⊢
        push_cast at hc ⊢
        linarith
      · rw [gt_iff_lt, not_lt, div_le_iff₀ hp] at hc
        rw [e2] at hc ⊢
        push_cast at hc ⊢
        linarith

theorem in_of {n : ℕ} {j : ℤ} {x : ℝ} (h0 : (j : ℝ) ≤ x * 2 ^ n) (h1 : x * 2 ^ n ≤ j + 1) :
    In ((2 ^ n : ℕ) : ℝ) j x := by
  have hp : (0 : ℝ) < 2 ^ n := by positivity
  constructor
  · push_cast; rwa [div_le_iff₀ hp]
  · push_cast; rwa [le_div_iff₀ hp]

theorem sign_spec {fl : ℝ → ℝ} (hf : Rounding fl) {n : ℕ} {x : ℝ} (hx : OffDenormal (2 ^ n) x)
    (j : ℤ) :
    (x * 2 ^ n = j ∧ Maths.sign (fl (x - j / 2 ^ n)) = 0) ∨
    (x * 2 ^ n < j ∧ Maths.sign (fl (x - j / 2 ^ n)) = -1) ∨
    ((j : ℝ) < x * 2 ^ n ∧ Maths.sign (fl (x - j / 2 ^ n)) = 1) := by
  have hp : (0 : ℝ) < 2 ^ n := by positivity
  have hj := hx j
  push_cast at hj
  have hmin : fl (1 / 2 ^ 126) = 1 / 2 ^ 126 := hf.inv_pow 126
  have hpos : (0 : ℝ) < 1 / 2 ^ 126 := by positivity
  rcases hj with h | h
  · left
    refine ⟨by rw [h]; field_simp, ?_⟩
    rw [← h, sub_self, hf.zero]
    unfold Maths.sign Maths.kMin
    rw [if_pos (by rw [abs_zero]; positivity)]
  · right
    unfold Maths.sign Maths.kMin
    rcases le_abs.1 h with h | h
    · right
      have h' := hf.mono h
      rw [hmin] at h'
      refine ⟨?_, ?_⟩
      · have : 0 < x - j / 2 ^ n := by linarith
        rw [sub_pos, div_lt_iff₀ hp] at this; exact this
      · rw [if_neg (not_lt.2 (h'.trans (le_abs_self _))), if_neg (not_lt.2 (hpos.le.trans h'))]
    · left
      have h' := hf.mono (show x - j / 2 ^ n ≤ -(1 / 2 ^ 126) by linarith)
      rw [hf.symm _ hmin] at h'
      refine ⟨?_, ?_⟩
      · have : x - j / 2 ^ n < 0 := by linarith
        rw [sub_neg, lt_div_iff₀ hp] at this; exact this
      · rw [if_neg (not_lt.2 _), if_pos (by linarith)]
        rw [le_abs]; right; linarith

/-- the segment a forward sample starts in -/
theorem prevJF_in (hf : Rounding S.env.fl) (ho : OscOk S nw L o) {mip : ℤ} (h0 : 0 ≤ mip)
    (h1 : mip < (L : ℤ) - 1) (hm : TableMove o mip)
    (hz : o.prevPhaseDiff < 0 → mip < o.prevMip → o.prevPhase ≠ 0)
    (hx : OffDenormal (2 ^ (L - mip.toNat)) o.prevPhase) :
    In ((2 ^ (L - mip.toNat) : ℕ) : ℝ) ((S.prevJF o (L - mip.toNat) mip - 1) % 2 ^ (L - mip.toNat))
      (bar o.prevPhase) := by
  set n := L - mip.toNat with hn
  have hp : (0 : ℝ) < 2 ^ n := by positivity
  have hpz : (0 : ℤ) < 2 ^ n := by positivity
  have x0 := ho.p0
  have x1 := ho.p1
  have hxn0 : 0 ≤ o.prevPhase * 2 ^ n := by positivity
  have hxn1 : o.prevPhase * 2 ^ n < 2 ^ n := by nlinarith
  -- it is enough to give a representative
  have fin : ∀ j : ℤ, (j : ℝ) - 1 ≤ o.prevPhase * 2 ^ n → o.prevPhase * 2 ^ n ≤ j → 0 ≤ j →
      j ≤ 2 ^ n → (o.prevPhase = 0 → j = 0) →
      In ((2 ^ n : ℕ) : ℝ) ((j - 1) % 2 ^ n) (bar o.prevPhase) := by
    intro j g1 g2 g3 g4 g5
    unfold bar
    by_cases hx0 : o.prevPhase = 0
    · rw [if_pos hx0, g5 hx0, hx0]
      have : (0 - 1 : ℤ) % 2 ^ n = 2 ^ n - 1 := by
        rw [← Int.add_emod_right, Int.emod_eq_of_lt (by omega) (by omega)]; ring
      rw [this]
      apply in_of <;> push_cast <;> linarith
    · rw [if_neg hx0, add_zero]
      have hj : 1 ≤ j := by
        by_contra hc
        have : j = 0 := by omega
        rw [this] at g2
        have hpos : 0 < o.prevPhase := lt_of_le_of_ne x0 (Ne.symm hx0)
        have : 0 < o.prevPhase * 2 ^ n := by positivity
        push_cast at g2; linarith
      rw [Int.emod_eq_of_lt (by omega) (by omega)]
      apply in_of <;> push_cast <;> linarith
  rcases lt_or_gt_of_ne ho.diff with hd | hd
  · obtain ⟨g1, g2, g3, g4, g5⟩ := adj_bwd ho hd h0 h1 hm (hz hd)
    rw [← hn] at g1 g2 g3 g4 g5
    have e : S.prevJF o n mip = adj n mip o.prevMip o.jRed o.prevPhaseDiff o.prevPhaseRed := by
      unfold prevJF; dsimp only; rw [if_neg (not_le.2 hd)]
    rw [e]
    exact fin _ g1 g2 g3 g4 g5
  · obtain ⟨g1, g2, g3, g4⟩ := adj_fwd ho hd h0 h1 hm
    rw [← hn] at g1 g2 g3 g4
    have e : S.prevJF o n mip = adj n mip o.prevMip o.jRed o.prevPhaseDiff o.prevPhaseRed +
        Maths.sign (S.env.fl (o.prevPhase - (adj n mip o.prevMip o.jRed o.prevPhaseDiff o.prevPhaseRed : ℤ) / 2 ^ n)) := by
      unfold prevJF; dsimp only; rw [if_pos hd.le, ho.red]
    rw [e]
    generalize adj n mip o.prevMip o.jRed o.prevPhaseDiff o.prevPhaseRed = j at g1 g2 g3 g4
    rcases sign_spec hf hx j with ⟨s1, s2⟩ | ⟨s1, s2⟩ | ⟨s1, s2⟩
    · rw [s2, add_zero]
      refine fin j (by linarith) s1.le g3 g4.le fun h => ?_
      rw [h, zero_mul] at s1; exact_mod_cast s1.symm
    · linarith
    · rw [s2]
      refine fin (j + 1) (by push_cast; linarith) (by push_cast; linarith) (by omega) (by omega)
        fun h => ?_
      rw [h, zero_mul] at s1
      have : (0 : ℝ) ≤ j := by exact_mod_cast g3
      linarith

/-- the segment a backward sample starts in -/
theorem prevJB_in (hf : Rounding S.env.fl) (ho : OscOk S nw L o) {mip : ℤ} (h0 : 0 ≤ mip)
    (h1 : mip < (L : ℤ) - 1) (hm : TableMove o mip)
    (hz : o.prevPhaseDiff < 0 → mip < o.prevMip → o.prevPhase ≠ 0)
    (hx : OffDenormal (2 ^ (L - mip.toNat)) o.prevPhase) :
    In ((2 ^ (L - mip.toNat) : ℕ) : ℝ) (S.prevJB o (L - mip.toNat) mip % 2 ^ (L - mip.toNat))
      o.prevPhase := by
  set n := L - mip.toNat with hn
  have hp : (0 : ℝ) < 2 ^ n := by positivity
  have hpz : (0 : ℤ) < 2 ^ n := by positivity
  have x0 := ho.p0
  have x1 := ho.p1
  have hxn0 : 0 ≤ o.prevPhase * 2 ^ n := by positivity
  have hxn1 : o.prevPhase * 2 ^ n < 2 ^ n := by nlinarith
  have fin : ∀ j : ℤ, (j : ℝ) ≤ o.prevPhase * 2 ^ n → o.prevPhase * 2 ^ n ≤ j + 1 → 0 ≤ j →
      In ((2 ^ n : ℕ) : ℝ) (j % 2 ^ n) o.prevPhase := by
    intro j g1 g2 g3
    have hj : j < 2 ^ n := by
      have : (j : ℝ) < 2 ^ n := by linarith
      exact_mod_cast this
    rw [Int.emod_eq_of_lt g3 hj]
    exact in_of g1 g2
  rcases lt_or_gt_of_ne ho.diff with hd | hd
  · obtain ⟨g1, g2, g3, g4, g5⟩ := adj_bwd ho hd h0 h1 hm (hz hd)
    rw [← hn] at g1 g2 g3 g4 g5
    have e : S.prevJB o n mip = adj n mip o.prevMip o.jRed o.prevPhaseDiff o.prevPhaseRed +
        Maths.sign (S.env.fl (o.prevPhase - (adj n mip o.prevMip o.jRed o.prevPhaseDiff o.prevPhaseRed : ℤ) / 2 ^ n)) := by
      unfold prevJB; dsimp only; rw [if_pos hd.le, ho.red]
    rw [e]
    generalize adj n mip o.prevMip o.jRed o.prevPhaseDiff o.prevPhaseRed = j at g1 g2 g3 g4 g5
    rcases sign_spec hf hx j with ⟨s1, s2⟩ | ⟨s1, s2⟩ | ⟨s1, s2⟩
    · rw [s2, add_zero]
      exact fin j s1.ge (by linarith) g3
    · rw [s2]
      refine fin (j + -1) (by push_cast; linarith) (by push_cast; linarith) ?_
      have : (0 : ℝ) < j := by linarith
      have : 0 < j := by exact_mod_cast this
      omega
    · linarith
  · obtain ⟨g1, g2, g3, g4⟩ := adj_fwd ho hd h0 h1 hm
    rw [← hn] at g1 g2 g3 g4
    have e : S.prevJB o n mip = adj n mip o.prevMip o.jRed o.prevPhaseDiff o.prevPhaseRed := by
      unfold prevJB; dsimp only; rw [if_neg (not_le.2 hd)]
    rw [e]
    exact fin _ g1 g2 g3

/-! ### wrapping -/

theorem wrapF {N : ℕ} (hN : 4 ≤ N) {x p d : ℝ} {jmin jmax : ℤ} (hx0 : 0 ≤ x)
    (hp0 : 0 ≤ p) (hp1 : p < 1) (hj0 : 0 ≤ jmin) (hj1 : jmin < N) (hu : In N jmin (bar x))
    (hv : (jmax : ℝ) ≤ p * N) (hv' : p * N < jmax + 1) (hd0 : 0 < d) (hd1 : d < 3 / 4)
    (hd : d = p - x ∨ d = p - x + 1) :
    d = p - bar x + (if jmin > jmax then 1 else 0) := by
  have hN' : (4 : ℝ) ≤ N := by exact_mod_cast hN
  have hNp : (0 : ℝ) < N := by linarith
  obtain ⟨u1, u2⟩ := hu
  rw [div_le_iff₀ hNp] at u1
  rw [le_div_iff₀ hNp] at u2
  unfold bar at u1 u2 ⊢
  by_cases h : x = 0
  · rw [if_pos h] at u1 u2 ⊢
    have hdp : d = p := by
      rcases hd with hd | hd
      · linarith
      · linarith
    have e1 : jmin = N - 1 := by
      have : (N : ℝ) ≤ jmin + 1 := by rw [h] at u2; linarith
      have : (N : ℤ) ≤ jmin + 1 := by exact_mod_cast this
      omega
    have : jmax < jmin := by
      have : (jmax : ℝ) < N - 1 := by
        have : p * N < 3 / 4 * N := by gcongr; linarith
        linarith
      rw [e1]; exact_mod_cast this
    rw [if_pos this, hdp, h]; ring
  · rw [if_neg h, add_zero] at u1 u2 ⊢
    rcases hd with hd | hd
    · rw [if_neg, add_zero, hd]
      have : (jmin : ℝ) < jmax + 1 := by
        have : x * N < p * N := by
          apply mul_lt_mul_of_pos_right _ hNp; linarith
        linarith
      have : jmin < jmax + 1 := by exact_mod_cast this
      omega
    · rw [if_pos, hd]
      have : (jmax : ℝ) < jmin := by
        have : (p + 1 / 4) * N < x * N := by
          apply mul_lt_mul_of_pos_right _ hNp; linarith
        nlinarith
      exact_mod_cast this

theorem wrapB {N : ℕ} (hN : 4 ≤ N) {x p d : ℝ} {jmin jmax : ℤ} (hx0 : 0 ≤ x)
    (hp0 : 0 ≤ p) (hj0 : 0 ≤ jmin) (hj1 : jmin < N) (hu : In N jmax x)
    (hv : (jmin : ℝ) < bar p * N) (hv' : bar p * N ≤ jmin + 1) (hd0 : d < 0) (hd1 : -(3 / 4) < d)
    (hd : d = p - x ∨ d = p - x - 1) :
    d = bar p - x - (if jmin > jmax then 1 else 0) ∧ (p = 0 → jmin > jmax) := by
  have hN' : (4 : ℝ) ≤ N := by exact_mod_cast hN
  have hNp : (0 : ℝ) < N := by linarith
  obtain ⟨u1, u2⟩ := hu
  rw [div_le_iff₀ hNp] at u1
  rw [le_div_iff₀ hNp] at u2
  unfold bar at hv hv' ⊢
  by_cases h : p = 0
  · rw [if_pos h] at hv hv' ⊢
    have hdp : d = -x := by
      rcases hd with hd | hd
      · linarith
      · linarith
    have e1 : jmin = N - 1 := by
      have : (N : ℝ) ≤ jmin + 1 := by rw [h] at hv'; linarith
      have : (N : ℤ) ≤ jmin + 1 := by exact_mod_cast this
      omega
    have : jmax < jmin := by
      have : (jmax : ℝ) < N - 1 := by
        have : x * N < 3 / 4 * N := by gcongr; linarith
        linarith
      rw [e1]; exact_mod_cast this
    rw [if_pos this, hdp, h]; exact ⟨by ring, fun _ => this⟩
  · rw [if_neg h, add_zero] at hv hv' ⊢
    refine ⟨?_, fun h' => absurd h' h⟩
    rcases hd with hd | hd
    · rw [if_neg, sub_zero, hd]
      have : (jmin : ℝ) < jmax + 1 := by
        have : p * N < x * N := by
          apply mul_lt_mul_of_pos_right _ hNp; linarith
        linarith
      have : jmin < jmax + 1 := by exact_mod_cast this
      omega
    · rw [if_pos, hd]
      have : (jmax : ℝ) < jmin := by
        have : (x + 1 / 4) * N < p * N := by
          apply mul_lt_mul_of_pos_right _ hNp; linarith
        nlinarith
      exact_mod_cast this

/-- halving a table -/
theorem half_le {n : ℕ} (hn : 1 ≤ n) {j : ℤ} {u : ℝ} (h : (j : ℝ) ≤ u * ((2 ^ n : ℕ) : ℝ)) :
    ((j / 2 : ℤ) : ℝ) ≤ u * ((2 ^ (n - 1) : ℕ) : ℝ) := by
  have e : ((2 ^ n : ℕ) : ℝ) = ((2 ^ (n - 1) : ℕ) : ℝ) * 2 := by
    push_cast; rw [← pow_succ]; congr 1; omega
  have h2 : (2 * (j / 2 : ℤ) : ℝ) ≤ j := by
    have : 2 * (j / 2) ≤ j := by omega
    exact_mod_cast this
  rw [e] at h; linarith

theorem half_lt' {n : ℕ} (hn : 1 ≤ n) {j : ℤ} {u : ℝ} (h : (j : ℝ) < u * ((2 ^ n : ℕ) : ℝ)) :
    ((j / 2 : ℤ) : ℝ) < u * ((2 ^ (n - 1) : ℕ) : ℝ) := by
  have e : ((2 ^ n : ℕ) : ℝ) = ((2 ^ (n - 1) : ℕ) : ℝ) * 2 := by
    push_cast; rw [← pow_succ]; congr 1; omega
  have h2 : (2 * (j / 2 : ℤ) : ℝ) ≤ j := by
    have : 2 * (j / 2) ≤ j := by omega
    exact_mod_cast this
  rw [e] at h; linarith

theorem half_ge {n : ℕ} (hn : 1 ≤ n) {j : ℤ} {u : ℝ} (h : u * ((2 ^ n : ℕ) : ℝ) ≤ j + 1) :
    u * ((2 ^ (n - 1) : ℕ) : ℝ) ≤ ((j / 2 : ℤ) : ℝ) + 1 := by
  have e : ((2 ^ n : ℕ) : ℝ) = ((2 ^ (n - 1) : ℕ) : ℝ) * 2 := by
    push_cast; rw [← pow_succ]; congr 1; omega
  have h2 : (j : ℝ) ≤ 2 * (j / 2 : ℤ) + 1 := by
    have : j ≤ 2 * (j / 2) + 1 := by omega
    exact_mod_cast this
  rw [e] at h; linarith

theorem half_gt {n : ℕ} (hn : 1 ≤ n) {j : ℤ} {u : ℝ} (h : u * ((2 ^ n : ℕ) : ℝ) < j + 1) :
    u * ((2 ^ (n - 1) : ℕ) : ℝ) < ((j / 2 : ℤ) : ℝ) + 1 := by
  have e : ((2 ^ n : ℕ) : ℝ) = ((2 ^ (n - 1) : ℕ) : ℝ) * 2 := by
    push_cast; rw [← pow_succ]; congr 1; omega
  have h2 : (j : ℝ) ≤ 2 * (j / 2 : ℤ) + 1 := by
    have : j ≤ 2 * (j / 2) + 1 := by omega
    exact_mod_cast this
  rw [e] at h; linarith

theorem half_in {n : ℕ} (hn : 1 ≤ n) {j : ℤ} {u : ℝ} (h : In ((2 ^ n : ℕ) : ℝ) j u) :
    In ((2 ^ (n - 1) : ℕ) : ℝ) (j / 2) u := by
  have hp : (0 : ℝ) < ((2 ^ n : ℕ) : ℝ) := by positivity
  have hp' : (0 : ℝ) < ((2 ^ (n - 1) : ℕ) : ℝ) := by positivity
  obtain ⟨a, b⟩ := h
  rw [div_le_iff₀ hp] at a
  rw [le_div_iff₀ hp] at b
  refine ⟨?_, ?_⟩
  · rw [div_le_iff₀ hp']; exact half_le hn a
  · rw [le_div_iff₀ hp']; exact half_ge hn b

end Sys
end Adwt
