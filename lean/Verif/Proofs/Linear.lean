import Verif.Proofs.Memory

/-!
# The computed sums as linear functionals of the samples
-/

set_option linter.unusedSectionVars false

namespace Adwt
open Seg

namespace Sys

/-- forward sum of a table with samples `Y`, wherever the segment indices point -/
noncomputable def fwdF (z : ℂ) (N : ℕ) (Y : ℤ → ℝ) (prev : ℝ) (jmin jmax : ℤ) (d x : ℝ) : ℂ :=
  Complex.exp z * (z * (line N Y jmin (bar prev) : ℂ) + (M N Y jmin : ℂ) * (d : ℂ)) -
    (z * (line N Y jmax x : ℂ) + (M N Y jmax : ℂ) * (d : ℂ)) +
    ∑ k ∈ Finset.range (bornSup jmin jmax N - jmin).toNat,
      Complex.exp (z * ((x + ofBool (decide (red (jmin + (k : ℤ)) N > jmax)) -
        (red (jmin + (k : ℤ)) N + 1) / N) / d : ℝ)) *
        (((M N Y (red (jmin + (k : ℤ)) N + 1) - M N Y (red (jmin + (k : ℤ)) N) : ℝ) : ℂ) * (d : ℂ))

/-- backward sum -/
noncomputable def bwdF (z : ℂ) (N : ℕ) (Y : ℤ → ℝ) (prev : ℝ) (jm jmin jmax : ℤ) (d x : ℝ) : ℂ :=
  Complex.exp z * (z * (line N Y jmax prev : ℂ) + (M N Y jmax : ℂ) * (d : ℂ)) -
    (z * (line N Y jmin (bar x) : ℂ) + (M N Y jmin : ℂ) * (d : ℂ)) +
    ∑ k ∈ Finset.range (bornSup jmin jmax N - jmin).toNat,
      -(Complex.exp (z * ((x + cycleOffset jm jmin jmax +
        ofBool (decide (red (jmin + (k : ℤ)) N > jmax)) -
        (red (jmin + (k : ℤ)) N + 1) / N) / d : ℝ)) *
        (((M N Y (red (jmin + (k : ℤ)) N + 1) - M N Y (red (jmin + (k : ℤ)) N) : ℝ) : ℂ) * (d : ℂ)))

section
variable {S : Sys ℝ ℂ} (hS : ExactSys S) {N : ℕ} {Y : ℤ → ℝ} {m q md qd ph : List ℝ}
include hS

theorem fwdVal_lines (T0 : Lines N Y m q md qd ph) {jmin jmax : ℤ}
    (h0 : 0 ≤ jmin) (h1 : jmin < N) (h2 : 0 ≤ jmax) (h3 : jmax < N) (prev x d : ℝ) {k : ℕ}
    (hk : k < S.n) :
    S.fwdVal m q md qd ph N prev jmin jmax d x k = fwdF (S.zA k) N Y prev jmin jmax d x := by
  unfold fwdVal
  have hfold : ∀ c : ℂ, (irange jmin (bornSup jmin jmax N)).foldl (fun old i => S.cornF d
      (S.env.fl (x + ofBool (decide (red i N > jmax)))) (ph.getD (red i N + 1).toNat 0)
      (md.getD (red i N).toNat 0) (qd.getD (red i N).toNat 0) k old) c =
      (irange jmin (bornSup jmin jmax N)).foldl (fun old i => old + 
        Complex.exp (S.zA k * ((x + ofBool (decide (red i N > jmax)) - (red i N + 1) / N) / d : ℝ)) *
        (((M N Y (red i N + 1) - M N Y (red i N) : ℝ) : ℂ) * (d : ℂ))) c := by
    intro c
    apply List.foldl_ext
    intro old i hi
    obtain ⟨hi0, hi1⟩ := mem_irange.1 hi
    have hir : i < 2 * N := by unfold bornSup at hi1; split_ifs at hi1 <;> omega
    have hr : 0 ≤ red i N ∧ red i N < N := (reduceI_red (dbg := true) (by omega) hir).2
    rw [cornF_exact hS (T0.qd _ hr.1 hr.2), T0.ph _ hr.1 hr.2, T0.md _ hr.1 hr.2, hS.fl]
    rfl
  rw [hfold, foldl_irange, i0Val_exact hS hk]
  rw [T0.m _ h0 h1, T0.q _ h0 h1, T0.m _ h2 h3, T0.q _ h2 h3]
  have eb : S.env.fl (prev + ofBool (decide (prev = 0))) = bar prev := by
    rw [hS.fl]; unfold bar ofBool; simp
  rw [eb]
  rfl

theorem bwdVal_lines (T0 : Lines N Y m q md qd ph) {jm jmin jmax : ℤ}
    (h0 : 0 ≤ jmin) (h1 : jmin < N) (h2 : 0 ≤ jmax) (h3 : jmax < N) (prev x d : ℝ) {k : ℕ}
    (hk : k < S.n) :
    S.bwdVal m q md qd ph N prev jm jmin jmax d x k = bwdF (S.zA k) N Y prev jm jmin jmax d x := by
  unfold bwdVal
  have hfold : ∀ c : ℂ, (irange jmin (bornSup jmin jmax N)).foldl (fun old i => S.cornB d
      (S.env.fl (S.env.fl (x + cycleOffset jm jmin jmax) + ofBool (decide (red i N > jmax))))
      (ph.getD (red i N + 1).toNat 0)
      (md.getD (red i N).toNat 0) (qd.getD (red i N).toNat 0) k old) c =
      (irange jmin (bornSup jmin jmax N)).foldl (fun old i => old + 
        -(Complex.exp (S.zA k * ((x + cycleOffset jm jmin jmax +
          ofBool (decide (red i N > jmax)) - (red i N + 1) / N) / d : ℝ)) *
        (((M N Y (red i N + 1) - M N Y (red i N) : ℝ) : ℂ) * (d : ℂ)))) c := by
    intro c
    apply List.foldl_ext
    intro old i hi
    obtain ⟨hi0, hi1⟩ := mem_irange.1 hi
    have hir : i < 2 * N := by unfold bornSup at hi1; split_ifs at hi1 <;> omega
    have hr : 0 ≤ red i N ∧ red i N < N := (reduceI_red (dbg := true) (by omega) hir).2
    rw [cornB_exact hS (T0.qd _ hr.1 hr.2), T0.ph _ hr.1 hr.2, T0.md _ hr.1 hr.2, hS.fl]
    rfl
  rw [hfold, foldl_irange, i0Val_exact hS hk]
  rw [T0.m _ h0 h1, T0.q _ h0 h1, T0.m _ h2 h3, T0.q _ h2 h3]
  have eb : S.env.fl (x + ofBool (decide (x = 0))) = bar x := by
    rw [hS.fl]; unfold bar ofBool; simp
  rw [eb]
  rfl

end

/-! ### linearity -/

theorem M_add (N : ℝ) (Y V : ℤ → ℝ) (a b : ℝ) (i : ℤ) :
    M N (fun i => a * Y i + b * V i) i = a * M N Y i + b * M N V i := by
  unfold M; ring

theorem line_add (N : ℝ) (Y V : ℤ → ℝ) (a b : ℝ) (i : ℤ) (u : ℝ) :
    line N (fun i => a * Y i + b * V i) i u = a * line N Y i u + b * line N V i u := by
  unfold line; rw [M_add]; ring

theorem fwdF_add (z : ℂ) (N : ℕ) (Y V : ℤ → ℝ) (a b prev : ℝ) (jmin jmax : ℤ) (d x : ℝ) :
    fwdF z N (fun i => a * Y i + b * V i) prev jmin jmax d x =
      a * fwdF z N Y prev jmin jmax d x + b * fwdF z N V prev jmin jmax d x := by
  unfold fwdF
  simp only [M_add, line_add]
  rw [mul_add (a : ℂ), mul_add (b : ℂ), Finset.mul_sum, Finset.mul_sum, add_add_add_comm,
    ← Finset.sum_add_distrib]
  congr 1
  · push_cast; ring
  · apply Finset.sum_congr rfl
    intro k _
    push_cast; ring

theorem bwdF_add (z : ℂ) (N : ℕ) (Y V : ℤ → ℝ) (a b prev : ℝ) (jm jmin jmax : ℤ) (d x : ℝ) :
    bwdF z N (fun i => a * Y i + b * V i) prev jm jmin jmax d x =
      a * bwdF z N Y prev jm jmin jmax d x + b * bwdF z N V prev jm jmin jmax d x := by
  unfold bwdF
  simp only [M_add, line_add]
  rw [mul_add (a : ℂ), mul_add (b : ℂ), Finset.mul_sum, Finset.mul_sum, add_add_add_comm,
    ← Finset.sum_add_distrib]
  congr 1
  · push_cast; ring
  · apply Finset.sum_congr rfl
    intro k _
    push_cast; ring

theorem fwdF_const (z : ℂ) (N : ℕ) (c prev : ℝ) (jmin jmax : ℤ) (d x : ℝ) :
    fwdF z N (fun _ => c) prev jmin jmax d x = z * (Complex.exp z - 1) * c := by
  have hM : ∀ i, M N (fun _ => c) i = 0 := fun i => by unfold M; ring
  have hl : ∀ i u, line N (fun _ => c) i u = c := fun i u => by unfold line; rw [hM]; ring
  unfold fwdF
  simp only [hM, hl]
  simp
  ring

theorem bwdF_const (z : ℂ) (N : ℕ) (c prev : ℝ) (jm jmin jmax : ℤ) (d x : ℝ) :
    bwdF z N (fun _ => c) prev jm jmin jmax d x = z * (Complex.exp z - 1) * c := by
  have hM : ∀ i, M N (fun _ => c) i = 0 := fun i => by unfold M; ring
  have hl : ∀ i u, line N (fun _ => c) i u = c := fun i u => by unfold line; rw [hM]; ring
  unfold bwdF
  simp only [hM, hl]
  simp
  ring

/-! ### both tables -/

/-- mixture of two tables -/
noncomputable def mixV (t : MipMapIndices ℝ) (lo up : ℂ) : ℂ :=
  t.weight * lo + if t.weightUp ≠ 0 then t.weightUp * up else 0

/-- the sums of a sample, for tables with samples `Y i` -/
noncomputable def accV (S : Sys ℝ ℂ) (L : ℕ) (Y : ℤ → ℤ → ℝ) (o : Osc ℝ ℂ) (t : MipMapIndices ℝ)
    (p d : ℝ) (k : ℕ) : ℂ :=
  let n := L - t.idx.toNat
  if 0 < d then
    let jmin := (S.prevJF o n t.idx - 1) % 2 ^ n
    let jmax := ⌊p * 2 ^ n⌋
    mixV t (fwdF (S.zA k) (2 ^ n) (Y t.idx) o.prevPhase jmin jmax d p)
      (fwdF (S.zA k) (2 ^ (n - 1)) (Y t.idxUp) o.prevPhase (jmin / 2) (jmax / 2) d p)
  else
    let j := ⌈p * 2 ^ n⌉
    let jmin := (j - 1) % 2 ^ n
    let jmax := S.prevJB o n t.idx % 2 ^ n
    mixV t (bwdF (S.zA k) (2 ^ n) (Y t.idx) o.prevPhase j jmin jmax d p)
      (bwdF (S.zA k) (2 ^ (n - 1)) (Y t.idxUp) o.prevPhase j (jmin / 2) (jmax / 2) d p)

theorem accV_ctl {S : Sys ℝ ℂ} {o1 o2 : Osc ℝ ℂ} (h : Ctl o1 o2) (L : ℕ) (Y : ℤ → ℤ → ℝ)
    (t : MipMapIndices ℝ) (p d : ℝ) (k : ℕ) :
    S.accV L Y o1 t p d k = S.accV L Y o2 t p d k := by
  unfold accV
  simp only [h.prevJF, h.prevJB, h.phase]

theorem accV_add (S : Sys ℝ ℂ) (L : ℕ) (Y V : ℤ → ℤ → ℝ) (a b : ℝ) (o : Osc ℝ ℂ)
    (t : MipMapIndices ℝ) (p d : ℝ) (k : ℕ) :
    S.accV L (fun i j => a * Y i j + b * V i j) o t p d k =
      a * S.accV L Y o t p d k + b * S.accV L V o t p d k := by
  unfold accV mixV
  simp only [fwdF_add, bwdF_add]
  split_ifs <;> ring

theorem accV_const (S : Sys ℝ ℂ) (L : ℕ) (c : ℝ) (o : Osc ℝ ℂ)
    {t : MipMapIndices ℝ} (ht : t.weight + t.weightUp = 1) (p d : ℝ) (k : ℕ) :
    S.accV L (fun _ _ => c) o t p d k = S.zA k * (Complex.exp (S.zA k) - 1) * c := by
  unfold accV mixV
  simp only [fwdF_const, bwdF_const]
  have : (t.weight : ℂ) + t.weightUp = 1 := by exact_mod_cast ht
  have h2 : ∀ X : ℂ, (t.weight : ℂ) * X + (if t.weightUp ≠ 0 then (t.weightUp : ℂ) * X else 0) = X := by
    intro X
    split_ifs with h
    · rw [← add_mul, this, one_mul]
    · rw [not_not] at h
      rw [h] at this
      rw [show (t.weight : ℂ) = 1 by simpa using this]; ring
  split_ifs with h h1 h1 <;> [skip; skip; skip; skip]
  all_goals have := h2 (S.zA k * (Complex.exp (S.zA k) - 1) * c)
  all_goals simp only [h1, if_true, if_false, ne_eq, not_true_eq_false, not_false_eq_true] at this
  all_goals first | exact this | simpa using this

variable {S : Sys ℝ ℂ} {nw L : ℕ} {o : Osc ℝ ℂ} {ws : List ℝ}

/-- the samples of the tables of the selected waveform -/
noncomputable def tabY (E : Env ℝ) (ws : List ℝ) (L : ℕ) (w : ℤ) (i j : ℤ) : ℝ :=
  cyc (mipSamples E (waveformOf ws (2 ^ L) w.toNat) i.toNat) j

theorem acc_lines (hS : ExactSys S) {wt : WavetableData ℝ} (ho : OscPlay S nw L o)
    (hlin : HasLines S.env ws nw L wt) {p d : ℝ} (hp : PhaseOk S.env.fl p)
    {t : MipMapIndices ℝ} (ht0 : 0 ≤ t.idx)
    (ht1 : t.idx < (L : ℤ) - 1)
    (htu : t.weightUp ≠ 0 → t.idxUp = t.idx + 1 ∧ t.idxUp < (L : ℤ) - 1)
    (hwu : t.weightUp = 0 → t.weight = 1) {k : ℕ} (hk : k < S.n) :
    S.acc wt L o t p d k = S.accV L (tabY S.env ws L o.crt) o t p d k := by
  set n := L - t.idx.toNat with hn
  have hn2 : 2 ≤ n := by omega
  have hcast : ((2 ^ n : ℕ) : ℤ) = 2 ^ n := by push_cast; rfl
  have hcast' : ((2 ^ (n - 1) : ℕ) : ℤ) = 2 ^ (n - 1) := by push_cast; rfl
  have hpos : (0 : ℤ) < 2 ^ n := by positivity
  have hmod : ∀ a : ℤ, 0 ≤ a % 2 ^ n ∧ a % 2 ^ n < 2 ^ n := fun a =>
    ⟨Int.emod_nonneg _ hpos.ne', Int.emod_lt_of_pos _ hpos⟩
  have hfl : 0 ≤ ⌊p * 2 ^ n⌋ ∧ ⌊p * 2 ^ n⌋ < 2 ^ n := by
    constructor
    · exact Int.floor_nonneg.2 (mul_nonneg hp.1 (by positivity))
    · rw [Int.floor_lt]; push_cast
      have : (0 : ℝ) < 2 ^ n := by positivity
      nlinarith [hp.2.1]
  have hl := hlin.lines o.crt t.idx ho.crt0 ho.crt1 ht0 ht1
  rw [← hn] at hl
  have hl2 : t.weightUp ≠ 0 → Lines (2 ^ (n - 1)) (tabY S.env ws L o.crt t.idxUp)
      (Sys.getOr (wt.mSpan o.crt t.idxUp)) (Sys.getOr (wt.qSpan o.crt t.idxUp))
      (Sys.getOr (wt.mDiffSpan o.crt t.idxUp))
      (Sys.getOr (wt.qDiffSpan o.crt t.idxUp)) (Sys.getOr (wt.phaseSpan t.idxUp)) := by
    intro h
    obtain ⟨e1, e2⟩ := htu h
    have := hlin.lines o.crt t.idxUp ho.crt0 ho.crt1 (by omega) e2
    have e : L - t.idxUp.toNat = n - 1 := by omega
    rw [e] at this
    exact this
  have hmix : ∀ (lo up : ℕ → ℂ) (lo' up' : ℂ), lo k = lo' → (t.weightUp ≠ 0 → up k = up') →
      S.mix t lo up k = mixV t lo' up' := by
    intro lo up lo' up' h1 h2
    unfold mix mixV
    rw [hS.ops]
    split_ifs with h
    · rw [h1, h2 h]; simp [copsX]; ring
    · rw [not_not] at h
      rw [hwu h, h1]; simp
  unfold acc accV
  dsimp only
  rw [← hn]
  by_cases hd : 0 < d
  · rw [if_pos hd, if_pos hd]
    unfold accF
    rw [← hn]
    obtain ⟨a1, a2⟩ := hmod (S.prevJF o n t.idx - 1)
    apply hmix
    · unfold fwdAt
      rw [ho.red]
      have := fwdVal_lines hS hl a1 (by rw [hcast]; exact a2) hfl.1 (by rw [hcast]; exact hfl.2)
        o.prevPhase p d hk
      rw [hcast] at this
      exact this
    · intro h
      obtain ⟨-, e2, e3⟩ := half_range (n := n) (by omega) a1 a2
      obtain ⟨-, e5, e6⟩ := half_range (n := n) (by omega) hfl.1 hfl.2
      unfold fwdAt
      rw [ho.red]
      have := fwdVal_lines hS (hl2 h) e2 (by rw [hcast']; exact e3) e5 (by rw [hcast']; exact e6)
        o.prevPhase p d hk
      rw [hcast'] at this
      exact this
  · rw [if_neg hd, if_neg hd]
    unfold accB
    rw [← hn]
    obtain ⟨a1, a2⟩ := hmod (⌈p * 2 ^ n⌉ - 1)
    obtain ⟨b1, b2⟩ := hmod (S.prevJB o n t.idx)
    apply hmix
    · unfold bwdAt
      rw [ho.red]
      have := bwdVal_lines hS hl (jm := ⌈p * 2 ^ n⌉) a1 (by rw [hcast]; exact a2) b1
        (by rw [hcast]; exact b2) o.prevPhase p d hk
      rw [hcast] at this
      exact this
    · intro h
      obtain ⟨-, e2, e3⟩ := half_range (n := n) (by omega) a1 a2
      obtain ⟨-, e5, e6⟩ := half_range (n := n) (by omega) b1 b2
      unfold bwdAt
      rw [ho.red]
      have := bwdVal_lines hS (hl2 h) (jm := ⌈p * 2 ^ n⌉) e2 (by rw [hcast']; exact e3) e5
        (by rw [hcast']; exact e6) o.prevPhase p d hk
      rw [hcast'] at this
      exact this

end Sys
end Adwt
