import Verif.Proofs.Linear

/-!
# Constant waveforms
-/

set_option linter.unusedSectionVars false

namespace Adwt

theorem mip_const {E : Env ℝ} (h : KeepsConstants E) (c : ℝ) (n i : ℕ) :
    ∃ m, mipSamples E (List.replicate n c) i = List.replicate m c := by
  induction i using Nat.strong_induction_on with
  | _ i ih =>
    unfold mipSamples
    split_ifs with h0 h1
    · exact ⟨n, rfl⟩
    · exact ⟨_, h c n _⟩
    · obtain ⟨m, e⟩ := ih (i - 8) (by omega)
      rw [e]
      exact ⟨_, h c m _⟩

theorem cyc_const (c : ℝ) {m : ℕ} (hm : 0 < m) (j : ℤ) : cyc (List.replicate m c) j = c := by
  unfold cyc
  rw [List.length_replicate]
  have : (j % (m : ℤ)).toNat < m := by
    have := Int.emod_lt_of_pos j (b := m) (by omega)
    have := Int.emod_nonneg j (b := m) (by omega)
    omega
  rw [List.getD_eq_getElem?_getD, List.getElem?_replicate_of_lt this]
  rfl

namespace Sys
variable {S : Sys ℝ ℂ} {nw L : ℕ} {o o' : Osc ℝ ℂ} {ws : List ℝ} {σ c : ℝ}

/-- the memory at which a constant waveform settles -/
noncomputable def dcMem (S : Sys ℝ ℂ) (c : ℝ) : List ℂ :=
  (List.range S.n).map fun k => -(2 * S.rA k / S.zA k) * c

theorem dcMem_getD {k : ℕ} (hk : k < S.n) :
    (S.dcMem c).getD k 0 = -(2 * S.rA k / S.zA k) * c := by
  unfold dcMem
  rw [List.getD_eq_getElem?_getD, List.getElem?_map, List.getElem?_range hk]
  rfl

theorem dcMem_fix (hS : ExactSys S) {a : ℕ → ℂ}
    (ha : ∀ k < S.n, a k = S.zA k * (Complex.exp (S.zA k) - 1) * c) :
    S.cpxY (S.dcMem c) a = S.dcMem c := by
  apply List.ext_getElem?
  intro k
  by_cases hk : k < S.n
  · have e := cpxY_getD hS (S.dcMem c) a hk
    rw [dcMem_getD hk, ha k hk] at e
    have hz := zA_ne hS hk
    have e2 := dcMem_getD (S := S) (c := c) hk
    rw [List.getD_eq_getElem?_getD] at e e2
    have l1 : k < (S.cpxY (S.dcMem c) a).length := by rw [cpxY_length]; exact hk
    have l2 : k < (S.dcMem c).length := by unfold dcMem; simpa using hk
    rw [List.getElem?_eq_getElem l1] at e ⊢
    rw [List.getElem?_eq_getElem l2] at e2 ⊢
    simp only [Option.getD_some] at e e2
    rw [e, e2]
    congr 1
    field_simp
    ring
  · rw [List.getElem?_eq_none (by rw [cpxY_length]; omega),
      List.getElem?_eq_none (by unfold dcMem; simp; omega)]

theorem dcMem_output : output (S.dcMem c) = dcGain S.flt * c := by
  unfold output dcMem dcGain
  have : ((List.range S.n).map fun k => -(2 * S.rA k / S.zA k) * (c : ℂ)).sum =
      ∑ k ∈ Finset.range S.n, -(2 * S.rA k / S.zA k) * (c : ℂ) := by
    rw [Finset.sum_range, ← List.sum_ofFn]
    congr 1
    apply List.ext_getElem
    · simp
    · intro i h1 h2; simp
  rw [this, ← Finset.sum_mul, Complex.re_mul_ofReal]
  rfl

/-- One sample. -/
theorem dc_step (hS : ExactSys S) (hσ : PolesLeft S.flt σ) (ho : OscPlay S nw L o)
    {wt : WavetableData ℝ} (hwt : o.wt = some wt) (hlin : HasLines S.env ws nw L wt)
    (hc : ∀ w i j : ℤ, 0 ≤ w → w < nw → 0 ≤ i → i < (L : ℤ) - 1 → tabY S.env ws L w i j = c)
    {dir : Direction} {p y : ℝ} (hp : PhaseOk S.env.fl p) (hs : StepOk dir o.prevPhase p)
    (h : S.stepDir dir o p = .ok (o', y)) :
    memDist S.n o'.prevY (S.dcMem c) ≤ Real.exp (-σ) * memDist S.n o.prevY (S.dcMem c) ∧
    |y - dcGain S.flt * c| ≤ Real.exp (-σ) * memDist S.n o.prevY (S.dcMem c) ∧
    ∃ x, o'.wt = some { wt with cf := x } := by
  have hf := exact_rounding hS
  obtain ⟨x, t, hn, hno, rfl, rfl, hok, b0, b1, b2⟩ := step_form' hf hS.B ho hwt hp hs h
  obtain ⟨r0, -⟩ := dirDiff_range hf ho.toOscOk hp hs
  have hw : WtOk nw L wt := by
    obtain ⟨wt', e', h⟩ := ho.wt
    rw [hwt] at e'; cases e'; exact h
  have hw1 := weight_one hS.fl hw.inv (abs_pos.2 r0) hn
  set d := dirDiff S.env.fl dir p o.prevPhase with hd
  have ha : ∀ k < S.n, S.acc wt L o t p d k = S.zA k * (Complex.exp (S.zA k) - 1) * c := by
    intro k hk
    rw [acc_lines hS ho hlin hp b0 b1 b2 (fun h => by have := hw1.1; rw [h] at this; linarith) hk]
    rw [← accV_const S L c o hw1.1 p d k]
    unfold accV mixV
    have e1 : tabY S.env ws L o.crt t.idx = fun _ => c := by
      funext j; exact hc _ _ _ ho.crt0 ho.crt1 b0 b1
    have e2 : t.weightUp ≠ 0 → tabY S.env ws L o.crt t.idxUp = fun _ => c := by
      intro h
      funext j; exact hc _ _ _ ho.crt0 ho.crt1 (by have := (b2 h).1; omega) (b2 h).2
    dsimp only
    rw [e1]
    by_cases h : t.weightUp ≠ 0
    · rw [e2 h]
    · simp only [if_neg h]
  have hfix := dcMem_fix hS ha
  have hdist := cpxY_dist hS hσ o.prevY (S.dcMem c) (S.acc wt L o t p d)
  rw [hfix] at hdist
  refine ⟨hdist, ?_, x, rfl⟩
  rw [outReal_eq hS, ← dcMem_output]
  exact (output_dist (cpxY_length _ _) (by unfold dcMem; simp)).trans hdist

/-- Many calls. -/
theorem dc_atoms (hS : ExactSys S) (hσ : PolesLeft S.flt σ) (ho : OscPlay S nw L o)
    {wt : WavetableData ℝ} (hwt : o.wt = some wt) (hlin : HasLines S.env ws nw L wt)
    (hc : ∀ w i j : ℤ, 0 ≤ w → w < nw → 0 ≤ i → i < (L : ℤ) - 1 → tabY S.env ws L w i j = c)
    {as : List (Atom ℝ)} (ha : AtomsOk S.env.fl nw o.prevPhase as)
    (hr : ∀ a ∈ as, ∀ p d, a ≠ .reset p d) {ys : List ℝ} (h : S.atoms o as = .ok (o', ys)) :
    ∀ i < ys.length, |ys.getD i 0 - dcGain S.flt * c| ≤
      Real.exp (-σ * (i + 1)) * memDist S.n o.prevY (S.dcMem c) := by
  induction as generalizing o ys wt with
  | nil => cases h; simp
  | cons a as ih =>
    unfold atoms at h
    obtain ⟨⟨o1, y1⟩, e1, h⟩ := bind_ok h
    obtain ⟨⟨o2, y2⟩, e2, h⟩ := bind_ok h
    cases h
    obtain ⟨p1, p2⟩ := atom_play (exact_rounding hS) hS.B ho ha.1 e1
    have hr' : ∀ a ∈ as, ∀ p d, a ≠ .reset p d := fun a h => hr a (by simp [h])
    cases a with
    | sample dir p =>
      unfold atom at e1
      obtain ⟨⟨o1', v⟩, e, e1⟩ := bind_ok e1
      cases e1
      obtain ⟨d1, d2, x, hx⟩ := dc_step hS hσ ho hwt hlin hc ha.1.1 ha.1.2 e
      have key := ih p1 hx (hlin.with_cf x) (by rw [p2]; exact ha.2) hr' e2
      intro i hi
      cases i with
      | zero => simpa using d2
      | succ i =>
        have hi' : i < y2.length := by simpa using hi
        have := (key i hi').trans (mul_le_mul_of_nonneg_left d1 (Real.exp_nonneg _))
        rw [← mul_assoc, ← Real.exp_add] at this
        simp only [List.cons_append, List.nil_append, List.getD_cons_succ]
        refine this.trans (le_of_eq ?_)
        congr 2
        push_cast; ring
    | setWaveform i =>
      unfold atom setWaveform at e1
      obtain ⟨o1', e, e1⟩ := bind_ok e1
      cases e1
      obtain ⟨_, _, e⟩ := bind_ok e
      cases e
      exact ih p1 hwt hlin (by rw [p2]; exact ha.2) hr' e2
    | reset p d => exact absurd rfl (hr _ (by simp) p d)

end Sys
end Adwt
