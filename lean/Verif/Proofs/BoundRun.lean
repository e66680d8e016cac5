import Verif.Proofs.Bound
import Verif.Spec.Bounded

/-!
# The output is bounded
-/

set_option linter.unusedSectionVars false

namespace Adwt

theorem cyc_bound {y : List ℝ} {A : ℝ} (h : ∀ x ∈ y, |x| ≤ A) (hl : 0 < y.length) (j : ℤ) :
    |cyc y j| ≤ A := by
  unfold cyc
  have : (j % (y.length : ℤ)).toNat < y.length := by
    have := Int.emod_lt_of_pos j (b := y.length) (by omega)
    have := Int.emod_nonneg j (b := y.length) (by omega)
    omega
  rw [List.getD_eq_getElem?_getD, List.getElem?_eq_getElem this]
  exact h _ (List.getElem_mem _)

namespace Sys
variable {S : Sys ℝ ℂ} {nw L : ℕ} {o o' : Osc ℝ ℂ} {ws : List ℝ} {A : ℝ}

theorem tabY_bound {wt : WavetableData ℝ} (hlin : HasLines S.env ws nw L wt)
    (hA : TablesWithin S.env ws nw L A) {w i : ℤ} (h0 : 0 ≤ w) (h1 : w < nw) (h2 : 0 ≤ i)
    (h3 : i < (L : ℤ) - 1) (j : ℤ) : |tabY S.env ws L w i j| ≤ A := by
  unfold tabY
  apply cyc_bound (hA _ (by omega) _ (by omega))
  rw [hlin.len w i h0 h1 h2 h3]
  positivity

/-- the bound of one coefficient of the memory -/
noncomputable def memB (S : Sys ℝ ℂ) (L : ℕ) (A : ℝ) (k : ℕ) : ℝ :=
  2 * ‖S.rA k‖ * sumBound (2 ^ L) ‖S.zA k‖ / (‖S.zA k‖ ^ 2 * (1 - Real.exp (S.zA k).re)) * A

theorem memB_nonneg (hA : 0 ≤ A) {k : ℕ} (hz : (S.zA k).re < 0) : 0 ≤ S.memB L A k := by
  unfold memB sumBound
  have : Real.exp (S.zA k).re ≤ 1 := Real.exp_le_one_iff.2 hz.le
  have h1 : 0 ≤ 1 - Real.exp (S.zA k).re := by linarith
  positivity

/-- one update -/
theorem cpxY_bound (hS : ExactSys S) {k : ℕ} (hk : k < S.n) (hz : (S.zA k).re < 0) {a : ℕ → ℂ}
    (ha : ‖a k‖ ≤ sumBound (2 ^ L) ‖S.zA k‖ * A) {y : List ℂ} {m : ℝ} (hy : ‖y.getD k 0‖ ≤ m)
    (hm : S.memB L A k ≤ m) : ‖(S.cpxY y a).getD k 0‖ ≤ m := by
  rw [cpxY_getD hS _ _ hk]
  have hz0 : 0 < ‖S.zA k‖ := norm_pos_iff.2 (zA_ne hS hk)
  have he : Real.exp (S.zA k).re < 1 := by rw [← Real.exp_zero]; exact Real.exp_lt_exp.2 hz
  have h1 : 0 < 1 - Real.exp (S.zA k).re := by linarith
  refine (norm_add_le _ _).trans ?_
  rw [norm_mul, norm_mul, norm_mul, norm_div, norm_pow, Complex.norm_exp, Complex.norm_two]
  have e1 : 2 * ‖S.rA k‖ * (‖a k‖ / ‖S.zA k‖ ^ 2) ≤ (1 - Real.exp (S.zA k).re) * S.memB L A k := by
    unfold memB
    calc _ ≤ 2 * ‖S.rA k‖ * ((sumBound (2 ^ L) ‖S.zA k‖ * A) / ‖S.zA k‖ ^ 2) := by gcongr
      _ = _ := by field_simp
  have e2 : Real.exp (S.zA k).re * ‖y.getD k 0‖ ≤ Real.exp (S.zA k).re * m :=
    mul_le_mul_of_nonneg_left hy (Real.exp_nonneg _)
  nlinarith

theorem output_bound {y : List ℂ} {n : ℕ} (h : y.length = n) {m : ℕ → ℝ}
    (hm : ∀ k < n, ‖y.getD k 0‖ ≤ m k) : |output y| ≤ ∑ k ∈ Finset.range n, m k := by
  have e := output_dist (y := y) (y' := List.replicate n 0) h (by simp)
  have e0 : output (List.replicate n 0) = 0 := by unfold output; simp
  rw [e0, sub_zero] at e
  refine e.trans ?_
  unfold memDist
  apply Finset.sum_le_sum
  intro k hk
  have : (List.replicate n (0 : ℂ)).getD k 0 = 0 := by
    rw [List.getD_eq_getElem?_getD, List.getElem?_replicate]; split <;> rfl
  rw [this, sub_zero]
  exact hm k (Finset.mem_range.1 hk)

theorem replicate_getD (n k : ℕ) : (List.replicate n (0 : ℂ)).getD k 0 = 0 := by
  rw [List.getD_eq_getElem?_getD, List.getElem?_replicate]; split <;> rfl

/-- Many calls. -/
theorem bound_atoms (hS : ExactSys S) (ho : OscPlay S nw L o)
    {wt : WavetableData ℝ} (hwt : o.wt = some wt) (hlin : HasLines S.env ws nw L wt)
    (hA : TablesWithin S.env ws nw L A) (hA0 : 0 ≤ A) (hz : ∀ k < S.n, (S.zA k).re < 0)
    {m : ℕ → ℝ} (hm : ∀ k < S.n, S.memB L A k ≤ m k) (hy : ∀ k < S.n, ‖o.prevY.getD k 0‖ ≤ m k)
    {as : List (Atom ℝ)} (ha : AtomsOk S.env.fl nw o.prevPhase as) {ys : List ℝ}
    (h : S.atoms o as = .ok (o', ys)) :
    (∀ k < S.n, ‖o'.prevY.getD k 0‖ ≤ m k) ∧
      ∀ y ∈ ys, |y| ≤ ∑ k ∈ Finset.range S.n, m k := by
  have hf := exact_rounding hS
  induction as generalizing o ys wt with
  | nil => cases h; exact ⟨hy, by simp⟩
  | cons a as ih =>
    unfold atoms at h
    obtain ⟨⟨o1, y1⟩, e1, h⟩ := bind_ok h
    obtain ⟨⟨o2, y2⟩, e2, h⟩ := bind_ok h
    cases h
    obtain ⟨p1, p2⟩ := atom_play hf hS.B ho ha.1 e1
    have hw : WtOk nw L wt := by
      obtain ⟨wt', e', h⟩ := ho.wt
      rw [hwt] at e'; cases e'; exact h
    cases a with
    | sample dir p =>
      unfold atom at e1
      obtain ⟨⟨o1', v⟩, e, e1⟩ := bind_ok e1
      cases e1
      obtain ⟨x, t, hn, hno, rfl, rfl, hok, b0, b1, b2⟩ :=
        step_form' hf hS.B ho hwt ha.1.1 ha.1.2 e
      obtain ⟨r0, r1, r2⟩ := dirDiff_range hf ho.toOscOk ha.1.1 ha.1.2
      have hw1 := weight_one hS.fl hw.inv (abs_pos.2 r0) hn
      have hmem : ∀ k < S.n, ‖(S.cpxY o.prevY
          (S.acc wt L o t p (dirDiff S.env.fl dir p o.prevPhase))).getD k 0‖ ≤ m k := by
        intro k hk
        apply cpxY_bound hS hk (hz k hk) _ (hy k hk) (hm k hk)
        rw [acc_lines hS ho hlin ha.1.1 b0 b1 b2
          (fun h => by have := hw1.1; rw [h] at this; linarith) hk]
        exact accV_bound ho ha.1.1.1 ha.1.1.2.1 b0 b1
          (tabY_bound hlin hA ho.crt0 ho.crt1 b0 b1)
          (fun h => tabY_bound hlin hA ho.crt0 ho.crt1 (by have := (b2 h).1; omega) (b2 h).2)
          hw1.1 hw1.2.1 hw1.2.2 r0 r1 r2 (hz k hk).le
      obtain ⟨q1, q2⟩ := ih p1 (wt := { wt with cf := x }) rfl (hlin.with_cf x) hmem
        (by rw [p2]; exact ha.2) e2
      refine ⟨q1, ?_⟩
      intro y hy'
      rcases List.mem_append.1 hy' with h | h
      · rw [List.mem_singleton.1 h, outReal_eq hS]
        exact output_bound (cpxY_length _ _) hmem
      · exact q2 y h
    | setWaveform i =>
      unfold atom setWaveform at e1
      obtain ⟨o1', e, e1⟩ := bind_ok e1
      cases e1
      obtain ⟨_, _, e⟩ := bind_ok e
      cases e
      exact ih p1 hwt hlin hy (by rw [p2]; exact ha.2) e2
    | reset p d =>
      unfold atom at e1
      obtain ⟨o1', e, e1⟩ := bind_ok e1
      cases e1
      obtain ⟨c, t, hn, -⟩ := find_spec hf hw (abs_pos.2 ha.1.2)
      rw [reset_ok hf hwt hw ha.1.1 ha.1.2 hn] at e
      cases e
      refine ih p1 (wt := { wt with cf := c }) rfl (hlin.with_cf c) ?_ (by rw [p2]; exact ha.2) e2
      intro k hk
      show ‖(List.replicate S.n (0 : ℂ)).getD k 0‖ ≤ _
      rw [replicate_getD, norm_zero]
      exact (memB_nonneg hA0 (hz k hk)).trans (hm k hk)

end Sys
end Adwt
