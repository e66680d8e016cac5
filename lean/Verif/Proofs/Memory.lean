import Verif.Proofs.Atoms
import Verif.Proofs.Sample
import Verif.Spec.Decay
import Mathlib.Data.List.GetD

/-!
# The filter memory is forgotten
-/

set_option linter.unusedSectionVars false

namespace Adwt

theorem memDist_nonneg (n : ℕ) (y y' : List ℂ) : 0 ≤ memDist n y y' :=
  Finset.sum_nonneg fun _ _ => norm_nonneg _

namespace Sys
variable {S : Sys ℝ ℂ} {nw L : ℕ} {o o' : Osc ℝ ℂ} {σ : ℝ}

theorem cpxY_getD (hS : ExactSys S) (y : List ℂ) (a : ℕ → ℂ) {k : ℕ} (hk : k < S.n) :
    (S.cpxY y a).getD k 0 = Complex.exp (S.zA k) * y.getD k 0 + 2 * S.rA k * (a k / S.zA k ^ 2) := by
  unfold cpxY
  rw [List.getD_eq_getElem?_getD, List.getElem?_map, List.getElem?_range hk]
  simp only [Option.map_some, Option.getD_some]
  rw [expZA_eq hS hk, zPow2A_eq hS hk, hS.ops]
  simp [copsX]

theorem cpxY_length (y : List ℂ) (a : ℕ → ℂ) : (S.cpxY y a).length = S.n := by
  unfold cpxY; simp

theorem output_dist {y y' : List ℂ} {n : ℕ} (h : y.length = n) (h' : y'.length = n) :
    |output y - output y'| ≤ memDist n y y' := by
  have e : ∀ y : List ℂ, y.length = n → y.sum = ∑ k ∈ Finset.range n, y.getD k 0 := by
    intro y h
    subst h
    rw [Finset.sum_range]
    rw [← List.sum_ofFn]
    congr 1
    apply List.ext_getElem
    · simp
    · intro i h1 h2
      simp [List.getD_eq_getElem?_getD, h1]
  unfold output memDist
  rw [← Complex.sub_re, e y h, e y' h', ← Finset.sum_sub_distrib]
  exact (Complex.abs_re_le_norm _).trans (norm_sum_le _ _)

theorem zA_re (hS : ExactSys S) (hσ : PolesLeft S.flt σ) {k : ℕ} (hk : k < S.n) :
    (S.zA k).re ≤ -σ := by
  have : k < S.flt.z.length := by rw [← hS.len]; exact hk
  unfold zA
  rw [List.getD_eq_getElem?_getD, List.getElem?_eq_getElem this]
  exact hσ _ (List.getElem_mem _)

/-- One update contracts. -/
theorem cpxY_dist (hS : ExactSys S) (hσ : PolesLeft S.flt σ) (y y' : List ℂ) (a : ℕ → ℂ) :
    memDist S.n (S.cpxY y a) (S.cpxY y' a) ≤ Real.exp (-σ) * memDist S.n y y' := by
  unfold memDist
  rw [Finset.mul_sum]
  apply Finset.sum_le_sum
  intro k hk
  have hk : k < S.n := Finset.mem_range.1 hk
  rw [cpxY_getD hS _ _ hk, cpxY_getD hS _ _ hk, add_sub_add_right_eq_sub, ← mul_sub, norm_mul,
    Complex.norm_exp]
  exact mul_le_mul_of_nonneg_right (Real.exp_le_exp.2 (zA_re hS hσ hk)) (norm_nonneg _)

/-- One call. -/
theorem mem_atom (hS : ExactSys S) (hσ : PolesLeft S.flt σ) (ho : OscPlay S nw L o)
    {a : Atom ℝ} (ha : AtomOk S.env.fl nw o.prevPhase a) {ys : List ℝ}
    (h : S.atom o a = .ok (o', ys)) (y : List ℂ) :
    ∃ y' ys', S.atom { o with prevY := y } a = .ok ({ o' with prevY := y' }, ys') ∧
      ys'.length = ys.length ∧
      memDist S.n o'.prevY y' ≤ Real.exp (-σ * ys.length) * memDist S.n o.prevY y ∧
      ∀ i < ys.length, |ys.getD i 0 - ys'.getD i 0| ≤
        Real.exp (-σ * (i + 1)) * memDist S.n o.prevY y := by
  have hf := exact_rounding hS
  cases a with
  | sample dir p =>
    unfold atom at h
    obtain ⟨⟨o1, v⟩, e, h⟩ := bind_ok h
    cases h
    obtain ⟨wt, hwt, -⟩ := ho.wt
    obtain ⟨c, t, hn, hno, rfl, rfl, hok, -⟩ := step_form' hf hS.B ho hwt ha.1 ha.2 e
    have ho2 : OscPlay S nw L { o with prevY := y } :=
      ⟨⟨ho.wt, ho.mip0, ho.mip1, ho.j0, ho.j1, ho.jf, ho.jb, ho.p0, ho.p1, ho.red, ho.fl, ho.diff,
        ho.posF, ho.posB⟩, ho.crt0, ho.crt1⟩
    have e2 := step_form (o := { o with prevY := y }) hf hS.B ho2 hwt ha.1 ha.2 hn hno
    have hd := cpxY_dist hS hσ o.prevY y (S.acc wt L o t p (dirDiff S.env.fl dir p o.prevPhase))
    refine ⟨S.cpxY y (S.acc wt L o t p (dirDiff S.env.fl dir p o.prevPhase)),
      [S.outReal (S.cpxY y (S.acc wt L o t p (dirDiff S.env.fl dir p o.prevPhase)))], ?_, ?_, ?_, ?_⟩
    · unfold atom
      dsimp only
      rw [e2, R.ok_bind]
      rfl
    · rfl
    · simpa [nextOsc] using hd
    · intro i hi
      have : i = 0 := by simpa using hi
      subst this
      simp only [List.getD_cons_zero]
      rw [outReal_eq hS, outReal_eq hS]
      refine (output_dist (cpxY_length _ _) (cpxY_length _ _)).trans ?_
      simpa using hd
  | setWaveform i =>
    unfold atom at h
    obtain ⟨o1, e, h⟩ := bind_ok h
    cases h
    unfold setWaveform at e
    obtain ⟨_, e1, e⟩ := bind_ok e
    cases e
    refine ⟨y, [], ?_, rfl, by simp, by simp⟩
    unfold atom setWaveform
    dsimp only
    rw [e1]; rfl
  | reset p d =>
    unfold atom at h
    obtain ⟨o1, e, h⟩ := bind_ok h
    cases h
    refine ⟨o'.prevY, [], ?_, rfl, ?_, by simp⟩
    · have : S.resetInternals { o with prevY := y } p d = S.resetInternals o p d := rfl
      unfold atom
      dsimp only
      rw [this, e]; rfl
    · have : memDist S.n o'.prevY o'.prevY = 0 := by simp [memDist]
      rw [this]
      exact mul_nonneg (Real.exp_nonneg _) (memDist_nonneg _ _ _)

/-- Many calls. -/
theorem mem_atoms (hS : ExactSys S) (hσ : PolesLeft S.flt σ) (ho : OscPlay S nw L o)
    {as : List (Atom ℝ)} (ha : AtomsOk S.env.fl nw o.prevPhase as) {ys : List ℝ}
    (h : S.atoms o as = .ok (o', ys)) (y : List ℂ) :
    ∃ y' ys', S.atoms { o with prevY := y } as = .ok ({ o' with prevY := y' }, ys') ∧
      ys'.length = ys.length ∧
      memDist S.n o'.prevY y' ≤ Real.exp (-σ * ys.length) * memDist S.n o.prevY y ∧
      ∀ i < ys.length, |ys.getD i 0 - ys'.getD i 0| ≤
        Real.exp (-σ * (i + 1)) * memDist S.n o.prevY y := by
  induction as generalizing o ys y with
  | nil =>
    cases h
    exact ⟨y, [], rfl, rfl, by simp, by simp⟩
  | cons a as ih =>
    unfold atoms at h
    obtain ⟨⟨o1, y1⟩, e1, h⟩ := bind_ok h
    obtain ⟨⟨o2, y2⟩, e2, h⟩ := bind_ok h
    cases h
    obtain ⟨p1, p2⟩ := atom_play (exact_rounding hS) hS.B ho ha.1 e1
    obtain ⟨m1, w1, f1, l1, d1, b1⟩ := mem_atom hS hσ ho ha.1 e1 y
    obtain ⟨m2, w2, f2, l2, d2, b2⟩ := ih p1 (by rw [p2]; exact ha.2) e2 m1
    refine ⟨m2, w1 ++ w2, ?_, by simp [l1, l2], ?_, ?_⟩
    · unfold atoms
      rw [f1, R.ok_bind]
      dsimp only
      rw [f2, R.ok_bind]
      rfl
    · refine d2.trans ((mul_le_mul_of_nonneg_left d1 (Real.exp_nonneg _)).trans ?_)
      rw [← mul_assoc, ← Real.exp_add, List.length_append]
      push_cast
      apply le_of_eq; ring_nf
    · intro i hi
      by_cases h : i < y1.length
      · rw [List.getD_append _ _ _ _ h, List.getD_append _ _ _ _ (by omega)]
        exact b1 i h
      · rw [List.getD_append_right _ _ _ _ (by omega), List.getD_append_right _ _ _ _ (by omega), l1]
        have hi' : i - y1.length < y2.length := by rw [List.length_append] at hi; omega
        refine (b2 _ hi').trans ((mul_le_mul_of_nonneg_left d1 (Real.exp_nonneg _)).trans ?_)
        rw [← mul_assoc, ← Real.exp_add]
        apply le_of_eq
        congr 2
        rw [Nat.cast_sub (by omega)]; ring

end Sys
end Adwt
