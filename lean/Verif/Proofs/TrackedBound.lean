import Verif.Proofs.BoundRun
import Verif.Props.Exact
import Mathlib.Analysis.SpecialFunctions.Integrals.Basic

/-!
# The output of a correctly tracked history is bounded by the filter's gain
-/

set_option linter.unusedSectionVars false

namespace Adwt

theorem interp_bound {y : List ℝ} {A : ℝ} (h : ∀ x ∈ y, |x| ≤ A) (hl : 0 < y.length) (u : ℝ) :
    |interp y u| ≤ A := by
  unfold interp
  have h0 := Int.fract_nonneg (u * y.length)
  have h1 := (Int.fract_lt_one (u * y.length)).le
  rw [← Int.self_sub_floor] at h0 h1
  set θ := u * (y.length : ℝ) - ⌊u * y.length⌋
  have a := abs_le.1 (cyc_bound h hl ⌊u * y.length⌋)
  have b := abs_le.1 (cyc_bound h hl (⌊u * y.length⌋ + 1))
  rw [abs_le]
  constructor <;> nlinarith [mul_nonneg h0 (sub_nonneg.2 b.2), mul_nonneg h0 (sub_nonneg.2 a.2),
    mul_nonneg (sub_nonneg.2 h1) (sub_nonneg.2 a.2), mul_nonneg h0 (sub_nonneg.2 b.1),
    mul_nonneg (sub_nonneg.2 h1) (sub_nonneg.2 a.1)]

theorem integral_decay {s : ℝ} (hs : s ≠ 0) (A : ℝ) :
    ∫ t in (0 : ℝ)..1, Real.exp (s * (1 - t)) * A = (1 - Real.exp s) / -s * A := by
  have hd : ∀ t ∈ Set.uIcc (0 : ℝ) 1,
      HasDerivAt (fun t => Real.exp (s * (1 - t)) / -s * A) (Real.exp (s * (1 - t)) * A) t := by
    intro t _
    have h1 : HasDerivAt (fun t : ℝ => s * (1 - t)) (s * (0 - 1)) t :=
      ((hasDerivAt_const t (1 : ℝ)).sub (hasDerivAt_id t)).const_mul s
    have := ((h1.exp).div_const (-s)).mul_const A
    refine this.congr_deriv ?_
    field_simp
    ring
  rw [intervalIntegral.integral_eq_sub_of_hasDerivAt hd
    (Continuous.intervalIntegrable (by fun_prop) _ _)]
  simp
  ring

theorem response_bound {W : ℝ → ℝ} {A : ℝ} (hW : ∀ u, |W u| ≤ A) {z : ℂ} (hz : z.re < 0)
    (x d : ℝ) : ‖response W z x d‖ ≤ (1 - Real.exp z.re) / -z.re * A := by
  unfold response
  rw [← integral_decay hz.ne A]
  apply intervalIntegral.norm_integral_le_of_norm_le zero_le_one
  · refine Filter.Eventually.of_forall fun t _ => ?_
    rw [norm_mul, Complex.norm_exp, Complex.norm_real, Real.norm_eq_abs]
    have : (z * (1 - (t : ℂ))).re = z.re * (1 - t) := by simp
    rw [this]
    exact mul_le_mul_of_nonneg_left (hW _) (Real.exp_nonneg _)
  · exact Continuous.intervalIntegrable (by fun_prop) _ _

namespace Sys
variable {S : Sys ℝ ℂ} {nw L : ℕ} {o o' : Osc ℝ ℂ} {ws : List ℝ} {A : ℝ}

theorem nextMemory_getD {flt : Filter ℂ} {y : List ℂ} {W : ℝ → ℝ} {x d : ℝ} {k : ℕ}
    (hk : k < flt.r.length) : (nextMemory flt y W x d).getD k 0 =
    Complex.exp (flt.z.getD k 0) * y.getD k 0 +
      2 * flt.r.getD k 0 * response W (flt.z.getD k 0) x d := by
  unfold nextMemory
  rw [List.getD_eq_getElem?_getD, List.getElem?_map, List.getElem?_range hk]
  rfl

theorem nextMemory_length {flt : Filter ℂ} {y : List ℂ} {W : ℝ → ℝ} {x d : ℝ} :
    (nextMemory flt y W x d).length = flt.r.length := by
  unfold nextMemory; simp

theorem nextMemory_bound {flt : Filter ℂ} {W : ℝ → ℝ} (hW : ∀ u, |W u| ≤ A) {k : ℕ}
    (hk : k < flt.r.length) (hz : (flt.z.getD k 0).re < 0) {y : List ℂ} {m : ℝ}
    (hy : ‖y.getD k 0‖ ≤ m) (hm : 2 * ‖flt.r.getD k 0‖ / -(flt.z.getD k 0).re * A ≤ m) (x d : ℝ) :
    ‖(nextMemory flt y W x d).getD k 0‖ ≤ m := by
  rw [nextMemory_getD hk]
  have he : Real.exp (flt.z.getD k 0).re < 1 := by
    rw [← Real.exp_zero]; exact Real.exp_lt_exp.2 hz
  have hA : 0 ≤ A := (abs_nonneg _).trans (hW 0)
  refine (norm_add_le _ _).trans ?_
  rw [norm_mul, norm_mul, norm_mul, Complex.norm_exp, Complex.norm_two]
  have e1 : 2 * ‖flt.r.getD k 0‖ * ‖response W (flt.z.getD k 0) x d‖ ≤
      (1 - Real.exp (flt.z.getD k 0).re) * m := by
    calc _ ≤ 2 * ‖flt.r.getD k 0‖ *
          ((1 - Real.exp (flt.z.getD k 0).re) / -(flt.z.getD k 0).re * A) :=
          mul_le_mul_of_nonneg_left (response_bound hW hz x d) (by positivity)
      _ = (1 - Real.exp (flt.z.getD k 0).re) *
          (2 * ‖flt.r.getD k 0‖ / -(flt.z.getD k 0).re * A) := by ring
      _ ≤ _ := mul_le_mul_of_nonneg_left hm (by linarith)
  have e2 : Real.exp (flt.z.getD k 0).re * ‖y.getD k 0‖ ≤ Real.exp (flt.z.getD k 0).re * m :=
    mul_le_mul_of_nonneg_left hy (Real.exp_nonneg _)
  linarith

theorem mixture_bound {wt : WavetableData ℝ} (hlin : HasLines S.env ws nw L wt)
    (hA : TablesWithin S.env ws nw L A) {w : ℤ} (h0 : 0 ≤ w) (h1 : w < nw) {t : MipMapIndices ℝ}
    (b0 : 0 ≤ t.idx) (b1 : t.idx < (L : ℤ) - 1)
    (b2 : t.weightUp ≠ 0 → t.idxUp = t.idx + 1 ∧ t.idxUp < (L : ℤ) - 1)
    (hw : t.weight + t.weightUp = 1) (hw0 : 0 ≤ t.weight) (hw1 : 0 ≤ t.weightUp) (u : ℝ) :
    |mixture S.env ws L w t u| ≤ A := by
  have key : ∀ i : ℤ, 0 ≤ i → i < (L : ℤ) - 1 → |waveAt S.env ws L w i u| ≤ A := by
    intro i c0 c1
    apply interp_bound (hA _ (by omega) _ (by omega))
    rw [hlin.len w i h0 h1 c0 c1]; positivity
  unfold mixture
  refine (abs_add_le _ _).trans ?_
  rw [abs_mul, abs_mul, abs_of_nonneg hw0, abs_of_nonneg hw1]
  have a1 := mul_le_mul_of_nonneg_left (key _ b0 b1) hw0
  have a2 : t.weightUp * |waveAt S.env ws L w t.idxUp u| ≤ t.weightUp * A := by
    by_cases h : t.weightUp = 0
    · rw [h]; simp
    · obtain ⟨c1, c2⟩ := b2 h
      exact mul_le_mul_of_nonneg_left (key _ (by omega) c2) hw1
  calc _ ≤ t.weight * A + t.weightUp * A := add_le_add a1 a2
    _ = A := by rw [← add_mul, hw, one_mul]

theorem next_facts (hS : ExactSys S) (ho : OscPlay S nw L o) {d : ℝ} (hd : d ≠ 0)
    {t : MipMapIndices ℝ} (ht : NextIndices S o d t) :
    0 ≤ t.idx ∧ t.idx < (L : ℤ) - 1 ∧
      (t.weightUp ≠ 0 → t.idxUp = t.idx + 1 ∧ t.idxUp < (L : ℤ) - 1) ∧
      t.weight + t.weightUp = 1 ∧ 0 ≤ t.weight ∧ 0 ≤ t.weightUp := by
  obtain ⟨wt, wt', hwt, h⟩ := ht
  have hw : WtOk nw L wt := by
    obtain ⟨wt', e', h⟩ := ho.wt
    rw [hwt] at e'; cases e'; exact h
  obtain ⟨c, t', hn, hfind, -, -, b0, b1, b2⟩ :=
    find_spec (exact_rounding hS) hw (abs_pos.2 hd)
  rw [h] at hfind
  cases hfind
  exact ⟨b0, b1, b2, weight_one hS.fl hw.inv (abs_pos.2 hd) hn⟩

theorem tracked_atoms (hS : ExactSys S) {ops : List (Op ℝ)} (hT : Tracked S L o ops)
    (ho : OscPlay S nw L o)
    {wt : WavetableData ℝ} (hwt : o.wt = some wt) (hlin : HasLines S.env ws nw L wt)
    (hA : TablesWithin S.env ws nw L A) (hA0 : 0 ≤ A)
    (hz : ∀ k < S.n, (S.flt.z.getD k 0).re < 0)
    {m : ℕ → ℝ} (hm : ∀ k < S.n, 2 * ‖S.flt.r.getD k 0‖ / -(S.flt.z.getD k 0).re * A ≤ m k)
    (hy : ∀ k < S.n, ‖o.prevY.getD k 0‖ ≤ m k)
    (ha : AtomsOk S.env.fl nw o.prevPhase (ops.flatMap opAtoms)) {ys : List ℝ}
    (h : S.atoms o (ops.flatMap opAtoms) = .ok (o', ys)) :
    ∀ y ∈ ys, |y| ≤ ∑ k ∈ Finset.range S.n, m k := by
  have hf := exact_rounding hS
  induction hT generalizing ys wt with
  | done => cases h; simp
  | block hT ih => exact ih ho hwt hlin hy ha h
  | @sample o o1 dir p ps ops ys1 t hp ht hmv hx hT ih =>
    have ha' : AtomsOk S.env.fl nw o.prevPhase
      (.sample dir p :: (Op.process dir ps :: ops).flatMap opAtoms) := ha
    have h' : S.atoms o (.sample dir p :: (Op.process dir ps :: ops).flatMap opAtoms) = .ok (o', ys) := h
    unfold atoms at h'
    obtain ⟨⟨o2, y1⟩, e1, h'⟩ := bind_ok h'
    obtain ⟨⟨o3, y2⟩, e2, h'⟩ := bind_ok h'
    cases h'
    obtain ⟨p1, p2⟩ := atom_play hf hS.B ho ha'.1 e1
    unfold atom at e1
    obtain ⟨⟨o1', v⟩, e, e1⟩ := bind_ok e1
    cases e1
    obtain ⟨y, e', -⟩ := Props.process_one (by rw [hwt]; rfl) hp
    rw [e'] at e
    cases e
    have hd := (Sys.stepDir_tables e').2.2.1
    rw [hd] at ht
    obtain ⟨a1, a2, -, x, a3⟩ := step_exact hS ho hwt hlin ha'.1.1 ha'.1.2 e' ht hmv hx
    obtain ⟨r0, -⟩ := dirDiff_range hf ho.toOscOk ha'.1.1 ha'.1.2
    obtain ⟨b0, b1, b2, b3, b4, b5⟩ := next_facts hS ho r0 ht
    have hmem : ∀ k < S.n, ‖o1.prevY.getD k 0‖ ≤ m k := by
      intro k hk
      rw [a1]
      exact nextMemory_bound (mixture_bound hlin hA ho.crt0 ho.crt1 b0 b1 b2 b3 b4 b5) hk (hz k hk)
        (hy k hk) (hm k hk) _ _
    have key := ih p1 a3 (hlin.with_cf x) hmem (by rw [p2]; exact ha'.2) e2
    intro y hy'
    rcases List.mem_append.1 hy' with h | h
    · rw [List.mem_singleton.1 h, a2]
      exact output_bound (by rw [a1]; exact nextMemory_length) hmem
    · exact key y h
  | @setWaveform o o1 i ops hp hT ih =>
    have ha' : AtomsOk S.env.fl nw o.prevPhase (.setWaveform i :: ops.flatMap opAtoms) := ha
    have h' : S.atoms o (.setWaveform i :: ops.flatMap opAtoms) = .ok (o', ys) := h
    unfold atoms at h'
    obtain ⟨⟨o2, y1⟩, e1, h'⟩ := bind_ok h'
    obtain ⟨⟨o3, y2⟩, e2, h'⟩ := bind_ok h'
    cases h'
    obtain ⟨p1, p2⟩ := atom_play hf hS.B ho ha'.1 e1
    unfold atom at e1
    obtain ⟨o1', e, e1⟩ := bind_ok e1
    cases e1
    rw [hp] at e
    cases e
    unfold Sys.setWaveform at hp
    obtain ⟨_, _, hp⟩ := bind_ok hp
    cases hp
    exact ih p1 hwt hlin hy (by rw [p2]; exact ha'.2) e2
  | @reset o o1 p d ops hp hT ih =>
    have ha' : AtomsOk S.env.fl nw o.prevPhase (.reset p d :: ops.flatMap opAtoms) := ha
    have h' : S.atoms o (.reset p d :: ops.flatMap opAtoms) = .ok (o', ys) := h
    unfold atoms at h'
    obtain ⟨⟨o2, y1⟩, e1, h'⟩ := bind_ok h'
    obtain ⟨⟨o3, y2⟩, e2, h'⟩ := bind_ok h'
    cases h'
    obtain ⟨p1, p2⟩ := atom_play hf hS.B ho ha'.1 e1
    unfold atom at e1
    obtain ⟨o1', e, e1⟩ := bind_ok e1
    cases e1
    rw [hp] at e
    cases e
    have hw : WtOk nw L wt := by
      obtain ⟨wt', e', h⟩ := ho.wt
      rw [hwt] at e'; cases e'; exact h
    obtain ⟨c, t, hn, -⟩ := find_spec hf hw (abs_pos.2 ha'.1.2)
    rw [reset_ok hf hwt hw ha'.1.1 ha'.1.2 hn] at hp
    cases hp
    refine ih p1 (wt := { wt with cf := c }) rfl (hlin.with_cf c) ?_ (by rw [p2]; exact ha'.2) e2
    intro k hk
    show ‖(List.replicate S.n (0 : ℂ)).getD k 0‖ ≤ _
    rw [replicate_getD, norm_zero]
    refine le_trans ?_ (hm k hk)
    have := hz k hk
    have : 0 < -(S.flt.z.getD k 0).re := by linarith
    positivity

end Sys
end Adwt
