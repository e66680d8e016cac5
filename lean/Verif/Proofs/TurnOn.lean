import Verif.Proofs.Dc
import Verif.Proofs.BoundRun
import Verif.Proofs.Headroom
import Verif.Spec.TurnOn

/-!
# The output of constant waveforms
-/

set_option linter.unusedSectionVars false

namespace Adwt
open MeasureTheory

theorem stepResponse_eq {flt : Filter ℂ} (hz : ∀ k < flt.r.length, flt.z.getD k 0 ≠ 0) (T : ℝ) :
    stepResponse flt T = (∑ k ∈ Finset.range flt.r.length,
      2 * flt.r.getD k 0 / flt.z.getD k 0 * (Complex.exp (flt.z.getD k 0 * T) - 1)).re := by
  have h : ∀ t ∈ Set.uIcc (0 : ℝ) T, HasDerivAt (fun t : ℝ => (∑ k ∈ Finset.range flt.r.length,
      2 * flt.r.getD k 0 / flt.z.getD k 0 * (Complex.exp (flt.z.getD k 0 * t) - 1)).re) (impulse flt t) t := by
    intro t _
    have h1 : ∀ k ∈ Finset.range flt.r.length, HasDerivAt (fun t : ℝ => 2 * flt.r.getD k 0 / flt.z.getD k 0 *
        (Complex.exp (flt.z.getD k 0 * t) - 1)) (2 * flt.r.getD k 0 * Complex.exp (flt.z.getD k 0 * t)) t := by
      intro k hk
      have e1 : HasDerivAt (fun t : ℝ => flt.z.getD k 0 * (t : ℂ)) (flt.z.getD k 0) t := by
        simpa using (Complex.ofRealCLM.hasDerivAt (x := t)).const_mul (flt.z.getD k 0)
      refine ((e1.cexp.sub_const 1).const_mul (2 * flt.r.getD k 0 / flt.z.getD k 0)).congr_deriv ?_
      have := hz k (Finset.mem_range.1 hk)
      field_simp
    have h2 := HasDerivAt.fun_sum h1
    exact (Complex.reCLM.hasFDerivAt.comp_hasDerivAt t h2)
  unfold stepResponse
  rw [intervalIntegral.integral_eq_sub_of_hasDerivAt h ((impulse_continuous flt).intervalIntegrable _ _)]
  simp

namespace Sys
variable {S : Sys ℝ ℂ} {nw L : ℕ} {o o' : Osc ℝ ℂ} {ws : List ℝ} {c : ℝ}

/-- the memory is that of a constant waveform, `n` samples after a reset -/
def TurnMem (S : Sys ℝ ℂ) (c : ℝ) (n : ℕ) (y : List ℂ) : Prop :=
  ∀ k < S.n, y.getD k 0 = 2 * S.rA k / S.zA k * (Complex.exp (S.zA k * (n : ℝ)) - 1) * c

theorem turn_zero {y : List ℂ} (h : ∀ x ∈ y, x = 0) : TurnMem S c 0 y := by
  intro k _
  have : y.getD k 0 = 0 := by
    rw [List.getD_eq_getElem?_getD]
    by_cases hk : k < y.length
    · rw [List.getElem?_eq_getElem hk]; exact h _ (List.getElem_mem hk)
    · rw [List.getElem?_eq_none (by omega)]; rfl
  rw [this]; simp

theorem turn_output (hS : ExactSys S) {n : ℕ} {y : List ℂ} (hl : y.length = S.n) (h : TurnMem S c n y) :
    output y = c * stepResponse S.flt n := by
  have hz : ∀ k < S.flt.r.length, S.flt.z.getD k 0 ≠ 0 := fun k hk => zA_ne hS hk
  rw [stepResponse_eq hz]
  unfold output
  have e : y.sum = ∑ k ∈ Finset.range S.n, y.getD k 0 := by
    have := csum_getD (f := fun x : ℂ => x) y
    rw [List.map_id', hl] at this
    exact this
  rw [e, Finset.sum_congr rfl fun k hk => h k (Finset.mem_range.1 hk), ← Finset.sum_mul, Complex.re_mul_ofReal, mul_comm]
  rfl

theorem turn_step (hS : ExactSys S) (ho : OscPlay S nw L o)
    {wt : WavetableData ℝ} (hwt : o.wt = some wt) (hlin : HasLines S.env ws nw L wt)
    (hc : ∀ w i j : ℤ, 0 ≤ w → w < nw → 0 ≤ i → i < (L : ℤ) - 1 → tabY S.env ws L w i j = c)
    {dir : Direction} {p y : ℝ} (hp : PhaseOk S.env.fl p) (hs : StepOk dir o.prevPhase p)
    (h : S.stepDir dir o p = .ok (o', y)) {n : ℕ} (hm : TurnMem S c n o.prevY) :
    TurnMem S c (n + 1) o'.prevY ∧ y = c * stepResponse S.flt (n + 1 : ℕ) ∧
    ∃ x, o'.wt = some { wt with cf := x } := by
  have hf := exact_rounding hS
  obtain ⟨x, t, hn, hno, rfl, rfl, hok, b0, b1, b2⟩ := step_form' hf hS.B ho hwt hp hs h
  obtain ⟨r0, -⟩ := dirDiff_range hf ho.toOscOk hp hs
  have hw : WtOk nw L wt := by
    obtain ⟨wt', e', h⟩ := ho.wt
    rw [hwt] at e'; cases e'; exact h
  have hw1 := weight_one hS.fl hw.inv (abs_pos.2 r0) hn
  set d := dirDiff S.env.fl dir p o.prevPhase with hd
  have ha : ∀ k < S.n, S.acc wt L o t p d k = S.zA k * (Complex.exp (S.zA k) - 1) * c := by
    intro k hk
    rw [acc_lines hS ho hlin hp b0 b1 b2 (fun h => by have := hw1.1; rw [h] at this; linarith) hk]
    rw [← accV_const S L c o hw1.1 p d k]
    unfold accV mixV
    have e1 : tabY S.env ws L o.crt t.idx = fun _ => c := by
      funext j; exact hc _ _ _ ho.crt0 ho.crt1 b0 b1
    have e2 : t.weightUp ≠ 0 → tabY S.env ws L o.crt t.idxUp = fun _ => c := by
      intro h
      funext j; exact hc _ _ _ ho.crt0 ho.crt1 (by have := (b2 h).1; omega) (b2 h).2
    dsimp only
    rw [e1]
    by_cases h : t.weightUp ≠ 0
    · rw [e2 h]
    · simp only [if_neg h]
  have hm' : TurnMem S c (n + 1) (S.cpxY o.prevY (S.acc wt L o t p d)) := by
    intro k hk
    have hz := zA_ne hS hk
    rw [cpxY_getD hS _ _ hk, hm k hk, ha k hk]
    have e : Complex.exp (S.zA k * (((n + 1 : ℕ) : ℝ) : ℂ)) = Complex.exp (S.zA k) * Complex.exp (S.zA k * ((n : ℝ) : ℂ)) := by
      rw [← Complex.exp_add]; congr 1; push_cast; ring
    rw [e]
    field_simp
    ring
  refine ⟨hm', ?_, x, rfl⟩
  rw [outReal_eq hS]
  exact turn_output hS (cpxY_length _ _) hm'

/-- calls one by one -/
def sinceResetA (s : ℕ → ℝ) : ℕ → List (Atom ℝ) → List ℝ
  | _, [] => []
  | k, .sample _ _ :: as => s (k + 1) :: sinceResetA s (k + 1) as
  | k, .setWaveform _ :: as => sinceResetA s k as
  | _, .reset _ _ :: as => sinceResetA s 0 as

theorem sinceReset_atoms (s : ℕ → ℝ) (k : ℕ) (ops : List (Op ℝ)) :
    sinceResetA s k (ops.flatMap opAtoms) = sinceReset s k ops := by
  induction ops generalizing k with
  | nil => rfl
  | cons op ops ih =>
    rw [List.flatMap_cons]
    cases op with
    | process dir ps =>
      show sinceResetA s k (ps.map (Atom.sample dir) ++ ops.flatMap opAtoms) = _
      unfold sinceReset
      induction ps generalizing k with
      | nil => simp [ih]
      | cons p ps ihp =>
        rw [List.map_cons, List.cons_append, sinceResetA, ihp, List.length_cons, List.range_succ_eq_map]
        simp only [List.map_cons, List.map_map, List.cons_append]
        congr 2
        · refine List.map_congr_left fun i _ => ?_
          simp only [Function.comp_apply]
          congr 1; omega
        · congr 1; omega
    | setWaveform i => simp only [opAtoms, List.singleton_append, sinceResetA, sinceReset, ih]
    | reset p d => simp only [opAtoms, List.singleton_append, sinceResetA, sinceReset, ih]

theorem turn_atoms (hS : ExactSys S) (ho : OscPlay S nw L o)
    {wt : WavetableData ℝ} (hwt : o.wt = some wt) (hlin : HasLines S.env ws nw L wt)
    (hc : ∀ w i j : ℤ, 0 ≤ w → w < nw → 0 ≤ i → i < (L : ℤ) - 1 → tabY S.env ws L w i j = c)
    {as : List (Atom ℝ)} (ha : AtomsOk S.env.fl nw o.prevPhase as) {ys : List ℝ}
    (h : S.atoms o as = .ok (o', ys)) {n : ℕ} (hm : TurnMem S c n o.prevY) :
    ys = sinceResetA (fun n => c * stepResponse S.flt n) n as := by
  have hf := exact_rounding hS
  induction as generalizing o ys wt n with
  | nil => cases h; rfl
  | cons a as ih =>
    unfold atoms at h
    obtain ⟨⟨o1, y1⟩, e1, h⟩ := bind_ok h
    obtain ⟨⟨o2, y2⟩, e2, h⟩ := bind_ok h
    cases h
    obtain ⟨p1, p2⟩ := atom_play hf hS.B ho ha.1 e1
    cases a with
    | sample dir p =>
      unfold atom at e1
      obtain ⟨⟨o1', v⟩, e, e1⟩ := bind_ok e1
      cases e1
      obtain ⟨d1, d2, x, hx⟩ := turn_step hS ho hwt hlin hc ha.1.1 ha.1.2 e hm
      have key := ih p1 hx (hlin.with_cf x) (by rw [p2]; exact ha.2) e2 d1
      rw [sinceResetA, ← key, d2]
      rfl
    | setWaveform i =>
      unfold atom setWaveform at e1
      obtain ⟨o1', e, e1⟩ := bind_ok e1
      cases e1
      obtain ⟨_, _, e⟩ := bind_ok e
      cases e
      exact ih p1 hwt hlin (by rw [p2]; exact ha.2) e2 hm
    | reset p d =>
      have hw : WtOk nw L wt := by
        obtain ⟨wt', e', h⟩ := ho.wt
        rw [hwt] at e'; cases e'; exact h
      unfold atom at e1
      obtain ⟨o1', e, e1⟩ := bind_ok e1
      cases e1
      obtain ⟨c', t, hn, -⟩ := find_spec hf hw (abs_pos.2 ha.1.2)
      rw [reset_ok hf hwt hw ha.1.1 ha.1.2 hn] at e
      cases e
      refine ih p1 (wt := { wt with cf := c' }) rfl (hlin.with_cf c') (by rw [p2]; exact ha.2) e2 ?_
      refine turn_zero fun x hx => ?_
      exact List.eq_of_mem_replicate hx

end Sys
end Adwt
