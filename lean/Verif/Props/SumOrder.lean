import Verif.Spec.SumTree
import Verif.Proofs.SumTree
import Verif.Props.Scratch

/-!
# C85: the order in which the filter's outputs are added up
-/

set_option linter.unusedSectionVars false

namespace Adwt

section
variable {C : Type} [Zero C] [Add C] [Sub C] [Mul C] [Div C]

theorem step_sum {S : Sys ℝ C} {dir : Sys.Direction} {o o' : Osc ℝ C} {p y : ℝ}
    (h : S.stepDir dir o p = .ok (o', y)) : y = S.outReal o'.prevY := by
  have hf : ∀ d, S.processSampleFwd o p d = .ok (o', y) → y = S.outReal o'.prevY := by
    intro d h
    unfold Sys.processSampleFwd at h
    dsimp only at h
    obtain ⟨_, -, h⟩ := bind_ok h
    cases hw : o.wt with
    | none => rw [hw] at h; cases h
    | some wt0 =>
      rw [hw] at h
      dsimp only at h
      obtain ⟨⟨wt, t⟩, -, h⟩ := bind_ok h
      obtain ⟨_, -, h⟩ := bind_ok h
      obtain ⟨_, -, h⟩ := bind_ok h
      obtain ⟨_, -, h⟩ := bind_ok h
      obtain ⟨_, -, h⟩ := bind_ok h
      obtain ⟨_, -, h⟩ := bind_ok h
      obtain ⟨_, -, h⟩ := bind_ok h
      obtain ⟨_, -, h⟩ := bind_ok h
      obtain ⟨_, -, h⟩ := bind_ok h
      obtain ⟨_, -, h⟩ := bind_ok h
      obtain ⟨_, -, h⟩ := bind_ok h
      cases h
      rfl
  have hb : ∀ d, S.processSampleBwd o p d = .ok (o', y) → y = S.outReal o'.prevY := by
    intro d h
    unfold Sys.processSampleBwd at h
    dsimp only at h
    obtain ⟨_, -, h⟩ := bind_ok h
    cases hw : o.wt with
    | none => rw [hw] at h; cases h
    | some wt0 =>
      rw [hw] at h
      dsimp only at h
      obtain ⟨⟨wt, t⟩, -, h⟩ := bind_ok h
      obtain ⟨_, -, h⟩ := bind_ok h
      obtain ⟨_, -, h⟩ := bind_ok h
      obtain ⟨_, -, h⟩ := bind_ok h
      obtain ⟨_, -, h⟩ := bind_ok h
      obtain ⟨_, -, h⟩ := bind_ok h
      obtain ⟨_, -, h⟩ := bind_ok h
      obtain ⟨_, -, h⟩ := bind_ok h
      obtain ⟨_, -, h⟩ := bind_ok h
      obtain ⟨_, -, h⟩ := bind_ok h
      obtain ⟨_, -, h⟩ := bind_ok h
      cases h
      rfl
  cases dir with
  | kForward =>
    replace h : S.stepFwd o p = _ := h
    unfold Sys.stepFwd at h
    dsimp only at h
    obtain ⟨_, -, h⟩ := bind_ok h
    exact hf _ h
  | kBidirectionnal =>
    replace h : S.stepBi o p = _ := h
    unfold Sys.stepBi at h
    dsimp only at h
    split_ifs at h
    · exact hf _ h
    · exact hb _ h

end
end Adwt

namespace Adwt.Props
open CrossFader WavetableData

section
variable {C : Type} [Zero C] [Add C] [Sub C] [Mul C] [Div C]

/-- C85, the code's own order: whatever the arithmetic, a sample that `process` writes is the real part of
the sum, in one of the orders the other theorems speak of, of the sections' outputs that it stores. -/
theorem C85_code (S : Sys ℝ C) (dir : Sys.Direction) (o o' : Osc ℝ C) (p z y : ℝ)
    (h : S.process dir o [p] [z] = .ok (o', [y])) :
    ∃ T : SumTree, T.Sums o'.prevY.length ∧ y = S.ops.re (T.eval fun k => o'.prevY.getD k 0) := by
  refine ⟨SumTree.code o'.prevY.length, SumTree.code_sums _, ?_⟩
  rw [SumTree.code_eval]
  unfold Sys.process at h
  dsimp only at h
  replace h : (chk S.env.dbg ([p].length = [z].length) >>= fun _ =>
      S.runDir dir o (List.take [z].length [p]) >>= fun x =>
      (pure (x.1, x.2 ++ List.drop x.2.length [z]) : R _)) = .ok (o', [y]) := by
    split_ifs at h
    · exact (bind_ok h).choose_spec.2
    · exact h
  obtain ⟨_, -, h⟩ := bind_ok h
  obtain ⟨⟨o1, ys⟩, h1, h⟩ := bind_ok h
  replace h1 : S.runDir dir o [p] = .ok (o1, ys) := h1
  unfold Sys.runDir at h1
  obtain ⟨⟨o2, y2⟩, h2, h1⟩ := bind_ok h1
  unfold Sys.runDir at h1
  cases h1
  cases h
  exact step_sum h2

end

/-- C85, exact arithmetic: every order of summation gives the output of C72 and C84. -/
theorem C85_exact (S : Sys ℝ ℂ) (hS : ExactSys S) (hl : Log2Spec S.env.log2f) (ws : List ℝ)
    (nw L m : ℕ) (st sw : ℕ → Osc ℝ ℂ) (w : ℕ → ℤ) (dir : ℕ → Sys.Direction) (p y : ℕ → ℝ)
    (t : ℕ → MipMapIndices ℝ) (h : SwitchedRun S ws nw L m st sw w dir p y t) (n : ℕ) (hn : n < m)
    (T : SumTree) (hT : T.Sums S.n) :
    S.ops.re (T.eval fun k => (st (n + 1)).prevY.getD k 0) = y n := by
  obtain ⟨-, -, -, -, h2⟩ := Sys.run_convW hS hl h (n := n + 1) hn
  obtain ⟨hlen, hy⟩ := h2 n rfl
  rw [hy, hS.ops, SumTree.eval_exact, (hT.1.map _).sum_eq]
  unfold output
  have e : (st (n + 1)).prevY.sum = ∑ k ∈ Finset.range S.n, (st (n + 1)).prevY.getD k 0 := by
    rw [← hlen, Finset.sum_range, ← List.sum_ofFn]
    congr 1
    apply List.ext_getElem
    · simp
    · intro i h1 h2
      simp [List.getD_eq_getElem?_getD, h1]
  rw [e]
  rfl

/-- C85, float arithmetic: in any run of any length, with any waveform chosen before each sample, adding up
the sections' outputs of a sample in any order whatever gives a value within the same distance of the
continuous-time filter's output as C72 and C84 give for the order of the source code. -/
theorem C85_float {C : Type} [Zero C] [Add C] [Sub C] [Mul C] [Div C]
    (S : Sys ℝ C) (val : C → ℂ) (ε : ℝ) (hS : FloatSys S val ε)
    (hl : Log2Spec S.env.log2f) (ws : List ℝ) (nw L : ℕ) (A Λ : ℝ)
    (hA : TablesWithin S.env ws nw L A) (hΛ : SlopesWithin S.env ws nw L Λ)
    (M0 : 1 / 2 ^ 40 ≤ A + Λ) (M1 : A + Λ ≤ 2 ^ 24)
    (m : ℕ) (st sw : ℕ → Osc ℝ C) (w : ℕ → ℤ) (dir : ℕ → Sys.Direction) (p y : ℕ → ℝ)
    (t : ℕ → MipMapIndices ℝ)
    (h : SwitchedRun S ws nw L m st sw w dir p y t) (hp : ∀ i < m, IsPhase S.env.fl (p i))
    (hd : ∀ i < m, 1 / 2 ^ 100 ≤ |(st (i + 1)).prevPhaseDiff|) (n : ℕ) (hn : n < m)
    (T : SumTree) (hT : T.Sums S.n) :
    |S.ops.re (T.eval fun k => (st (n + 1)).prevY.getD k 0) -
        filtered (valFilter val S.flt) (playedW S.env ws L w t
          (unwrapped (st 0).prevPhase (trueStepOf S.env.fl dir (st 0).prevPhase p))) (n + 1)| ≤
      ε * (A + Λ) * roundoffGain (valFilter val S.flt) 6.4 := by
  have hz := Sys.zero_mem (S := S) hS h.zero
  obtain ⟨hlen, hsm⟩ := Sys.run_small hS hl hA hΛ M0 M1 h.live hp (by positivity) hz hd hn
  have := Sys.run_valueL hS hl hA hΛ M0 M1 h.live hp (by positivity) hz
    (fun _ hi => Sys.run_nuW hS hl h hp hi) hd hn (tree_output hS hlen hsm hT)
  simpa using this

section
variable {rnd : ℝ → ℝ} [GoodRnd rnd]

/-- C85 for the library's oscillators with any good rounding (binary32 with or without subnormals): in the
endless runs of C84, every output stays within the bound of C84 even if the sections' outputs are added up
in any order, another one at every sample. -/
theorem C85_rounded (E : Env ℝ) (hf : Rounding rnd) (hE : E.fl = rnd)
    (hdb : ∀ x, |E.dbl x - x| ≤ |x| / 2 ^ 53) (hl : Log2Spec E.log2f)
    (ft : FilterType) (ws : List ℝ) (nw L : ℕ) (A Λ : ℝ)
    (hA : TablesWithin E ws nw L A) (hΛ : SlopesWithin E ws nw L Λ)
    (M0 : 1 / 2 ^ 40 ≤ A + Λ) (M1 : A + Λ ≤ 2 ^ 24)
    (sr dur : ℝ) (wt : WavetableData ℝ) (hb : Built E ws nw L sr dur wt)
    (o0 o : Osc ℝ (CFl rnd)) (D : ℝ) (r : ℤ) (x : ℕ → ℝ)
    (hx : ∀ n, PhaseOk rnd (x n)) (hoff : ∀ n, OffDenormal (2 ^ L) (x n)) (hD : D ≠ 0)
    (hi : (sysRnd rnd E ft).init o0 (some wt) (x 0) D = .ok (o, r))
    (w : ℕ → ℤ) (hw : ∀ n, 0 ≤ w n ∧ w n < nw) (dir : ℕ → Sys.Direction)
    (hstep : ∀ n, StepOk (dir n) (x n) (x (n + 1)))
    (hmin : ∀ n, 1 / 2 ^ 100 ≤ |Sys.dirDiff rnd (dir n) (x (n + 1)) (x n)|)
    (hslow : FallsSlowly L ⌊rnd (dur * sr)⌋ (stepsAlong rnd D dir x))
    (hclear : ClearOfChanges rnd L ⌊rnd (dur * sr)⌋ (stepsAlong rnd D dir x) x)
    (T : ℕ → SumTree) (hT : ∀ n, (T n).Sums (rLit ft).length) :
    ∃ (st sw : ℕ → Osc ℝ (CFl rnd)) (y : ℕ → ℝ) (t : ℕ → MipMapIndices ℝ), st 0 = o ∧
      (∀ n, (sysRnd rnd E ft).setWaveform (st n) (w n) = .ok (sw n)) ∧
      (∀ n, (sysRnd rnd E ft).process (dir n) (sw n) [x (n + 1)] [0] = .ok (st (n + 1), [y n])) ∧
      (∀ n, NextIndices (sysRnd rnd E ft) (sw n) (Sys.dirDiff rnd (dir n) (x (n + 1)) (x n)) (t n)) ∧
      ∀ n, |(sysRnd rnd E ft).ops.re ((T n).eval fun k => (st (n + 1)).prevY.getD k 0) -
          filtered (valFilter CFloat.val (sysRnd rnd E ft).flt) (playedW E ws L w t
            (unwrapped (x 0) (trueStepOf rnd dir (x 0) fun n => x (n + 1)))) (n + 1)| ≤
        1 / 2 ^ 21 * (A + Λ) * roundoffGain (valFilter CFloat.val (sysRnd rnd E ft).flt) 6.4 := by
  subst hE
  have hS : FloatSys (sysRnd E.fl E ft) CFloat.val (1 / 2 ^ 21) := floatSysRnd (E := E) hf rfl hdb ft
  obtain ⟨st, sw, y, t, a1, a2, a3, a4, a5, a6⟩ := scratch_run (S := sysRnd E.fl E ft) (w := w) (dir := dir)
    (x := x) (d := stepsAlong E.fl D dir x) hS.fl hS.B hl hb hx hD hi hw hstep rfl (fun n => rfl)
    hslow hclear hoff
  have a5' : ∀ n, (st (n + 1)).prevPhaseDiff = Sys.dirDiff E.fl (dir n) (x (n + 1)) (x n) := a5
  have hn : (sysRnd E.fl E ft).n = (rLit ft).length := List.length_map _
  refine ⟨st, sw, y, t, a1, a3, a4, fun n => ?_, fun n => ?_⟩
  · have := (a6 (n + 1)).next n (Nat.lt_succ_self n)
    rw [a5'] at this
    exact this
  · have := C85_float _ _ _ hS hl ws nw L A Λ hA hΛ M0 M1 (n + 1) st sw w dir _ y t
      (a6 (n + 1)) (fun i _ => (hx _).2.2)
      (fun i _ => by rw [a5']; exact hmin i) n (Nat.lt_succ_self n) (T n) (by rw [hn]; exact hT n)
    rw [a2] at this
    exact this

end

/-- C85 for the library's oscillators on any machine with IEEE binary32 arithmetic, any built-in filter:
in the endless runs of C84, every output stays within the bound of C84 even if the sections' outputs are
added up in any order, another one at every sample. -/
theorem C85_builtin (E : Env ℝ) (hE : IeeeHost E) (ft : FilterType) (ws : List ℝ) (nw L : ℕ) (A Λ : ℝ)
    (hA : TablesWithin E ws nw L A) (hΛ : SlopesWithin E ws nw L Λ)
    (M0 : 1 / 2 ^ 40 ≤ A + Λ) (M1 : A + Λ ≤ 2 ^ 24)
    (sr dur : ℝ) (wt : WavetableData ℝ) (hb : Built E ws nw L sr dur wt)
    (o0 o : Osc ℝ CFloat) (D : ℝ) (r : ℤ) (x : ℕ → ℝ)
    (hx : ∀ n, 0 ≤ x n ∧ x n < 1 ∧ ieee32 (x n) = x n ∧ (x n = 0 ∨ 1 / 2 ^ 126 ≤ x n)) (hD : D ≠ 0)
    (hi : (sysRnd ieee32 E ft).init o0 (some wt) (x 0) D = .ok (o, r))
    (w : ℕ → ℤ) (hw : ∀ n, 0 ≤ w n ∧ w n < nw) (dir : ℕ → Sys.Direction)
    (hstep : ∀ n, StepOk (dir n) (x n) (x (n + 1)))
    (hmin : ∀ n, 1 / 2 ^ 100 ≤ |Sys.dirDiff ieee32 (dir n) (x (n + 1)) (x n)|)
    (hslow : FallsSlowly L ⌊ieee32 (dur * sr)⌋ (stepsAlong ieee32 D dir x))
    (hclear : ClearOfChanges ieee32 L ⌊ieee32 (dur * sr)⌋ (stepsAlong ieee32 D dir x) x)
    (T : ℕ → SumTree) (hT : ∀ n, (T n).Sums (rLit ft).length) :
    ∃ (st sw : ℕ → Osc ℝ CFloat) (y : ℕ → ℝ) (t : ℕ → MipMapIndices ℝ), st 0 = o ∧
      (∀ n, (sysRnd ieee32 E ft).setWaveform (st n) (w n) = .ok (sw n)) ∧
      (∀ n, (sysRnd ieee32 E ft).process (dir n) (sw n) [x (n + 1)] [0] = .ok (st (n + 1), [y n])) ∧
      (∀ n, NextIndices (sysRnd ieee32 E ft) (sw n) (Sys.dirDiff ieee32 (dir n) (x (n + 1)) (x n)) (t n)) ∧
      ∀ n, |(sysRnd ieee32 E ft).ops.re ((T n).eval fun k => (st (n + 1)).prevY.getD k 0) -
          filtered (valFilter CFloat.val (sysRnd ieee32 E ft).flt) (playedW E ws L w t
            (unwrapped (x 0) (trueStepOf ieee32 dir (x 0) fun n => x (n + 1)))) (n + 1)| ≤
        1 / 2 ^ 21 * (A + Λ) * roundoffGain (valFilter CFloat.val (sysRnd ieee32 E ft).flt) 6.4 :=
  C85_rounded E rounding_ieee32 hE.fl hE.dbl hE.log2 ft ws nw L A Λ hA hΛ M0 M1 sr dur wt hb o0 o D r x
    (fun n => ⟨(hx n).1, (hx n).2.1, isPhase_ieee32 (hx n).2.2.1⟩)
    (fun n => normal_offDenormal (hx n).2.2.1 (hx n).1 (hx n).2.2.2 (hE.L100 hb)) hD hi w hw dir hstep
    hmin hslow hclear T hT

/-! ### the hypotheses are met -/

/-- the last section first -/
def fromTheEnd : ℕ → SumTree
  | 0 => .zero
  | n + 1 => .add (.leaf n) (fromTheEnd n)

theorem fromTheEnd_sums (n : ℕ) : (fromTheEnd n).Sums n := by
  induction n with
  | zero => exact ⟨List.Perm.refl _, le_rfl⟩
  | succ n ih =>
    refine ⟨?_, ?_⟩
    · show (n :: (fromTheEnd n).leaves).Perm _
      rw [List.range_succ]
      exact (ih.1.cons n).trans (List.perm_append_singleton _ _).symm
    · show 0 + (fromTheEnd n).adds + 1 ≤ n + 1
      have := ih.2
      omega

/-- four at a time, as a vector unit would: `(0 + 2) + (1 + 3)` -/
example : (SumTree.add (.add (.leaf 0) (.leaf 2)) (.add (.leaf 1) (.leaf 3))).Sums 4 :=
  ⟨by decide, by decide⟩

/-- A section left out or counted twice is not an order of summation. -/
example : ¬ (SumTree.add (.leaf 0) (.leaf 2)).Sums 3 ∧
    ¬ (SumTree.add (.leaf 0) (.add (.leaf 1) (.leaf 1))).Sums 3 := by
  refine ⟨fun h => ?_, fun h => ?_⟩
  · have := h.1.length_eq; simp [SumTree.leaves] at this
  · have := h.1.mem_iff (a := 2); simp [SumTree.leaves] at this

/-- C85 applies, for every built-in filter, to the run of `scratchExample` with the sections added up from
the last to the first at every other sample. -/
example (ft : FilterType) (n : ℕ) :
    (if n % 2 = 0 then fromTheEnd (rLit ft).length else SumTree.code (rLit ft).length).Sums (rLit ft).length := by
  split_ifs
  · exact fromTheEnd_sums _
  · exact SumTree.code_sums _

end Adwt.Props
