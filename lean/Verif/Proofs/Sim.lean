import Verif.Proofs.History
import Verif.Spec.Lawful
import Mathlib.Data.Option.Basic

/-!
# Two runs side by side

`Sim P x y`: both executions fail in the same way, or both succeed with `P`-related results.
-/

set_option linter.unusedSectionVars false

namespace Adwt

/-- related outcomes -/
def Sim {α β : Type} (P : α → β → Prop) : R α → R β → Prop
  | .ok a, .ok b => P a b
  | .error e, .error e' => e = e'
  | _, _ => False

namespace Sim
variable {α β γ δ : Type}

theorem bind {P : α → β → Prop} {Q : γ → δ → Prop} {x : R α} {y : R β} {f : α → R γ} {g : β → R δ}
    (h : Sim P x y) (hf : ∀ a b, P a b → Sim Q (f a) (g b)) : Sim Q (x >>= f) (y >>= g) := by
  cases x <;> cases y
  · exact h
  · exact h.elim
  · exact h.elim
  · exact hf _ _ h

theorem refl {P : α → α → Prop} (x : R α) (h : ∀ a, P a a) : Sim P x x := by
  cases x
  · rfl
  · exact h _

theorem ok {P : α → β → Prop} {a : α} {b : β} (h : P a b) : Sim P (.ok a) (.ok b) := h

/-- the same action on both sides -/
theorem bind_same {Q : γ → δ → Prop} (x : R α) {f : α → R γ} {g : α → R δ}
    (hf : ∀ a, Sim Q (f a) (g a)) : Sim Q (x >>= f) (x >>= g) :=
  bind (P := Eq) (refl x fun _ => rfl) fun a b h => by subst h; exact hf a

theorem of_ok {P : α → β → Prop} {x : R α} {y : R β} {p : α → Prop} {q : β → Prop} (hx : Ok x p)
    (hy : Ok y q) (h : ∀ a b, p a → q b → P a b) : Sim P x y := by
  obtain ⟨a, rfl, ha⟩ := hx
  obtain ⟨b, rfl, hb⟩ := hy
  exact h a b ha hb

theorem mono {P Q : α → β → Prop} {x : R α} {y : R β} (h : Sim P x y) (hpq : ∀ a b, P a b → Q a b) :
    Sim Q x y := by
  cases x <;> cases y
  · exact h
  · exact h.elim
  · exact h.elim
  · exact hpq _ _ h

theorem eq_of {x y : R α} (h : Sim Eq x y) : x = y := by
  cases x <;> cases y
  · exact congrArg _ h
  · exact h.elim
  · exact h.elim
  · exact congrArg _ h

theorem foldlM {ι : Type} {P : α → β → Prop} {f : α → ι → R α} {g : β → ι → R β} (l : List ι)
    (h : ∀ a b i, P a b → Sim P (f a i) (g b i)) {a : α} {b : β} (hab : P a b) :
    Sim P (l.foldlM f a) (l.foldlM g b) := by
  induction l generalizing a b with
  | nil => exact hab
  | cons i l ih =>
    rw [List.foldlM_cons, List.foldlM_cons]
    exact bind (h a b i hab) fun a' b' h' => ih h'

end Sim

variable {K C : Type} [Field K] [LinearOrder K] [IsStrictOrderedRing K] [FloorRing K] [Field C]

/-- Two oscillator types that differ at most in the SIMD batch size; if they do, complex arithmetic
is lawful. -/
structure SysSim (S1 S2 : Sys K C) : Prop where
  env : S1.env = S2.env
  ops : S1.ops = S2.ops
  flt : S1.flt = S2.flt
  b1 : 0 < S1.B
  b2 : 0 < S2.B
  law : S1.B = S2.B ∨ S1.ops.Lawful

/-- Two wavetables that agree on the waveforms in `W`. (`-1 ∈ W` is used to say: on everything.) -/
structure WtSim (W : ℤ → Prop) (a b : WavetableData K) : Prop where
  cf : a.cf = b.cf
  ph : ∀ i, a.phaseSpan i = b.phaseSpan i
  len : ∀ i, a.waveformLen i = b.waveformLen i
  m : ∀ w, W w → ∀ i, a.mSpan w i = b.mSpan w i
  q : ∀ w, W w → ∀ i, a.qSpan w i = b.qSpan w i
  md : ∀ w, W w → ∀ i, a.mDiffSpan w i = b.mDiffSpan w i
  qd : ∀ w, W w → ∀ i, a.qDiffSpan w i = b.qDiffSpan w i
  full : W (-1) → a = b

/-- Two oscillators that agree on everything but the waveforms outside `W`. -/
structure OscSim (W : ℤ → Prop) (a b : Osc K C) : Prop where
  wt : (a.wt = none ∧ b.wt = none) ∨ ∃ x y, a.wt = some x ∧ b.wt = some y ∧ WtSim W x y
  prevY : a.prevY = b.prevY
  prevPhase : a.prevPhase = b.prevPhase
  prevPhaseRed : a.prevPhaseRed = b.prevPhaseRed
  prevPhaseDiff : a.prevPhaseDiff = b.prevPhaseDiff
  prevMip : a.prevMip = b.prevMip
  jRed : a.jRed = b.jRed
  prevJRed : a.prevJRed = b.prevJRed
  crt : a.crt = b.crt
  w : W a.crt

theorem OscSim.full {W : ℤ → Prop} {a b : Osc K C} (h : OscSim W a b) (hW : W (-1)) : a = b := by
  have hw : a.wt = b.wt := by
    rcases h.wt with ⟨e1, e2⟩ | ⟨x, y, e1, e2, hw⟩
    · rw [e1, e2]
    · rw [e1, e2, hw.full hW]
  obtain ⟨-, h1, h2, h3, h4, h5, h6, h7, h8, -⟩ := h
  cases a; cases b
  dsimp only at *
  subst hw h1 h2 h3 h4 h5 h6 h7 h8
  rfl

namespace Sys
variable {S1 S2 : Sys K C} {W : ℤ → Prop} {wt1 wt2 : WavetableData K}

/-- arrays that agree on the coefficients (not on the padding) -/
def Agree (n : ℕ) (a b : ℕ → C) : Prop := ∀ k < n, a k = b k

theorem overCoeffs_sim {n B1 B2 : ℕ} (h1 : 0 < B1) (h2 : 0 < B2) {fv fs gv gs : ℕ → C → C}
    (h : ∀ k < n, ∀ c, eff n B1 fv fs k c = eff n B2 gv gs k c) {a b : ℕ → C} (hab : Agree n a b) :
    Sim (Agree n) (overCoeffs n B1 fv fs a) (overCoeffs n B2 gv gs b) :=
  Sim.of_ok (overCoeffs_spec h1 fv fs a) (overCoeffs_spec h2 gv gs b) fun x y hx hy k hk => by
    rw [hx k hk, hy k hk, h k hk, hab k hk]

theorem eff_sim {n B1 B2 : ℕ} {fv fs : ℕ → C → C} (h : B1 = B2 ∨ ∀ k c, fv k c = fs k c) :
    ∀ k < n, ∀ c, eff n B1 fv fs k c = eff n B2 fv fs k c := by
  intro k _ c
  rcases h with rfl | h
  · rfl
  · unfold eff; split <;> split <;> simp [h]

theorem computeI0_sim (hS : SysSim S1 S2) (hw : WtSim W wt1 wt2) {crt : ℤ} (hc : W crt)
    (mip jp jn : ℤ) (d pb nb : K) {a b : ℕ → C} (hab : Agree S1.n a b) :
    Sim (Agree S1.n) (S1.computeI0 wt1 crt mip jp jn d pb nb a)
      (S2.computeI0 wt2 crt mip jp jn d pb nb b) := by
  obtain ⟨env, ops, flt, B1⟩ := S1
  obtain ⟨env', ops', flt', B2⟩ := S2
  obtain ⟨e1, e2, e3, h1, h2, hl⟩ := hS
  dsimp only at e1 e2 e3
  subst e1 e2 e3
  unfold computeI0
  rw [hw.m crt hc, hw.q crt hc]
  dsimp only
  refine Sim.bind_same _ fun m => Sim.bind_same _ fun q => Sim.bind_same _ fun mp =>
    Sim.bind_same _ fun qp => Sim.bind_same _ fun mn => Sim.bind_same _ fun qn => ?_
  refine overCoeffs_sim h1 h2 (eff_sim (hl.imp id fun hl k c => ?_)) hab
  dsimp only [zA, expZA]
  rw [hl.fnma, hl.fms, hl.fma]; ring

theorem iSumFwdStep_sim (hS : SysSim S1 S2) (mds qds phs : List K) (len jmax : ℤ) (d x : K)
    {a b : ℕ → C} (i : ℤ) (hab : Agree S1.n a b) :
    Sim (Agree S1.n) (S1.iSumFwdStep mds qds phs len jmax d x a i)
      (S2.iSumFwdStep mds qds phs len jmax d x b i) := by
  obtain ⟨env, ops, flt, B1⟩ := S1
  obtain ⟨env', ops', flt', B2⟩ := S2
  obtain ⟨e1, e2, e3, h1, h2, hl⟩ := hS
  dsimp only at e1 e2 e3
  subst e1 e2 e3
  unfold iSumFwdStep
  dsimp only
  refine Sim.bind_same _ fun iRed => Sim.bind_same _ fun ph => Sim.bind_same _ fun pA =>
    Sim.bind_same _ fun md => Sim.bind_same _ fun qd => ?_
  refine overCoeffs_sim h1 h2 (eff_sim (hl.imp id fun hl k c => ?_)) hab
  dsimp only [zA, expZA, cornerV, cornerS]
  rw [hl.fma, hl.fma, hl.fma, hl.vexp]; ring

theorem iSumBwdStep_sim (hS : SysSim S1 S2) (mds qds phs : List K) (len jmax : ℤ) (off d x : K)
    {a b : ℕ → C} (i : ℤ) (hab : Agree S1.n a b) :
    Sim (Agree S1.n) (S1.iSumBwdStep mds qds phs len jmax off d x a i)
      (S2.iSumBwdStep mds qds phs len jmax off d x b i) := by
  obtain ⟨env, ops, flt, B1⟩ := S1
  obtain ⟨env', ops', flt', B2⟩ := S2
  obtain ⟨e1, e2, e3, h1, h2, hl⟩ := hS
  dsimp only at e1 e2 e3
  subst e1 e2 e3
  unfold iSumBwdStep
  dsimp only
  refine Sim.bind_same _ fun iRed => Sim.bind_same _ fun ph => Sim.bind_same _ fun pA =>
    Sim.bind_same _ fun md => Sim.bind_same _ fun qd => ?_
  refine overCoeffs_sim h1 h2 (eff_sim (hl.imp id fun hl k c => ?_)) hab
  dsimp only [zA, expZA, cornerV, cornerS]
  rw [hl.fnma, hl.fma, hl.fma, hl.vexp]; ring

theorem computeFwdI_sim (hS : SysSim S1 S2) (hw : WtSim W wt1 wt2) {crt : ℤ} (hc : W crt)
    (prev : K) (mip jmin jmax : ℤ) (d x : K) {a b : ℕ → C} (hab : Agree S1.n a b) :
    Sim (Agree S1.n) (S1.computeFwdI wt1 crt prev mip jmin jmax d x a)
      (S2.computeFwdI wt2 crt prev mip jmin jmax d x b) := by
  unfold computeFwdI
  dsimp only
  rw [← hS.env]
  refine Sim.bind (computeI0_sim hS hw hc _ _ _ _ _ _ hab) fun a b hab => ?_
  unfold computeISumFwd
  rw [hw.len, hw.md crt hc, hw.qd crt hc, hw.ph]
  refine Sim.bind_same _ fun len => Sim.bind_same _ fun mds => Sim.bind_same _ fun qds =>
    Sim.bind_same _ fun phs => ?_
  exact Sim.foldlM _ (fun a b i h => iSumFwdStep_sim hS _ _ _ _ _ _ _ i h) hab

theorem computeBwdI_sim (hS : SysSim S1 S2) (hw : WtSim W wt1 wt2) {crt : ℤ} (hc : W crt)
    (prev : K) (mip jm jmin jmax : ℤ) (d x : K) {a b : ℕ → C} (hab : Agree S1.n a b) :
    Sim (Agree S1.n) (S1.computeBwdI wt1 crt prev mip jm jmin jmax d x a)
      (S2.computeBwdI wt2 crt prev mip jm jmin jmax d x b) := by
  unfold computeBwdI
  dsimp only
  rw [← hS.env]
  refine Sim.bind_same _ fun _ => ?_
  refine Sim.bind (computeI0_sim hS hw hc _ _ _ _ _ _ hab) fun a b hab => ?_
  unfold computeISumBwd
  rw [hw.len, hw.md crt hc, hw.qd crt hc, hw.ph, hS.env]
  refine Sim.bind_same _ fun _ => Sim.bind_same _ fun len => Sim.bind_same _ fun mds =>
    Sim.bind_same _ fun qds => Sim.bind_same _ fun phs => ?_
  exact Sim.foldlM _ (fun a b i h => iSumBwdStep_sim hS _ _ _ _ _ _ _ _ i h) hab

theorem SysSim.n (hS : SysSim S1 S2) : S2.n = S1.n := by unfold Sys.n; rw [hS.flt]

theorem SysSim.cpxY (hS : SysSim S1 S2) (y : List C) {a b : ℕ → C} (h : Agree S1.n a b) :
    S1.cpxY y a = S2.cpxY y b := by
  obtain ⟨env, ops, flt, B1⟩ := S1
  obtain ⟨env', ops', flt', B2⟩ := S2
  obtain ⟨e1, e2, e3, h1, h2, hl⟩ := hS
  dsimp only at e1 e2 e3
  subst e1 e2 e3
  exact cpxY_congr ⟨env, ops, flt, B1⟩ y h

theorem SysSim.outReal (hS : SysSim S1 S2) (y : List C) : S1.outReal y = S2.outReal y := by
  unfold Sys.outReal; rw [hS.ops]

theorem withUpper_sim (hS : SysSim S1 S2) (t : MipMapIndices K) {a b : ℕ → C}
    (hab : Agree S1.n a b) {x y : R (ℕ → C)} (h : Sim (Agree S1.n) x y) :
    Sim (Agree S1.n) (S1.withUpper t a x) (S2.withUpper t b y) := by
  unfold withUpper
  split
  · refine Sim.bind h fun u v huv => ?_
    intro k hk
    have g1 : k < S1.upper := lt_of_lt_of_le hk (upper_ge S1.n S1.B hS.b1).2.2
    have g2 : k < S2.upper := lt_of_lt_of_le (by rw [SysSim.n hS]; exact hk)
      (upper_ge S2.n S2.B hS.b2).2.2
    unfold crossfade
    rw [if_pos (by split <;> assumption),
      if_pos (by split <;> [exact g2; (rw [SysSim.n hS]; exact hk)]), hab k hk, huv k hk, hS.ops]
  · exact hab

theorem WtSim.with_cf (h : WtSim W wt1 wt2) (c : CrossFader K) :
    WtSim W { wt1 with cf := c } { wt2 with cf := c } :=
  ⟨rfl, h.ph, h.len, h.m, h.q, h.md, h.qd, fun hw => by rw [h.full hw]⟩

theorem find_sim (E : Env K) (h : WtSim W wt1 wt2) (d : K) :
    Sim (fun a b => WtSim W a.1 b.1 ∧ a.2 = b.2) (wt1.findMipMapIndices E d)
      (wt2.findMipMapIndices E d) := by
  unfold WavetableData.findMipMapIndices
  rw [h.cf]
  exact Sim.bind_same _ fun r => ⟨WtSim.with_cf h _, rfl⟩

/-- related results of a sample -/
def ResSim (W : ℤ → Prop) (a b : Osc K C × K) : Prop := OscSim W a.1 b.1 ∧ a.2 = b.2

variable {o1 o2 : Osc K C}

theorem sampleFwd_sim (hS : SysSim S1 S2) (ho : OscSim W o1 o2) (p d : K) :
    Sim (ResSim W) (S1.processSampleFwd o1 p d) (S2.processSampleFwd o2 p d) := by
  unfold processSampleFwd
  dsimp only
  rw [← hS.env]
  refine Sim.bind_same _ fun _ => ?_
  rcases ho.wt with ⟨e1, e2⟩ | ⟨x, y, e1, e2, hw⟩
  · rw [e1, e2]; rfl
  rw [e1, e2, ← ho.crt, ← ho.prevPhaseRed, ← ho.prevPhaseDiff, ← ho.prevMip, ← ho.jRed, ← ho.prevY]
  dsimp only
  refine Sim.bind (find_sim _ hw d) fun a b hab => ?_
  obtain ⟨x1, t1⟩ := a
  obtain ⟨x2, t2⟩ := b
  obtain ⟨hw', ht⟩ := hab
  dsimp only at hw' ht ⊢
  subst ht
  rw [hw'.ph, hw'.len]
  refine Sim.bind_same _ fun phs => Sim.bind_same _ fun pr => Sim.bind_same _ fun len =>
    Sim.bind_same _ fun j0 => Sim.bind_same _ fun pj => Sim.bind_same _ fun j =>
    Sim.bind_same _ fun jmin => Sim.bind_same _ fun jmax => ?_
  refine Sim.bind (computeFwdI_sim hS hw' ho.w _ _ _ _ _ _ fun _ _ => rfl) fun a b hab => ?_
  refine Sim.bind (withUpper_sim hS _ hab
    (computeFwdI_sim hS hw' ho.w _ _ _ _ _ _ fun _ _ => rfl)) fun a b hab => ?_
  rw [SysSim.cpxY hS _ hab, SysSim.outReal hS]
  exact ⟨⟨Or.inr ⟨_, _, rfl, rfl, hw'⟩, rfl, rfl, rfl, rfl, rfl, rfl, rfl, rfl, ho.w⟩, rfl⟩

theorem sampleBwd_sim (hS : SysSim S1 S2) (ho : OscSim W o1 o2) (p d : K) :
    Sim (ResSim W) (S1.processSampleBwd o1 p d) (S2.processSampleBwd o2 p d) := by
  unfold processSampleBwd
  dsimp only
  rw [← hS.env]
  refine Sim.bind_same _ fun _ => ?_
  rcases ho.wt with ⟨e1, e2⟩ | ⟨x, y, e1, e2, hw⟩
  · rw [e1, e2]; rfl
  rw [e1, e2, ← ho.crt, ← ho.prevPhaseRed, ← ho.prevPhaseDiff, ← ho.prevMip, ← ho.jRed, ← ho.prevY]
  dsimp only
  refine Sim.bind (find_sim _ hw _) fun a b hab => ?_
  obtain ⟨x1, t1⟩ := a
  obtain ⟨x2, t2⟩ := b
  obtain ⟨hw', ht⟩ := hab
  dsimp only at hw' ht ⊢
  subst ht
  rw [hw'.ph, hw'.len]
  refine Sim.bind_same _ fun phs => Sim.bind_same _ fun pr => Sim.bind_same _ fun len =>
    Sim.bind_same _ fun j0 => Sim.bind_same _ fun pj => Sim.bind_same _ fun j =>
    Sim.bind_same _ fun jmin => Sim.bind_same _ fun jmax => ?_
  refine Sim.bind (computeBwdI_sim hS hw' ho.w _ _ _ _ _ _ _ fun _ _ => rfl) fun a b hab => ?_
  refine Sim.bind (withUpper_sim hS _ hab
    (computeBwdI_sim hS hw' ho.w _ _ _ _ _ _ _ fun _ _ => rfl)) fun a b hab => ?_
  rw [SysSim.cpxY hS _ hab, SysSim.outReal hS]
  exact ⟨⟨Or.inr ⟨_, _, rfl, rfl, hw'⟩, rfl, rfl, rfl, rfl, rfl, rfl, rfl, rfl, ho.w⟩, rfl⟩

theorem stepDir_sim (hS : SysSim S1 S2) (ho : OscSim W o1 o2) (dir : Direction) (p : K) :
    Sim (ResSim W) (S1.stepDir dir o1 p) (S2.stepDir dir o2 p) := by
  cases dir
  · show Sim _ (S1.stepFwd o1 p) (S2.stepFwd o2 p)
    unfold stepFwd
    dsimp only
    rw [← hS.env, ← ho.prevPhase]
    exact Sim.bind_same _ fun _ => sampleFwd_sim hS ho _ _
  · show Sim _ (S1.stepBi o1 p) (S2.stepBi o2 p)
    unfold stepBi
    dsimp only
    rw [← hS.env, ← ho.prevPhase]
    split
    · exact sampleFwd_sim hS ho _ _
    · exact sampleBwd_sim hS ho _ _

/-- related results of a block -/
def BlockSim (W : ℤ → Prop) (a b : Osc K C × List K) : Prop := OscSim W a.1 b.1 ∧ a.2 = b.2

theorem runDir_sim (hS : SysSim S1 S2) (dir : Direction) (ps : List K) (ho : OscSim W o1 o2) :
    Sim (BlockSim W) (S1.runDir dir o1 ps) (S2.runDir dir o2 ps) := by
  induction ps generalizing o1 o2 with
  | nil => exact ⟨ho, rfl⟩
  | cons p ps ih =>
    unfold runDir
    refine Sim.bind (stepDir_sim hS ho dir p) fun a b hab => ?_
    refine Sim.bind (ih hab.1) fun a' b' hab' => ?_
    exact ⟨hab'.1, by rw [hab.2, hab'.2]⟩

theorem process_sim (hS : SysSim S1 S2) (dir : Direction) (ps out : List K)
    (ho : OscSim W o1 o2) :
    Sim (BlockSim W) (S1.process dir o1 ps out) (S2.process dir o2 ps out) := by
  unfold process
  rw [← hS.env]
  have h0 : o1.wt.isNone = o2.wt.isNone := by
    rcases ho.wt with ⟨e1, e2⟩ | ⟨x, y, e1, e2, hw⟩ <;> rw [e1, e2] <;> rfl
  rw [h0]
  have key : Sim (BlockSim W)
      (do
        chk S1.env.dbg (ps.length = out.length)
        let (o', ys) ← S1.runDir dir o1 (ps.take out.length)
        return (o', ys ++ out.drop ys.length))
      (do
        chk S1.env.dbg (ps.length = out.length)
        let (o', ys) ← S2.runDir dir o2 (ps.take out.length)
        return (o', ys ++ out.drop ys.length)) := by
    refine Sim.bind_same _ fun _ => Sim.bind (runDir_sim hS dir _ ho) fun a b hab => ?_
    exact ⟨hab.1, by rw [hab.2]⟩
  cases o2.wt.isNone
  · exact key
  · exact Sim.bind_same (chk S1.env.dbg False) fun _ => key

theorem reset_sim (hS : SysSim S1 S2) (ho : OscSim W o1 o2) (p d : K) :
    Sim (OscSim W) (S1.resetInternals o1 p d) (S2.resetInternals o2 p d) := by
  unfold resetInternals
  dsimp only
  rw [← hS.env]
  rcases ho.wt with ⟨e1, e2⟩ | ⟨x, y, e1, e2, hw⟩
  · rw [e1, e2]
    exact Sim.bind_same _ fun _ => rfl
  rw [e1, e2]
  refine Sim.bind_same _ fun pr => Sim.bind (find_sim _ hw _) fun a b hab => ?_
  obtain ⟨x1, t1⟩ := a
  obtain ⟨x2, t2⟩ := b
  obtain ⟨hw', ht⟩ := hab
  dsimp only at hw' ht ⊢
  subst ht
  rw [hw'.len]
  refine Sim.bind_same _ fun len => Sim.bind_same _ fun j => ?_
  exact ⟨Or.inr ⟨_, _, rfl, rfl, hw'⟩, by rw [SysSim.n hS], rfl, rfl, rfl, rfl, rfl, ho.prevJRed,
    ho.crt, ho.w⟩

theorem init_sim (hS : SysSim S1 S2) (o : Osc K C) (hw : WtSim W wt1 wt2) (p d : K) (h0 : W 0) :
    Sim (fun a b => OscSim W a.1 b.1 ∧ a.2 = b.2) (S1.init o (some wt1) p d)
      (S2.init o (some wt2) p d) := by
  unfold init resetInternals
  dsimp only
  rw [← hS.env]
  refine Sim.bind (P := fun a b => ∀ x, W x → OscSim W { a with crt := x } { b with crt := x }) ?_
    fun a b hab => ⟨hab 0 h0, rfl⟩
  refine Sim.bind_same _ fun pr => Sim.bind (find_sim _ hw _) fun a b hab => ?_
  obtain ⟨x1, t1⟩ := a
  obtain ⟨x2, t2⟩ := b
  obtain ⟨hw', ht⟩ := hab
  dsimp only at hw' ht ⊢
  subst ht
  rw [hw'.len]
  refine Sim.bind_same _ fun len => Sim.bind_same _ fun j => ?_
  intro x hx
  exact ⟨Or.inr ⟨_, _, rfl, rfl, hw'⟩, by rw [SysSim.n hS], rfl, rfl, rfl, rfl, rfl, rfl,
    rfl, hx⟩

/-- every waveform selected in the history is in `W` -/
def _root_.Adwt.Selects (W : ℤ → Prop) (ops : List (Op K)) : Prop :=
  ∀ i, Op.setWaveform i ∈ ops → W i

theorem runOps_sim (hS : SysSim S1 S2) (ops : List (Op K)) (hW : ∀ i, Op.setWaveform i ∈ ops → W i)
    (ho : OscSim W o1 o2) : Sim (BlockSim W) (runOps S1 o1 ops) (runOps S2 o2 ops) := by
  induction ops generalizing o1 o2 with
  | nil => exact ⟨ho, rfl⟩
  | cons op ops ih =>
    unfold runOps
    refine Sim.bind (P := BlockSim W) ?_ fun a b hab => ?_
    · cases op with
      | process dir ps => exact process_sim hS dir ps _ ho
      | setWaveform i =>
        unfold runOp setWaveform
        have h0 : o1.wt.isSome = o2.wt.isSome := by
          rcases ho.wt with ⟨e1, e2⟩ | ⟨x, y, e1, e2, hw⟩ <;> rw [e1, e2] <;> rfl
        rw [← hS.env, h0]
        refine Sim.bind (P := OscSim W) ?_ fun a b hab => ⟨hab, rfl⟩
        refine Sim.bind_same _ fun _ => ?_
        exact ⟨ho.wt, ho.prevY, ho.prevPhase, ho.prevPhaseRed, ho.prevPhaseDiff, ho.prevMip,
          ho.jRed, ho.prevJRed, rfl, hW i (by simp)⟩
      | reset p d =>
        unfold runOp
        exact Sim.bind (reset_sim hS ho p d) fun a b hab => ⟨hab, rfl⟩
    · refine Sim.bind (ih (fun i hi => hW i (by simp [hi])) hab.1) fun a' b' hab' => ?_
      exact ⟨hab'.1, by rw [hab.2, hab'.2]⟩

end Sys
end Adwt
