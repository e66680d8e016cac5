import Verif.Spec.SoundOnly
import Verif.Proofs.ObliviousWork
import Verif.Proofs.Kernel

/-!
# The type of an oscillator does not influence what it does
-/

set_option linter.unusedSectionVars false

namespace Adwt
variable {K C C' : Type} [Field K] [LinearOrder K] [IsStrictOrderedRing K] [FloorRing K]
variable [Zero C] [Add C] [Sub C] [Mul C] [Div C]
variable [Zero C'] [Add C'] [Sub C'] [Mul C'] [Div C']

theorem Rel.of_ok {α β : Type} {Φ : α → Prop} {Ψ : β → Prop} {x : R α} {y : R β} (hx : Ok x Φ) (hy : Ok y Ψ) :
    Rel (fun _ _ => True) x y := by
  obtain ⟨a, rfl, -⟩ := hx
  obtain ⟨b, rfl, -⟩ := hy
  trivial

namespace Sys
open WavetableData

/-- any two outcomes that succeed together -/
abbrev Both {α β : Type} (x : R α) (y : R β) : Prop := Rel (fun _ _ => True) x y

theorem over_both {n n' B B' : ℕ} (hB : 0 < B) (hB' : 0 < B') (f g : ℕ → C → C) (f' g' : ℕ → C' → C') (a : ℕ → C)
    (a' : ℕ → C') : Both (overCoeffs n B f g a) (overCoeffs n' B' f' g' a') :=
  Rel.of_ok (overCoeffs_spec hB f g a) (overCoeffs_spec hB' f' g' a')

variable {S : Sys K C} {S' : Sys K C'}

/-- both were compiled with the same arithmetic, and a SIMD batch holds something -/
structure SameEnv (S : Sys K C) (S' : Sys K C') : Prop where
  env : S.env = S'.env
  B : 0 < S.B
  B' : 0 < S'.B

theorem i0_both (h : SameEnv S S') (wt : WavetableData K) (crt mip i j : ℤ) (d pb nb : K) (a : ℕ → C) (a' : ℕ → C') :
    Both (S.computeI0 wt crt mip i j d pb nb a) (S'.computeI0 wt crt mip i j d pb nb a') := by
  unfold computeI0
  rw [h.env]
  exact Rel.same fun _ => Rel.same fun _ => Rel.same fun _ => Rel.same fun _ => Rel.same fun _ =>
    Rel.same fun _ => over_both h.B h.B' _ _ _ _ _ _

theorem fwdI_both (h : SameEnv S S') (wt : WavetableData K) (crt : ℤ) (pr : K) (mip i j : ℤ) (d p : K)
    (a : ℕ → C) (a' : ℕ → C') :
    Both (S.computeFwdI wt crt pr mip i j d p a) (S'.computeFwdI wt crt pr mip i j d p a') := by
  unfold computeFwdI
  rw [h.env]
  refine Rel.bind (i0_both h _ _ _ _ _ _ _ _ _ _) fun a b _ => ?_
  unfold computeISumFwd
  refine Rel.same fun len => Rel.same fun _ => Rel.same fun _ => Rel.same fun phs =>
    Rel.foldlM (Φ := fun _ _ => True) (fun a b i _ => ?_) _ a b trivial
  unfold iSumFwdStep
  rw [h.env]
  exact Rel.same fun _ => Rel.same fun _ => Rel.same fun _ => Rel.same fun _ => Rel.same fun _ =>
    over_both h.B h.B' _ _ _ _ _ _

theorem bwdI_both (h : SameEnv S S') (wt : WavetableData K) (crt : ℤ) (pr : K) (mip jm i j : ℤ) (d p : K)
    (a : ℕ → C) (a' : ℕ → C') :
    Both (S.computeBwdI wt crt pr mip jm i j d p a) (S'.computeBwdI wt crt pr mip jm i j d p a') := by
  unfold computeBwdI
  rw [h.env]
  refine Rel.same fun _ => Rel.bind (i0_both h _ _ _ _ _ _ _ _ _ _) fun a b _ => ?_
  unfold computeISumBwd
  rw [h.env]
  refine Rel.same fun _ => Rel.same fun len => Rel.same fun _ => Rel.same fun _ => Rel.same fun phs =>
    Rel.foldlM (Φ := fun _ _ => True) (fun a b i _ => ?_) _ a b trivial
  unfold iSumBwdStep
  rw [h.env]
  exact Rel.same fun _ => Rel.same fun _ => Rel.same fun _ => Rel.same fun _ => Rel.same fun _ =>
    over_both h.B h.B' _ _ _ _ _ _

theorem upper_both (t : MipMapIndices K) (a : ℕ → C) (b : ℕ → C') {u : R (ℕ → C)} {v : R (ℕ → C')} (h : Both u v) :
    Both (S.withUpper t a u) (S'.withUpper t b v) := by
  unfold withUpper
  exact Rel.ite (Rel.bind h fun _ _ _ => Rel.pure trivial) (Rel.ok trivial)

/-- the states after a sample differ only in what is heard -/
def StepBut (r : Osc K C × K) (r' : Osc K C' × K) : Prop := r.1.SameButSound r'.1

theorem fwd_both (h : SameEnv S S') {o : Osc K C} {o' : Osc K C'} (ho : o.SameButSound o') (p d : K) :
    Rel StepBut (S.processSampleFwd o p d) (S'.processSampleFwd o' p d) := by
  unfold processSampleFwd
  rw [h.env, ho.wt]
  refine Rel.same fun _ => ?_
  rcases o'.wt with _ | wt0
  · exact Rel.error _
  refine Rel.same fun ⟨wt, t⟩ => ?_
  dsimp only
  rw [ho.prevMip, ho.jRed, ho.prevPhaseDiff, ho.prevPhaseRed, ho.crt]
  refine Rel.same fun phs => Rel.same fun pr => Rel.same fun len => Rel.same fun j0 => ?_
  refine Rel.same fun pj => Rel.same fun j => Rel.same fun j1 => Rel.same fun j2 => ?_
  refine Rel.bind (fwdI_both h _ _ _ _ _ _ _ _ _ _) fun a b _ => ?_
  refine Rel.bind (upper_both t a b (fwdI_both h _ _ _ _ _ _ _ _ _ _)) fun a b _ => ?_
  exact Rel.pure ⟨rfl, rfl, rfl, rfl, rfl, rfl, rfl, rfl⟩

theorem bwd_both (h : SameEnv S S') {o : Osc K C} {o' : Osc K C'} (ho : o.SameButSound o') (p d : K) :
    Rel StepBut (S.processSampleBwd o p d) (S'.processSampleBwd o' p d) := by
  unfold processSampleBwd
  rw [h.env, ho.wt]
  refine Rel.same fun _ => ?_
  rcases o'.wt with _ | wt0
  · exact Rel.error _
  refine Rel.same fun ⟨wt, t⟩ => ?_
  dsimp only
  rw [ho.prevMip, ho.jRed, ho.prevPhaseDiff, ho.prevPhaseRed, ho.crt]
  refine Rel.same fun phs => Rel.same fun pr => Rel.same fun len => Rel.same fun j0 => ?_
  refine Rel.same fun pj => Rel.same fun j => Rel.same fun j1 => Rel.same fun j2 => ?_
  refine Rel.bind (bwdI_both h _ _ _ _ _ _ _ _ _ _ _) fun a b _ => ?_
  refine Rel.bind (upper_both t a b (bwdI_both h _ _ _ _ _ _ _ _ _ _ _)) fun a b _ => ?_
  exact Rel.pure ⟨rfl, rfl, rfl, rfl, rfl, rfl, rfl, rfl⟩

theorem dir_both (h : SameEnv S S') (dir : Direction) {o : Osc K C} {o' : Osc K C'} (ho : o.SameButSound o') (p : K) :
    Rel StepBut (S.stepDir dir o p) (S'.stepDir dir o' p) := by
  cases dir with
  | kForward =>
    unfold stepDir stepFwd
    dsimp only
    rw [h.env, ho.prevPhase]
    exact Rel.same fun _ => fwd_both h ho _ _
  | kBidirectionnal =>
    unfold stepDir stepBi
    dsimp only
    rw [h.env, ho.prevPhase]
    exact Rel.ite (fwd_both h ho _ _) (bwd_both h ho _ _)

/-- the results of a block differ only in what is heard -/
def CallBut (r : Osc K C × List K) (r' : Osc K C' × List K) : Prop := r.1.SameButSound r'.1 ∧ r.2.length = r'.2.length

theorem runDir_both (h : SameEnv S S') (dir : Direction) (ps : List K) {o : Osc K C} {o' : Osc K C'}
    (ho : o.SameButSound o') : Rel CallBut (S.runDir dir o ps) (S'.runDir dir o' ps) := by
  induction ps generalizing o o' with
  | nil => exact Rel.ok ⟨ho, rfl⟩
  | cons p ps ih =>
    unfold runDir
    refine Rel.bind (dir_both h dir ho p) fun ⟨o1, y⟩ ⟨o1', y'⟩ h1 => ?_
    refine Rel.bind (ih h1) fun ⟨o2, ys⟩ ⟨o2', ys'⟩ h2 => Rel.pure ⟨h2.1, ?_⟩
    show (y :: ys).length = (y' :: ys').length
    rw [List.length_cons, List.length_cons, show ys.length = ys'.length from h2.2]

theorem process_both (h : SameEnv S S') (dir : Direction) {o : Osc K C} {o' : Osc K C'} (ho : o.SameButSound o')
    (ps : List K) {out out' : List K} (hl : out.length = out'.length) :
    Rel CallBut (S.process dir o ps out) (S'.process dir o' ps out') := by
  have key : ∀ qs : List K, Rel CallBut
      (do let (o', ys) ← S.runDir dir o qs
          return (o', ys ++ out.drop ys.length))
      (do let (o', ys) ← S'.runDir dir o' qs
          return (o', ys ++ out'.drop ys.length)) := by
    intro qs
    refine Rel.bind (runDir_both h dir qs ho) fun ⟨o1, ys⟩ ⟨o1', ys'⟩ h1 => Rel.pure ⟨h1.1, ?_⟩
    have e : ys.length = ys'.length := h1.2
    show (ys ++ out.drop ys.length).length = (ys' ++ out'.drop ys'.length).length
    simp [e, hl]
  unfold process
  rw [h.env, ho.wt, hl]
  split
  · exact Rel.same fun _ => Rel.same fun _ => key _
  · exact Rel.same fun _ => key _

theorem reset_both (h : SameEnv S S') {o : Osc K C} {o' : Osc K C'} (hw : o.wt = o'.wt)
    (hj : o.prevJRed = o'.prevJRed) (hc : o.crt = o'.crt) (p d : K) :
    Rel Osc.SameButSound (S.resetInternals o p d) (S'.resetInternals o' p d) := by
  unfold resetInternals
  rw [h.env, hw]
  rcases o'.wt with _ | wt0
  · exact Rel.same fun _ => Rel.error _
  refine Rel.same fun pr => Rel.same fun ⟨wt, t⟩ => ?_
  dsimp only
  refine Rel.same fun len => Rel.same fun j => ?_
  exact Rel.pure ⟨rfl, rfl, rfl, rfl, rfl, rfl, hj, hc⟩

theorem init_both (h : SameEnv S S') {o : Osc K C} {o' : Osc K C'} (ho : o.SameButSound o')
    (w : Option (WavetableData K)) (p d : K) :
    Rel (fun (r : Osc K C × ℤ) (r' : Osc K C' × ℤ) => r.1.SameButSound r'.1 ∧ r.2 = r'.2) (S.init o w p d)
      (S'.init o' w p d) := by
  cases w with
  | none => exact Rel.ok ⟨ho, rfl⟩
  | some wt =>
    unfold init
    exact Rel.bind (reset_both (o := { o with wt := some wt }) (o' := { o' with wt := some wt }) h rfl ho.prevJRed
      ho.crt p d) fun a b hab => Rel.pure ⟨⟨hab.wt, hab.prevPhase, hab.prevPhaseRed, hab.prevPhaseDiff, hab.prevMip,
        hab.jRed, hab.prevJRed, rfl⟩, rfl⟩

theorem swap_both (h : SameEnv S S') {o : Osc K C} {o' : Osc K C'} (ho : o.SameButSound o')
    (w : Option (WavetableData K)) (p d : K) :
    Rel (fun (r : Osc K C × Option (WavetableData K)) (r' : Osc K C' × Option (WavetableData K)) =>
      r.1.SameButSound r'.1 ∧ r.2 = r'.2) (S.swapWavetable o w p d) (S'.swapWavetable o' w p d) := by
  cases w with
  | none => exact Rel.ok ⟨ho, rfl⟩
  | some wt =>
    unfold swapWavetable
    exact Rel.bind (reset_both (o := { o with wt := some wt }) (o' := { o' with wt := some wt }) h rfl ho.prevJRed
      ho.crt p d) fun a b hab => Rel.pure ⟨⟨hab.wt, hab.prevPhase, hab.prevPhaseRed, hab.prevPhaseDiff, hab.prevMip,
        hab.jRed, hab.prevJRed, rfl⟩, ho.wt⟩

theorem updateSr_both (h : SameEnv S S') {o : Osc K C} {o' : Osc K C'} (ho : o.SameButSound o') (sr : K) :
    Rel Osc.SameButSound (S.updateSamplerate o sr) (S'.updateSamplerate o' sr) := by
  unfold updateSamplerate
  rw [h.env, ho.wt]
  rcases o'.wt with _ | wt0
  · exact Rel.same fun _ => Rel.error _
  · exact Rel.same fun _ => Rel.pure { ho with wt := rfl }

theorem setWaveform_both (h : SameEnv S S') {o : Osc K C} {o' : Osc K C'} (ho : o.SameButSound o') (w : ℤ) :
    Rel Osc.SameButSound (S.setWaveform o w) (S'.setWaveform o' w) := by
  unfold setWaveform
  rw [h.env, ho.wt]
  exact Rel.same fun _ => Rel.pure ⟨rfl, ho.prevPhase, ho.prevPhaseRed, ho.prevPhaseDiff, ho.prevMip, ho.jRed,
    ho.prevJRed, rfl⟩

/-! ### the work -/

/-- the same count -/
def CountBut (r : (ℕ → C) × ℕ) (r' : (ℕ → C') × ℕ) : Prop := r.2 = r'.2

theorem fwdIW_both (h : SameEnv S S') (wt : WavetableData K) (crt : ℤ) (pr : K) (mip i j : ℤ) (d p : K)
    (a : ℕ → C) (a' : ℕ → C') :
    Rel CountBut (S.computeFwdIW wt crt pr mip i j d p a) (S'.computeFwdIW wt crt pr mip i j d p a') := by
  unfold computeFwdIW
  rw [h.env]
  refine Rel.bind (i0_both h _ _ _ _ _ _ _ _ _ _) fun a b _ => ?_
  unfold computeISumFwdW
  refine Rel.same fun len => Rel.same fun _ => Rel.same fun _ => Rel.same fun phs =>
    Rel.foldlM (Φ := CountBut) (fun a b i hab => ?_) _ (a, 0) (b, 0) rfl
  refine Rel.bind (Φ := fun _ _ => True) ?_ fun _ _ _ => Rel.pure (congrArg (· + 1) hab)
  unfold iSumFwdStep
  rw [h.env]
  exact Rel.same fun _ => Rel.same fun _ => Rel.same fun _ => Rel.same fun _ => Rel.same fun _ =>
    over_both h.B h.B' _ _ _ _ _ _

theorem bwdIW_both (h : SameEnv S S') (wt : WavetableData K) (crt : ℤ) (pr : K) (mip jm i j : ℤ) (d p : K)
    (a : ℕ → C) (a' : ℕ → C') :
    Rel CountBut (S.computeBwdIW wt crt pr mip jm i j d p a) (S'.computeBwdIW wt crt pr mip jm i j d p a') := by
  unfold computeBwdIW
  rw [h.env]
  refine Rel.same fun _ => Rel.bind (i0_both h _ _ _ _ _ _ _ _ _ _) fun a b _ => ?_
  unfold computeISumBwdW
  rw [h.env]
  refine Rel.same fun _ => Rel.same fun len => Rel.same fun _ => Rel.same fun _ => Rel.same fun phs =>
    Rel.foldlM (Φ := CountBut) (fun a b i hab => ?_) _ (a, 0) (b, 0) rfl
  refine Rel.bind (Φ := fun _ _ => True) ?_ fun _ _ _ => Rel.pure (congrArg (· + 1) hab)
  unfold iSumBwdStep
  rw [h.env]
  exact Rel.same fun _ => Rel.same fun _ => Rel.same fun _ => Rel.same fun _ => Rel.same fun _ =>
    over_both h.B h.B' _ _ _ _ _ _

theorem upperW_both (t : MipMapIndices K) {a : (ℕ → C) × ℕ} {b : (ℕ → C') × ℕ} (hab : CountBut a b)
    {u : R ((ℕ → C) × ℕ)} {v : R ((ℕ → C') × ℕ)} (h : Rel CountBut u v) :
    Rel (fun (r : (ℕ → C) × ℕ × ℕ) (r' : (ℕ → C') × ℕ × ℕ) => r.2 = r'.2) (S.withUpperW t a u)
      (S'.withUpperW t b v) := by
  unfold withUpperW
  have hab : a.2 = b.2 := hab
  refine Rel.ite (Rel.bind h fun c e hce => Rel.pure ?_) (Rel.ok ?_)
  · show (a.2, c.2) = (b.2, e.2)
    rw [hab, show c.2 = e.2 from hce]
  · show (a.2, 0) = (b.2, 0)
    rw [hab]

/-- the states after a sample differ only in what is heard, and the counts agree -/
def StepButW {α : Type} (r : (Osc K C × K) × α) (r' : (Osc K C' × K) × α) : Prop :=
  r.1.1.SameButSound r'.1.1 ∧ r.2 = r'.2

theorem fwdW_both (h : SameEnv S S') {o : Osc K C} {o' : Osc K C'} (ho : o.SameButSound o') (p d : K) :
    Rel StepButW (S.processSampleFwdW o p d) (S'.processSampleFwdW o' p d) := by
  unfold processSampleFwdW
  rw [h.env, ho.wt]
  refine Rel.same fun _ => ?_
  rcases o'.wt with _ | wt0
  · exact Rel.error _
  refine Rel.same fun ⟨wt, t⟩ => ?_
  dsimp only
  rw [ho.prevMip, ho.jRed, ho.prevPhaseDiff, ho.prevPhaseRed, ho.crt]
  refine Rel.same fun phs => Rel.same fun pr => Rel.same fun len => Rel.same fun j0 => ?_
  refine Rel.same fun pj => Rel.same fun j => Rel.same fun j1 => Rel.same fun j2 => ?_
  refine Rel.bind (fwdIW_both h _ _ _ _ _ _ _ _ _ _) fun a b hab => ?_
  refine Rel.bind (upperW_both t hab (fwdIW_both h _ _ _ _ _ _ _ _ _ _)) fun ⟨a, w⟩ ⟨b, w'⟩ hw => ?_
  exact Rel.pure ⟨⟨rfl, rfl, rfl, rfl, rfl, rfl, rfl, rfl⟩, hw⟩

theorem bwdW_both (h : SameEnv S S') {o : Osc K C} {o' : Osc K C'} (ho : o.SameButSound o') (p d : K) :
    Rel StepButW (S.processSampleBwdW o p d) (S'.processSampleBwdW o' p d) := by
  unfold processSampleBwdW
  rw [h.env, ho.wt]
  refine Rel.same fun _ => ?_
  rcases o'.wt with _ | wt0
  · exact Rel.error _
  refine Rel.same fun ⟨wt, t⟩ => ?_
  dsimp only
  rw [ho.prevMip, ho.jRed, ho.prevPhaseDiff, ho.prevPhaseRed, ho.crt]
  refine Rel.same fun phs => Rel.same fun pr => Rel.same fun len => Rel.same fun j0 => ?_
  refine Rel.same fun pj => Rel.same fun j => Rel.same fun j1 => Rel.same fun j2 => ?_
  refine Rel.bind (bwdIW_both h _ _ _ _ _ _ _ _ _ _ _) fun a b hab => ?_
  refine Rel.bind (upperW_both t hab (bwdIW_both h _ _ _ _ _ _ _ _ _ _ _)) fun ⟨a, w⟩ ⟨b, w'⟩ hw => ?_
  exact Rel.pure ⟨⟨rfl, rfl, rfl, rfl, rfl, rfl, rfl, rfl⟩, hw⟩

theorem dirW_both (h : SameEnv S S') (dir : Direction) {o : Osc K C} {o' : Osc K C'} (ho : o.SameButSound o')
    (p : K) : Rel StepButW (S.stepDirW dir o p) (S'.stepDirW dir o' p) := by
  cases dir with
  | kForward =>
    unfold stepDirW stepFwdW
    dsimp only
    rw [h.env, ho.prevPhase]
    exact Rel.same fun _ => fwdW_both h ho _ _
  | kBidirectionnal =>
    unfold stepDirW stepBiW
    dsimp only
    rw [h.env, ho.prevPhase]
    exact Rel.ite (fwdW_both h ho _ _) (bwdW_both h ho _ _)

/-- the results of a block differ only in what is heard, and the counts agree -/
def CallButW {α : Type} (r : (Osc K C × List K) × α) (r' : (Osc K C' × List K) × α) : Prop :=
  CallBut r.1 r'.1 ∧ r.2 = r'.2

theorem runDirW_both (h : SameEnv S S') (dir : Direction) (ps : List K) {o : Osc K C} {o' : Osc K C'}
    (ho : o.SameButSound o') : Rel CallButW (S.runDirW dir o ps) (S'.runDirW dir o' ps) := by
  induction ps generalizing o o' with
  | nil => exact Rel.ok ⟨⟨ho, rfl⟩, rfl⟩
  | cons p ps ih =>
    unfold runDirW
    refine Rel.bind (dirW_both h dir ho p) fun ⟨⟨o1, y⟩, w⟩ ⟨⟨o1', y'⟩, w'⟩ h1 => ?_
    refine Rel.bind (ih h1.1) fun ⟨⟨o2, ys⟩, ws⟩ ⟨⟨o2', ys'⟩, ws'⟩ h2 => Rel.pure ⟨⟨h2.1.1, ?_⟩, ?_⟩
    · show (y :: ys).length = (y' :: ys').length
      rw [List.length_cons, List.length_cons, show ys.length = ys'.length from h2.1.2]
    · show w :: ws = w' :: ws'
      rw [show w = w' from h1.2, show ws = ws' from h2.2]

theorem processW_both (h : SameEnv S S') (dir : Direction) {o : Osc K C} {o' : Osc K C'} (ho : o.SameButSound o')
    (ps : List K) {out out' : List K} (hl : out.length = out'.length) :
    Rel CallButW (S.processW dir o ps out) (S'.processW dir o' ps out') := by
  have key : ∀ qs : List K, Rel CallButW
      (do let ((o', ys), ws) ← S.runDirW dir o qs
          return ((o', ys ++ out.drop ys.length), ws))
      (do let ((o', ys), ws) ← S'.runDirW dir o' qs
          return ((o', ys ++ out'.drop ys.length), ws)) := by
    intro qs
    refine Rel.bind (runDirW_both h dir qs ho) fun ⟨⟨o1, ys⟩, w⟩ ⟨⟨o1', ys'⟩, w'⟩ h1 =>
      Rel.pure ⟨⟨h1.1.1, ?_⟩, h1.2⟩
    have e : ys.length = ys'.length := h1.1.2
    show (ys ++ out.drop ys.length).length = (ys' ++ out'.drop ys'.length).length
    simp [e, hl]
  unfold processW
  rw [h.env, ho.wt, hl]
  split
  · exact Rel.same fun _ => Rel.same fun _ => key _
  · exact Rel.same fun _ => key _

end Sys

open Sys

theorem Function.update_both {α β : Type} {Φ : α → β → Prop} {f : ℕ → α} {g : ℕ → β} (h : ∀ i, Φ (f i) (g i)) (j : ℕ)
    {a : α} {b : β} (hab : Φ a b) (i : ℕ) : Φ (Function.update f j a i) (Function.update g j b i) := by
  by_cases hi : i = j
  · subst hi; rw [Function.update_self, Function.update_self]; exact hab
  · rw [Function.update_of_ne hi, Function.update_of_ne hi]; exact h i

theorem Bank.exec_both {S : ℕ → Sys K C} {S' : ℕ → Sys K C'} (h : ∀ i, SameEnv (S i) (S' i)) {b : Bank K C}
    {b' : Bank K C'} (hb : b.SameButSound b') (c : Instr K) :
    Rel Bank.SameButSound (b.exec S c) (b'.exec S' c) := by
  cases c with
  | build s ws n sr dur =>
    unfold Bank.exec
    rw [(h 0).env, hb.slots]
    exact Rel.same fun w => Rel.pure { hb with slots := rfl }
  | init i s p d =>
    unfold Bank.exec
    rw [hb.slots]
    exact Rel.bind (init_both (h i) (hb.oscs i) _ p d) fun r r' hr =>
      Rel.pure { hb with oscs := Function.update_both hb.oscs i hr.1, slots := rfl }
  | swap i s t p d =>
    unfold Bank.exec
    rw [hb.slots]
    refine Rel.bind (swap_both (h i) (hb.oscs i) _ p d) fun r r' hr => ?_
    obtain ⟨o, old⟩ := r
    obtain ⟨o', old'⟩ := r'
    obtain ⟨h1, h2⟩ := hr
    dsimp only at h1 h2 ⊢
    subst h2
    exact Rel.pure { hb with oscs := Function.update_both hb.oscs i h1, slots := rfl }
  | process i dir ps =>
    unfold Bank.exec
    refine Rel.bind (process_both (h i) dir (hb.oscs i) ps rfl) fun r r' hr => ?_
    refine Rel.pure { hb with oscs := Function.update_both hb.oscs i hr.1, logs := ?_ }
    intro k
    refine Function.update_both (Φ := fun a b : List K => a.length = b.length) hb.logs i ?_ k
    rw [List.length_append, List.length_append, hb.logs i, hr.2]
  | setWaveform i w =>
    unfold Bank.exec
    exact Rel.bind (setWaveform_both (h i) (hb.oscs i) w) fun r r' hr =>
      Rel.pure { hb with oscs := Function.update_both hb.oscs i hr }
  | reset i p d =>
    unfold Bank.exec
    have ho := hb.oscs i
    exact Rel.bind (reset_both (h i) ho.wt ho.prevJRed ho.crt p d) fun r r' hr =>
      Rel.pure { hb with oscs := Function.update_both hb.oscs i hr }
  | updateSamplerate i sr =>
    unfold Bank.exec
    exact Rel.bind (updateSr_both (h i) (hb.oscs i) sr) fun r r' hr =>
      Rel.pure { hb with oscs := Function.update_both hb.oscs i hr }

theorem Bank.execS_both {S : ℕ → Sys K C} {S' : ℕ → Sys K C'} (h : ∀ i, SameEnv (S i) (S' i)) {b : Bank K C}
    {b' : Bank K C'} (hb : b.SameButSound b') (c : Stmt K) :
    Rel Bank.SameButSound (b.execS S c) (b'.execS S' c) := by
  cases c with
  | call c => exact Bank.exec_both h hb c
  | tableRate s sr dur =>
    unfold Bank.execS
    dsimp only
    rw [hb.slots, (h 0).env]
    cases b'.slots s with
    | none => exact Rel.error _
    | some wt => exact Rel.same fun _ => Rel.pure { hb with slots := rfl }
  | tableFind s d =>
    unfold Bank.execS
    dsimp only
    rw [hb.slots, (h 0).env]
    cases b'.slots s with
    | none => exact Rel.error _
    | some wt => exact Rel.same fun _ => Rel.pure { hb with slots := rfl }
  | moveTable s t =>
    unfold Bank.execS
    dsimp only
    rw [hb.slots]
    exact Rel.ok { hb with slots := rfl }
  | moveOsc i j =>
    unfold Bank.execS
    have hi := hb.oscs i
    exact Rel.ok { hb with oscs := Function.update_both (Function.update_both hb.oscs j hi) i { hi with wt := rfl } }

theorem Bank.runS_both {S : ℕ → Sys K C} {S' : ℕ → Sys K C'} (h : ∀ i, SameEnv (S i) (S' i)) (cs : List (Stmt K))
    {b : Bank K C} {b' : Bank K C'} (hb : b.SameButSound b') :
    Rel Bank.SameButSound (b.runS S cs) (b'.runS S' cs) := by
  induction cs generalizing b b' with
  | nil => exact Rel.ok hb
  | cons c cs ih => exact Rel.bind (Bank.execS_both h hb c) fun a a' ha => ih ha

end Adwt
