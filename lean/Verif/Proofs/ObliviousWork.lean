import Verif.Proofs.Oblivious
import Verif.Model.Work

/-!
# Nor how long it takes
-/

set_option linter.unusedSectionVars false

namespace Adwt.Sys
open WavetableData
variable {K C : Type} [Field K] [LinearOrder K] [IsStrictOrderedRing K] [FloorRing K]
variable [Zero C] [Add C] [Sub C] [Mul C] [Div C] {S : Sys K C}

/-- the same count -/
def SameCount {α β : Type} (r r' : α × β) : Prop := r.2 = r'.2

theorem fwdIW_alike {wt wt' : WavetableData K} (h : Alike wt wt') (crt : ℤ) (pr : K) (mip i j : ℤ) (d p : K)
    (a : ℕ → C) :
    Rel SameCount (S.computeFwdIW wt crt pr mip i j d p a) (S.computeFwdIW wt' crt pr mip i j d p a) := by
  unfold computeFwdIW
  refine Rel.bind (i0_alike h _ _ _ _ _ _ _ _ _) fun a b _ => ?_
  unfold computeISumFwdW
  rw [waveformLen_alike h]
  refine Rel.same fun len => ?_
  refine Rel.bind (h.mDiff.rd2 _ _) fun md md' hm => Rel.bind (h.qDiff.rd2 _ _) fun qd qd' hq => ?_
  unfold phaseSpan
  rw [h.phases]
  refine Rel.same fun phs => Rel.foldlM (Φ := SameCount) (fun a b i hab => ?_) _ (a, 0) (b, 0) rfl
  refine Rel.bind (Φ := fun _ _ => True) ?_ fun _ _ _ => Rel.pure (congrArg (· + 1) hab)
  unfold iSumFwdStep
  refine Rel.same fun ir => Rel.same fun ph => Rel.same fun pa => ?_
  refine Rel.bind (hm.rd _) fun _ _ _ => Rel.bind (hq.rd _) fun _ _ _ => ?_
  exact over_alike _ _ _ _ _ _

theorem bwdIW_alike {wt wt' : WavetableData K} (h : Alike wt wt') (crt : ℤ) (pr : K) (mip jm i j : ℤ) (d p : K)
    (a : ℕ → C) :
    Rel SameCount (S.computeBwdIW wt crt pr mip jm i j d p a)
      (S.computeBwdIW wt' crt pr mip jm i j d p a) := by
  unfold computeBwdIW
  refine Rel.same fun _ => Rel.bind (i0_alike h _ _ _ _ _ _ _ _ _) fun a b _ => ?_
  unfold computeISumBwdW
  rw [waveformLen_alike h]
  refine Rel.same fun _ => Rel.same fun len => ?_
  refine Rel.bind (h.mDiff.rd2 _ _) fun md md' hm => Rel.bind (h.qDiff.rd2 _ _) fun qd qd' hq => ?_
  unfold phaseSpan
  rw [h.phases]
  refine Rel.same fun phs => Rel.foldlM (Φ := SameCount) (fun a b i hab => ?_) _ (a, 0) (b, 0) rfl
  refine Rel.bind (Φ := fun _ _ => True) ?_ fun _ _ _ => Rel.pure (congrArg (· + 1) hab)
  unfold iSumBwdStep
  refine Rel.same fun ir => Rel.same fun ph => Rel.same fun pa => ?_
  refine Rel.bind (hm.rd _) fun _ _ _ => Rel.bind (hq.rd _) fun _ _ _ => ?_
  exact over_alike _ _ _ _ _ _

theorem upperW_alike (t : MipMapIndices K) {a b : (ℕ → C) × ℕ} (hab : SameCount a b) {u v : R ((ℕ → C) × ℕ)}
    (h : Rel SameCount u v) : Rel SameCount (S.withUpperW t a u) (S.withUpperW t b v) := by
  unfold withUpperW
  have hab : a.2 = b.2 := hab
  refine Rel.ite (Rel.bind h fun c e hce => Rel.pure ?_) (Rel.ok ?_)
  · show (a.2, c.2) = (b.2, e.2)
    rw [hab, show c.2 = e.2 from hce]
  · show (a.2, 0) = (b.2, 0)
    rw [hab]

/-- alike with the same count -/
def StepAlikeW {α : Type} (r r' : (Osc K C × K) × α) : Prop := OscAlike r.1.1 r'.1.1 ∧ r.2 = r'.2

theorem fwdW_alike {o o' : Osc K C} (h : OscAlike o o') (p d : K) :
    Rel StepAlikeW (S.processSampleFwdW o p d) (S.processSampleFwdW o' p d) := by
  unfold processSampleFwdW
  refine Rel.same fun _ => ?_
  have hw := h.wt
  rcases e : o.wt with _ | wt0 <;> rcases e' : o'.wt with _ | wt0' <;> rw [e, e'] at hw
  · exact Rel.error _
  · cases hw
  · cases hw
  have hw : Alike wt0 wt0' := by cases hw; assumption
  dsimp only
  refine Rel.bind (find_alike _ hw _) fun ⟨wt, t⟩ ⟨wt', t'⟩ ⟨hwt, ht⟩ => ?_
  dsimp only at hwt ht ⊢
  subst ht
  rw [waveformLen_alike hwt, h.prevMip, h.jRed, h.prevPhaseDiff, h.prevPhaseRed, h.crt]
  unfold phaseSpan
  rw [hwt.phases]
  refine Rel.same fun phs => Rel.same fun pr => Rel.same fun len => Rel.same fun j0 => ?_
  refine Rel.same fun pj => Rel.same fun j => Rel.same fun j1 => Rel.same fun j2 => ?_
  refine Rel.bind (fwdIW_alike hwt _ _ _ _ _ _ _ _) fun a b hab => ?_
  refine Rel.bind (upperW_alike t hab (fwdIW_alike hwt _ _ _ _ _ _ _ _)) fun ⟨a, w⟩ ⟨b, w'⟩ hw => ?_
  refine Rel.pure ⟨OscAlike.mk (.some hwt) ?_ rfl rfl rfl rfl rfl rfl rfl, hw⟩
  unfold SameLen cpxY
  simp

theorem bwdW_alike {o o' : Osc K C} (h : OscAlike o o') (p d : K) :
    Rel StepAlikeW (S.processSampleBwdW o p d) (S.processSampleBwdW o' p d) := by
  unfold processSampleBwdW
  refine Rel.same fun _ => ?_
  have hw := h.wt
  rcases e : o.wt with _ | wt0 <;> rcases e' : o'.wt with _ | wt0' <;> rw [e, e'] at hw
  · exact Rel.error _
  · cases hw
  · cases hw
  have hw : Alike wt0 wt0' := by cases hw; assumption
  dsimp only
  refine Rel.bind (find_alike _ hw _) fun ⟨wt, t⟩ ⟨wt', t'⟩ ⟨hwt, ht⟩ => ?_
  dsimp only at hwt ht ⊢
  subst ht
  rw [waveformLen_alike hwt, h.prevMip, h.jRed, h.prevPhaseDiff, h.prevPhaseRed, h.crt]
  unfold phaseSpan
  rw [hwt.phases]
  refine Rel.same fun phs => Rel.same fun pr => Rel.same fun len => Rel.same fun j0 => ?_
  refine Rel.same fun pj => Rel.same fun j => Rel.same fun j1 => Rel.same fun j2 => ?_
  refine Rel.bind (bwdIW_alike hwt _ _ _ _ _ _ _ _ _) fun a b hab => ?_
  refine Rel.bind (upperW_alike t hab (bwdIW_alike hwt _ _ _ _ _ _ _ _ _)) fun ⟨a, w⟩ ⟨b, w'⟩ hw => ?_
  refine Rel.pure ⟨OscAlike.mk (.some hwt) ?_ rfl rfl rfl rfl rfl rfl rfl, hw⟩
  unfold SameLen cpxY
  simp

theorem dirW_alike (dir : Direction) {o o' : Osc K C} (h : OscAlike o o') (p : K) :
    Rel StepAlikeW (S.stepDirW dir o p) (S.stepDirW dir o' p) := by
  cases dir with
  | kForward =>
    unfold stepDirW stepFwdW
    dsimp only
    rw [h.prevPhase]
    exact Rel.same fun _ => fwdW_alike h _ _
  | kBidirectionnal =>
    unfold stepDirW stepBiW
    dsimp only
    rw [h.prevPhase]
    exact Rel.ite (fwdW_alike h _ _) (bwdW_alike h _ _)

/-- the results of a call are alike, with the same counts -/
def CallAlikeW {α : Type} (r r' : (Osc K C × List K) × α) : Prop := CallAlike r.1 r'.1 ∧ r.2 = r'.2

theorem runDirW_alike (dir : Direction) (ps : List K) {o o' : Osc K C} (h : OscAlike o o') :
    Rel CallAlikeW (S.runDirW dir o ps) (S.runDirW dir o' ps) := by
  induction ps generalizing o o' with
  | nil => exact Rel.ok ⟨⟨h, rfl⟩, rfl⟩
  | cons p ps ih =>
    unfold runDirW
    refine Rel.bind (dirW_alike dir h p) fun ⟨⟨o1, y⟩, w⟩ ⟨⟨o1', y'⟩, w'⟩ h1 => ?_
    refine Rel.bind (ih h1.1) fun ⟨⟨o2, ys⟩, ws⟩ ⟨⟨o2', ys'⟩, ws'⟩ h2 => Rel.pure ⟨⟨h2.1.1, ?_⟩, ?_⟩
    · show (y :: ys).length = (y' :: ys').length
      rw [List.length_cons, List.length_cons, show ys.length = ys'.length from h2.1.2]
    · show w :: ws = w' :: ws'
      rw [show w = w' from h1.2, show ws = ws' from h2.2]

theorem processW_alike (dir : Direction) {o o' : Osc K C} (h : OscAlike o o') (ps : List K) {out out' : List K}
    (hl : out.length = out'.length) :
    Rel CallAlikeW (S.processW dir o ps out) (S.processW dir o' ps out') := by
  have key : ∀ qs : List K, Rel CallAlikeW
      (do let ((o', ys), ws) ← S.runDirW dir o qs
          return ((o', ys ++ out.drop ys.length), ws))
      (do let ((o', ys), ws) ← S.runDirW dir o' qs
          return ((o', ys ++ out'.drop ys.length), ws)) := by
    intro qs
    refine Rel.bind (runDirW_alike dir qs h) fun ⟨⟨o1, ys⟩, w⟩ ⟨⟨o1', ys'⟩, w'⟩ h1 =>
      Rel.pure ⟨⟨h1.1.1, ?_⟩, h1.2⟩
    have e : ys.length = ys'.length := h1.1.2
    show (ys ++ out.drop ys.length).length = (ys' ++ out'.drop ys'.length).length
    simp [e, hl]
  unfold processW
  rw [isNone_alike h, hl]
  split
  · exact Rel.same fun _ => Rel.same fun _ => key _
  · exact Rel.same fun _ => key _

end Adwt.Sys
