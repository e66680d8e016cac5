import Verif.Proofs.Reached
import Verif.Num.Rne

/-!
# Phases outside `[0, 1)`

A sample depends on its phase only through the reduced phase and the step, and the state only keeps
the unreduced phase to compute the next step.
-/

set_option linter.unusedSectionVars false

namespace Adwt
variable {K C : Type} [Field K] [LinearOrder K] [IsStrictOrderedRing K] [FloorRing K]
variable [Zero C] [Add C] [Sub C] [Mul C] [Div C]

theorem R.map_bind {α β γ : Type} (x : R α) (f : α → R β) (g : β → γ) :
    Except.map g (x >>= f) = x >>= fun a => Except.map g (f a) := by
  cases x <;> rfl

/-- the state with another previous phase (the reduced previous phase is not changed) -/
def Osc.at (o : Osc K C) (x : K) : Osc K C := { o with prevPhase := x }

namespace Sys
variable {S : Sys K C}

theorem fwd_at (o : Osc K C) (x : K) {p q r d : K} (hp : Maths.reduceF S.env p 1 = .ok r)
    (hq : Maths.reduceF S.env q 1 = .ok r) :
    S.processSampleFwd (o.at x) q d = (S.processSampleFwd o p d).map fun u => (u.1.at q, u.2) := by
  unfold processSampleFwd Osc.at
  dsimp only
  cases hw : o.wt with
  | none => cases chk S.env.dbg (d > 0 ∧ d ≤ 1 / 2) <;> rfl
  | some wt0 =>
    dsimp only
    rw [hp, hq]
    simp only [R.map_bind]
    rfl

theorem bwd_at (o : Osc K C) (x : K) {p q r d : K} (hp : Maths.reduceF S.env p 1 = .ok r)
    (hq : Maths.reduceF S.env q 1 = .ok r) :
    S.processSampleBwd (o.at x) q d = (S.processSampleBwd o p d).map fun u => (u.1.at q, u.2) := by
  unfold processSampleBwd Osc.at
  dsimp only
  cases hw : o.wt with
  | none => cases chk S.env.dbg (d < 0 ∧ d ≥ -(1 / 2)) <;> rfl
  | some wt0 =>
    dsimp only
    rw [hp, hq]
    simp only [R.map_bind]
    rfl

theorem fwd_phase {o o' : Osc K C} {p d y : K} (h : S.processSampleFwd o p d = .ok (o', y)) :
    o'.prevPhase = p := by
  by_cases hr : ∃ r, Maths.reduceF S.env p 1 = .ok r
  · obtain ⟨r, hr⟩ := hr
    have e := fwd_at (S := S) o o.prevPhase (d := d) hr hr
    rw [show o.at o.prevPhase = o from rfl, h] at e
    exact congrArg (fun r : R (Osc K C × K) => match r with | .ok u => u.1.prevPhase | .error _ => 0) e
  · exfalso
    unfold processSampleFwd at h
    dsimp only at h
    cases hc : chk S.env.dbg (d > 0 ∧ d ≤ 1 / 2) with
    | error => rw [hc] at h; cases h
    | ok =>
      rw [hc, R.ok_bind] at h
      cases hw : o.wt with
      | none => rw [hw] at h; cases h
      | some wt0 =>
        rw [hw] at h
        dsimp only at h
        cases hm : wt0.findMipMapIndices S.env d with
        | error => rw [hm] at h; cases h
        | ok u =>
          rw [hm, R.ok_bind] at h
          cases hp : u.1.phaseSpan u.2.idx with
          | error => rw [hp] at h; cases h
          | ok v =>
            rw [hp, R.ok_bind] at h
            cases hv : Maths.reduceF S.env p 1 with
            | error => rw [hv] at h; cases h
            | ok r => exact hr ⟨r, hv⟩

theorem bwd_phase {o o' : Osc K C} {p d y : K} (h : S.processSampleBwd o p d = .ok (o', y)) :
    o'.prevPhase = p := by
  by_cases hr : ∃ r, Maths.reduceF S.env p 1 = .ok r
  · obtain ⟨r, hr⟩ := hr
    have e := bwd_at (S := S) o o.prevPhase (d := d) hr hr
    rw [show o.at o.prevPhase = o from rfl, h] at e
    exact congrArg (fun r : R (Osc K C × K) => match r with | .ok u => u.1.prevPhase | .error _ => 0) e
  · exfalso
    unfold processSampleBwd at h
    dsimp only at h
    cases hc : chk S.env.dbg (d < 0 ∧ d ≥ -(1 / 2)) with
    | error => rw [hc] at h; cases h
    | ok =>
      rw [hc, R.ok_bind] at h
      cases hw : o.wt with
      | none => rw [hw] at h; cases h
      | some wt0 =>
        rw [hw] at h
        dsimp only at h
        cases hm : wt0.findMipMapIndices S.env |d| with
        | error => rw [hm] at h; cases h
        | ok u =>
          rw [hm, R.ok_bind] at h
          cases hp : u.1.phaseSpan u.2.idx with
          | error => rw [hp] at h; cases h
          | ok v =>
            rw [hp, R.ok_bind] at h
            cases hv : Maths.reduceF S.env p 1 with
            | error => rw [hv] at h; cases h
            | ok r => exact hr ⟨r, hv⟩

theorem stepDir_at (dir : Direction) (o : Osc K C) (x : K) {p q r : K}
    (hp : Maths.reduceF S.env p 1 = .ok r) (hq : Maths.reduceF S.env q 1 = .ok r)
    (hd : dirDiff S.env.fl dir q x = dirDiff S.env.fl dir p o.prevPhase) :
    S.stepDir dir (o.at x) q = (S.stepDir dir o p).map fun u => (u.1.at q, u.2) := by
  cases dir with
  | kForward =>
    show S.stepFwd _ _ = Except.map _ (S.stepFwd _ _)
    unfold stepFwd
    dsimp only
    unfold dirDiff fwdDiff at hd
    dsimp only at hd
    rw [show (o.at x).prevPhase = x from rfl, hd, R.map_bind, fwd_at o x hp hq]
  | kBidirectionnal =>
    show S.stepBi _ _ = Except.map _ (S.stepBi _ _)
    unfold stepBi
    unfold dirDiff at hd
    dsimp only at hd ⊢
    rw [show (o.at x).prevPhase = x from rfl, hd]
    split
    · exact fwd_at o x hp hq
    · exact bwd_at o x hp hq

theorem stepDir_phase {dir : Direction} {o o' : Osc K C} {p y : K}
    (h : S.stepDir dir o p = .ok (o', y)) : o'.prevPhase = p := by
  cases dir with
  | kForward =>
    have h : S.stepFwd o p = .ok (o', y) := h
    unfold stepFwd at h
    dsimp only at h
    revert h
    generalize (if S.env.fl (p - o.prevPhase) < 0 then S.env.fl (S.env.fl (p - o.prevPhase) + 1)
      else S.env.fl (p - o.prevPhase)) = d
    intro h
    cases hc : chk S.env.dbg (d > 0 ∧ d ≤ 1 / 2) with
    | error => rw [hc] at h; cases h
    | ok => rw [hc, R.ok_bind] at h; exact fwd_phase h
  | kBidirectionnal =>
    have h : S.stepBi o p = .ok (o', y) := h
    unfold stepBi at h
    dsimp only at h
    split at h
    · exact fwd_phase h
    · exact bwd_phase h

/-- the phases `qs`, after `x`, have the same reductions and steps as `ps`, after `prev` -/
def SameRun (E : Env K) (dir : Direction) : K → K → List K → List K → Prop
  | _, _, [], [] => True
  | x, prev, q :: qs, p :: ps => (∃ r, Maths.reduceF E p 1 = .ok r ∧ Maths.reduceF E q 1 = .ok r) ∧
      dirDiff E.fl dir q x = dirDiff E.fl dir p prev ∧ SameRun E dir q p qs ps
  | _, _, _, _ => False

theorem runDir_at (dir : Direction) (o : Osc K C) {x : K} {qs ps : List K}
    (h : SameRun S.env dir x o.prevPhase qs ps) :
    S.runDir dir (o.at x) qs = (S.runDir dir o ps).map fun u => (u.1.at (qs.getLastD x), u.2) := by
  induction qs generalizing o x ps with
  | nil =>
    cases ps with
    | nil => rfl
    | cons p ps => exact absurd h id
  | cons q qs ih =>
    cases ps with
    | nil => exact absurd h id
    | cons p ps =>
      obtain ⟨⟨r, hp, hq⟩, hd, hr⟩ := h
      unfold runDir
      rw [stepDir_at dir o x hp hq hd]
      cases hs : S.stepDir dir o p with
      | error => rfl
      | ok u =>
        obtain ⟨o1, y⟩ := u
        rw [R.ok_bind]
        show (S.runDir dir (o1.at q) qs >>= _) = _
        dsimp only
        rw [ih o1 (by rw [stepDir_phase hs]; exact hr)]
        cases S.runDir dir o1 ps with
        | error => rfl
        | ok u2 => simp only [Except.map, R.ok_bind, List.getLastD_cons, R.pure_eq]

theorem SameRun.length {E : Env K} {dir : Direction} {x prev : K} {qs ps : List K}
    (h : SameRun E dir x prev qs ps) : qs.length = ps.length := by
  induction qs generalizing x prev ps with
  | nil => cases ps with
    | nil => rfl
    | cons => exact absurd h id
  | cons q qs ih => cases ps with
    | nil => exact absurd h id
    | cons p ps => simp [ih h.2.2]

/-- `process` -/
theorem process_at (dir : Direction) (o : Osc K C) {x : K} {qs ps out : List K} (hw : o.wt.isSome = true)
    (hl : ps.length = out.length) (h : SameRun S.env dir x o.prevPhase qs ps) :
    S.process dir (o.at x) qs out = (S.process dir o ps out).map fun u => (u.1.at (qs.getLastD x), u.2) := by
  rw [process_runDir S dir (o := o.at x) hw (by rw [h.length]; exact hl), process_runDir S dir hw hl,
    runDir_at dir o h]

/-- `resetInternals` -/
theorem reset_at (o : Osc K C) {p q r d : K} (hp : Maths.reduceF S.env p 1 = .ok r)
    (hq : Maths.reduceF S.env q 1 = .ok r) :
    S.resetInternals o q d = (S.resetInternals o p d).map fun o' => o'.at q := by
  unfold resetInternals Osc.at
  dsimp only
  cases hw : o.wt with
  | none => dsimp only; cases chk S.env.dbg False <;> rfl
  | some wt0 =>
    dsimp only
    rw [hp, hq]
    simp only [R.map_bind]
    rfl

end Sys
end Adwt
