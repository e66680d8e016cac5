import Verif.Props.Polarity
import Verif.Proofs.ObliviousWork

/-!
# C86: the samples do not influence what the library does, only what it plays
-/

set_option linter.unusedSectionVars false

namespace Adwt.Props
open WavetableData
variable {K C : Type} [Field K] [LinearOrder K] [IsStrictOrderedRing K] [FloorRing K]
variable [Zero C] [Add C] [Sub C] [Mul C] [Div C]

/-- C86: two programs that differ only in the values of the waveform samples fail alike, with the same
error, or succeed alike: with as many output samples, the same getters, and wavetables that answer
`findMipMapIndices` alike forever after (the same mipmap tables with the same weights). Any program, legal
or not, in debug and release builds, with any arithmetic. -/
theorem C86_outcome (S : Sys K C) (hE : ObliviousSrc S.env) (prog prog' : List (Call K))
    (h : List.Forall₂ Call.Alike prog prog') :
    (∀ e, runCalls S S.fresh prog = .error e → runCalls S S.fresh prog' = .error e) ∧
    ∀ o ys, runCalls S S.fresh prog = .ok (o, ys) →
      ∃ o' ys', runCalls S S.fresh prog' = .ok (o', ys') ∧ ys'.length = ys.length ∧
        o'.prevPhase = o.prevPhase ∧ o'.prevPhaseDiff = o.prevPhaseDiff ∧ o'.crt = o.crt ∧
        o'.prevMip = o.prevMip ∧ o'.jRed = o.jRed ∧ S.numWaveforms o' = S.numWaveforms o ∧
        ∀ d, o'.wt.map (fun wt => (wt.findMipMapIndices S.env d).map (·.2)) =
          o.wt.map fun wt => (wt.findMipMapIndices S.env d).map (·.2) := by
  have key := Sys.calls_alike (S := S) hE h (Sys.OscAlike.refl_none S.fresh rfl)
  revert key
  generalize runCalls S S.fresh prog = x
  generalize runCalls S S.fresh prog' = y
  intro key
  cases x <;> cases y
  · cases (show _ = _ from key)
    exact ⟨fun e h => h, fun o ys h => nomatch h⟩
  · exact key.elim
  · exact key.elim
  rename_i r r'
  refine ⟨fun e h => (nomatch h), fun o ys h => ?_⟩
  cases h
  obtain ⟨ho, hl⟩ := (show Sys.CallAlike (o, ys) r' from key)
  refine ⟨r'.1, r'.2, rfl, Eq.symm hl, ho.prevPhase.symm, ho.prevPhaseDiff.symm, ho.crt.symm,
    ho.prevMip.symm, ho.jRed.symm, ?_, fun d => ?_⟩
  · have hw := ho.wt
    unfold Sys.numWaveforms
    revert hw
    dsimp only
    generalize o.wt = a
    generalize r'.1.wt = b
    intro hw
    cases hw with
    | none => rfl
    | some hw =>
      show Except.ok _ = Except.ok _
      exact congrArg Except.ok (congrArg Int.ofNat hw.m.length_eq.symm)
  · have hw := ho.wt
    revert hw
    dsimp only
    generalize o.wt = a
    generalize r'.1.wt = b
    intro hw
    cases hw with
    | none => rfl
    | some hw =>
      rw [Option.map_some, Option.map_some]
      unfold findMipMapIndices
      rw [hw.cf]
      generalize CrossFader.newIndices S.env _ d = z
      cases z <;> rfl

/-- C86: so a program is safe with all samples if it is safe with zeros: trying it once with silent
waveforms settles it. -/
theorem C86_zeros (S : Sys K C) (hE : ObliviousSrc S.env) (prog zeros : List (Call K))
    (h : List.Forall₂ Call.Alike zeros prog) (hz : ∀ c ∈ zeros, c.Silent) (o : Osc K C) (ys : List K)
    (hrun : runCalls S S.fresh zeros = .ok (o, ys)) :
    ∃ o' ys', runCalls S S.fresh prog = .ok (o', ys') ∧ ys'.length = ys.length := by
  obtain ⟨o', ys', e, hl, -⟩ := (C86_outcome S hE zeros prog h).2 o ys hrun
  exact ⟨o', ys', e, hl⟩

/-- C86: nor do the samples influence how long a call of `process` takes: at every sample the corner
loops run as often (in the lower and in the upper table). -/
theorem C86_time (S : Sys K C) (hE : ObliviousSrc S.env) (prog prog' : List (Call K))
    (h : List.Forall₂ Call.Alike prog prog') (o o' : Osc K C) (ys ys' : List K)
    (e : runCalls S S.fresh prog = .ok (o, ys)) (e' : runCalls S S.fresh prog' = .ok (o', ys'))
    (dir : Sys.Direction) (ps out : List K) (r : Osc K C × List K) (counts : List (ℕ × ℕ))
    (hr : S.processW dir o ps out = .ok (r, counts)) :
    ∃ r', S.processW dir o' ps out = .ok (r', counts) := by
  have key := Sys.calls_alike (S := S) hE h (Sys.OscAlike.refl_none S.fresh rfl)
  rw [e, e'] at key
  have k2 := Sys.processW_alike (S := S) dir (show Sys.CallAlike (o, ys) (o', ys') from key).1 ps
    (rfl : out.length = out.length)
  dsimp only at k2
  rw [hr] at k2
  revert k2
  generalize S.processW dir o' ps out = y
  intro k2
  cases y with
  | error => exact k2.elim
  | ok r' =>
    have : counts = r'.2 := (show Sys.CallAlikeW (r, counts) r' from k2).2
    exact ⟨r'.1, by rw [this]⟩

theorem pick_oblivious (E : Env ℝ) (h : E.src = pickSrc ℝ) : ObliviousSrc E := by
  intro l l' hl n r
  rw [h]
  unfold pickSrc
  dsimp only
  rw [hl]
  exact ⟨rfl, rfl, rfl⟩

/-- C86 applies to IEEE floats with any built-in filter: whatever the eight samples, the program succeeds
as it does with zeros, and puts out three samples. -/
example (t : FilterType) (ws : List ℝ) (h : ws.length = 8) :
    ∃ o ys, runCalls (sysF t) (sysF t).fresh (exampleProg ws) = .ok (o, ys) ∧ ys.length = 3 := by
  obtain ⟨o, ys, e, hl⟩ := exampleProg_ok (S := sysF t) envI_ok (floatSys t).B (List.replicate 8 0) (by simp)
  obtain ⟨o', ys', e', hl'⟩ := C86_zeros (sysF t) (pick_oblivious _ rfl) (exampleProg ws) _
    (by
      refine .cons ⟨by simp [h], rfl, rfl, rfl, rfl, rfl⟩ ?_
      exact .cons ⟨rfl, rfl⟩ (.cons ⟨rfl, rfl⟩ .nil))
    (by
      intro c hc
      unfold exampleProg at hc
      rcases List.mem_cons.1 hc with rfl | hc
      · intro x hx; exact List.eq_of_mem_replicate hx
      · simp only [List.map_cons, List.map_nil, List.mem_cons, List.not_mem_nil, or_false] at hc
        rcases hc with rfl | rfl <;> trivial) o ys e
  exact ⟨o', ys', e', hl'.trans hl⟩

end Adwt.Props
