import Verif.Spec.BuildMode
import Verif.Model.Ovs
import Verif.Model.Alias
import Verif.Model.Drivers

/-!
# Assertions have no side effects
-/

set_option linter.unusedSectionVars false

namespace Adwt
variable {K C : Type} [Field K] [LinearOrder K] [IsStrictOrderedRing K] [FloorRing K]
variable [Zero C] [Add C] [Sub C] [Mul C] [Div C]

namespace SameUnlessAborted

theorem ok {α : Type} (x : α) : SameUnlessAborted (.ok x) (.ok x) := ⟨Or.inr rfl, by simp⟩

theorem pure' {α : Type} (x : α) : SameUnlessAborted (pure x : R α) (pure x) := ok x

theorem err {α : Type} {e : Err} (h : e ≠ .assertFail) : SameUnlessAborted (.error e : R α) (.error e) :=
  ⟨Or.inr rfl, by simpa using h⟩

theorem bind {α β : Type} {a b : R α} {f g : α → R β} (h : SameUnlessAborted a b)
    (hf : ∀ x, SameUnlessAborted (f x) (g x)) : SameUnlessAborted (a >>= f) (b >>= g) := by
  obtain ⟨h1, h2⟩ := h
  rcases h1 with rfl | rfl
  · cases b with
    | error e => exact ⟨Or.inl rfl, by simpa [Bind.bind, Except.bind] using h2⟩
    | ok x => exact ⟨Or.inl rfl, (hf x).2⟩
  · cases b with
    | error e => exact ⟨Or.inr rfl, by simpa [Bind.bind, Except.bind] using h2⟩
    | ok x => exact hf x

theorem chk (dbg : Bool) (c : Prop) [Decidable c] : SameUnlessAborted (chk dbg c) (chk false c) := by
  unfold Adwt.chk
  by_cases h : dbg = true ∧ ¬ c
  · rw [if_pos h]; exact ⟨Or.inl rfl, by simp⟩
  · rw [if_neg h, if_neg (by simp)]; exact ok _

theorem rd {α : Type} (l : List α) (i : Int) : SameUnlessAborted (rd l i) (rd l i) := by
  unfold Adwt.rd
  split
  · split
    · exact ok _
    · exact err (by simp)
  · exact err (by simp)

theorem fdiv (fl : K → K) (a b : K) : SameUnlessAborted (fdiv fl a b) (fdiv fl a b) := by
  unfold Adwt.fdiv
  split
  · exact err (by simp)
  · exact ok _

theorem toInt (x : K) : SameUnlessAborted (toInt x) (toInt x) := by
  unfold Adwt.toInt
  split
  · exact ok _
  · exact err (by simp)

theorem ite {α : Type} {p : Prop} [Decidable p] {a b a' b' : R α} (h1 : SameUnlessAborted a a')
    (h2 : SameUnlessAborted b b') : SameUnlessAborted (if p then a else b) (if p then a' else b') := by
  split
  · exact h1
  · exact h2

theorem mapM {α β : Type} {f g : α → R β} (h : ∀ x, SameUnlessAborted (f x) (g x)) (l : List α) :
    SameUnlessAborted (l.mapM f) (l.mapM g) := by
  induction l with
  | nil => simp only [List.mapM_nil]; exact ok _
  | cons x l ih =>
    simp only [List.mapM_cons]
    exact (h x).bind fun y => ih.bind fun ys => ok _

theorem foldlM {α β : Type} {f g : β → α → R β} (h : ∀ b x, SameUnlessAborted (f b x) (g b x)) (l : List α)
    (b : β) : SameUnlessAborted (l.foldlM f b) (l.foldlM g b) := by
  induction l generalizing b with
  | nil => simp only [List.foldlM_nil]; exact ok _
  | cons x l ih =>
    simp only [List.foldlM_cons]
    exact (h b x).bind fun y => ih y

end SameUnlessAborted

open SameUnlessAborted

namespace Maths

theorem floor_mode (fl : K → K) (x : K) : SameUnlessAborted (floor fl x) (floor fl x) :=
  (SameUnlessAborted.toInt x).bind fun _ => ok _

theorem ceil_mode (fl : K → K) (x : K) : SameUnlessAborted (ceil fl x) (ceil fl x) :=
  (SameUnlessAborted.toInt x).bind fun _ => ok _

theorem isPowerOfTwo_mode (E : Env K) (v : Int) : SameUnlessAborted (isPowerOfTwo E v) (isPowerOfTwo E.release v) := by
  unfold isPowerOfTwo
  exact ite (ok _) ((ceil_mode _ _).bind fun _ => (floor_mode _ _).bind fun _ => ok _)

theorem reduceI_mode (dbg : Bool) (v t : Int) : SameUnlessAborted (reduceI dbg v t) (reduceI false v t) := by
  unfold reduceI
  exact (SameUnlessAborted.chk _ _).bind fun _ => (SameUnlessAborted.chk _ _).bind fun _ => ok _

theorem reduceF_mode (E : Env K) (v t : K) : SameUnlessAborted (reduceF E v t) (reduceF E.release v t) := by
  unfold reduceF
  exact (SameUnlessAborted.chk _ _).bind fun _ => (SameUnlessAborted.chk _ _).bind fun _ => ok _

end Maths

namespace CrossFader

theorem findMipMapIndex_mode (dbg : Bool) (s : List K) (d : K) :
    SameUnlessAborted (findMipMapIndex dbg s d) (findMipMapIndex false s d) := by
  unfold findMipMapIndex
  exact (SameUnlessAborted.chk _ _).bind fun _ => ok _

theorem fadeTuple_mode (E : Env K) (c : CrossFader K) :
    SameUnlessAborted (fadeTuple E c) (fadeTuple E.release c) := by
  unfold fadeTuple computeFading
  refine (SameUnlessAborted.fdiv _ _ _).bind fun _ => ?_
  split <;> exact ok _

theorem newIndices_mode (E : Env K) (c : CrossFader K) (d : K) :
    SameUnlessAborted (newIndices E c d) (newIndices E.release c d) := by
  unfold newIndices
  refine (findMipMapIndex_mode _ _ _).bind fun i => ?_
  refine ite ((SameUnlessAborted.chk _ _).bind fun _ => fadeTuple_mode _ _) (ite ?_ (fadeTuple_mode _ _))
  exact (SameUnlessAborted.chk _ _).bind fun _ => ok _

theorem computeMipMapScale_mode (E : Env K) (len : Int) (sr : K) :
    SameUnlessAborted (computeMipMapScale E len sr) (computeMipMapScale E.release len sr) := by
  unfold computeMipMapScale computeNumMipMapTables
  refine (SameUnlessAborted.fdiv _ _ _).bind fun q => ?_
  refine ((SameUnlessAborted.fdiv _ _ _).bind fun _ => (Maths.floor_mode _ _).bind fun _ => ok _).bind fun n => ?_
  refine ite (err (by simp)) (SameUnlessAborted.mapM (fun i => ?_) _)
  exact SameUnlessAborted.fdiv _ _ _

theorem make_mode (E : Env K) (n len : Int) (sr : K) :
    SameUnlessAborted (make E n len sr) (make E.release n len sr) := by
  unfold make
  exact (computeMipMapScale_mode _ _ _).bind fun _ => (findMipMapIndex_mode _ _ _).bind fun _ => ok _

end CrossFader

namespace WavetableData

theorem rd2_mode {α : Type} (t : List (List α)) (w i : Int) : SameUnlessAborted (rd2 t w i) (rd2 t w i) := by
  unfold rd2
  exact (SameUnlessAborted.rd _ _).bind fun _ => SameUnlessAborted.rd _ _

theorem waveformLen_mode (d : WavetableData K) (i : Int) : SameUnlessAborted (d.waveformLen i) (d.waveformLen i) :=
  (rd2_mode _ _ _).bind fun _ => ok _

theorem find_mode (E : Env K) (d : WavetableData K) (x : K) :
    SameUnlessAborted (d.findMipMapIndices E x) (d.findMipMapIndices E.release x) := by
  unfold findMipMapIndices
  exact (CrossFader.newIndices_mode _ _ _).bind fun _ => ok _

theorem computeMQVector_mode (E : Env K) (ph wf : List K) :
    SameUnlessAborted (computeMQVector E ph wf) (computeMQVector E.release ph wf) := by
  have hd : ∀ (v : List K) (l : Nat), SameUnlessAborted ((List.range l).mapM (diffEntry E.fl v l))
      ((List.range l).mapM (diffEntry E.fl v l)) := fun v l => SameUnlessAborted.mapM (fun i =>
    (SameUnlessAborted.rd _ _).bind fun _ => (SameUnlessAborted.rd _ _).bind fun _ => ok _) _
  unfold computeMQVector
  refine (SameUnlessAborted.mapM (fun i => ?_) _).bind fun mq => (hd _ _).bind fun _ => (hd _ _).bind fun _ =>
    (SameUnlessAborted.rd _ _).bind fun _ => (SameUnlessAborted.rd _ _).bind fun _ => ok _
  unfold mqEntry computeM computeQ ddiv
  refine (SameUnlessAborted.rd _ _).bind fun _ => (SameUnlessAborted.rd _ _).bind fun _ =>
    (SameUnlessAborted.rd _ _).bind fun _ => (SameUnlessAborted.rd _ _).bind fun _ => ?_
  exact (SameUnlessAborted.fdiv _ _ _).bind fun _ => (SameUnlessAborted.fdiv _ _ _).bind fun _ => ok _

theorem mipStep_mode (E : Env K) (phs : List (List K)) (og : List K) (acc : List (List K) × List (MQ K)) (i : Nat) :
    SameUnlessAborted (mipStep E phs og acc i) (mipStep E.release phs og acc i) := by
  have hm : SameUnlessAborted (mipSource og acc.1 i) (mipSource og acc.1 i) := by
    unfold mipSource
    exact ite (ok _) ((SameUnlessAborted.rd _ _).bind fun _ => ok _)
  unfold mipStep
  refine hm.bind fun s => ?_
  refine ite (err (by simp)) ?_
  exact (SameUnlessAborted.rd _ _).bind fun _ => (computeMQVector_mode _ _ _).bind fun _ => ok _

theorem waveformTables_mode (E : Env K) (num : Nat) (phs : List (List K)) (og : List K) :
    SameUnlessAborted (waveformTables E num phs og) (waveformTables E.release num phs og) := by
  unfold waveformTables
  exact (SameUnlessAborted.chk _ _).bind fun _ => (SameUnlessAborted.rd _ _).bind fun _ =>
    (computeMQVector_mode _ _ _).bind fun _ =>
    (SameUnlessAborted.foldlM (fun a i => mipStep_mode E phs og a i) _ _).bind fun _ => ok _

theorem make_mode (E : Env K) (ws : List K) (nw : Nat) (sr : K) (xf : Int) (len : Nat) :
    SameUnlessAborted (make E ws nw sr xf len) (make E.release ws nw sr xf len) := by
  unfold make computePhaseVectors computePhaseVector
  exact (CrossFader.make_mode _ _ _ _).bind fun cf => (SameUnlessAborted.chk _ _).bind fun _ =>
    (SameUnlessAborted.mapM (fun _ => SameUnlessAborted.mapM (fun _ => SameUnlessAborted.fdiv _ _ _) _) _).bind
      fun _ => (SameUnlessAborted.mapM (fun _ => waveformTables_mode _ _ _ _) _).bind fun _ => ok _

theorem catchRuntime_mode {α : Type} {a b : R α} (h : SameUnlessAborted a b) :
    SameUnlessAborted (catchRuntime a) (catchRuntime b) := by
  obtain ⟨h1, h2⟩ := h
  have hn : catchRuntime b ≠ .error .assertFail := by
    cases b with
    | ok x => simp [catchRuntime]
    | error e => cases e <;> simp_all [catchRuntime]
  rcases h1 with rfl | rfl
  · exact ⟨Or.inl rfl, hn⟩
  · exact ⟨Or.inr rfl, hn⟩

theorem build_mode (E : Env K) (ws : List K) (nw : Int) (sr dur : K) :
    SameUnlessAborted (build E ws nw sr dur) (build E.release ws nw sr dur) := by
  unfold build
  refine ite (ok _) (ite (ok _) (ite (ok _) (ite (ok _) ?_)))
  refine (Maths.isPowerOfTwo_mode _ _).bind fun p => ?_
  refine ite (ok _) ((SameUnlessAborted.toInt _).bind fun _ => catchRuntime_mode (make_mode _ _ _ _ _ _))

theorem rebuildWaveforms_mode (E : Env K) (d : WavetableData K) :
    SameUnlessAborted (rebuildWaveforms E d) (rebuildWaveforms E.release d) := by
  unfold rebuildWaveforms
  refine (SameUnlessAborted.chk _ _).bind fun _ => (waveformLen_mode _ _).bind fun _ =>
    (SameUnlessAborted.mapM (fun w => ?_) _).bind fun _ => ok _
  exact (rd2_mode _ _ _).bind fun _ => (rd2_mode _ _ _).bind fun _ => (SameUnlessAborted.rd _ _).bind fun _ => ok _

theorem updateSamplerate_mode (E : Env K) (d : WavetableData K) (sr dur : K) :
    SameUnlessAborted (updateSamplerate E d sr dur) (updateSamplerate E.release d sr dur) := by
  unfold updateSamplerate
  refine (rebuildWaveforms_mode _ _).bind fun _ => (build_mode _ _ _ _ _).bind fun nd => ?_
  cases nd with
  | none => exact err (by simp)
  | some x => exact ok _

end WavetableData

namespace Sys
open WavetableData

theorem overCoeffs_mode (n B : Nat) (fv fs : Nat → C → C) (a : Nat → C) :
    SameUnlessAborted (overCoeffs n B fv fs a) (overCoeffs n B fv fs a) := by
  have hb : ∀ i (a : Nat → C), SameUnlessAborted (batch (upperNumCoeffs n B) B i fv a)
      (batch (upperNumCoeffs n B) B i fv a) := fun i a => by
    unfold batch
    exact ite (ok _) (err (by simp))
  unfold overCoeffs
  exact (SameUnlessAborted.foldlM (fun a b => hb _ a) _ _).bind fun _ => ite (hb _ _) (ok _)

theorem computeI0_mode (S : Sys K C) (wt : WavetableData K) (crt mip p q : Int) (d a b : K) (x : Nat → C) :
    SameUnlessAborted (S.computeI0 wt crt mip p q d a b x) (S.release.computeI0 wt crt mip p q d a b x) := by
  unfold computeI0
  exact (rd2_mode _ _ _).bind fun _ => (rd2_mode _ _ _).bind fun _ => (SameUnlessAborted.rd _ _).bind fun _ =>
    (SameUnlessAborted.rd _ _).bind fun _ => (SameUnlessAborted.rd _ _).bind fun _ =>
    (SameUnlessAborted.rd _ _).bind fun _ => overCoeffs_mode _ _ _ _ _

theorem computeISumFwd_mode (S : Sys K C) (wt : WavetableData K) (crt mip p q : Int) (d b : K) (x : Nat → C) :
    SameUnlessAborted (S.computeISumFwd wt crt mip p q d b x) (S.release.computeISumFwd wt crt mip p q d b x) := by
  unfold computeISumFwd
  refine (waveformLen_mode _ _).bind fun _ => (rd2_mode _ _ _).bind fun _ => (rd2_mode _ _ _).bind fun _ =>
    (SameUnlessAborted.rd _ _).bind fun _ => SameUnlessAborted.foldlM (fun a i => ?_) _ _
  unfold iSumFwdStep
  exact (Maths.reduceI_mode _ _ _).bind fun _ => (SameUnlessAborted.rd _ _).bind fun _ =>
    (SameUnlessAborted.fdiv _ _ _).bind fun _ => (SameUnlessAborted.rd _ _).bind fun _ =>
    (SameUnlessAborted.rd _ _).bind fun _ => overCoeffs_mode _ _ _ _ _

theorem computeISumBwd_mode (S : Sys K C) (wt : WavetableData K) (crt mip j p q : Int) (d b : K) (x : Nat → C) :
    SameUnlessAborted (S.computeISumBwd wt crt mip j p q d b x) (S.release.computeISumBwd wt crt mip j p q d b x) := by
  unfold computeISumBwd
  refine (SameUnlessAborted.chk _ _).bind fun _ => (waveformLen_mode _ _).bind fun _ => (rd2_mode _ _ _).bind fun _ =>
    (rd2_mode _ _ _).bind fun _ => (SameUnlessAborted.rd _ _).bind fun _ =>
    SameUnlessAborted.foldlM (fun a i => ?_) _ _
  unfold iSumBwdStep
  exact (Maths.reduceI_mode _ _ _).bind fun _ => (SameUnlessAborted.rd _ _).bind fun _ =>
    (SameUnlessAborted.fdiv _ _ _).bind fun _ => (SameUnlessAborted.rd _ _).bind fun _ =>
    (SameUnlessAborted.rd _ _).bind fun _ => overCoeffs_mode _ _ _ _ _

theorem computeFwdI_mode (S : Sys K C) (wt : WavetableData K) (crt : Int) (r : K) (mip p q : Int) (d b : K)
    (x : Nat → C) :
    SameUnlessAborted (S.computeFwdI wt crt r mip p q d b x) (S.release.computeFwdI wt crt r mip p q d b x) := by
  unfold computeFwdI
  exact (computeI0_mode _ _ _ _ _ _ _ _ _ _).bind fun _ => computeISumFwd_mode _ _ _ _ _ _ _ _ _

theorem computeBwdI_mode (S : Sys K C) (wt : WavetableData K) (crt : Int) (r : K) (mip j p q : Int) (d b : K)
    (x : Nat → C) :
    SameUnlessAborted (S.computeBwdI wt crt r mip j p q d b x) (S.release.computeBwdI wt crt r mip j p q d b x) := by
  unfold computeBwdI
  exact (SameUnlessAborted.chk _ _).bind fun _ => (computeI0_mode _ _ _ _ _ _ _ _ _ _).bind fun _ =>
    computeISumBwd_mode _ _ _ _ _ _ _ _ _ _

theorem adjustJ_mode (ph : List K) (m pm j : Int) (a b : K) :
    SameUnlessAborted (adjustJ ph m pm j a b) (adjustJ ph m pm j a b) := by
  unfold adjustJ
  exact ite (ok _) (ite (ite ((SameUnlessAborted.rd _ _).bind fun _ => ok _)
    ((SameUnlessAborted.rd _ _).bind fun _ => ok _)) (ok _))

theorem prevJFwd_mode (fl : K → K) (ph : List K) (j : Int) (a b : K) :
    SameUnlessAborted (prevJFwd fl ph j a b) (prevJFwd fl ph j a b) := by
  unfold prevJFwd
  exact ite ((SameUnlessAborted.rd _ _).bind fun _ => ok _) (ok _)

theorem prevJBwd_mode (fl : K → K) (ph : List K) (j : Int) (a b : K) :
    SameUnlessAborted (prevJBwd fl ph j a b) (prevJBwd fl ph j a b) := by
  unfold prevJBwd
  exact ite ((SameUnlessAborted.rd _ _).bind fun _ => ok _) (ok _)

theorem withUpper_mode (S : Sys K C) (t : MipMapIndices K) (a : Nat → C) {u v : R (Nat → C)}
    (h : SameUnlessAborted u v) : SameUnlessAborted (S.withUpper t a u) (S.release.withUpper t a v) := by
  unfold withUpper
  exact ite (h.bind fun _ => ok _) (ok _)

theorem processSampleFwd_mode (S : Sys K C) (o : Osc K C) (p d : K) :
    SameUnlessAborted (S.processSampleFwd o p d) (S.release.processSampleFwd o p d) := by
  unfold processSampleFwd
  refine (SameUnlessAborted.chk _ _).bind fun _ => ?_
  cases o.wt with
  | none => exact err (by simp)
  | some wt0 =>
    exact (find_mode _ _ _).bind fun _ => (SameUnlessAborted.rd _ _).bind fun _ =>
      (Maths.reduceF_mode _ _ _).bind fun _ => (waveformLen_mode _ _).bind fun _ =>
      (adjustJ_mode _ _ _ _ _ _).bind fun _ => (prevJFwd_mode _ _ _ _ _).bind fun _ =>
      (Maths.floor_mode _ _).bind fun _ => (Maths.reduceI_mode _ _ _).bind fun _ =>
      (Maths.reduceI_mode _ _ _).bind fun _ => (computeFwdI_mode _ _ _ _ _ _ _ _ _ _).bind fun _ =>
      (withUpper_mode _ _ _ (computeFwdI_mode _ _ _ _ _ _ _ _ _ _)).bind fun _ => ok _

theorem processSampleBwd_mode (S : Sys K C) (o : Osc K C) (p d : K) :
    SameUnlessAborted (S.processSampleBwd o p d) (S.release.processSampleBwd o p d) := by
  unfold processSampleBwd
  refine (SameUnlessAborted.chk _ _).bind fun _ => ?_
  cases o.wt with
  | none => exact err (by simp)
  | some wt0 =>
    exact (find_mode _ _ _).bind fun _ => (SameUnlessAborted.rd _ _).bind fun _ =>
      (Maths.reduceF_mode _ _ _).bind fun _ => (waveformLen_mode _ _).bind fun _ =>
      (adjustJ_mode _ _ _ _ _ _).bind fun _ => (prevJBwd_mode _ _ _ _ _).bind fun _ =>
      (Maths.ceil_mode _ _).bind fun _ => (Maths.reduceI_mode _ _ _).bind fun _ =>
      (Maths.reduceI_mode _ _ _).bind fun _ => (computeBwdI_mode _ _ _ _ _ _ _ _ _ _ _).bind fun _ =>
      (withUpper_mode _ _ _ (computeBwdI_mode _ _ _ _ _ _ _ _ _ _ _)).bind fun _ => ok _

theorem stepDir_mode (S : Sys K C) (dir : Direction) (o : Osc K C) (p : K) :
    SameUnlessAborted (S.stepDir dir o p) (S.release.stepDir dir o p) := by
  cases dir with
  | kForward => exact (SameUnlessAborted.chk _ _).bind fun _ => processSampleFwd_mode _ _ _ _
  | kBidirectionnal =>
    show SameUnlessAborted (S.stepBi o p) (S.release.stepBi o p)
    unfold stepBi
    exact ite (processSampleFwd_mode _ _ _ _) (processSampleBwd_mode _ _ _ _)

theorem runDir_mode (S : Sys K C) (dir : Direction) (ps : List K) (o : Osc K C) :
    SameUnlessAborted (S.runDir dir o ps) (S.release.runDir dir o ps) := by
  induction ps generalizing o with
  | nil => exact ok _
  | cons p ps ih =>
    unfold runDir
    exact (stepDir_mode _ _ _ _).bind fun r => (ih r.1).bind fun _ => ok _

theorem process_mode (S : Sys K C) (dir : Direction) (o : Osc K C) (ps out : List K) :
    SameUnlessAborted (S.process dir o ps out) (S.release.process dir o ps out) := by
  unfold process
  have h : SameUnlessAborted (do chk S.env.dbg (ps.length = out.length)
                                 let (o', ys) ← S.runDir dir o (ps.take out.length)
                                 return (o', ys ++ out.drop ys.length) : R (Osc K C × List K))
      (do chk S.release.env.dbg (ps.length = out.length)
          let (o', ys) ← S.release.runDir dir o (ps.take out.length)
          return (o', ys ++ out.drop ys.length)) :=
    (SameUnlessAborted.chk _ _).bind fun _ => (runDir_mode _ _ _ _).bind fun _ => ok _
  dsimp only
  split
  · exact (SameUnlessAborted.chk _ _).bind fun _ => h
  · exact h

theorem resetInternals_mode (S : Sys K C) (o : Osc K C) (p d : K) :
    SameUnlessAborted (S.resetInternals o p d) (S.release.resetInternals o p d) := by
  unfold resetInternals
  cases o.wt with
  | none => exact (SameUnlessAborted.chk _ _).bind fun _ => err (by simp)
  | some wt0 =>
    refine (Maths.reduceF_mode _ _ _).bind fun _ => (find_mode _ _ _).bind fun _ =>
      (waveformLen_mode _ _).bind fun _ => SameUnlessAborted.bind ?_ fun _ => ok _
    unfold segIndex
    exact ite (Maths.floor_mode _ _) (Maths.ceil_mode _ _)

theorem init_mode (S : Sys K C) (o : Osc K C) (w : Option (WavetableData K)) (p d : K) :
    SameUnlessAborted (S.init o w p d) (S.release.init o w p d) := by
  cases w with
  | none => exact ok _
  | some wt => exact (resetInternals_mode _ _ _ _).bind fun _ => ok _

theorem swapWavetable_mode (S : Sys K C) (o : Osc K C) (w : Option (WavetableData K)) (p d : K) :
    SameUnlessAborted (S.swapWavetable o w p d) (S.release.swapWavetable o w p d) := by
  cases w with
  | none => exact ok _
  | some wt => exact (resetInternals_mode _ _ _ _).bind fun _ => ok _

theorem updateSamplerate_mode (S : Sys K C) (o : Osc K C) (sr : K) :
    SameUnlessAborted (S.updateSamplerate o sr) (S.release.updateSamplerate o sr) := by
  unfold Sys.updateSamplerate
  cases o.wt with
  | none => exact (SameUnlessAborted.chk _ _).bind fun _ => err (by simp)
  | some wt => exact (WavetableData.updateSamplerate_mode _ _ _ _).bind fun _ => ok _

theorem setWaveform_mode (S : Sys K C) (o : Osc K C) (i : Int) :
    SameUnlessAborted (S.setWaveform o i) (S.release.setWaveform o i) := by
  unfold setWaveform
  exact (SameUnlessAborted.chk _ _).bind fun _ => ok _

theorem numWaveforms_mode (S : Sys K C) (o : Osc K C) :
    SameUnlessAborted (S.numWaveforms o) (S.release.numWaveforms o) := by
  unfold Sys.numWaveforms
  cases o.wt with
  | none => exact (SameUnlessAborted.chk _ _).bind fun _ => err (by simp)
  | some wt => exact ok _

end Sys

theorem Bank.exec_mode (S : ℕ → Sys K C) (b : Bank K C) (c : Instr K) :
    SameUnlessAborted (b.exec S c) (b.exec (fun i => (S i).release) c) := by
  cases c with
  | build s ws n sr dur => exact (WavetableData.build_mode _ _ _ _ _).bind fun _ => ok _
  | init i s p d => exact (Sys.init_mode _ _ _ _ _).bind fun _ => ok _
  | swap i s t p d => exact (Sys.swapWavetable_mode _ _ _ _ _).bind fun _ => ok _
  | process i dir ps => exact (Sys.process_mode _ _ _ _ _).bind fun _ => ok _
  | setWaveform i w => exact (Sys.setWaveform_mode _ _ _).bind fun _ => ok _
  | reset i p d => exact (Sys.resetInternals_mode _ _ _ _).bind fun _ => ok _
  | updateSamplerate i sr => exact (Sys.updateSamplerate_mode _ _ _).bind fun _ => ok _

theorem Bank.execS_mode (S : ℕ → Sys K C) (b : Bank K C) (c : Stmt K) :
    SameUnlessAborted (b.execS S c) (b.execS (fun i => (S i).release) c) := by
  cases c with
  | call c => exact Bank.exec_mode S b c
  | tableRate s sr dur =>
    unfold Bank.execS
    dsimp only
    cases b.slots s with
    | none => exact err (by simp)
    | some wt => exact (WavetableData.updateSamplerate_mode _ _ _ _).bind fun _ => ok _
  | tableFind s d =>
    unfold Bank.execS
    dsimp only
    cases b.slots s with
    | none => exact err (by simp)
    | some wt => exact (WavetableData.find_mode _ _ _).bind fun _ => ok _
  | moveTable s t => exact ok _
  | moveOsc i j => exact ok _

theorem Bank.runS_mode (S : ℕ → Sys K C) (cs : List (Stmt K)) (b : Bank K C) :
    SameUnlessAborted (b.runS S cs) (b.runS (fun i => (S i).release) cs) := by
  induction cs generalizing b with
  | nil => exact ok _
  | cons c cs ih => exact (Bank.execS_mode S b c).bind fun b' => ih b'

namespace Sys

theorem memLoop_mode (S : Sys K C) (dir : Direction) (n : ℕ) (o : Osc K C) (mem : ℕ → K) (pa oa : ℕ) :
    SameUnlessAborted (S.memLoop dir o mem pa oa n) (S.release.memLoop dir o mem pa oa n) := by
  induction n generalizing o mem pa oa with
  | zero => exact ok _
  | succ n ih =>
    unfold memLoop
    exact (stepDir_mode _ _ _ _).bind fun r => ih _ _ _ _

theorem processMem_mode (S : Sys K C) (dir : Direction) (o : Osc K C) (mem : ℕ → K) (pa pn oa on : ℕ) :
    SameUnlessAborted (S.processMem dir o mem pa pn oa on) (S.release.processMem dir o mem pa pn oa on) := by
  unfold processMem
  have h : SameUnlessAborted (do chk S.env.dbg (pn = on)
                                 S.memLoop dir o mem pa oa (min pn on) : R (Osc K C × (ℕ → K)))
      (do chk S.release.env.dbg (pn = on)
          S.release.memLoop dir o mem pa oa (min pn on)) :=
    (SameUnlessAborted.chk _ _).bind fun _ => memLoop_mode _ _ _ _ _ _ _
  dsimp only
  split
  · exact (SameUnlessAborted.chk _ _).bind fun _ => h
  · exact h

end Sys

namespace Ovs
variable {D : Type}

theorem sample_mode (E : Env K) (ws : List K) (p : K) :
    SameUnlessAborted (sample E ws p) (sample E.release ws p) := by
  unfold sample reduceU
  exact (Maths.floor_mode _ _).bind fun _ =>
    ((SameUnlessAborted.chk _ _).bind fun _ => (SameUnlessAborted.chk _ _).bind fun _ => ok _).bind fun _ =>
    (SameUnlessAborted.rd _ _).bind fun _ => (SameUnlessAborted.rd _ _).bind fun _ => ok _

theorem fill_mode (E : Env K) (ws ps us : List K) :
    SameUnlessAborted (fill E ws ps us) (fill E.release ws ps us) := by
  induction ps generalizing us with
  | nil => unfold fill; exact ok _
  | cons p ps ih =>
    cases us with
    | nil => unfold fill; exact ok _
    | cons u us =>
      unfold fill
      exact (sample_mode _ _ _).bind fun _ => (ih us).bind fun _ => ok _

theorem process_mode (E : Env K) (down : D → List K → Nat → D × List K) (o : OvsOsc K D) (ps : List K) (n : Nat) :
    SameUnlessAborted (process E down o ps n) (process E.release down o ps n) := by
  unfold process
  exact (SameUnlessAborted.chk _ _).bind fun _ => (SameUnlessAborted.chk _ _).bind fun _ =>
    (fill_mode _ _ _ _).bind fun _ => (SameUnlessAborted.chk _ _).bind fun _ => ite (err (by simp)) (ok _)

theorem juceLoop_mode (E : Env K) (down : D → List K → Nat → D × List K) (o : OvsOsc K D) (ps : List K)
    (bs r n : Nat) : SameUnlessAborted (juceLoop E down o ps bs r n) (juceLoop E.release down o ps bs r n) := by
  induction n with
  | zero => exact ok _
  | succ n ih =>
    unfold juceLoop
    exact ih.bind fun _ => (process_mode _ _ _ _ _).bind fun _ => ok _

theorem juceBench_mode (E : Env K) (initD : D → Nat → D) (down : D → List K → Nat → D × List K)
    (o : OvsOsc K D) (ws : List K) (sr : K) (n bs : Nat) :
    SameUnlessAborted (juceBench E initD down o ws sr n bs) (juceBench E.release initD down o ws sr n bs) := by
  unfold juceBench
  have hg : ∀ (fl : K → K) (a b c : K) (n : ℕ),
      SameUnlessAborted (Drivers.generateLinearSweepPhase fl a b c n) (Drivers.generateLinearSweepPhase fl a b c n) := by
    intro fl a b c n
    cases n with
    | zero => exact err (by simp)
    | succ n => exact ok _
  dsimp only
  exact ite (ok _) ((hg _ _ _ _ _).bind fun _ => (juceLoop_mode _ _ _ _ _ _ _).bind fun _ => ok _)

end Ovs

end Adwt
