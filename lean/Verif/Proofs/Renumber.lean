import Verif.Spec.Renumber
import Verif.Proofs.Sim
import Verif.Props.Calls

/-!
# Renumbering the waveforms of a wavetable
-/

set_option linter.unusedSectionVars false

namespace Adwt
variable {K C : Type} [Field K] [LinearOrder K] [IsStrictOrderedRing K] [FloorRing K]
variable [Zero C] [Add C] [Sub C] [Mul C] [Div C]

/-- the wavetables are those of spans in which waveforms related by `W` are the same, up to the crossfaders -/
def ShapeRen (E : Env K) (W : ℤ → ℤ → Prop) (a b : WavetableData K) : Prop :=
  ∃ (ws ws' : List K) (nw nw' L : ℕ) (xf : ℤ) (c : CrossFader K), 0 < nw ∧ 0 < nw' ∧ 2 ≤ L ∧ L ≤ 18 ∧
    ws.length = nw * 2 ^ L ∧ ws'.length = nw' * 2 ^ L ∧
    a = { WavetableData.wtOf E ws nw L xf with cf := c } ∧ b = { WavetableData.wtOf E ws' nw' L xf with cf := c } ∧
    ∀ i i', W i i' → SameWaveform ws nw ws' nw' L i i'

theorem ShapeRen.with_cf {E : Env K} {W : ℤ → ℤ → Prop} {a b : WavetableData K} (h : ShapeRen E W a b)
    (c : CrossFader K) : ShapeRen E W { a with cf := c } { b with cf := c } := by
  obtain ⟨ws, ws', nw, nw', L, xf, c', h1, h2, h3, h4, h5, h6, rfl, rfl, h7⟩ := h
  exact ⟨ws, ws', nw, nw', L, xf, c, h1, h2, h3, h4, h5, h6, rfl, rfl, h7⟩

/-- two wavetables in which waveforms related by `W` have the same tables -/
structure WtRen (E : Env K) (W : ℤ → ℤ → Prop) (a b : WavetableData K) : Prop where
  cf : a.cf = b.cf
  ph : ∀ i, a.phaseSpan i = b.phaseSpan i
  len : ∀ i, a.waveformLen i = b.waveformLen i
  m : ∀ w w', W w w' → ∀ i, a.mSpan w i = b.mSpan w' i
  q : ∀ w w', W w w' → ∀ i, a.qSpan w i = b.qSpan w' i
  md : ∀ w w', W w w' → ∀ i, a.mDiffSpan w i = b.mDiffSpan w' i
  qd : ∀ w w', W w w' → ∀ i, a.qDiffSpan w i = b.qDiffSpan w' i
  shape : ShapeRen E W a b

/-- two oscillators in the same state but for the number of the waveform and the other waveforms -/
structure OscRen (E : Env K) (W : ℤ → ℤ → Prop) (a b : Osc K C) : Prop where
  wt : ∃ x y, a.wt = some x ∧ b.wt = some y ∧ WtRen E W x y
  prevY : a.prevY = b.prevY
  prevPhase : a.prevPhase = b.prevPhase
  prevPhaseRed : a.prevPhaseRed = b.prevPhaseRed
  prevPhaseDiff : a.prevPhaseDiff = b.prevPhaseDiff
  prevMip : a.prevMip = b.prevMip
  jRed : a.jRed = b.jRed
  prevJRed : a.prevJRed = b.prevJRed
  w : W a.crt b.crt

open WavetableData in
theorem WavetableData.waveformLen_wtOf (E : Env K) (ws : List K) (nw L : ℕ) (xf i : ℤ) (hn : 0 < nw) :
    (wtOf E ws nw L xf).waveformLen i =
      if 0 ≤ i ∧ i < (L - 1 : ℕ) then .ok ((2 ^ (L - i.toNat) : ℕ) : ℤ) else .error .outOfBounds := by
  have h0 : ∀ i : ℤ, ¬ (0 ≤ i ∧ i < (L - 1 : ℕ)) → (wtOf E ws nw L xf).waveformLen i = .error .outOfBounds := by
    intro i hi
    unfold waveformLen rd2 wtOf
    simp only [List.map_map]
    have := rd_map_range (fun w => (List.map MQ.m ((List.range (L - 1)).map
      (tabOf E L (waveformOf ws (2 ^ L) w))))) (n := nw) (k := 0) (by omega)
    rw [show ((0 : ℕ) : ℤ) = 0 from rfl] at this
    erw [this]
    rw [R.ok_bind]
    by_cases hi' : 0 ≤ i
    · rw [rd_big (by simp; omega)]; rfl
    · rw [rd_neg (by omega)]; rfl
  split
  · rename_i h
    obtain ⟨k, rfl⟩ := Int.eq_ofNat_of_zero_le h.1
    exact wtOf_waveformLen hn (by omega)
  · exact h0 i ‹_›

open WavetableData in
theorem WavetableData.rd2_map_ren {α β : Type} {n n' : ℕ} {f g : ℕ → List α} {i i' : ℤ} {k k' : ℕ} (hi : i = k) (hi' : i' = k')
    (hk : k < n) (hk' : k' < n') (h : f k = g k') (j : ℤ) (F : List α → List β) :
    rd2 ((List.range n).map fun w => F (f w)) i j = rd2 ((List.range n').map fun w => F (g w)) i' j := by
  subst hi; subst hi'
  unfold rd2
  rw [rd_map_range _ hk, rd_map_range _ hk', h]

open WavetableData in
theorem wtRen_wtOf {E : Env K} {ws ws' : List K} {nw nw' L : ℕ} {xf : ℤ} (hn : 0 < nw) (hn' : 0 < nw') (h2 : 2 ≤ L)
    (h18 : L ≤ 18) (hl : ws.length = nw * 2 ^ L) (hl' : ws'.length = nw' * 2 ^ L) {W : ℤ → ℤ → Prop}
    (hW : ∀ i i', W i i' → SameWaveform ws nw ws' nw' L i i') :
    WtRen E W (wtOf E ws nw L xf) (wtOf E ws' nw' L xf) := by
  refine ⟨rfl, fun i => rfl, fun i => ?_, ?_, ?_, ?_, ?_, ?_⟩
  · rw [waveformLen_wtOf _ _ _ _ _ _ (by omega), waveformLen_wtOf _ _ _ _ _ _ (by omega)]
  · intro w w' hw i; obtain ⟨k, k', hk, hk', hkn, hkn', hww⟩ := hW w w' hw
    unfold mSpan wtOf
    simp only [List.map_map]
    exact rd2_map_ren (F := fun y => (((List.range (L - 1)).map (tabOf E L y)).map MQ.m))
      (f := fun w => waveformOf ws (2 ^ L) w) (g := fun w => waveformOf ws' (2 ^ L) w) hk hk' hkn hkn' hww i
  · intro w w' hw i; obtain ⟨k, k', hk, hk', hkn, hkn', hww⟩ := hW w w' hw
    unfold qSpan wtOf
    simp only [List.map_map]
    exact rd2_map_ren (F := fun y => (((List.range (L - 1)).map (tabOf E L y)).map MQ.q))
      (f := fun w => waveformOf ws (2 ^ L) w) (g := fun w => waveformOf ws' (2 ^ L) w) hk hk' hkn hkn' hww i
  · intro w w' hw i; obtain ⟨k, k', hk, hk', hkn, hkn', hww⟩ := hW w w' hw
    unfold mDiffSpan wtOf
    simp only [List.map_map]
    exact rd2_map_ren (F := fun y => (((List.range (L - 1)).map (tabOf E L y)).map MQ.mDiff))
      (f := fun w => waveformOf ws (2 ^ L) w) (g := fun w => waveformOf ws' (2 ^ L) w) hk hk' hkn hkn' hww i
  · intro w w' hw i; obtain ⟨k, k', hk, hk', hkn, hkn', hww⟩ := hW w w' hw
    unfold qDiffSpan wtOf
    simp only [List.map_map]
    exact rd2_map_ren (F := fun y => (((List.range (L - 1)).map (tabOf E L y)).map MQ.qDiff))
      (f := fun w => waveformOf ws (2 ^ L) w) (g := fun w => waveformOf ws' (2 ^ L) w) hk hk' hkn hkn' hww i
  · exact ⟨ws, ws', nw, nw', L, xf, _, hn, hn', h2, h18, hl, hl', rfl, rfl, hW⟩

namespace Sys
variable {S : Sys K C} {W : ℤ → ℤ → Prop} {wt1 wt2 : WavetableData K}

theorem computeFwdI_ren (hw : WtRen S.env W wt1 wt2) {c c' : ℤ} (hc : W c c') (prev : K) (mip jmin jmax : ℤ) (d x : K)
    (a : ℕ → C) : S.computeFwdI wt1 c prev mip jmin jmax d x a = S.computeFwdI wt2 c' prev mip jmin jmax d x a := by
  unfold computeFwdI computeI0 computeISumFwd
  rw [hw.m _ _ hc, hw.q _ _ hc, hw.len, hw.md _ _ hc, hw.qd _ _ hc, hw.ph]

theorem computeBwdI_ren (hw : WtRen S.env W wt1 wt2) {c c' : ℤ} (hc : W c c') (prev : K) (mip jm jmin jmax : ℤ) (d x : K)
    (a : ℕ → C) :
    S.computeBwdI wt1 c prev mip jm jmin jmax d x a = S.computeBwdI wt2 c' prev mip jm jmin jmax d x a := by
  unfold computeBwdI computeI0 computeISumBwd
  rw [hw.m _ _ hc, hw.q _ _ hc, hw.len, hw.md _ _ hc, hw.qd _ _ hc, hw.ph]

theorem find_ren {E : Env K} (h : WtRen E W wt1 wt2) (d : K) :
    Sim (fun a b => WtRen E W a.1 b.1 ∧ a.2 = b.2) (wt1.findMipMapIndices E d) (wt2.findMipMapIndices E d) := by
  unfold WavetableData.findMipMapIndices
  rw [h.cf]
  exact Sim.bind_same _ fun r => ⟨⟨rfl, h.ph, h.len, h.m, h.q, h.md, h.qd, h.shape.with_cf _⟩, rfl⟩

/-- the same sample from related states -/
def ResRen (E : Env K) (W : ℤ → ℤ → Prop) (a b : Osc K C × K) : Prop := OscRen E W a.1 b.1 ∧ a.2 = b.2

/-- the same block from related states -/
def BlockRen (E : Env K) (W : ℤ → ℤ → Prop) (a b : Osc K C × List K) : Prop := OscRen E W a.1 b.1 ∧ a.2 = b.2

variable {o1 o2 : Osc K C}

theorem sampleFwd_ren (ho : OscRen S.env W o1 o2) (p d : K) :
    Sim (ResRen S.env W) (S.processSampleFwd o1 p d) (S.processSampleFwd o2 p d) := by
  unfold processSampleFwd
  refine Sim.bind_same _ fun _ => ?_
  obtain ⟨x, y, e1, e2, hw⟩ := ho.wt
  rw [e1, e2, ← ho.prevPhaseRed, ← ho.prevPhaseDiff, ← ho.prevMip, ← ho.jRed, ← ho.prevY]
  dsimp only
  refine Sim.bind (find_ren hw d) fun ⟨x1, t1⟩ ⟨x2, t2⟩ ⟨hw', ht⟩ => ?_
  dsimp only at hw' ht ⊢
  subst ht
  rw [hw'.ph, hw'.len]
  refine Sim.bind_same _ fun phs => Sim.bind_same _ fun pr => Sim.bind_same _ fun len =>
    Sim.bind_same _ fun j0 => Sim.bind_same _ fun pj => Sim.bind_same _ fun j =>
    Sim.bind_same _ fun jmin => Sim.bind_same _ fun jmax => ?_
  simp only [computeFwdI_ren hw' ho.w]
  refine Sim.bind_same _ fun a => Sim.bind_same _ fun b => ?_
  exact ⟨⟨⟨_, _, rfl, rfl, hw'⟩, rfl, rfl, rfl, rfl, rfl, rfl, rfl, ho.w⟩, rfl⟩

theorem sampleBwd_ren (ho : OscRen S.env W o1 o2) (p d : K) :
    Sim (ResRen S.env W) (S.processSampleBwd o1 p d) (S.processSampleBwd o2 p d) := by
  unfold processSampleBwd
  refine Sim.bind_same _ fun _ => ?_
  obtain ⟨x, y, e1, e2, hw⟩ := ho.wt
  rw [e1, e2, ← ho.prevPhaseRed, ← ho.prevPhaseDiff, ← ho.prevMip, ← ho.jRed, ← ho.prevY]
  dsimp only
  refine Sim.bind (find_ren hw _) fun ⟨x1, t1⟩ ⟨x2, t2⟩ ⟨hw', ht⟩ => ?_
  dsimp only at hw' ht ⊢
  subst ht
  rw [hw'.ph, hw'.len]
  refine Sim.bind_same _ fun phs => Sim.bind_same _ fun pr => Sim.bind_same _ fun len =>
    Sim.bind_same _ fun j0 => Sim.bind_same _ fun pj => Sim.bind_same _ fun j =>
    Sim.bind_same _ fun jmin => Sim.bind_same _ fun jmax => ?_
  simp only [computeBwdI_ren hw' ho.w]
  refine Sim.bind_same _ fun a => Sim.bind_same _ fun b => ?_
  exact ⟨⟨⟨_, _, rfl, rfl, hw'⟩, rfl, rfl, rfl, rfl, rfl, rfl, rfl, ho.w⟩, rfl⟩

theorem stepDir_ren (ho : OscRen S.env W o1 o2) (dir : Direction) (p : K) :
    Sim (ResRen S.env W) (S.stepDir dir o1 p) (S.stepDir dir o2 p) := by
  cases dir
  · show Sim _ (S.stepFwd o1 p) (S.stepFwd o2 p)
    unfold stepFwd
    dsimp only
    rw [← ho.prevPhase]
    exact Sim.bind_same _ fun _ => sampleFwd_ren ho _ _
  · show Sim _ (S.stepBi o1 p) (S.stepBi o2 p)
    unfold stepBi
    dsimp only
    rw [← ho.prevPhase]
    split
    · exact sampleFwd_ren ho _ _
    · exact sampleBwd_ren ho _ _

theorem runDir_ren (dir : Direction) (ps : List K) (ho : OscRen S.env W o1 o2) :
    Sim (BlockRen S.env W) (S.runDir dir o1 ps) (S.runDir dir o2 ps) := by
  induction ps generalizing o1 o2 with
  | nil => exact ⟨ho, rfl⟩
  | cons p ps ih =>
    unfold runDir
    refine Sim.bind (stepDir_ren ho dir p) fun ⟨a, y⟩ ⟨b, y'⟩ hab => ?_
    refine Sim.bind (ih hab.1) fun ⟨a', ys⟩ ⟨b', ys'⟩ hab' => ⟨hab'.1, ?_⟩
    show y :: ys = y' :: ys'
    rw [show y = y' from hab.2, show ys = ys' from hab'.2]

theorem process_ren (dir : Direction) (ps out : List K) (ho : OscRen S.env W o1 o2) :
    Sim (BlockRen S.env W) (S.process dir o1 ps out) (S.process dir o2 ps out) := by
  have key : ∀ qs : List K, Sim (BlockRen S.env W)
      (do let (o', ys) ← S.runDir dir o1 qs
          return (o', ys ++ out.drop ys.length))
      (do let (o', ys) ← S.runDir dir o2 qs
          return (o', ys ++ out.drop ys.length)) := by
    intro qs
    refine Sim.bind (runDir_ren dir qs ho) fun ⟨a, ys⟩ ⟨b, ys'⟩ hab => ⟨hab.1, ?_⟩
    show ys ++ out.drop ys.length = ys' ++ out.drop ys'.length
    rw [show ys = ys' from hab.2]
  obtain ⟨x, y, e1, e2, hw⟩ := ho.wt
  have en : o1.wt.isNone = o2.wt.isNone := by rw [e1, e2]; rfl
  unfold process
  dsimp only
  rw [en]
  split
  · exact Sim.bind_same _ fun _ => Sim.bind_same _ fun _ => key _
  · exact Sim.bind_same _ fun _ => key _

/-- `resetInternals`, whatever waveforms are selected afterwards -/
theorem reset_ren {x y : WavetableData K} (e1 : o1.wt = some x) (e2 : o2.wt = some y) (hw : WtRen S.env W x y)
    (hj : o1.prevJRed = o2.prevJRed) (p d : K) :
    Sim (fun a b => a.crt = o1.crt ∧ b.crt = o2.crt ∧
        ∀ c c', W c c' → OscRen S.env W { a with crt := c } { b with crt := c' })
      (S.resetInternals o1 p d) (S.resetInternals o2 p d) := by
  unfold resetInternals
  rw [e1, e2]
  refine Sim.bind_same _ fun pr => Sim.bind (find_ren hw _) fun ⟨x1, t1⟩ ⟨x2, t2⟩ ⟨hw', ht⟩ => ?_
  dsimp only at hw' ht ⊢
  subst ht
  rw [hw'.len]
  refine Sim.bind_same _ fun len => Sim.bind_same _ fun j => ?_
  exact ⟨rfl, rfl, fun c c' hc => ⟨⟨_, _, rfl, rfl, hw'⟩, rfl, rfl, rfl, rfl, rfl, rfl, hj, hc⟩⟩

theorem runOps_ren {ops ops' : List (Op K)} (h : List.Forall₂ (Op.Renumbered W) ops ops') (ho : OscRen S.env W o1 o2) :
    Sim (BlockRen S.env W) (runOps S o1 ops) (runOps S o2 ops') := by
  induction h generalizing o1 o2 with
  | nil => exact ⟨ho, rfl⟩
  | @cons op op' ops ops' hop _ ih =>
    unfold runOps
    refine Sim.bind (P := BlockRen S.env W) ?_ fun ⟨a, ys⟩ ⟨b, ys'⟩ hab => ?_
    · cases op <;> cases op' <;> first | exact hop.elim | skip
      · obtain ⟨rfl, rfl⟩ := hop
        exact process_ren _ _ _ ho
      · unfold runOp setWaveform
        obtain ⟨x, y, e1, e2, hw⟩ := ho.wt
        rw [e1, e2]
        refine Sim.bind (P := OscRen S.env W) ?_ fun a b hab => ⟨hab, rfl⟩
        refine Sim.bind_same _ fun _ => ?_
        exact ⟨⟨x, y, rfl, rfl, hw⟩, ho.prevY, ho.prevPhase, ho.prevPhaseRed, ho.prevPhaseDiff, ho.prevMip, ho.jRed,
          ho.prevJRed, hop⟩
      · obtain ⟨rfl, rfl⟩ := hop
        unfold runOp
        obtain ⟨x, y, e1, e2, hw⟩ := ho.wt
        refine Sim.bind (reset_ren e1 e2 hw ho.prevJRed _ _) fun a b hab => ⟨?_, rfl⟩
        have := hab.2.2 _ _ ho.w
        rw [← hab.1, ← hab.2.1] at this
        exact this
    · refine Sim.bind (ih hab.1) fun ⟨a', zs⟩ ⟨b', zs'⟩ hab' => ⟨hab'.1, ?_⟩
      show ys ++ zs = ys' ++ zs'
      rw [show ys = ys' from hab.2, show zs = zs' from hab'.2]

/-- `init`, `setWaveform` and any calls -/
theorem play_ren (hw : WtRen S.env W wt1 wt2) (o : Osc K C) (p d : K) {i i' : ℤ} (hi : W i i') {ops ops' : List (Op K)}
    (h : List.Forall₂ (Op.Renumbered W) ops ops') :
    (do let (o, _) ← S.init o (some wt1) p d
        let (_, ys) ← runOps S o (.setWaveform i :: ops)
        return ys : R (List K)) =
    (do let (o, _) ← S.init o (some wt2) p d
        let (_, ys) ← runOps S o (.setWaveform i' :: ops')
        return ys : R (List K)) := by
  apply Sim.eq_of
  refine Sim.bind (P := fun a b => a.1.wt.isSome ∧ b.1.wt.isSome ∧ OscRen S.env W { a.1 with crt := i } { b.1 with crt := i' })
    ?_ fun ⟨a, r⟩ ⟨b, r'⟩ ⟨ha, hb, hab⟩ => ?_
  · unfold init
    refine Sim.bind (reset_ren (o1 := { o with wt := some wt1 }) (o2 := { o with wt := some wt2 }) rfl rfl hw rfl p d)
      fun a b hab => ?_
    have k := hab.2.2 i i' hi
    obtain ⟨x, y, e1, e2, -⟩ := k.wt
    have e1 : a.wt = some x := e1
    have e2 : b.wt = some y := e2
    exact ⟨by show a.wt.isSome = true; rw [e1]; rfl, by show b.wt.isSome = true; rw [e2]; rfl, k⟩
  · dsimp only at ha hb hab ⊢
    have es : ∀ (o : Osc K C) (j : ℤ) (l : List (Op K)), o.wt.isSome →
        runOps S o (.setWaveform j :: l) = runOps S { o with crt := j } l := by
      intro o j l h
      have hc : chk S.env.dbg (o.wt.isSome = true) = .ok () := by
        unfold chk; rw [if_neg (by simp [h])]
      simp only [runOps, runOp, setWaveform, hc, R.ok_bind, pure, Except.pure, List.nil_append]
      cases runOps S { o with crt := j } l <;> rfl
    rw [es a i ops ha, es b i' ops' hb]
    exact Sim.bind (runOps_ren h hab) fun a' b' hab' => hab'.2

end Sys

end Adwt
