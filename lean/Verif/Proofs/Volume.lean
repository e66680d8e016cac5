import Verif.Spec.Volume
import Verif.Proofs.Polarity

/-!
# Scaling every waveform scales every output
-/

set_option linter.unusedSectionVars false

namespace Adwt

variable {K C : Type} [Field K] [LinearOrder K] [IsStrictOrderedRing K] [FloorRing K]
variable [Zero C] [Add C] [Sub C] [Mul C] [Div C]

/-- a list of numbers scaled -/
def scL (s : K) : List K → List K := List.map (s * ·)

namespace WavetableData

/-- all tables scaled -/
def sc (s : K) (d : WavetableData K) : WavetableData K :=
  { m := d.m.map (·.map (scL s)), q := d.q.map (·.map (scL s)), mDiff := d.mDiff.map (·.map (scL s)),
    qDiff := d.qDiff.map (·.map (scL s)), phases := d.phases, cf := d.cf }

theorem waveformLen_sc (s : K) (d : WavetableData K) (i : ℤ) :
    (d.sc s).waveformLen i = d.waveformLen i := by
  have := Img.bind (f := (scL s)) (g := id) (k := fun t : List K => (Pure.pure (t.length : ℤ) : R ℤ))
    (l := fun t : List K => (Pure.pure (t.length : ℤ) : R ℤ))
    (rd2_img (scL s) d.m 0 i) (fun t => by unfold scL; rw [List.length_map]; exact Img.pure _)
  unfold waveformLen
  rw [show (d.sc s).m = d.m.map (·.map (scL s)) from rfl]
  generalize (do let t ← rd2 (d.m.map (·.map (scL s))) 0 i; Pure.pure (t.length : ℤ) : R ℤ) = y at this
  rw [show y = _ from this]
  cases (do let t ← rd2 d.m 0 i; Pure.pure (t.length : ℤ) : R ℤ) <;> rfl

theorem find_sc (s : K) (E : Env K) (d : WavetableData K) (x : K) :
    Img (fun r : WavetableData K × MipMapIndices K => (r.1.sc s, r.2)) (findMipMapIndices E d x)
      (findMipMapIndices E (d.sc s) x) :=
  Img.same fun _ => Img.pure _

variable {s : K} {E : Env K} (hE : ScaleEnv s E)
include hE

theorem computeM_sc (x0 x1 y0 y1 : K) :
    Img (s * ·) (computeM E x0 x1 y0 y1) (computeM E x0 x1 (s * y0) (s * y1)) := by
  unfold computeM ddiv fdiv
  split
  · rfl
  · rw [show s * y1 - s * y0 = s * (y1 - y0) by ring, hE.dbl, mul_div_assoc]
    show Except.ok (E.fl (E.dbl (s * _))) = _
    rw [hE.dbl, hE.fl]

theorem computeQ_sc (x0 x1 y0 y1 : K) :
    Img (s * ·) (computeQ E x0 x1 y0 y1) (computeQ E x0 x1 (s * y0) (s * y1)) := by
  unfold computeQ ddiv fdiv
  split
  · rfl
  · rw [show s * y1 - s * y0 = s * (y1 - y0) by ring, hE.dbl, hE.dmm, mul_div_assoc]
    show Except.ok (E.fl (E.dbl (s * _))) = _
    rw [hE.dbl, hE.fl]

theorem mqEntry_sc (pv w : List K) (i : ℕ) :
    Img (fun r : K × K => (s * r.1, s * r.2)) (mqEntry E pv w i) (mqEntry E pv ((scL s) w) i) := by
  unfold mqEntry
  refine Img.bind (rd_img _ w _) fun y0 => ?_
  rw [show ((scL s) w).length = w.length by unfold scL; simp]
  refine Img.bind (rd_img _ w _) fun y1 => ?_
  refine Img.same fun x0 => Img.same fun x1 => ?_
  exact Img.bind (computeM_sc hE _ _ _ _) fun m => Img.bind (computeQ_sc hE _ _ _ _) fun q => Img.pure _

theorem diffEntry_sc (v : List K) (len i : ℕ) :
    Img (s * ·) (diffEntry E.fl v len i) (diffEntry E.fl ((scL s) v) len i) := by
  unfold diffEntry
  refine Img.bind (rd_img _ v _) fun a => Img.bind (rd_img _ v _) fun b => ?_
  rw [show s * a - s * b = s * (a - b) by ring, hE.fl]
  exact Img.pure _

/-- the four tables scaled -/
def MQ.sc (s : K) (t : MQ K) : MQ K := ⟨(scL s) t.m, (scL s) t.q, (scL s) t.mDiff, (scL s) t.qDiff⟩

theorem computeMQ_sc (pv w : List K) :
    Img (MQ.sc s) (computeMQVector E pv w) (computeMQVector E pv ((scL s) w)) := by
  unfold computeMQVector
  dsimp only
  rw [show ((scL s) w).length = w.length by unfold scL; simp]
  refine Img.bind (Img.mapM (fun i => mqEntry_sc hE pv w i) _) fun mq => ?_
  have e1 : (mq.map fun r : K × K => (s * r.1, s * r.2)).map Prod.fst = (scL s) (mq.map Prod.fst) := by
    unfold scL; simp [Function.comp_def]
  have e2 : (mq.map fun r : K × K => (s * r.1, s * r.2)).map Prod.snd = (scL s) (mq.map Prod.snd) := by
    unfold scL; simp [Function.comp_def]
  rw [e1, e2]
  refine Img.bind (Img.mapM (fun i => diffEntry_sc hE _ _ i) _) fun md => ?_
  refine Img.bind (Img.mapM (fun i => diffEntry_sc hE _ _ i) _) fun qd => ?_
  refine Img.bind (rd_img _ qd _) fun last => Img.bind (rd_img _ _ _) fun m0 => ?_
  rw [show s * last - s * m0 = s * (last - m0) by ring, hE.fl, ← List.map_set]
  exact Img.pure _

theorem downsample_sc (w : List K) (r : ℕ) :
    downsampleWaveform E ((scL s) w) r = (scL s) (downsampleWaveform E w r) := by
  have e : (List.replicate kRepetitions ((scL s) w)).flatten =
      (List.replicate kRepetitions w).flatten.map (s * ·) := by
    rw [List.map_flatten, List.map_replicate]; rfl
  unfold downsampleWaveform
  dsimp only
  rw [e, show ((scL s) w).length = w.length by unfold scL; simp, hE.src]
  split
  · rfl
  · split
    · rfl
    · unfold scL; rw [List.map_map]; rfl

theorem mipStep_sc (phases : List (List K)) (og : List K) (acc : List (List K) × List (MQ K))
    (i : ℕ) :
    Img (fun a : List (List K) × List (MQ K) => (a.1.map (scL s), a.2.map (MQ.sc s)))
      (mipStep E phases og acc i)
      (mipStep E phases ((scL s) og) (acc.1.map (scL s), acc.2.map (MQ.sc s)) i) := by
  unfold mipStep
  refine Img.bind (f := fun r : List K × ℕ => ((scL s) r.1, r.2)) ?_ fun ⟨src, ratio⟩ => ?_
  · unfold mipSource
    refine Img.ite (Img.ok (f := fun r : List K × ℕ => ((scL s) r.1, r.2)) (og, _)) ?_
    exact Img.bind (rd_img (scL s) _ _) fun x => Img.pure (f := fun r : List K × ℕ => ((scL s) r.1, r.2)) (x, 256)
  · dsimp only
    rw [downsample_sc hE]
    have e : ((scL s) (downsampleWaveform E src ratio)).isEmpty =
        (downsampleWaveform E src ratio).isEmpty := by unfold scL; simp
    rw [e]
    refine Img.ite (Img.error _) ?_
    refine Img.same fun pv => Img.bind (computeMQ_sc hE _ _) fun t => ?_
    rw [List.length_map, ← List.map_set, ← apply_ite (List.map (scL s)),
      show acc.2.map (MQ.sc s) ++ [(t.sc s)] = (acc.2 ++ [t]).map (MQ.sc s) by simp]
    exact Img.pure (f := fun a : List (List K) × List (MQ K) => (a.1.map (scL s), a.2.map (MQ.sc s))) (_, _)

theorem waveformTables_sc (num : ℕ) (phases : List (List K)) (og : List K) :
    Img (List.map (MQ.sc s)) (waveformTables E num phases og)
      (waveformTables E num phases ((scL s) og)) := by
  unfold waveformTables
  refine Img.same fun _ => Img.same fun pv => Img.bind (computeMQ_sc hE _ _) fun t => ?_
  have e : (List.replicate (num - kMaxLibSamplerate - 1) ([] : List K)) =
      (List.replicate (num - kMaxLibSamplerate - 1) ([] : List K)).map (scL s) := by
    rw [List.map_replicate]; rfl
  dsimp only
  have := Img.foldlM (fun a i => mipStep_sc hE phases og a i) (List.range' 1 (num - 1))
    (List.replicate (num - kMaxLibSamplerate - 1) ([] : List K), [t])
  dsimp only at this
  rw [← e] at this
  exact Img.bind this fun r => Img.pure _

theorem make_sc (ws : List K) (n : ℕ) (sr : K) (xf : ℤ) (len : ℕ) :
    Img (sc s) (make E ws n sr xf len) (make E ((scL s) ws) n sr xf len) := by
  unfold make
  refine Img.same fun cf => ?_
  rw [show ((scL s) ws).length = ws.length by unfold scL; simp]
  refine Img.same fun _ => Img.same fun ph => ?_
  refine Img.bind (f := List.map (List.map (MQ.sc s))) (Img.mapM (fun w => ?_) _) fun tabs => ?_
  · have e : subspan ((scL s) ws) len w = (scL s) (subspan ws len w) := by
      unfold subspan scL; rw [List.map_take, List.map_drop]
    rw [e]
    exact waveformTables_sc hE _ _ _
  · have e : ∀ g : MQ K → List K, (∀ t, g (t.sc s) = (scL s) (g t)) →
        (tabs.map (List.map (MQ.sc s))).map (·.map g) = (tabs.map (·.map g)).map (·.map (scL s)) := by
      intro g hg
      simp [Function.comp_def, hg]
    rw [e MQ.m fun _ => rfl, e MQ.q fun _ => rfl, e MQ.mDiff fun _ => rfl, e MQ.qDiff fun _ => rfl]
    exact Img.pure (f := sc s) ⟨_, _, _, _, ph, cf⟩

theorem build_sc (ws : List K) (n : ℤ) (sr dur : K) :
    Img (Option.map (sc s)) (build E ws n sr dur) (build E ((scL s) ws) n sr dur) := by
  unfold build
  rw [show ((scL s) ws).length = ws.length by unfold scL; simp,
    show ((scL s) ws).isEmpty = ws.isEmpty by unfold scL; simp]
  refine Img.ite (Img.ok none) (Img.ite (Img.ok none) (Img.ite (Img.ok none)
    (Img.ite (Img.ok none) ?_)))
  refine Img.same fun p => Img.ite (Img.pure none) ?_
  refine Img.same fun xf => ?_
  have := make_sc hE ws n.toNat sr xf (ws.length / n.toNat)
  unfold Img at this
  rw [this]
  unfold catchRuntime
  rcases make E ws n.toNat sr xf (ws.length / n.toNat) with e | d
  · cases e <;> rfl
  · rfl

theorem rebuild_sc (d : WavetableData K) :
    Img (scL s) (rebuildWaveforms E d) (rebuildWaveforms E (d.sc s)) := by
  unfold rebuildWaveforms
  rw [waveformLen_sc]
  refine Img.same fun _ => Img.same fun _ => ?_
  rw [show (d.sc s).m.length = d.m.length by unfold sc; simp]
  refine Img.bind (f := List.map (scL s)) (Img.mapM (fun w => ?_) _) fun ws => ?_
  · refine Img.bind (rd2_img (scL s) _ _ _) fun m => Img.bind (rd2_img (scL s) _ _ _) fun q => ?_
    refine Img.same fun x => ?_
    have e : rebuildOne E ((scL s) m) ((scL s) q) x = (scL s) (rebuildOne E m q x) := by
      unfold rebuildOne scL
      rw [List.zip_map, List.zipWith_map_left, List.map_zipWith]
      congr 1
      funext mq x
      exact hE.mad _ _ _
    rw [e]
    exact Img.pure _
  · rw [show (ws.map (scL s)).flatten = (scL s) ws.flatten by unfold scL; rw [List.map_flatten]]
    exact Img.pure _

theorem update_sc (d : WavetableData K) (sr dur : K) :
    Img (sc s) (updateSamplerate E d sr dur) (updateSamplerate E (d.sc s) sr dur) := by
  unfold updateSamplerate
  refine Img.bind (rebuild_sc hE d) fun og => ?_
  rw [show (d.sc s).numWaveforms = d.numWaveforms by unfold numWaveforms sc; simp]
  refine Img.bind (build_sc hE og _ _ _) fun nd => ?_
  cases nd with
  | none => rfl
  | some d => rfl

end WavetableData

namespace Sys

/-- memory and tables scaled -/
def scO (s : K) (φ : C → C) (o : Osc K C) : Osc K C :=
  { o with wt := o.wt.map (WavetableData.sc s), prevY := o.prevY.map φ }

variable {s : K} {φ : C → C} {S : Sys K C} (hE : ScaleEnv s S.env) (hC : ScaleOps s φ S.ops)

/-- scaling of an array -/
def scA (φ : C → C) (a : ℕ → C) : ℕ → C := fun k => φ (a k)

section
variable {B n : ℕ} {φ : C → C}

theorem batch_sc (up i : ℕ) {f g : ℕ → C → C} (h : ∀ k c, g k (φ c) = φ (f k c)) (a : ℕ → C) :
    Img (scA φ) (batch up B i f a) (batch up B i g ((scA φ) a)) := by
  unfold batch
  split
  · have e : (fun k => if i ≤ k ∧ k < i + B then g k ((scA φ) a k) else (scA φ) a k) =
        (scA φ) fun k => if i ≤ k ∧ k < i + B then f k (a k) else a k := by
      funext k
      unfold scA
      dsimp only
      split
      · exact h _ _
      · rfl
    rw [e]
    exact Img.ok _
  · rfl

theorem over_sc {f g f' g' : ℕ → C → C} (h : ∀ k c, g k (φ c) = φ (f k c))
    (h' : ∀ k c, g' k (φ c) = φ (f' k c)) (a : ℕ → C) :
    Img (scA φ) (overCoeffs n B f f' a) (overCoeffs n B g g' ((scA φ) a)) := by
  unfold overCoeffs
  dsimp only
  refine Img.bind (f := (scA φ)) (Img.foldlM (fun a i => batch_sc _ _ h a) _ a) fun a => ?_
  refine Img.ite (batch_sc _ _ h a) ?_
  have e : ∀ (L : List ℕ) (a : ℕ → C),
      L.foldl (fun a i => fun k => if k = i then g' i (a i) else a k) ((scA φ) a) =
        (scA φ) (L.foldl (fun a i => fun k => if k = i then f' i (a i) else a k) a) := by
    intro L
    induction L with
    | nil => intro a; rfl
    | cons i L ih =>
      intro a
      rw [List.foldl_cons, List.foldl_cons, ← ih]
      congr 1
      funext k
      unfold scA
      dsimp only
      split
      · exact h' _ _
      · rfl
  rw [e]
  exact Img.pure _

end

include hE hC

theorem i0_sc (wt : WavetableData K) (crt mip i j : ℤ) (d pb nb : K) (a : ℕ → C) :
    Img (scA φ) (S.computeI0 wt crt mip i j d pb nb a)
      (S.computeI0 (wt.sc s) crt mip i j d pb nb ((scA φ) a)) := by
  unfold computeI0
  refine Img.bind (WavetableData.rd2_img (scL s) _ _ _) fun m => ?_
  refine Img.bind (WavetableData.rd2_img (scL s) _ _ _) fun q => ?_
  refine Img.bind (rd_img _ m _) fun mp => Img.bind (rd_img _ q _) fun qp => ?_
  refine Img.bind (rd_img _ m _) fun mn => Img.bind (rd_img _ q _) fun qn => ?_
  dsimp only
  rw [mul_assoc s, mul_assoc s, hE.fl, hE.fl, hE.mad, hE.mad, hC.ofK, hC.ofK, hC.ofK, hC.ofK]
  refine over_sc (fun k c => ?_) (fun k c => ?_) a
  · rw [hC.fma, hC.fms, hC.fnma]
  · rw [hC.mul_right, hC.mul_right, hC.add, hC.mul_right, hC.sub, hC.sub]

theorem cornerS_sc (pa d ph md qd : K) (k : ℕ) :
    S.cornerS pa d ph (s * md) (s * qd) k = φ (S.cornerS pa d ph md qd k) := by
  unfold cornerS
  rw [hC.ofK, hC.ofK, hC.mul_right, hC.mul_left, hC.add, hC.mul_right]

theorem cornerV_sc (d ph md qd : K) (k : ℕ) :
    S.cornerV d ph (s * md) (s * qd) k = φ (S.cornerV d ph md qd k) := by
  unfold cornerV
  rw [hC.ofK, hC.ofK, hC.mul_right, hC.fma]

theorem fwdI_sc (wt : WavetableData K) (crt : ℤ) (pr : K) (mip i j : ℤ) (d p : K) (a : ℕ → C) :
    Img (scA φ) (S.computeFwdI wt crt pr mip i j d p a)
      (S.computeFwdI (wt.sc s) crt pr mip i j d p ((scA φ) a)) := by
  unfold computeFwdI
  refine Img.bind (i0_sc hE hC _ _ _ _ _ _ _ _ _) fun a => ?_
  unfold computeISumFwd
  rw [WavetableData.waveformLen_sc]
  refine Img.same fun len => ?_
  refine Img.bind (WavetableData.rd2_img (scL s) _ _ _) fun md => ?_
  refine Img.bind (WavetableData.rd2_img (scL s) _ _ _) fun qd => ?_
  refine Img.same fun phs => ?_
  refine Img.foldlM (fun a i => ?_) _ a
  unfold iSumFwdStep
  refine Img.same fun ir => Img.same fun ph => Img.same fun pa => ?_
  refine Img.bind (rd_img _ md _) fun m => Img.bind (rd_img _ qd _) fun q => ?_
  refine over_sc (fun k c => ?_) (fun k c => ?_) a
  · rw [cornerV_sc hE hC, hC.fma]
  · rw [cornerS_sc hE hC, hC.add]

theorem bwdI_sc (wt : WavetableData K) (crt : ℤ) (pr : K) (mip jm i j : ℤ) (d p : K) (a : ℕ → C) :
    Img (scA φ) (S.computeBwdI wt crt pr mip jm i j d p a)
      (S.computeBwdI (wt.sc s) crt pr mip jm i j d p ((scA φ) a)) := by
  unfold computeBwdI
  refine Img.same fun _ => Img.bind (i0_sc hE hC _ _ _ _ _ _ _ _ _) fun a => ?_
  unfold computeISumBwd
  rw [WavetableData.waveformLen_sc]
  refine Img.same fun _ => Img.same fun len => ?_
  refine Img.bind (WavetableData.rd2_img (scL s) _ _ _) fun md => ?_
  refine Img.bind (WavetableData.rd2_img (scL s) _ _ _) fun qd => ?_
  refine Img.same fun phs => ?_
  refine Img.foldlM (fun a i => ?_) _ a
  unfold iSumBwdStep
  refine Img.same fun ir => Img.same fun ph => Img.same fun pa => ?_
  refine Img.bind (rd_img _ md _) fun m => Img.bind (rd_img _ qd _) fun q => ?_
  refine over_sc (fun k c => ?_) (fun k c => ?_) a
  · rw [cornerV_sc hE hC, hC.fnma]
  · rw [cornerS_sc hE hC, hC.sub]

theorem zeroSc : (scA φ) (fun _ => 0 : ℕ → C) = fun _ => 0 := by
  funext k; exact hC.zero

theorem upper_sc (t : MipMapIndices K) (a : ℕ → C) {u v : R (ℕ → C)} (h : Img (scA φ) u v) :
    Img (scA φ) (S.withUpper t a u) (S.withUpper t ((scA φ) a) v) := by
  unfold withUpper
  refine Img.ite (Img.bind h fun b => ?_) (Img.ok a)
  have e : S.crossfade t.weight t.weightUp ((scA φ) a) ((scA φ) b) =
      (scA φ) (S.crossfade t.weight t.weightUp a b) := by
    funext k
    unfold crossfade scA
    dsimp only
    generalize (if S.n % S.B > 1 then S.upper else S.n) = m
    split
    · rw [hC.mul_left, hC.mul_left, hC.add]
    · rfl
  rw [e]
  exact Img.pure _

theorem getD_sc (l : List C) (k : ℕ) : (l.map φ).getD k 0 = φ (l.getD k 0) := by
  rw [List.getD_eq_getElem?_getD, List.getD_eq_getElem?_getD, List.getElem?_map]
  cases l[k]?
  · exact hC.zero.symm
  · rfl

theorem cpxY_sc (y : List C) (a : ℕ → C) :
    S.cpxY (y.map φ) ((scA φ) a) = (S.cpxY y a).map φ := by
  unfold cpxY
  rw [List.map_map]
  apply List.map_congr_left
  intro k _
  dsimp only [Function.comp]
  rw [getD_sc hE hC, hC.mul_right, scA, hC.div, hC.mul_right, hC.add]

theorem outReal_sc (y : List C) : S.outReal (y.map φ) = s * S.outReal y := by
  unfold outReal
  rw [← hC.re]
  congr 1
  have : ∀ (l : List C) (a : C), (l.map φ).foldl (· + ·) (φ a) = φ (l.foldl (· + ·) a) := by
    intro l
    induction l with
    | nil => intro a; rfl
    | cons b l ih => intro a; rw [List.map_cons, List.foldl_cons, List.foldl_cons, hC.add, ih]
  have h := this y 0
  rwa [hC.zero] at h

/-- the result of a sample scaled -/
def scR (s : K) (φ : C → C) (r : Osc K C × K) : Osc K C × K := ((scO s φ) r.1, s * r.2)

theorem fwd_sc (o : Osc K C) (p d : K) :
    Img (scR s φ) (S.processSampleFwd o p d) (S.processSampleFwd ((scO s φ) o) p d) := by
  unfold processSampleFwd
  refine Img.same fun _ => ?_
  rcases hw : o.wt with _ | wt0
  · rw [show ((scO s φ) o).wt = none by unfold scO; rw [hw]; rfl]; rfl
  rw [show ((scO s φ) o).wt = some (wt0.sc s) by unfold scO; rw [hw]; rfl]
  dsimp only
  refine Img.bind (WavetableData.find_sc _ _ _ _) fun ⟨wt, t⟩ => ?_
  dsimp only
  rw [WavetableData.waveformLen_sc]
  refine Img.same fun phs => Img.same fun pr => Img.same fun len => Img.same fun j0 => ?_
  refine Img.same fun pj => Img.same fun j => Img.same fun j1 => Img.same fun j2 => ?_
  have hz := zeroSc hE hC
  refine Img.bind (f := (scA φ)) ?_ fun a => ?_
  · have := fwdI_sc hE hC wt o.crt o.prevPhaseRed t.idx j1 j2 d pr (fun _ => 0)
    rw [hz] at this
    exact this
  refine Img.bind (f := (scA φ)) (upper_sc hE hC t a ?_) fun a => ?_
  · have := fwdI_sc hE hC wt o.crt o.prevPhaseRed t.idxUp (j1.tdiv 2) (j2.tdiv 2) d pr (fun _ => 0)
    rw [hz] at this
    exact this
  rw [show ((scO s φ) o).prevY = o.prevY.map φ from rfl, cpxY_sc hE hC, outReal_sc hE hC]
  exact Img.pure (f := (scR s φ)) (_, _)

theorem bwd_sc (o : Osc K C) (p d : K) :
    Img (scR s φ) (S.processSampleBwd o p d) (S.processSampleBwd ((scO s φ) o) p d) := by
  unfold processSampleBwd
  refine Img.same fun _ => ?_
  rcases hw : o.wt with _ | wt0
  · rw [show ((scO s φ) o).wt = none by unfold scO; rw [hw]; rfl]; rfl
  rw [show ((scO s φ) o).wt = some (wt0.sc s) by unfold scO; rw [hw]; rfl]
  dsimp only
  refine Img.bind (WavetableData.find_sc _ _ _ _) fun ⟨wt, t⟩ => ?_
  dsimp only
  rw [WavetableData.waveformLen_sc]
  refine Img.same fun phs => Img.same fun pr => Img.same fun len => Img.same fun j0 => ?_
  refine Img.same fun pj => Img.same fun j => Img.same fun j1 => Img.same fun j2 => ?_
  have hz := zeroSc hE hC
  refine Img.bind (f := (scA φ)) ?_ fun a => ?_
  · have := bwdI_sc hE hC wt o.crt o.prevPhaseRed t.idx j j1 j2 d pr (fun _ => 0)
    rw [hz] at this
    exact this
  refine Img.bind (f := (scA φ)) (upper_sc hE hC t a ?_) fun a => ?_
  · have := bwdI_sc hE hC wt o.crt o.prevPhaseRed t.idxUp j (j1.tdiv 2) (j2.tdiv 2) d pr (fun _ => 0)
    rw [hz] at this
    exact this
  rw [show ((scO s φ) o).prevY = o.prevY.map φ from rfl, cpxY_sc hE hC, outReal_sc hE hC]
  exact Img.pure (f := (scR s φ)) (_, _)

theorem dir_sc (dir : Direction) (o : Osc K C) (p : K) :
    Img (scR s φ) (S.stepDir dir o p) (S.stepDir dir ((scO s φ) o) p) := by
  cases dir with
  | kForward => exact Img.same fun _ => fwd_sc hE hC _ _ _
  | kBidirectionnal => exact Img.ite (fwd_sc hE hC _ _ _) (bwd_sc hE hC _ _ _)

/-- the result of a call scaled -/
def scRs (s : K) (φ : C → C) (r : Osc K C × List K) : Osc K C × List K := ((scO s φ) r.1, (scL s) r.2)

theorem runDir_sc (dir : Direction) (ps : List K) (o : Osc K C) :
    Img (scRs s φ) (S.runDir dir o ps) (S.runDir dir ((scO s φ) o) ps) := by
  induction ps generalizing o with
  | nil => exact Img.ok (f := (scRs s φ)) (o, [])
  | cons p ps ih =>
    unfold runDir
    refine Img.bind (dir_sc hE hC dir o p) fun ⟨o1, y⟩ => ?_
    refine Img.bind (ih o1) fun ⟨o2, ys⟩ => ?_
    exact Img.pure (f := (scRs s φ)) (o2, y :: ys)

theorem process_sc (dir : Direction) (o : Osc K C) (ps : List K) (n : ℕ) :
    Img (scRs s φ) (S.process dir o ps (List.replicate n 0))
      (S.process dir ((scO s φ) o) ps (List.replicate n 0)) := by
  have e : ((scO s φ) o).wt.isNone = o.wt.isNone := by unfold scO; cases o.wt <;> rfl
  have key : ∀ qs : List K, Img (scRs s φ)
      (do let (o', ys) ← S.runDir dir o qs
          return (o', ys ++ (List.replicate n (0 : K)).drop ys.length))
      (do let (o', ys) ← S.runDir dir ((scO s φ) o) qs
          return (o', ys ++ (List.replicate n (0 : K)).drop ys.length)) := by
    intro qs
    refine Img.bind (runDir_sc hE hC _ _ _) fun ⟨o', ys⟩ => ?_
    have e : (scL s) ys ++ (List.replicate n (0 : K)).drop ((scL s) ys).length =
        (scL s) (ys ++ (List.replicate n 0).drop ys.length) := by
      unfold scL
      rw [List.length_map, List.map_append, List.drop_replicate, List.map_replicate, mul_zero]
    show Img (scRs s φ) _ (Pure.pure ((scO s φ) o', (scL s) ys ++ (List.replicate n (0 : K)).drop ((scL s) ys).length))
    rw [e]
    exact Img.pure (f := (scRs s φ)) (o', _)
  unfold process
  rw [e]
  split
  · exact Img.same fun _ => Img.same fun _ => key _
  · exact Img.same fun _ => key _

theorem reset_sc (o : Osc K C) (p d : K) :
    Img (scO s φ) (S.resetInternals o p d) (S.resetInternals ((scO s φ) o) p d) := by
  unfold resetInternals
  rcases hw : o.wt with _ | wt0
  · rw [show ((scO s φ) o).wt = none by unfold scO; rw [hw]; rfl]
    exact Img.same fun _ => rfl
  rw [show ((scO s φ) o).wt = some (wt0.sc s) by unfold scO; rw [hw]; rfl]
  dsimp only
  refine Img.same fun pr => Img.bind (WavetableData.find_sc _ _ _ _) fun ⟨wt, t⟩ => ?_
  dsimp only
  rw [WavetableData.waveformLen_sc]
  refine Img.same fun len => Img.same fun j => ?_
  have e : List.replicate S.n (0 : C) = (List.replicate S.n 0).map φ := by
    rw [List.map_replicate, hC.zero]
  refine (congrArg Except.ok ?_ : _ = _)
  unfold scO
  dsimp only
  rw [← e]
  rfl

theorem init_sc (o : Osc K C) (w : Option (WavetableData K)) (p d : K) :
    Img (fun r : Osc K C × ℤ => ((scO s φ) r.1, r.2)) (S.init o w p d)
      (S.init ((scO s φ) o) (w.map (WavetableData.sc s)) p d) := by
  cases w with
  | none => rfl
  | some wt =>
    exact Img.bind (reset_sc hE hC { o with wt := some wt } p d) fun o' => rfl

theorem swap_sc (o : Osc K C) (w : Option (WavetableData K)) (p d : K) :
    Img (fun r : Osc K C × Option (WavetableData K) => ((scO s φ) r.1, r.2.map (WavetableData.sc s)))
      (S.swapWavetable o w p d) (S.swapWavetable ((scO s φ) o) (w.map (WavetableData.sc s)) p d) := by
  cases w with
  | none => rfl
  | some wt =>
    exact Img.bind (reset_sc hE hC { o with wt := some wt } p d) fun o' => rfl

theorem updateSr_sc (o : Osc K C) (sr : K) :
    Img (scO s φ) (S.updateSamplerate o sr) (S.updateSamplerate ((scO s φ) o) sr) := by
  unfold updateSamplerate
  rcases hw : o.wt with _ | wt0
  · rw [show ((scO s φ) o).wt = none by unfold scO; rw [hw]; rfl]
    exact Img.same fun _ => rfl
  rw [show ((scO s φ) o).wt = some (wt0.sc s) by unfold scO; rw [hw]; rfl]
  exact Img.bind (WavetableData.update_sc hE wt0 sr _) fun w => rfl

theorem call_sc (o : Osc K C) (c : Call K) :
    Img (scRs s φ) (runCall S o c) (runCall S ((scO s φ) o) (c.scale s)) := by
  cases c with
  | init ws n sr dur p d =>
    exact Img.bind (WavetableData.build_sc hE ws n sr dur) fun w =>
      Img.bind (init_sc hE hC o w p d) fun r => rfl
  | swap ws n sr dur p d =>
    exact Img.bind (WavetableData.build_sc hE ws n sr dur) fun w =>
      Img.bind (swap_sc hE hC o w p d) fun r => rfl
  | process dir ps => exact process_sc hE hC dir o ps _
  | setWaveform i =>
    refine Img.bind (f := (scO s φ)) ?_ fun o' => rfl
    unfold setWaveform
    have e : ((scO s φ) o).wt.isSome = o.wt.isSome := by unfold scO; cases o.wt <;> rfl
    rw [e]
    exact Img.same fun _ => rfl
  | reset p d => exact Img.bind (reset_sc hE hC o p d) fun o' => rfl
  | updateSamplerate sr => exact Img.bind (updateSr_sc hE hC o sr) fun o' => rfl

theorem calls_sc (cs : List (Call K)) (o : Osc K C) :
    Img (scRs s φ) (runCalls S o cs) (runCalls S ((scO s φ) o) (cs.map (Call.scale s))) := by
  induction cs generalizing o with
  | nil => rfl
  | cons c cs ih =>
    rw [List.map_cons]
    unfold runCalls
    refine Img.bind (call_sc hE hC o c) fun ⟨o1, y1⟩ => Img.bind (ih o1) fun ⟨o2, y2⟩ => ?_
    show Img (scRs s φ) _ (Pure.pure ((scO s φ) o2, (scL s) y1 ++ (scL s) y2))
    rw [show (scL s) y1 ++ (scL s) y2 = (scL s) (y1 ++ y2) by unfold scL; rw [List.map_append]]
    exact Img.pure (f := (scRs s φ)) (o2, _)

theorem fresh_sc : (scO s φ) S.fresh = S.fresh := by
  have e : (List.replicate S.n (0 : C)).map φ = List.replicate S.n 0 := by
    rw [List.map_replicate, hC.zero]
  unfold scO fresh
  dsimp only
  rw [e]
  rfl

end Sys
end Adwt
