import Verif.Spec.Polarity
import Verif.Proofs.Ok

/-!
# Negating every waveform negates every output
-/

set_option linter.unusedSectionVars false

namespace Adwt

/-! ### outcomes under a map -/

/-- `y` is the outcome `x` with its value mapped by `f` -/
def Img {α β : Type} (f : α → β) (x : R α) (y : R β) : Prop :=
  y = match x with
    | .ok a => .ok (f a)
    | .error e => .error e

namespace Img
variable {α β γ δ : Type} {f : α → β} {g : γ → δ}

theorem ok (a : α) : Img f (.ok a) (.ok (f a)) := rfl
theorem pure (a : α) : Img f (Pure.pure a : R α) (Pure.pure (f a)) := rfl
theorem error (e : Err) : Img f (.error e) (.error e) := rfl

theorem refl (x : R α) : Img id x x := by cases x <;> rfl

theorem bind {x : R α} {y : R β} {k : α → R γ} {l : β → R δ} (h : Img f x y)
    (hk : ∀ a, Img g (k a) (l (f a))) : Img g (x >>= k) (y >>= l) := by
  cases x with
  | ok a => rw [show y = .ok (f a) from h]; exact hk a
  | error e => rw [show y = .error e from h]; rfl

theorem same {x : R α} {k : α → R γ} {l : α → R δ}
    (hk : ∀ a, Img g (k a) (l a)) : Img g (x >>= k) (x >>= l) :=
  bind (f := id) (refl x) hk

theorem ite {c : Prop} [Decidable c] {x x' : R α} {y y' : R β} (h : Img f x y)
    (h' : Img f x' y') : Img f (if c then x else x') (if c then y else y') := by
  split <;> assumption

theorem foldlM {ι : Type} {k : α → ι → R α} {l : β → ι → R β} (hk : ∀ a i, Img f (k a i) (l (f a) i))
    (L : List ι) (a : α) : Img f (L.foldlM k a) (L.foldlM l (f a)) := by
  induction L generalizing a with
  | nil => exact pure a
  | cons i L ih => rw [List.foldlM_cons, List.foldlM_cons]; exact bind (hk a i) fun a => ih a

theorem mapM {ι : Type} {k : ι → R α} {l : ι → R β} (hk : ∀ i, Img f (k i) (l i))
    (L : List ι) : Img (List.map f) (L.mapM k) (L.mapM l) := by
  induction L with
  | nil => exact pure []
  | cons i L ih =>
    rw [List.mapM_cons, List.mapM_cons]
    exact bind (hk i) fun a => bind ih fun b => pure (a :: b)

end Img

variable {K C : Type} [Field K] [LinearOrder K] [IsStrictOrderedRing K] [FloorRing K]
variable [Zero C] [Add C] [Sub C] [Mul C] [Div C] [Neg C]

theorem rd_img {α β : Type} (f : α → β) (l : List α) (i : ℤ) : Img f (rd l i) (rd (l.map f) i) := by
  unfold rd
  split
  · rw [List.getElem?_map]
    cases l[i.toNat]? <;> rfl
  · rfl

/-- a list of numbers negated -/
def negL : List K → List K := List.map (- ·)

namespace WavetableData

/-- all tables negated -/
def neg (d : WavetableData K) : WavetableData K :=
  { m := d.m.map (·.map negL), q := d.q.map (·.map negL), mDiff := d.mDiff.map (·.map negL),
    qDiff := d.qDiff.map (·.map negL), phases := d.phases, cf := d.cf }

theorem rd2_img {α β : Type} (f : α → β) (v : List (List α)) (i j : ℤ) :
    Img f (rd2 v i j) (rd2 (v.map (·.map f)) i j) :=
  Img.bind (f := List.map f) (rd_img _ v i) fun r => rd_img f r j

theorem waveformLen_neg (d : WavetableData K) (i : ℤ) :
    d.neg.waveformLen i = d.waveformLen i := by
  have := Img.bind (f := negL) (g := id) (k := fun t : List K => (Pure.pure (t.length : ℤ) : R ℤ))
    (l := fun t : List K => (Pure.pure (t.length : ℤ) : R ℤ))
    (rd2_img negL d.m 0 i) (fun t => by unfold negL; rw [List.length_map]; exact Img.pure _)
  unfold waveformLen
  rw [show d.neg.m = d.m.map (·.map negL) from rfl]
  generalize (do let t ← rd2 (d.m.map (·.map negL)) 0 i; Pure.pure (t.length : ℤ) : R ℤ) = y at this
  rw [show y = _ from this]
  cases (do let t ← rd2 d.m 0 i; Pure.pure (t.length : ℤ) : R ℤ) <;> rfl

theorem find_neg (E : Env K) (d : WavetableData K) (x : K) :
    Img (fun r : WavetableData K × MipMapIndices K => (r.1.neg, r.2)) (findMipMapIndices E d x)
      (findMipMapIndices E d.neg x) :=
  Img.same fun r => Img.pure _

variable {E : Env K} (hE : OddEnv E)
include hE

theorem computeM_neg (x0 x1 y0 y1 : K) :
    Img (- ·) (computeM E x0 x1 y0 y1) (computeM E x0 x1 (-y0) (-y1)) := by
  unfold computeM ddiv fdiv
  split
  · rfl
  · rw [show -y1 - -y0 = -(y1 - y0) by ring, hE.dbl, neg_div]
    show Except.ok (E.fl (E.dbl (-_))) = _
    rw [hE.dbl, hE.fl]

theorem computeQ_neg (x0 x1 y0 y1 : K) :
    Img (- ·) (computeQ E x0 x1 y0 y1) (computeQ E x0 x1 (-y0) (-y1)) := by
  unfold computeQ ddiv fdiv
  split
  · rfl
  · rw [show -y1 - -y0 = -(y1 - y0) by ring, hE.dbl, hE.dmm, neg_div]
    show Except.ok (E.fl (E.dbl (-_))) = _
    rw [hE.dbl, hE.fl]

theorem mqEntry_neg (pv w : List K) (i : ℕ) :
    Img (fun r : K × K => (-r.1, -r.2)) (mqEntry E pv w i) (mqEntry E pv (negL w) i) := by
  unfold mqEntry
  refine Img.bind (rd_img _ w _) fun y0 => ?_
  rw [show (negL w).length = w.length by unfold negL; simp]
  refine Img.bind (rd_img _ w _) fun y1 => ?_
  refine Img.same fun x0 => Img.same fun x1 => ?_
  exact Img.bind (computeM_neg hE _ _ _ _) fun m => Img.bind (computeQ_neg hE _ _ _ _) fun q => Img.pure _

theorem diffEntry_neg (v : List K) (len i : ℕ) :
    Img (- ·) (diffEntry E.fl v len i) (diffEntry E.fl (negL v) len i) := by
  unfold diffEntry
  refine Img.bind (rd_img _ v _) fun a => Img.bind (rd_img _ v _) fun b => ?_
  rw [show -a - -b = -(a - b) by ring, hE.fl]
  exact Img.pure _

/-- the four tables negated -/
def MQ.neg (t : MQ K) : MQ K := ⟨negL t.m, negL t.q, negL t.mDiff, negL t.qDiff⟩

theorem computeMQ_neg (pv w : List K) :
    Img MQ.neg (computeMQVector E pv w) (computeMQVector E pv (negL w)) := by
  unfold computeMQVector
  dsimp only
  rw [show (negL w).length = w.length by unfold negL; simp]
  refine Img.bind (Img.mapM (fun i => mqEntry_neg hE pv w i) _) fun mq => ?_
  have e1 : (mq.map fun r : K × K => (-r.1, -r.2)).map Prod.fst = negL (mq.map Prod.fst) := by
    unfold negL; simp [Function.comp_def]
  have e2 : (mq.map fun r : K × K => (-r.1, -r.2)).map Prod.snd = negL (mq.map Prod.snd) := by
    unfold negL; simp [Function.comp_def]
  rw [e1, e2]
  refine Img.bind (Img.mapM (fun i => diffEntry_neg hE _ _ i) _) fun md => ?_
  refine Img.bind (Img.mapM (fun i => diffEntry_neg hE _ _ i) _) fun qd => ?_
  refine Img.bind (rd_img _ qd _) fun last => Img.bind (rd_img _ _ _) fun m0 => ?_
  rw [show -last - -m0 = -(last - m0) by ring, hE.fl, ← List.map_set]
  exact Img.pure _

theorem downsample_neg (w : List K) (r : ℕ) :
    downsampleWaveform E (negL w) r = negL (downsampleWaveform E w r) := by
  have e : (List.replicate kRepetitions (negL w)).flatten =
      (List.replicate kRepetitions w).flatten.map (- ·) := by
    rw [List.map_flatten, List.map_replicate]; rfl
  unfold downsampleWaveform
  dsimp only
  rw [e, show (negL w).length = w.length by unfold negL; simp, hE.src]
  split
  · rfl
  · split
    · rfl
    · unfold negL; rw [List.map_map]; rfl

theorem mipStep_neg (phases : List (List K)) (og : List K) (acc : List (List K) × List (MQ K))
    (i : ℕ) :
    Img (fun a : List (List K) × List (MQ K) => (a.1.map negL, a.2.map MQ.neg))
      (mipStep E phases og acc i)
      (mipStep E phases (negL og) (acc.1.map negL, acc.2.map MQ.neg) i) := by
  unfold mipStep
  refine Img.bind (f := fun r : List K × ℕ => (negL r.1, r.2)) ?_ fun ⟨src, ratio⟩ => ?_
  · unfold mipSource
    refine Img.ite (Img.ok (f := fun r : List K × ℕ => (negL r.1, r.2)) (og, _)) ?_
    exact Img.bind (rd_img negL _ _) fun s => Img.pure (f := fun r : List K × ℕ => (negL r.1, r.2)) (s, 256)
  · dsimp only
    rw [downsample_neg hE]
    have e : (negL (downsampleWaveform E src ratio)).isEmpty =
        (downsampleWaveform E src ratio).isEmpty := by unfold negL; simp
    rw [e]
    refine Img.ite (Img.error _) ?_
    refine Img.same fun pv => Img.bind (computeMQ_neg hE _ _) fun t => ?_
    rw [List.length_map, ← List.map_set, ← apply_ite (List.map negL),
      show acc.2.map MQ.neg ++ [t.neg] = (acc.2 ++ [t]).map MQ.neg by simp]
    exact Img.pure (f := fun a : List (List K) × List (MQ K) => (a.1.map negL, a.2.map MQ.neg)) (_, _)

theorem waveformTables_neg (num : ℕ) (phases : List (List K)) (og : List K) :
    Img (List.map MQ.neg) (waveformTables E num phases og)
      (waveformTables E num phases (negL og)) := by
  unfold waveformTables
  refine Img.same fun _ => Img.same fun pv => Img.bind (computeMQ_neg hE _ _) fun t => ?_
  have e : (List.replicate (num - kMaxLibSamplerate - 1) ([] : List K)) =
      (List.replicate (num - kMaxLibSamplerate - 1) ([] : List K)).map negL := by
    rw [List.map_replicate]; rfl
  dsimp only
  have := Img.foldlM (fun a i => mipStep_neg hE phases og a i) (List.range' 1 (num - 1))
    (List.replicate (num - kMaxLibSamplerate - 1) ([] : List K), [t])
  dsimp only at this
  rw [← e] at this
  exact Img.bind this fun r => Img.pure _

theorem make_neg (ws : List K) (n : ℕ) (sr : K) (xf : ℤ) (len : ℕ) :
    Img neg (make E ws n sr xf len) (make E (negL ws) n sr xf len) := by
  unfold make
  refine Img.same fun cf => ?_
  rw [show (negL ws).length = ws.length by unfold negL; simp]
  refine Img.same fun _ => Img.same fun ph => ?_
  refine Img.bind (f := List.map (List.map MQ.neg)) (Img.mapM (fun w => ?_) _) fun tabs => ?_
  · have e : subspan (negL ws) len w = negL (subspan ws len w) := by
      unfold subspan negL; rw [List.map_take, List.map_drop]
    rw [e]
    exact waveformTables_neg hE _ _ _
  · have e : ∀ g : MQ K → List K, (∀ t, g t.neg = negL (g t)) →
        (tabs.map (List.map MQ.neg)).map (·.map g) = (tabs.map (·.map g)).map (·.map negL) := by
      intro g hg
      simp [Function.comp_def, hg]
    rw [e MQ.m fun _ => rfl, e MQ.q fun _ => rfl, e MQ.mDiff fun _ => rfl, e MQ.qDiff fun _ => rfl]
    exact Img.pure (f := neg) ⟨_, _, _, _, ph, cf⟩

theorem build_neg (ws : List K) (n : ℤ) (sr dur : K) :
    Img (Option.map neg) (build E ws n sr dur) (build E (negL ws) n sr dur) := by
  unfold build
  rw [show (negL ws).length = ws.length by unfold negL; simp,
    show (negL ws).isEmpty = ws.isEmpty by unfold negL; simp]
  refine Img.ite (Img.ok none) (Img.ite (Img.ok none) (Img.ite (Img.ok none)
    (Img.ite (Img.ok none) ?_)))
  refine Img.same fun p => Img.ite (Img.pure none) ?_
  refine Img.same fun xf => ?_
  have := make_neg hE ws n.toNat sr xf (ws.length / n.toNat)
  unfold Img at this
  rw [this]
  unfold catchRuntime
  rcases make E ws n.toNat sr xf (ws.length / n.toNat) with e | d
  · cases e <;> rfl
  · rfl

theorem rebuild_neg (d : WavetableData K) :
    Img negL (rebuildWaveforms E d) (rebuildWaveforms E d.neg) := by
  unfold rebuildWaveforms
  rw [waveformLen_neg]
  refine Img.same fun _ => Img.same fun _ => ?_
  rw [show d.neg.m.length = d.m.length by unfold neg; simp]
  refine Img.bind (f := List.map negL) (Img.mapM (fun w => ?_) _) fun ws => ?_
  · refine Img.bind (rd2_img negL _ _ _) fun m => Img.bind (rd2_img negL _ _ _) fun q => ?_
    refine Img.same fun x => ?_
    have e : rebuildOne E (negL m) (negL q) x = negL (rebuildOne E m q x) := by
      unfold rebuildOne negL
      rw [List.zip_map, List.zipWith_map_left, List.map_zipWith]
      congr 1
      funext mq x
      exact hE.mad _ _ _
    rw [e]
    exact Img.pure _
  · rw [show (ws.map negL).flatten = negL ws.flatten by unfold negL; rw [List.map_flatten]]
    exact Img.pure _

theorem update_neg (d : WavetableData K) (sr dur : K) :
    Img neg (updateSamplerate E d sr dur) (updateSamplerate E d.neg sr dur) := by
  unfold updateSamplerate
  refine Img.bind (rebuild_neg hE d) fun og => ?_
  rw [show d.neg.numWaveforms = d.numWaveforms by unfold numWaveforms neg; simp]
  refine Img.bind (build_neg hE og _ _ _) fun nd => ?_
  cases nd with
  | none => rfl
  | some d => rfl

end WavetableData

namespace Sys

/-- memory and tables negated -/
def negO (o : Osc K C) : Osc K C :=
  { o with wt := o.wt.map WavetableData.neg, prevY := o.prevY.map (- ·) }

variable {S : Sys K C} (hE : OddEnv S.env) (hC : OddOps S.ops)

/-- negation of an array -/
def negA (a : ℕ → C) : ℕ → C := fun k => -a k

section
variable {B n : ℕ}

theorem batch_neg (up i : ℕ) {f g : ℕ → C → C} (h : ∀ k c, g k (-c) = -f k c) (a : ℕ → C) :
    Img negA (batch up B i f a) (batch up B i g (negA a)) := by
  unfold batch
  split
  · have e : (fun k => if i ≤ k ∧ k < i + B then g k (negA a k) else negA a k) =
        negA fun k => if i ≤ k ∧ k < i + B then f k (a k) else a k := by
      funext k
      unfold negA
      dsimp only
      split
      · exact h _ _
      · rfl
    rw [e]
    exact Img.ok _
  · rfl

theorem over_neg {f g f' g' : ℕ → C → C} (h : ∀ k c, g k (-c) = -f k c)
    (h' : ∀ k c, g' k (-c) = -f' k c) (a : ℕ → C) :
    Img negA (overCoeffs n B f f' a) (overCoeffs n B g g' (negA a)) := by
  unfold overCoeffs
  dsimp only
  refine Img.bind (f := negA) (Img.foldlM (fun a i => batch_neg _ _ h a) _ a) fun a => ?_
  refine Img.ite (batch_neg _ _ h a) ?_
  have e : ∀ (L : List ℕ) (a : ℕ → C),
      L.foldl (fun a i => fun k => if k = i then g' i (a i) else a k) (negA a) =
        negA (L.foldl (fun a i => fun k => if k = i then f' i (a i) else a k) a) := by
    intro L
    induction L with
    | nil => intro a; rfl
    | cons i L ih =>
      intro a
      rw [List.foldl_cons, List.foldl_cons, ← ih]
      congr 1
      funext k
      unfold negA
      dsimp only
      split
      · exact h' _ _
      · rfl
  rw [e]
  exact Img.pure _

end

include hE hC

theorem i0_neg (wt : WavetableData K) (crt mip i j : ℤ) (d pb nb : K) (a : ℕ → C) :
    Img negA (S.computeI0 wt crt mip i j d pb nb a)
      (S.computeI0 wt.neg crt mip i j d pb nb (negA a)) := by
  unfold computeI0
  refine Img.bind (WavetableData.rd2_img negL _ _ _) fun m => ?_
  refine Img.bind (WavetableData.rd2_img negL _ _ _) fun q => ?_
  refine Img.bind (rd_img _ m _) fun mp => Img.bind (rd_img _ q _) fun qp => ?_
  refine Img.bind (rd_img _ m _) fun mn => Img.bind (rd_img _ q _) fun qn => ?_
  dsimp only
  rw [neg_mul, neg_mul, hE.fl, hE.fl, hE.mad, hE.mad, hC.ofK, hC.ofK, hC.ofK, hC.ofK]
  refine over_neg (fun k c => ?_) (fun k c => ?_) a
  · rw [hC.fma, hC.fms, hC.fnma]
  · rw [hC.mul_right, hC.mul_right, hC.add, hC.mul_right, hC.sub, hC.sub]

theorem cornerS_neg (pa d ph md qd : K) (k : ℕ) :
    S.cornerS pa d ph (-md) (-qd) k = -S.cornerS pa d ph md qd k := by
  unfold cornerS
  rw [hC.ofK, hC.ofK, hC.mul_right, hC.mul_left, hC.add, hC.mul_right]

theorem cornerV_neg (d ph md qd : K) (k : ℕ) :
    S.cornerV d ph (-md) (-qd) k = -S.cornerV d ph md qd k := by
  unfold cornerV
  rw [hC.ofK, hC.ofK, hC.mul_right, hC.fma]

theorem fwdI_neg (wt : WavetableData K) (crt : ℤ) (pr : K) (mip i j : ℤ) (d p : K) (a : ℕ → C) :
    Img negA (S.computeFwdI wt crt pr mip i j d p a)
      (S.computeFwdI wt.neg crt pr mip i j d p (negA a)) := by
  unfold computeFwdI
  refine Img.bind (i0_neg hE hC _ _ _ _ _ _ _ _ _) fun a => ?_
  unfold computeISumFwd
  rw [WavetableData.waveformLen_neg]
  refine Img.same fun len => ?_
  refine Img.bind (WavetableData.rd2_img negL _ _ _) fun md => ?_
  refine Img.bind (WavetableData.rd2_img negL _ _ _) fun qd => ?_
  refine Img.same fun phs => ?_
  refine Img.foldlM (fun a i => ?_) _ a
  unfold iSumFwdStep
  refine Img.same fun ir => Img.same fun ph => Img.same fun pa => ?_
  refine Img.bind (rd_img _ md _) fun m => Img.bind (rd_img _ qd _) fun q => ?_
  refine over_neg (fun k c => ?_) (fun k c => ?_) a
  · rw [cornerV_neg hE hC, hC.fma]
  · rw [cornerS_neg hE hC, hC.add]

theorem bwdI_neg (wt : WavetableData K) (crt : ℤ) (pr : K) (mip jm i j : ℤ) (d p : K) (a : ℕ → C) :
    Img negA (S.computeBwdI wt crt pr mip jm i j d p a)
      (S.computeBwdI wt.neg crt pr mip jm i j d p (negA a)) := by
  unfold computeBwdI
  refine Img.same fun _ => Img.bind (i0_neg hE hC _ _ _ _ _ _ _ _ _) fun a => ?_
  unfold computeISumBwd
  rw [WavetableData.waveformLen_neg]
  refine Img.same fun _ => Img.same fun len => ?_
  refine Img.bind (WavetableData.rd2_img negL _ _ _) fun md => ?_
  refine Img.bind (WavetableData.rd2_img negL _ _ _) fun qd => ?_
  refine Img.same fun phs => ?_
  refine Img.foldlM (fun a i => ?_) _ a
  unfold iSumBwdStep
  refine Img.same fun ir => Img.same fun ph => Img.same fun pa => ?_
  refine Img.bind (rd_img _ md _) fun m => Img.bind (rd_img _ qd _) fun q => ?_
  refine over_neg (fun k c => ?_) (fun k c => ?_) a
  · rw [cornerV_neg hE hC, hC.fnma]
  · rw [cornerS_neg hE hC, hC.sub]

theorem zeroA : negA (fun _ => 0 : ℕ → C) = fun _ => 0 := by
  funext k; exact hC.zero

theorem upper_neg (t : MipMapIndices K) (a : ℕ → C) {u v : R (ℕ → C)} (h : Img negA u v) :
    Img negA (S.withUpper t a u) (S.withUpper t (negA a) v) := by
  unfold withUpper
  refine Img.ite (Img.bind h fun b => ?_) (Img.ok a)
  have e : S.crossfade t.weight t.weightUp (negA a) (negA b) =
      negA (S.crossfade t.weight t.weightUp a b) := by
    funext k
    unfold crossfade negA
    dsimp only
    generalize (if S.n % S.B > 1 then S.upper else S.n) = m
    split
    · rw [hC.mul_left, hC.mul_left, hC.add]
    · rfl
  rw [e]
  exact Img.pure _

theorem getD_neg (l : List C) (k : ℕ) : (l.map (- ·)).getD k 0 = -l.getD k 0 := by
  rw [List.getD_eq_getElem?_getD, List.getD_eq_getElem?_getD, List.getElem?_map]
  cases l[k]?
  · exact hC.zero.symm
  · rfl

theorem cpxY_neg (y : List C) (a : ℕ → C) :
    S.cpxY (y.map (- ·)) (negA a) = (S.cpxY y a).map (- ·) := by
  unfold cpxY
  rw [List.map_map]
  apply List.map_congr_left
  intro k _
  dsimp only [Function.comp]
  rw [getD_neg hE hC, hC.mul_right, negA, hC.div, hC.mul_right, hC.add]

theorem outReal_neg (y : List C) : S.outReal (y.map (- ·)) = -S.outReal y := by
  unfold outReal
  rw [← hC.re]
  congr 1
  have : ∀ (l : List C) (a : C), (l.map (- ·)).foldl (· + ·) (-a) = -l.foldl (· + ·) a := by
    intro l
    induction l with
    | nil => intro a; rfl
    | cons b l ih => intro a; rw [List.map_cons, List.foldl_cons, List.foldl_cons, hC.add, ih]
  have h := this y 0
  rwa [hC.zero] at h

/-- the result of a sample negated -/
def negR (r : Osc K C × K) : Osc K C × K := (negO r.1, -r.2)

theorem fwd_neg (o : Osc K C) (p d : K) :
    Img negR (S.processSampleFwd o p d) (S.processSampleFwd (negO o) p d) := by
  unfold processSampleFwd
  refine Img.same fun _ => ?_
  rcases hw : o.wt with _ | wt0
  · rw [show (negO o).wt = none by unfold negO; rw [hw]; rfl]; rfl
  rw [show (negO o).wt = some wt0.neg by unfold negO; rw [hw]; rfl]
  dsimp only
  refine Img.bind (WavetableData.find_neg _ _ _) fun ⟨wt, t⟩ => ?_
  dsimp only
  rw [WavetableData.waveformLen_neg]
  refine Img.same fun phs => Img.same fun pr => Img.same fun len => Img.same fun j0 => ?_
  refine Img.same fun pj => Img.same fun j => Img.same fun j1 => Img.same fun j2 => ?_
  have hz := zeroA hE hC
  refine Img.bind (f := negA) ?_ fun a => ?_
  · have := fwdI_neg hE hC wt o.crt o.prevPhaseRed t.idx j1 j2 d pr (fun _ => 0)
    rw [hz] at this
    exact this
  refine Img.bind (f := negA) (upper_neg hE hC t a ?_) fun a => ?_
  · have := fwdI_neg hE hC wt o.crt o.prevPhaseRed t.idxUp (j1.tdiv 2) (j2.tdiv 2) d pr (fun _ => 0)
    rw [hz] at this
    exact this
  rw [show (negO o).prevY = o.prevY.map (- ·) from rfl, cpxY_neg hE hC, outReal_neg hE hC]
  exact Img.pure (f := negR) (_, _)

theorem bwd_neg (o : Osc K C) (p d : K) :
    Img negR (S.processSampleBwd o p d) (S.processSampleBwd (negO o) p d) := by
  unfold processSampleBwd
  refine Img.same fun _ => ?_
  rcases hw : o.wt with _ | wt0
  · rw [show (negO o).wt = none by unfold negO; rw [hw]; rfl]; rfl
  rw [show (negO o).wt = some wt0.neg by unfold negO; rw [hw]; rfl]
  dsimp only
  refine Img.bind (WavetableData.find_neg _ _ _) fun ⟨wt, t⟩ => ?_
  dsimp only
  rw [WavetableData.waveformLen_neg]
  refine Img.same fun phs => Img.same fun pr => Img.same fun len => Img.same fun j0 => ?_
  refine Img.same fun pj => Img.same fun j => Img.same fun j1 => Img.same fun j2 => ?_
  have hz := zeroA hE hC
  refine Img.bind (f := negA) ?_ fun a => ?_
  · have := bwdI_neg hE hC wt o.crt o.prevPhaseRed t.idx j j1 j2 d pr (fun _ => 0)
    rw [hz] at this
    exact this
  refine Img.bind (f := negA) (upper_neg hE hC t a ?_) fun a => ?_
  · have := bwdI_neg hE hC wt o.crt o.prevPhaseRed t.idxUp j (j1.tdiv 2) (j2.tdiv 2) d pr (fun _ => 0)
    rw [hz] at this
    exact this
  rw [show (negO o).prevY = o.prevY.map (- ·) from rfl, cpxY_neg hE hC, outReal_neg hE hC]
  exact Img.pure (f := negR) (_, _)

theorem dir_neg (dir : Direction) (o : Osc K C) (p : K) :
    Img negR (S.stepDir dir o p) (S.stepDir dir (negO o) p) := by
  cases dir with
  | kForward => exact Img.same fun _ => fwd_neg hE hC _ _ _
  | kBidirectionnal => exact Img.ite (fwd_neg hE hC _ _ _) (bwd_neg hE hC _ _ _)

/-- the result of a call negated -/
def negRs (r : Osc K C × List K) : Osc K C × List K := (negO r.1, negL r.2)

theorem runDir_neg (dir : Direction) (ps : List K) (o : Osc K C) :
    Img negRs (S.runDir dir o ps) (S.runDir dir (negO o) ps) := by
  induction ps generalizing o with
  | nil => exact Img.ok (f := negRs) (o, [])
  | cons p ps ih =>
    unfold runDir
    refine Img.bind (dir_neg hE hC dir o p) fun ⟨o1, y⟩ => ?_
    refine Img.bind (ih o1) fun ⟨o2, ys⟩ => ?_
    exact Img.pure (f := negRs) (o2, y :: ys)

theorem process_neg (dir : Direction) (o : Osc K C) (ps : List K) (n : ℕ) :
    Img negRs (S.process dir o ps (List.replicate n 0))
      (S.process dir (negO o) ps (List.replicate n 0)) := by
  have e : (negO o).wt.isNone = o.wt.isNone := by unfold negO; cases o.wt <;> rfl
  have key : ∀ qs : List K, Img negRs
      (do let (o', ys) ← S.runDir dir o qs
          return (o', ys ++ (List.replicate n (0 : K)).drop ys.length))
      (do let (o', ys) ← S.runDir dir (negO o) qs
          return (o', ys ++ (List.replicate n (0 : K)).drop ys.length)) := by
    intro qs
    refine Img.bind (runDir_neg hE hC _ _ _) fun ⟨o', ys⟩ => ?_
    have e : negL ys ++ (List.replicate n (0 : K)).drop (negL ys).length =
        negL (ys ++ (List.replicate n 0).drop ys.length) := by
      unfold negL
      rw [List.length_map, List.map_append, List.drop_replicate, List.map_replicate, neg_zero]
    show Img negRs _ (Pure.pure (negO o', negL ys ++ (List.replicate n (0 : K)).drop (negL ys).length))
    rw [e]
    exact Img.pure (f := negRs) (o', _)
  unfold process
  rw [e]
  split
  · exact Img.same fun _ => Img.same fun _ => key _
  · exact Img.same fun _ => key _

theorem reset_neg (o : Osc K C) (p d : K) :
    Img negO (S.resetInternals o p d) (S.resetInternals (negO o) p d) := by
  unfold resetInternals
  rcases hw : o.wt with _ | wt0
  · rw [show (negO o).wt = none by unfold negO; rw [hw]; rfl]
    exact Img.same fun _ => rfl
  rw [show (negO o).wt = some wt0.neg by unfold negO; rw [hw]; rfl]
  dsimp only
  refine Img.same fun pr => Img.bind (WavetableData.find_neg _ _ _) fun ⟨wt, t⟩ => ?_
  dsimp only
  rw [WavetableData.waveformLen_neg]
  refine Img.same fun len => Img.same fun j => ?_
  have e : List.replicate S.n (0 : C) = (List.replicate S.n 0).map (- ·) := by
    rw [List.map_replicate, hC.zero]
  refine (congrArg Except.ok ?_ : _ = _)
  unfold negO
  dsimp only
  rw [← e]
  rfl

theorem init_neg (o : Osc K C) (w : Option (WavetableData K)) (p d : K) :
    Img (fun r : Osc K C × ℤ => (negO r.1, r.2)) (S.init o w p d)
      (S.init (negO o) (w.map WavetableData.neg) p d) := by
  cases w with
  | none => rfl
  | some wt =>
    exact Img.bind (reset_neg hE hC { o with wt := some wt } p d) fun o' => rfl

theorem swap_neg (o : Osc K C) (w : Option (WavetableData K)) (p d : K) :
    Img (fun r : Osc K C × Option (WavetableData K) => (negO r.1, r.2.map WavetableData.neg))
      (S.swapWavetable o w p d) (S.swapWavetable (negO o) (w.map WavetableData.neg) p d) := by
  cases w with
  | none => rfl
  | some wt =>
    exact Img.bind (reset_neg hE hC { o with wt := some wt } p d) fun o' => rfl

theorem updateSr_neg (o : Osc K C) (sr : K) :
    Img negO (S.updateSamplerate o sr) (S.updateSamplerate (negO o) sr) := by
  unfold updateSamplerate
  rcases hw : o.wt with _ | wt0
  · rw [show (negO o).wt = none by unfold negO; rw [hw]; rfl]
    exact Img.same fun _ => rfl
  rw [show (negO o).wt = some wt0.neg by unfold negO; rw [hw]; rfl]
  exact Img.bind (WavetableData.update_neg hE wt0 sr _) fun w => rfl

theorem call_neg (o : Osc K C) (c : Call K) :
    Img negRs (runCall S o c) (runCall S (negO o) c.invert) := by
  cases c with
  | init ws n sr dur p d =>
    exact Img.bind (WavetableData.build_neg hE ws n sr dur) fun w =>
      Img.bind (init_neg hE hC o w p d) fun r => rfl
  | swap ws n sr dur p d =>
    exact Img.bind (WavetableData.build_neg hE ws n sr dur) fun w =>
      Img.bind (swap_neg hE hC o w p d) fun r => rfl
  | process dir ps => exact process_neg hE hC dir o ps _
  | setWaveform i =>
    refine Img.bind (f := negO) ?_ fun o' => rfl
    unfold setWaveform
    have e : (negO o).wt.isSome = o.wt.isSome := by unfold negO; cases o.wt <;> rfl
    rw [e]
    exact Img.same fun _ => rfl
  | reset p d => exact Img.bind (reset_neg hE hC o p d) fun o' => rfl
  | updateSamplerate sr => exact Img.bind (updateSr_neg hE hC o sr) fun o' => rfl

theorem calls_neg (cs : List (Call K)) (o : Osc K C) :
    Img negRs (runCalls S o cs) (runCalls S (negO o) (cs.map Call.invert)) := by
  induction cs generalizing o with
  | nil => rfl
  | cons c cs ih =>
    rw [List.map_cons]
    unfold runCalls
    refine Img.bind (call_neg hE hC o c) fun ⟨o1, y1⟩ => Img.bind (ih o1) fun ⟨o2, y2⟩ => ?_
    show Img negRs _ (Pure.pure (negO o2, negL y1 ++ negL y2))
    rw [show negL y1 ++ negL y2 = negL (y1 ++ y2) by unfold negL; rw [List.map_append]]
    exact Img.pure (f := negRs) (o2, _)

theorem fresh_neg : negO S.fresh = S.fresh := by
  have e : (List.replicate S.n (0 : C)).map (- ·) = List.replicate S.n 0 := by
    rw [List.map_replicate, hC.zero]
  unfold negO fresh
  dsimp only
  rw [e]
  rfl

end Sys
end Adwt
