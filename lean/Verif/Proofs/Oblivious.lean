import Verif.Spec.Oblivious
import Verif.Proofs.Ok

/-!
# The values of the samples do not influence what the program does
-/

set_option linter.unusedSectionVars false

namespace Adwt

/-! ### outcomes related by a relation -/

/-- both fail with the same error, or both succeed with related values -/
def Rel {α β : Type} (Φ : α → β → Prop) (x : R α) (y : R β) : Prop :=
  match x, y with
  | .ok a, .ok b => Φ a b
  | .error e, .error e' => e = e'
  | _, _ => False

namespace Rel
variable {α β γ δ : Type} {Φ : α → β → Prop} {Ψ : γ → δ → Prop}

theorem ok {a : α} {b : β} (h : Φ a b) : Rel Φ (.ok a) (.ok b) := h
theorem pure {a : α} {b : β} (h : Φ a b) : Rel Φ (Pure.pure a : R α) (Pure.pure b) := h
theorem error (e : Err) : Rel Φ (.error e) (.error e) := rfl
theorem refl (x : R α) : Rel Eq x x := by cases x <;> rfl

theorem bind {x : R α} {y : R β} {k : α → R γ} {l : β → R δ} (h : Rel Φ x y)
    (hk : ∀ a b, Φ a b → Rel Ψ (k a) (l b)) : Rel Ψ (x >>= k) (y >>= l) := by
  cases x <;> cases y
  · cases (show _ = _ from h); rfl
  · exact h.elim
  · exact h.elim
  · exact hk _ _ h

theorem same {x : R α} {k : α → R γ} {l : α → R δ}
    (hk : ∀ a, Rel Ψ (k a) (l a)) : Rel Ψ (x >>= k) (x >>= l) :=
  bind (refl x) fun a b h => h ▸ hk a

theorem ite {c : Prop} [Decidable c] {x x' : R α} {y y' : R β} (h : Rel Φ x y)
    (h' : Rel Φ x' y') : Rel Φ (if c then x else x') (if c then y else y') := by
  split <;> assumption

theorem foldlM {ι : Type} {k : α → ι → R α} {l : β → ι → R β}
    (hk : ∀ a b i, Φ a b → Rel Φ (k a i) (l b i)) (L : List ι) (a : α) (b : β) (h : Φ a b) :
    Rel Φ (L.foldlM k a) (L.foldlM l b) := by
  induction L generalizing a b with
  | nil => exact pure h
  | cons i L ih => rw [List.foldlM_cons, List.foldlM_cons]; exact bind (hk a b i h) fun a b => ih a b

theorem mapM {ι : Type} {k : ι → R α} {l : ι → R β} (L : List ι) (hk : ∀ i, Rel Φ (k i) (l i)) :
    Rel (List.Forall₂ Φ) (L.mapM k) (L.mapM l) := by
  induction L with
  | nil => exact pure .nil
  | cons i L ih =>
    rw [List.mapM_cons, List.mapM_cons]
    exact bind (hk i) fun a b h => bind ih fun c d h' => pure (.cons h h')

end Rel

variable {K C : Type} [Field K] [LinearOrder K] [IsStrictOrderedRing K] [FloorRing K]
variable [Zero C] [Add C] [Sub C] [Mul C] [Div C]

theorem rd_rel {α β : Type} {Φ : α → β → Prop} {l : List α} {l' : List β} (h : List.Forall₂ Φ l l') (i : ℤ) :
    Rel Φ (rd l i) (rd l' i) := by
  unfold rd
  split
  · generalize i.toNat = n
    induction h generalizing n with
    | nil => rfl
    | cons h _ ih =>
      cases n with
      | zero => exact h
      | succ n => exact ih n
  · rfl

/-- as long as each other -/
def SameLen {α : Type} (l l' : List α) : Prop := l.length = l'.length

theorem SameLen.all {α : Type} {l l' : List α} (h : SameLen l l') : List.Forall₂ (fun _ _ => True) l l' := by
  unfold SameLen at h
  induction l generalizing l' with
  | nil => cases l' with
    | nil => exact .nil
    | cons => cases h
  | cons a l ih => cases l' with
    | nil => cases h
    | cons b l' => exact .cons trivial (ih (by simpa using h))

theorem SameLen.rd {α : Type} {l l' : List α} (h : SameLen l l') (i : ℤ) :
    Rel (fun _ _ => True) (rd l i) (Adwt.rd l' i) := rd_rel h.all i

theorem SameLen.isEmpty {α : Type} {l l' : List α} (h : SameLen l l') : l.isEmpty = l'.isEmpty := by
  unfold SameLen at h
  cases l <;> cases l'
  · rfl
  · cases h
  · cases h
  · rfl

theorem mapM_len {ι α β : Type} {k : ι → R α} {l : ι → R β} (L : List ι)
    (hk : ∀ i, Rel (fun _ _ => True) (k i) (l i)) :
    Rel (fun a b => a.length = b.length) (L.mapM k) (L.mapM l) := by
  have := Rel.mapM L hk
  revert this
  generalize L.mapM k = x
  generalize L.mapM l = y
  intro h
  cases x <;> cases y
  · exact h
  · exact h.elim
  · exact h.elim
  · exact List.Forall₂.length_eq h

theorem set_rel {α β : Type} {Φ : α → β → Prop} {l : List α} {l' : List β} (h : List.Forall₂ Φ l l') (i : ℕ)
    {a : α} {b : β} (hab : Φ a b) : List.Forall₂ Φ (l.set i a) (l'.set i b) := by
  induction h generalizing i with
  | nil => exact .nil
  | cons h t ih =>
    cases i with
    | zero => exact .cons hab t
    | succ i => exact .cons h (ih i)

namespace WavetableData

/-- tables of the same shape -/
def Shape (v v' : List (List (List K))) : Prop := List.Forall₂ (List.Forall₂ SameLen) v v'

/-- the same wavetable but for the samples -/
structure Alike (d d' : WavetableData K) : Prop where
  m : Shape d.m d'.m
  q : Shape d.q d'.q
  mDiff : Shape d.mDiff d'.mDiff
  qDiff : Shape d.qDiff d'.qDiff
  phases : d.phases = d'.phases
  cf : d.cf = d'.cf

theorem Shape.rd2 {v v' : List (List (List K))} (h : Shape v v') (i j : ℤ) :
    Rel SameLen (rd2 v i j) (rd2 v' i j) :=
  Rel.bind (rd_rel h i) fun _ _ h => rd_rel h j

theorem waveformLen_alike {d d' : WavetableData K} (h : Alike d d') (i : ℤ) :
    d.waveformLen i = d'.waveformLen i := by
  unfold waveformLen
  have := h.m.rd2 0 i
  revert this
  generalize rd2 d.m 0 i = x
  generalize rd2 d'.m 0 i = y
  intro h
  cases x <;> cases y
  · cases (show _ = _ from h); rfl
  · exact h.elim
  · exact h.elim
  · rename_i a b
    show Except.ok (a.length : ℤ) = Except.ok (b.length : ℤ)
    rw [show a.length = b.length from h]

theorem find_alike (E : Env K) {d d' : WavetableData K} (h : Alike d d') (x : K) :
    Rel (fun r r' : WavetableData K × MipMapIndices K => Alike r.1 r'.1 ∧ r.2 = r'.2)
      (findMipMapIndices E d x) (findMipMapIndices E d' x) := by
  unfold findMipMapIndices
  rw [h.cf]
  exact Rel.same fun r => ⟨⟨h.m, h.q, h.mDiff, h.qDiff, h.phases, rfl⟩, rfl⟩

variable (E : Env K)

theorem fdiv_true (fl : K → K) (a a' b : K) : Rel (fun _ _ => True) (fdiv fl a b) (fdiv fl a' b) := by
  unfold fdiv
  split
  · exact Rel.error _
  · exact Rel.ok trivial

/-- four tables of the same shape -/
structure MQ.Alike (t t' : MQ K) : Prop where
  m : SameLen t.m t'.m
  q : SameLen t.q t'.q
  mDiff : SameLen t.mDiff t'.mDiff
  qDiff : SameLen t.qDiff t'.qDiff

theorem mqEntry_alike (pv : List K) {w w' : List K} (h : SameLen w w') (i : ℕ) :
    Rel (fun _ _ => True) (mqEntry E pv w i) (mqEntry E pv w' i) := by
  unfold mqEntry
  refine Rel.bind (h.rd _) fun y0 y0' _ => ?_
  rw [show w.length = w'.length from h]
  refine Rel.bind (h.rd _) fun y1 y1' _ => ?_
  refine Rel.same fun x0 => Rel.same fun x1 => ?_
  unfold computeM computeQ ddiv
  exact Rel.bind (fdiv_true _ _ _ _) fun m m' _ => Rel.bind (fdiv_true _ _ _ _) fun q q' _ => Rel.pure trivial

theorem diffEntry_alike {v v' : List K} (h : SameLen v v') (len i : ℕ) :
    Rel (fun _ _ => True) (diffEntry E.fl v len i) (diffEntry E.fl v' len i) := by
  unfold diffEntry
  exact Rel.bind (h.rd _) fun _ _ _ => Rel.bind (h.rd _) fun _ _ _ => Rel.pure trivial

theorem computeMQ_alike (pv : List K) {w w' : List K} (h : SameLen w w') :
    Rel MQ.Alike (computeMQVector E pv w) (computeMQVector E pv w') := by
  unfold computeMQVector
  dsimp only
  rw [show w.length = w'.length from h]
  refine Rel.bind (mapM_len _ fun i => mqEntry_alike E pv h i) fun mq mq' e => ?_
  have e1 : SameLen (mq.map Prod.fst) (mq'.map Prod.fst) := by unfold SameLen; simp [e]
  have e2 : SameLen (mq.map Prod.snd) (mq'.map Prod.snd) := by unfold SameLen; simp [e]
  refine Rel.bind (mapM_len _ fun i => diffEntry_alike E e1 _ i) fun md md' e3 => ?_
  refine Rel.bind (mapM_len _ fun i => diffEntry_alike E e2 _ i) fun qd qd' e4 => ?_
  refine Rel.bind (SameLen.rd e4 _) fun _ _ _ => Rel.bind (SameLen.rd e1 _) fun _ _ _ => ?_
  exact Rel.pure ⟨e1, e2, e3, by unfold SameLen; simpa using e4⟩

variable {E} (hE : ObliviousSrc E)
include hE

theorem downsample_alike {w w' : List K} (h : SameLen w w') (r : ℕ) :
    SameLen (downsampleWaveform E w r) (downsampleWaveform E w' r) := by
  have e : w.length = w'.length := h
  obtain ⟨a, b, c⟩ := hE (List.replicate kRepetitions w).flatten (List.replicate kRepetitions w').flatten
    (by simp [e]) (w'.length / r * kRepetitions) r
  unfold downsampleWaveform SameLen
  dsimp only
  rw [e, a, b, c]
  split
  · rfl
  · split
    · rfl
    · simp

theorem mipStep_alike (phases : List (List K)) {og og' : List K} (h : SameLen og og')
    (acc acc' : List (List K) × List (MQ K)) (i : ℕ)
    (ha : List.Forall₂ SameLen acc.1 acc'.1 ∧ List.Forall₂ MQ.Alike acc.2 acc'.2) :
    Rel (fun a a' : List (List K) × List (MQ K) =>
        List.Forall₂ SameLen a.1 a'.1 ∧ List.Forall₂ MQ.Alike a.2 a'.2)
      (mipStep E phases og acc i) (mipStep E phases og' acc' i) := by
  unfold mipStep
  refine Rel.bind (Φ := fun r r' : List K × ℕ => SameLen r.1 r'.1 ∧ r.2 = r'.2) ?_ fun ⟨s, r⟩ ⟨s', r'⟩ hs => ?_
  · unfold mipSource
    exact Rel.ite (Rel.ok ⟨h, rfl⟩) (Rel.bind (rd_rel ha.1 _) fun _ _ hs => Rel.pure ⟨hs, rfl⟩)
  · obtain ⟨hs, rfl⟩ := hs
    dsimp only at hs ⊢
    have hd := downsample_alike hE hs r
    rw [hd.isEmpty]
    refine Rel.ite (Rel.error _) ?_
    refine Rel.same fun pv => Rel.bind (computeMQ_alike E _ hd) fun t t' ht => ?_
    refine Rel.pure ⟨?_, List.rel_append ha.2 (.cons ht .nil)⟩
    rw [show acc.1.length = acc'.1.length from ha.1.length_eq]
    split
    · exact set_rel ha.1 _ hd
    · exact ha.1

theorem waveformTables_alike (num : ℕ) (phases : List (List K)) {og og' : List K} (h : SameLen og og') :
    Rel (List.Forall₂ MQ.Alike) (waveformTables E num phases og) (waveformTables E num phases og') := by
  unfold waveformTables
  refine Rel.same fun _ => Rel.same fun pv => Rel.bind (computeMQ_alike E _ h) fun t t' ht => ?_
  dsimp only
  refine Rel.bind (Rel.foldlM (fun a b i => mipStep_alike hE phases h a b i) _ _ _ ⟨?_, .cons ht .nil⟩)
    fun r r' hr => Rel.pure hr.2
  exact List.forall₂_same.2 fun _ _ => rfl

theorem make_alike {ws ws' : List K} (h : SameLen ws ws') (n : ℕ) (sr : K) (xf : ℤ) (len : ℕ) :
    Rel Alike (make E ws n sr xf len) (make E ws' n sr xf len) := by
  unfold make
  refine Rel.same fun cf => ?_
  rw [show ws.length = ws'.length from h]
  refine Rel.same fun _ => Rel.same fun ph => ?_
  refine Rel.bind (Rel.mapM _ fun w => waveformTables_alike hE _ _ ?_) fun tabs tabs' ht => ?_
  · unfold SameLen subspan
    rw [List.length_take, List.length_take, List.length_drop, List.length_drop, show ws.length = _ from h]
  · have e : ∀ g : MQ K → List K, (∀ t t' : MQ K, t.Alike t' → SameLen (g t) (g t')) →
        Shape (tabs.map (·.map g)) (tabs'.map (·.map g)) := by
      intro g hg
      unfold Shape
      rw [List.forall₂_map_left_iff, List.forall₂_map_right_iff]
      refine ht.imp fun a b hab => ?_
      rw [List.forall₂_map_left_iff, List.forall₂_map_right_iff]
      exact hab.imp fun _ _ => hg _ _
    exact Rel.pure ⟨e _ fun _ _ h => h.m, e _ fun _ _ h => h.q, e _ fun _ _ h => h.mDiff,
      e _ fun _ _ h => h.qDiff, rfl, rfl⟩

theorem build_alike {ws ws' : List K} (h : SameLen ws ws') (n : ℤ) (sr dur : K) :
    Rel (Option.Rel Alike) (build E ws n sr dur) (build E ws' n sr dur) := by
  unfold build
  rw [h.isEmpty, show ws.length = ws'.length from h]
  refine Rel.ite (Rel.ok .none) (Rel.ite (Rel.ok .none) (Rel.ite (Rel.ok .none)
    (Rel.ite (Rel.ok .none) ?_)))
  refine Rel.same fun p => Rel.ite (Rel.pure .none) ?_
  refine Rel.same fun xf => ?_
  have := make_alike hE h n.toNat sr xf (ws'.length / n.toNat)
  revert this
  generalize make E ws n.toNat sr xf (ws'.length / n.toNat) = x
  generalize make E ws' n.toNat sr xf (ws'.length / n.toNat) = y
  intro h
  unfold catchRuntime
  cases x <;> cases y
  · rename_i e e'
    cases (show e = e' from h)
    cases e
    all_goals first | exact Rel.ok .none | exact Rel.error _
  · exact h.elim
  · exact h.elim
  · exact Rel.ok (.some h)

omit hE in
theorem flatten_len : ∀ {ws ws' : List (List K)}, List.Forall₂ SameLen ws ws' → SameLen ws.flatten ws'.flatten
  | _, _, .nil => rfl
  | _, _, .cons h t => by
    have := flatten_len t
    unfold SameLen at *
    rw [List.flatten_cons, List.flatten_cons, List.length_append, List.length_append, h, this]

omit hE in
theorem rebuild_alike {d d' : WavetableData K} (h : Alike d d') :
    Rel SameLen (rebuildWaveforms E d) (rebuildWaveforms E d') := by
  unfold rebuildWaveforms
  rw [waveformLen_alike h, show d.m.length = d'.m.length from h.m.length_eq, h.phases]
  refine Rel.same fun _ => Rel.same fun _ => ?_
  refine Rel.bind (Rel.mapM (Φ := SameLen) _ fun w => ?_) fun ws ws' hw => Rel.pure (flatten_len hw)
  refine Rel.bind (h.m.rd2 _ _) fun m m' hm => Rel.bind (h.q.rd2 _ _) fun q q' hq => ?_
  unfold phaseSpan
  rw [h.phases]
  refine Rel.same fun x => Rel.pure ?_
  unfold SameLen rebuildOne at *
  simp [hm, hq]

theorem update_alike {d d' : WavetableData K} (h : Alike d d') (sr dur : K) :
    Rel Alike (updateSamplerate E d sr dur) (updateSamplerate E d' sr dur) := by
  unfold updateSamplerate
  refine Rel.bind (rebuild_alike h) fun og og' ho => ?_
  rw [show d.numWaveforms = d'.numWaveforms from congrArg Int.ofNat h.m.length_eq]
  refine Rel.bind (build_alike hE ho _ _ _) fun nd nd' hn => ?_
  cases hn with
  | none => exact Rel.error _
  | some h => exact Rel.pure h

end WavetableData

namespace Sys
open WavetableData

/-- the same state but for the samples in the tables and in the filter memory -/
structure OscAlike (o o' : Osc K C) : Prop where
  wt : Option.Rel WavetableData.Alike o.wt o'.wt
  prevY : SameLen o.prevY o'.prevY
  prevPhase : o.prevPhase = o'.prevPhase
  prevPhaseRed : o.prevPhaseRed = o'.prevPhaseRed
  prevPhaseDiff : o.prevPhaseDiff = o'.prevPhaseDiff
  prevMip : o.prevMip = o'.prevMip
  jRed : o.jRed = o'.jRed
  prevJRed : o.prevJRed = o'.prevJRed
  crt : o.crt = o'.crt

theorem over_alike {n B : ℕ} (f g f' g' : ℕ → C → C) (a b : ℕ → C) :
    Rel (fun _ _ => True) (overCoeffs n B f f' a) (overCoeffs n B g g' b) := by
  have key : ∀ (up i : ℕ) (f g : ℕ → C → C) (a b : ℕ → C),
      Rel (fun _ _ => True) (batch up B i f a) (batch up B i g b) := by
    intro up i f g a b
    unfold batch
    exact Rel.ite (Rel.ok trivial) (Rel.error _)
  unfold overCoeffs
  dsimp only
  refine Rel.bind (Rel.foldlM (Φ := fun _ _ => True) (fun a b i _ => key _ (i * B) f g a b) _ a b trivial)
    fun a b _ => ?_
  exact Rel.ite (key _ _ _ _ a b) (Rel.pure trivial)

variable {S : Sys K C}

theorem i0_alike {wt wt' : WavetableData K} (h : Alike wt wt') (crt mip i j : ℤ) (d pb nb : K) (a b : ℕ → C) :
    Rel (fun _ _ => True) (S.computeI0 wt crt mip i j d pb nb a) (S.computeI0 wt' crt mip i j d pb nb b) := by
  unfold computeI0
  refine Rel.bind (h.m.rd2 _ _) fun m m' hm => Rel.bind (h.q.rd2 _ _) fun q q' hq => ?_
  refine Rel.bind (hm.rd _) fun _ _ _ => Rel.bind (hq.rd _) fun _ _ _ => ?_
  refine Rel.bind (hm.rd _) fun _ _ _ => Rel.bind (hq.rd _) fun _ _ _ => ?_
  exact over_alike _ _ _ _ _ _

theorem fwdI_alike {wt wt' : WavetableData K} (h : Alike wt wt') (crt : ℤ) (pr : K) (mip i j : ℤ) (d p : K)
    (a : ℕ → C) :
    Rel (fun _ _ => True) (S.computeFwdI wt crt pr mip i j d p a) (S.computeFwdI wt' crt pr mip i j d p a) := by
  unfold computeFwdI
  refine Rel.bind (i0_alike h _ _ _ _ _ _ _ _ _) fun a b _ => ?_
  unfold computeISumFwd
  rw [waveformLen_alike h]
  refine Rel.same fun len => ?_
  refine Rel.bind (h.mDiff.rd2 _ _) fun md md' hm => Rel.bind (h.qDiff.rd2 _ _) fun qd qd' hq => ?_
  unfold phaseSpan
  rw [h.phases]
  refine Rel.same fun phs => Rel.foldlM (Φ := fun _ _ => True) (fun a b i _ => ?_) _ a b trivial
  unfold iSumFwdStep
  refine Rel.same fun ir => Rel.same fun ph => Rel.same fun pa => ?_
  refine Rel.bind (hm.rd _) fun _ _ _ => Rel.bind (hq.rd _) fun _ _ _ => ?_
  exact over_alike _ _ _ _ _ _

theorem bwdI_alike {wt wt' : WavetableData K} (h : Alike wt wt') (crt : ℤ) (pr : K) (mip jm i j : ℤ) (d p : K)
    (a : ℕ → C) :
    Rel (fun _ _ => True) (S.computeBwdI wt crt pr mip jm i j d p a)
      (S.computeBwdI wt' crt pr mip jm i j d p a) := by
  unfold computeBwdI
  refine Rel.same fun _ => Rel.bind (i0_alike h _ _ _ _ _ _ _ _ _) fun a b _ => ?_
  unfold computeISumBwd
  rw [waveformLen_alike h]
  refine Rel.same fun _ => Rel.same fun len => ?_
  refine Rel.bind (h.mDiff.rd2 _ _) fun md md' hm => Rel.bind (h.qDiff.rd2 _ _) fun qd qd' hq => ?_
  unfold phaseSpan
  rw [h.phases]
  refine Rel.same fun phs => Rel.foldlM (Φ := fun _ _ => True) (fun a b i _ => ?_) _ a b trivial
  unfold iSumBwdStep
  refine Rel.same fun ir => Rel.same fun ph => Rel.same fun pa => ?_
  refine Rel.bind (hm.rd _) fun _ _ _ => Rel.bind (hq.rd _) fun _ _ _ => ?_
  exact over_alike _ _ _ _ _ _

theorem upper_alike (t : MipMapIndices K) (a b : ℕ → C) {u v : R (ℕ → C)} (h : Rel (fun _ _ => True) u v) :
    Rel (fun _ _ => True) (S.withUpper t a u) (S.withUpper t b v) := by
  unfold withUpper
  exact Rel.ite (Rel.bind h fun _ _ _ => Rel.pure trivial) (Rel.ok trivial)

/-- the results of a sample are alike -/
def StepAlike (r r' : Osc K C × K) : Prop := OscAlike r.1 r'.1

theorem fwd_alike {o o' : Osc K C} (h : OscAlike o o') (p d : K) :
    Rel StepAlike (S.processSampleFwd o p d) (S.processSampleFwd o' p d) := by
  unfold processSampleFwd
  refine Rel.same fun _ => ?_
  have hw := h.wt
  rcases e : o.wt with _ | wt0 <;> rcases e' : o'.wt with _ | wt0' <;> rw [e, e'] at hw
  · exact Rel.error _
  · cases hw
  · cases hw
  have hw : Alike wt0 wt0' := by cases hw; assumption
  dsimp only
  refine Rel.bind (find_alike _ hw _) fun ⟨wt, t⟩ ⟨wt', t'⟩ ⟨hwt, ht⟩ => ?_
  dsimp only at hwt ht ⊢
  subst ht
  rw [waveformLen_alike hwt, h.prevMip, h.jRed, h.prevPhaseDiff, h.prevPhaseRed, h.crt]
  unfold phaseSpan
  rw [hwt.phases]
  refine Rel.same fun phs => Rel.same fun pr => Rel.same fun len => Rel.same fun j0 => ?_
  refine Rel.same fun pj => Rel.same fun j => Rel.same fun j1 => Rel.same fun j2 => ?_
  refine Rel.bind (fwdI_alike hwt _ _ _ _ _ _ _ _) fun a b _ => ?_
  refine Rel.bind (upper_alike t a b (fwdI_alike hwt _ _ _ _ _ _ _ _)) fun a b _ => ?_
  refine Rel.pure (OscAlike.mk (.some hwt) ?_ rfl rfl rfl rfl rfl rfl rfl)
  unfold SameLen cpxY
  simp

theorem bwd_alike {o o' : Osc K C} (h : OscAlike o o') (p d : K) :
    Rel StepAlike (S.processSampleBwd o p d) (S.processSampleBwd o' p d) := by
  unfold processSampleBwd
  refine Rel.same fun _ => ?_
  have hw := h.wt
  rcases e : o.wt with _ | wt0 <;> rcases e' : o'.wt with _ | wt0' <;> rw [e, e'] at hw
  · exact Rel.error _
  · cases hw
  · cases hw
  have hw : Alike wt0 wt0' := by cases hw; assumption
  dsimp only
  refine Rel.bind (find_alike _ hw _) fun ⟨wt, t⟩ ⟨wt', t'⟩ ⟨hwt, ht⟩ => ?_
  dsimp only at hwt ht ⊢
  subst ht
  rw [waveformLen_alike hwt, h.prevMip, h.jRed, h.prevPhaseDiff, h.prevPhaseRed, h.crt]
  unfold phaseSpan
  rw [hwt.phases]
  refine Rel.same fun phs => Rel.same fun pr => Rel.same fun len => Rel.same fun j0 => ?_
  refine Rel.same fun pj => Rel.same fun j => Rel.same fun j1 => Rel.same fun j2 => ?_
  refine Rel.bind (bwdI_alike hwt _ _ _ _ _ _ _ _ _) fun a b _ => ?_
  refine Rel.bind (upper_alike t a b (bwdI_alike hwt _ _ _ _ _ _ _ _ _)) fun a b _ => ?_
  refine Rel.pure (OscAlike.mk (.some hwt) ?_ rfl rfl rfl rfl rfl rfl rfl)
  unfold SameLen cpxY
  simp

theorem dir_alike (dir : Direction) {o o' : Osc K C} (h : OscAlike o o') (p : K) :
    Rel StepAlike (S.stepDir dir o p) (S.stepDir dir o' p) := by
  cases dir with
  | kForward =>
    unfold stepDir stepFwd
    dsimp only
    rw [h.prevPhase]
    exact Rel.same fun _ => fwd_alike h _ _
  | kBidirectionnal =>
    unfold stepDir stepBi
    dsimp only
    rw [h.prevPhase]
    exact Rel.ite (fwd_alike h _ _) (bwd_alike h _ _)

/-- the results of a call are alike -/
def CallAlike (r r' : Osc K C × List K) : Prop := OscAlike r.1 r'.1 ∧ SameLen r.2 r'.2

theorem runDir_alike (dir : Direction) (ps : List K) {o o' : Osc K C} (h : OscAlike o o') :
    Rel CallAlike (S.runDir dir o ps) (S.runDir dir o' ps) := by
  induction ps generalizing o o' with
  | nil => exact Rel.ok ⟨h, rfl⟩
  | cons p ps ih =>
    unfold runDir
    refine Rel.bind (dir_alike dir h p) fun ⟨o1, y⟩ ⟨o1', y'⟩ h1 => ?_
    refine Rel.bind (ih h1) fun ⟨o2, ys⟩ ⟨o2', ys'⟩ h2 => Rel.pure ⟨h2.1, ?_⟩
    show (y :: ys).length = (y' :: ys').length
    rw [List.length_cons, List.length_cons, show ys.length = ys'.length from h2.2]

theorem isNone_alike {o o' : Osc K C} (h : OscAlike o o') : o.wt.isNone = o'.wt.isNone := by
  have := h.wt
  revert this
  generalize o.wt = a
  generalize o'.wt = b
  intro h
  cases h <;> rfl

theorem process_alike (dir : Direction) {o o' : Osc K C} (h : OscAlike o o') (ps out : List K) :
    Rel CallAlike (S.process dir o ps out) (S.process dir o' ps out) := by
  have key : ∀ qs : List K, Rel CallAlike
      (do let (o', ys) ← S.runDir dir o qs
          return (o', ys ++ out.drop ys.length))
      (do let (o', ys) ← S.runDir dir o' qs
          return (o', ys ++ out.drop ys.length)) := by
    intro qs
    refine Rel.bind (runDir_alike dir qs h) fun ⟨o1, ys⟩ ⟨o1', ys'⟩ h1 => Rel.pure ⟨h1.1, ?_⟩
    have e : ys.length = ys'.length := h1.2
    show (ys ++ out.drop ys.length).length = (ys' ++ out.drop ys'.length).length
    simp [e]
  unfold process
  rw [isNone_alike h]
  split
  · exact Rel.same fun _ => Rel.same fun _ => key _
  · exact Rel.same fun _ => key _

theorem reset_alike {o o' : Osc K C} (h : OscAlike o o') (p d : K) :
    Rel OscAlike (S.resetInternals o p d) (S.resetInternals o' p d) := by
  unfold resetInternals
  have hw := h.wt
  rcases e : o.wt with _ | wt0 <;> rcases e' : o'.wt with _ | wt0' <;> rw [e, e'] at hw
  · exact Rel.same fun _ => Rel.error _
  · cases hw
  · cases hw
  have hw : Alike wt0 wt0' := by cases hw; assumption
  dsimp only
  refine Rel.same fun pr => Rel.bind (find_alike _ hw _) fun ⟨wt, t⟩ ⟨wt', t'⟩ ⟨hwt, ht⟩ => ?_
  dsimp only at hwt ht ⊢
  subst ht
  rw [waveformLen_alike hwt]
  refine Rel.same fun len => Rel.same fun j => ?_
  exact Rel.pure ⟨.some hwt, rfl, rfl, rfl, rfl, rfl, rfl, h.prevJRed, h.crt⟩

theorem init_alike {o o' : Osc K C} (h : OscAlike o o') {w w' : Option (WavetableData K)}
    (hw : Option.Rel Alike w w') (p d : K) :
    Rel (fun r r' : Osc K C × ℤ => OscAlike r.1 r'.1 ∧ r.2 = r'.2) (S.init o w p d) (S.init o' w' p d) := by
  cases hw with
  | none => exact Rel.ok ⟨h, rfl⟩
  | @some wt wt' hw =>
    have h1 : OscAlike { o with wt := some wt } { o' with wt := some wt' } := { h with wt := .some hw }
    exact Rel.bind (reset_alike h1 p d) fun a b hab => Rel.pure ⟨{ hab with crt := rfl }, rfl⟩

theorem swap_alike {o o' : Osc K C} (h : OscAlike o o') {w w' : Option (WavetableData K)}
    (hw : Option.Rel Alike w w') (p d : K) :
    Rel (fun r r' : Osc K C × Option (WavetableData K) => OscAlike r.1 r'.1 ∧ Option.Rel Alike r.2 r'.2)
      (S.swapWavetable o w p d) (S.swapWavetable o' w' p d) := by
  cases hw with
  | none => exact Rel.ok ⟨h, .none⟩
  | @some wt wt' hw =>
    have h1 : OscAlike { o with wt := some wt } { o' with wt := some wt' } := { h with wt := .some hw }
    exact Rel.bind (reset_alike h1 p d) fun a b hab => Rel.pure ⟨{ hab with crt := rfl }, h.wt⟩

theorem updateSr_alike (hE : ObliviousSrc S.env) {o o' : Osc K C} (h : OscAlike o o') (sr : K) :
    Rel OscAlike (S.updateSamplerate o sr) (S.updateSamplerate o' sr) := by
  unfold updateSamplerate
  have hw := h.wt
  rcases e : o.wt with _ | wt0 <;> rcases e' : o'.wt with _ | wt0' <;> rw [e, e'] at hw
  · exact Rel.same fun _ => Rel.error _
  · cases hw
  · cases hw
  have hw : Alike wt0 wt0' := by cases hw; assumption
  exact Rel.bind (update_alike hE hw sr _) fun a b hab => Rel.pure { h with wt := .some hab }

theorem call_alike (hE : ObliviousSrc S.env) {o o' : Osc K C} (h : OscAlike o o') {c c' : Call K}
    (hc : c.Alike c') : Rel CallAlike (runCall S o c) (runCall S o' c') := by
  cases c <;> cases c' <;> first | exact hc.elim | skip
  · obtain ⟨hl, rfl, rfl, rfl, rfl, rfl⟩ := hc
    exact Rel.bind (build_alike hE hl _ _ _) fun w w' hw =>
      Rel.bind (init_alike h hw _ _) fun r r' hr => Rel.pure ⟨hr.1, rfl⟩
  · obtain ⟨hl, rfl, rfl, rfl, rfl, rfl⟩ := hc
    exact Rel.bind (build_alike hE hl _ _ _) fun w w' hw =>
      Rel.bind (swap_alike h hw _ _) fun r r' hr => Rel.pure ⟨hr.1, rfl⟩
  · obtain ⟨rfl, rfl⟩ := hc
    exact process_alike _ h _ _
  · cases (show _ = _ from hc)
    refine Rel.bind (Φ := OscAlike) ?_ fun a b hab => Rel.pure ⟨hab, rfl⟩
    unfold setWaveform
    have e : o.wt.isSome = o'.wt.isSome := by
      rw [← Bool.not_inj_iff, Option.not_isSome, Option.not_isSome, isNone_alike h]
    rw [e]
    exact Rel.same fun _ => Rel.pure { h with crt := rfl }
  · obtain ⟨rfl, rfl⟩ := hc
    exact Rel.bind (reset_alike h _ _) fun a b hab => Rel.pure ⟨hab, rfl⟩
  · cases (show _ = _ from hc)
    exact Rel.bind (updateSr_alike hE h _) fun a b hab => Rel.pure ⟨hab, rfl⟩

theorem calls_alike (hE : ObliviousSrc S.env) {cs cs' : List (Call K)} (hc : List.Forall₂ Call.Alike cs cs')
    {o o' : Osc K C} (h : OscAlike o o') : Rel CallAlike (runCalls S o cs) (runCalls S o' cs') := by
  induction hc generalizing o o' with
  | nil => exact Rel.ok ⟨h, rfl⟩
  | cons hc _ ih =>
    unfold runCalls
    refine Rel.bind (call_alike hE h hc) fun ⟨o1, y1⟩ ⟨o1', y1'⟩ h1 => ?_
    refine Rel.bind (ih h1.1) fun ⟨o2, y2⟩ ⟨o2', y2'⟩ h2 => Rel.pure ⟨h2.1, ?_⟩
    have e1 : y1.length = y1'.length := h1.2
    have e2 : y2.length = y2'.length := h2.2
    show (y1 ++ y2).length = (y1' ++ y2').length
    rw [List.length_append, List.length_append, e1, e2]

theorem OscAlike.refl_none (o : Osc K C) (h : o.wt = none) : OscAlike o o :=
  ⟨by rw [h]; exact .none, rfl, rfl, rfl, rfl, rfl, rfl, rfl, rfl⟩

end Sys
end Adwt
