import Verif.Model.Work
import Verif.Proofs.Sim

/-!
# Forgetting the counters, and what they count
-/

set_option linter.unusedSectionVars false

namespace Adwt

theorem Sim.bind_same' {α γ δ : Type} {Q : γ → δ → Prop} (x : R α) {f : α → R γ} {g : α → R δ}
    (hf : ∀ a, x = .ok a → Sim Q (f a) (g a)) : Sim Q (x >>= f) (x >>= g) := by
  cases x with
  | error e => rfl
  | ok a => exact hf a rfl

variable {K C : Type} [Field K] [LinearOrder K] [IsStrictOrderedRing K] [FloorRing K]
variable [Zero C] [Add C] [Sub C] [Mul C] [Div C]

namespace Sys
variable {S : Sys K C} {wt : WavetableData K} {o : Osc K C}

/-- how often the loop from `jmin` to `jmax` runs, on a table of `N` samples -/
def corners (jmin jmax N : ℤ) : ℕ := (bornSup jmin jmax N - jmin).toNat

theorem irange_length (a b : ℤ) : (irange a b).length = (b - a).toNat := by simp [irange]

theorem fold_count {α ι : Type} {f : α → ι → R α} (l : List ι) (a : α) (n : ℕ) :
    Sim (fun (x : α) (y : α × ℕ) => y.1 = x ∧ y.2 = n + l.length) (l.foldlM f a)
      (l.foldlM (fun s i => do
        let a ← f s.1 i
        return (a, s.2 + 1)) (a, n)) := by
  induction l generalizing a n with
  | nil => exact ⟨rfl, rfl⟩
  | cons i l ih =>
    rw [List.foldlM_cons, List.foldlM_cons]
    show Sim _ _ ((f a i >>= fun a => Except.ok (a, n + 1)) >>= _)
    cases h : f a i with
    | error e => rfl
    | ok a1 =>
      refine (ih a1 (n + 1)).mono fun x y hxy => ⟨hxy.1, ?_⟩
      rw [hxy.2, List.length_cons]; omega

/-- the relation between a function and its counting version -/
def Counts (wt : WavetableData K) (mip jmin jmax : ℤ) (x : ℕ → C) (y : (ℕ → C) × ℕ) : Prop :=
  y.1 = x ∧ ∃ N, wt.waveformLen mip = .ok N ∧ y.2 = corners jmin jmax N

theorem computeISumFwd_count (crt mip jmin jmax : ℤ) (d x : K) (a : ℕ → C) :
    Sim (Counts wt mip jmin jmax) (S.computeISumFwd wt crt mip jmin jmax d x a)
      (S.computeISumFwdW wt crt mip jmin jmax d x a) := by
  unfold computeISumFwd computeISumFwdW
  refine Sim.bind_same' _ fun N hN => Sim.bind_same _ fun mds => Sim.bind_same _ fun qds =>
    Sim.bind_same _ fun phs => ?_
  refine (fold_count _ a 0).mono fun x y h => ⟨h.1, N, hN, ?_⟩
  rw [h.2, irange_length, zero_add]; rfl

theorem computeISumBwd_count (crt mip jm jmin jmax : ℤ) (d x : K) (a : ℕ → C) :
    Sim (Counts wt mip jmin jmax) (S.computeISumBwd wt crt mip jm jmin jmax d x a)
      (S.computeISumBwdW wt crt mip jm jmin jmax d x a) := by
  unfold computeISumBwd computeISumBwdW
  refine Sim.bind_same _ fun _ => Sim.bind_same' _ fun N hN => Sim.bind_same _ fun mds =>
    Sim.bind_same _ fun qds => Sim.bind_same _ fun phs => ?_
  refine (fold_count _ a 0).mono fun x y h => ⟨h.1, N, hN, ?_⟩
  rw [h.2, irange_length, zero_add]; rfl

theorem computeFwdI_count (crt : ℤ) (pr : K) (mip jmin jmax : ℤ) (d x : K) (a : ℕ → C) :
    Sim (Counts wt mip jmin jmax) (S.computeFwdI wt crt pr mip jmin jmax d x a)
      (S.computeFwdIW wt crt pr mip jmin jmax d x a) := by
  unfold computeFwdI computeFwdIW
  exact Sim.bind_same _ fun a => computeISumFwd_count _ _ _ _ _ _ _

theorem computeBwdI_count (crt : ℤ) (pr : K) (mip jm jmin jmax : ℤ) (d x : K) (a : ℕ → C) :
    Sim (Counts wt mip jmin jmax) (S.computeBwdI wt crt pr mip jm jmin jmax d x a)
      (S.computeBwdIW wt crt pr mip jm jmin jmax d x a) := by
  unfold computeBwdI computeBwdIW
  refine Sim.bind_same _ fun _ => ?_
  exact Sim.bind_same _ fun a => computeISumBwd_count _ _ _ _ _ _ _ _

/-- the counts of a sample -/
def Counts2 (wt : WavetableData K) (t : MipMapIndices K) (jmin jmax : ℤ) (w : ℕ × ℕ) : Prop :=
  (∃ N, wt.waveformLen t.idx = .ok N ∧ w.1 = corners jmin jmax N) ∧
  (t.weightUp = 0 ∧ w.2 = 0 ∨ t.weightUp ≠ 0 ∧ ∃ N, wt.waveformLen t.idxUp = .ok N ∧
    w.2 = corners (jmin.tdiv 2) (jmax.tdiv 2) N)

theorem withUpper_count {t : MipMapIndices K} {jmin jmax : ℤ} {a : ℕ → C} {b : (ℕ → C) × ℕ}
    (h : Counts wt t.idx jmin jmax a b) {x : R (ℕ → C)} {y : R ((ℕ → C) × ℕ)}
    (hu : Sim (Counts wt t.idxUp (jmin.tdiv 2) (jmax.tdiv 2)) x y) :
    Sim (fun a' b' => b'.1 = a' ∧ Counts2 wt t jmin jmax b'.2) (S.withUpper t a x)
      (S.withUpperW t b y) := by
  unfold withUpper withUpperW
  obtain ⟨h1, h2⟩ := h
  by_cases hw : t.weightUp ≠ 0
  · rw [if_pos hw, if_pos hw]
    refine Sim.bind hu fun a' b' hab => ⟨?_, h2, Or.inr ⟨hw, hab.2⟩⟩
    dsimp only
    rw [h1, hab.1]
  · rw [if_neg hw, if_neg hw]
    exact ⟨h1, h2, Or.inl ⟨not_not.1 hw, rfl⟩⟩

/-- a sample and its counting version -/
def SampleCount (wt0 : WavetableData K) (d : K) (fwd : Bool) (r : Osc K C × K)
    (s : (Osc K C × K) × ℕ × ℕ) (S : Sys K C) : Prop :=
  s.1 = r ∧ ∃ wt t N jmin jmax, wt0.findMipMapIndices S.env |d| = .ok (wt, t) ∧
    r.1.prevMip = t.idx ∧ wt.waveformLen t.idx = .ok N ∧
    Maths.reduceI S.env.dbg (if fwd then r.1.prevJRed - 1 else r.1.jRed - 1) N = .ok jmin ∧
    Maths.reduceI S.env.dbg (if fwd then r.1.jRed else r.1.prevJRed) N = .ok jmax ∧
    Counts2 wt t jmin jmax s.2

theorem sampleFwd_count {wt0 : WavetableData K} (hwt : o.wt = some wt0) (p d : K) (hd : 0 ≤ d) :
    Sim (fun r s => SampleCount wt0 d true r s S) (S.processSampleFwd o p d)
      (S.processSampleFwdW o p d) := by
  unfold processSampleFwd processSampleFwdW
  dsimp only
  refine Sim.bind_same _ fun _ => ?_
  rw [hwt]
  dsimp only
  refine Sim.bind_same' _ fun x hx => ?_
  obtain ⟨wt, t⟩ := x
  dsimp only
  refine Sim.bind_same _ fun phs => Sim.bind_same _ fun pr => Sim.bind_same' _ fun N hN =>
    Sim.bind_same _ fun j0 => Sim.bind_same _ fun pj => Sim.bind_same _ fun j =>
    Sim.bind_same' _ fun jmin hmin => Sim.bind_same' _ fun jmax hmax => ?_
  refine Sim.bind (computeFwdI_count _ _ _ _ _ _ _ _) fun a b hab => ?_
  refine Sim.bind (withUpper_count hab (computeFwdI_count _ _ _ _ _ _ _ _)) fun a b hab => ?_
  obtain ⟨b1, b2⟩ := b
  obtain ⟨h1, h2⟩ := hab
  dsimp only at h1 h2
  subst h1
  exact ⟨rfl, wt, t, N, jmin, jmax, by rw [abs_of_nonneg hd]; exact hx, rfl, hN, hmin, hmax, h2⟩

theorem sampleBwd_count {wt0 : WavetableData K} (hwt : o.wt = some wt0) (p d : K) :
    Sim (fun r s => SampleCount wt0 d false r s S) (S.processSampleBwd o p d)
      (S.processSampleBwdW o p d) := by
  unfold processSampleBwd processSampleBwdW
  dsimp only
  refine Sim.bind_same _ fun _ => ?_
  rw [hwt]
  dsimp only
  refine Sim.bind_same' _ fun x hx => ?_
  obtain ⟨wt, t⟩ := x
  dsimp only
  refine Sim.bind_same _ fun phs => Sim.bind_same _ fun pr => Sim.bind_same' _ fun N hN =>
    Sim.bind_same _ fun j0 => Sim.bind_same _ fun pj => Sim.bind_same _ fun j =>
    Sim.bind_same' _ fun jmin hmin => Sim.bind_same' _ fun jmax hmax => ?_
  refine Sim.bind (computeBwdI_count _ _ _ _ _ _ _ _ _) fun a b hab => ?_
  refine Sim.bind (withUpper_count hab (computeBwdI_count _ _ _ _ _ _ _ _ _)) fun a b hab => ?_
  obtain ⟨b1, b2⟩ := b
  obtain ⟨h1, h2⟩ := hab
  dsimp only at h1 h2
  subst h1
  exact ⟨rfl, wt, t, N, jmin, jmax, hx, rfl, hN, hmin, hmax, h2⟩

/-! ### forgetting -/

theorem sampleFwd_erase (p d : K) :
    Sim (fun r s => s.1 = r) (S.processSampleFwd o p d) (S.processSampleFwdW o p d) := by
  unfold processSampleFwd processSampleFwdW
  dsimp only
  refine Sim.bind_same _ fun _ => ?_
  cases o.wt with
  | none => rfl
  | some wt0 =>
  dsimp only
  refine Sim.bind_same _ fun x => ?_
  obtain ⟨wt, t⟩ := x
  dsimp only
  refine Sim.bind_same _ fun phs => Sim.bind_same _ fun pr => Sim.bind_same _ fun N =>
    Sim.bind_same _ fun j0 => Sim.bind_same _ fun pj => Sim.bind_same _ fun j =>
    Sim.bind_same _ fun jmin => Sim.bind_same _ fun jmax => ?_
  refine Sim.bind (computeFwdI_count _ _ _ _ _ _ _ _) fun a b hab => ?_
  refine Sim.bind (withUpper_count hab (computeFwdI_count _ _ _ _ _ _ _ _)) fun a b hab => ?_
  obtain ⟨b1, b2⟩ := b
  obtain ⟨h1, h2⟩ := hab
  dsimp only at h1
  subst h1
  exact rfl

theorem sampleBwd_erase (p d : K) :
    Sim (fun r s => s.1 = r) (S.processSampleBwd o p d) (S.processSampleBwdW o p d) := by
  unfold processSampleBwd processSampleBwdW
  dsimp only
  refine Sim.bind_same _ fun _ => ?_
  cases o.wt with
  | none => rfl
  | some wt0 =>
  dsimp only
  refine Sim.bind_same _ fun x => ?_
  obtain ⟨wt, t⟩ := x
  dsimp only
  refine Sim.bind_same _ fun phs => Sim.bind_same _ fun pr => Sim.bind_same _ fun N =>
    Sim.bind_same _ fun j0 => Sim.bind_same _ fun pj => Sim.bind_same _ fun j =>
    Sim.bind_same _ fun jmin => Sim.bind_same _ fun jmax => ?_
  refine Sim.bind (computeBwdI_count _ _ _ _ _ _ _ _ _) fun a b hab => ?_
  refine Sim.bind (withUpper_count hab (computeBwdI_count _ _ _ _ _ _ _ _ _)) fun a b hab => ?_
  obtain ⟨b1, b2⟩ := b
  obtain ⟨h1, h2⟩ := hab
  dsimp only at h1
  subst h1
  exact rfl

theorem stepDir_erase (dir : Direction) (p : K) :
    Sim (fun r s => s.1 = r) (S.stepDir dir o p) (S.stepDirW dir o p) := by
  cases dir
  · show Sim _ (S.stepFwd o p) (S.stepFwdW o p)
    unfold stepFwd stepFwdW
    exact Sim.bind_same _ fun _ => sampleFwd_erase _ _
  · show Sim _ (S.stepBi o p) (S.stepBiW o p)
    unfold stepBi stepBiW
    dsimp only
    split
    · exact sampleFwd_erase _ _
    · exact sampleBwd_erase _ _

theorem runDir_erase (dir : Direction) (ps : List K) (o : Osc K C) :
    Sim (fun r s => s.1 = r ∧ s.2.length = ps.length) (S.runDir dir o ps) (S.runDirW dir o ps) := by
  induction ps generalizing o with
  | nil => exact ⟨rfl, rfl⟩
  | cons p ps ih =>
    unfold runDir runDirW
    refine Sim.bind (stepDir_erase dir p) fun a b hab => ?_
    obtain ⟨⟨o1, y⟩, w⟩ := b
    subst hab
    dsimp only
    refine Sim.bind (ih o1) fun a b hab => ?_
    obtain ⟨⟨o2, ys⟩, ws⟩ := b
    obtain ⟨h1, h2⟩ := hab
    subst h1
    refine ⟨rfl, ?_⟩
    dsimp only at h2 ⊢
    rw [List.length_cons, List.length_cons, h2]

theorem process_erase (dir : Direction) (o : Osc K C) (ps out : List K) :
    Sim (fun r s => s.1 = r ∧ s.2.length = min ps.length out.length) (S.process dir o ps out)
      (S.processW dir o ps out) := by
  unfold process processW
  have key : Sim (fun r s => s.1 = r ∧ s.2.length = min ps.length out.length)
      (do
        chk S.env.dbg (ps.length = out.length)
        let (o', ys) ← S.runDir dir o (ps.take out.length)
        return (o', ys ++ out.drop ys.length))
      (do
        chk S.env.dbg (ps.length = out.length)
        let ((o', ys), ws) ← S.runDirW dir o (ps.take out.length)
        return ((o', ys ++ out.drop ys.length), ws)) := by
    refine Sim.bind_same _ fun _ => ?_
    refine Sim.bind (runDir_erase dir _ o) fun a b hab => ?_
    obtain ⟨⟨o2, ys⟩, ws⟩ := b
    obtain ⟨h1, h2⟩ := hab
    subst h1
    refine ⟨rfl, ?_⟩
    dsimp only at h2 ⊢
    rw [h2, List.length_take, min_comm]
  split
  · exact Sim.bind_same _ fun _ => key
  · exact key

end Sys
end Adwt
