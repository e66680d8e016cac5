import Verif.Proofs.StepForm
import Verif.Spec.Legal

/-!
# Histories as sequences of single samples
-/

set_option linter.unusedSectionVars false

namespace Adwt
variable {K C : Type} [Field K] [LinearOrder K] [IsStrictOrderedRing K] [FloorRing K]
variable [Zero C] [Add C] [Sub C] [Mul C] [Div C]

/-- an indivisible call -/
inductive Atom (K : Type) where
  | sample (dir : Sys.Direction) (p : K)
  | setWaveform (i : ℤ)
  | reset (p d : K)

namespace Sys
variable {S : Sys K C} {nw L : ℕ} {o o' : Osc K C}

/-- run one -/
def atom (S : Sys K C) (o : Osc K C) : Atom K → R (Osc K C × List K)
  | .sample dir p => do
    let (o', y) ← S.stepDir dir o p
    return (o', [y])
  | .setWaveform i => do
    let o ← S.setWaveform o i
    return (o, [])
  | .reset p d => do
    let o ← S.resetInternals o p d
    return (o, [])

/-- run many -/
def atoms (S : Sys K C) (o : Osc K C) : List (Atom K) → R (Osc K C × List K)
  | [] => .ok (o, [])
  | a :: as => do
    let (o1, y1) ← S.atom o a
    let (o2, y2) ← S.atoms o1 as
    return (o2, y1 ++ y2)

/-- legality -/
def AtomOk (fl : K → K) (nw : ℕ) (prev : K) : Atom K → Prop
  | .sample dir p => PhaseOk fl p ∧ StepOk dir prev p
  | .setWaveform i => 0 ≤ i ∧ i < nw
  | .reset p d => PhaseOk fl p ∧ d ≠ 0

/-- phase after a call -/
def atomPhase (prev : K) : Atom K → K
  | .sample _ p => p
  | .setWaveform _ => prev
  | .reset p _ => p

/-- legality of many -/
def AtomsOk (fl : K → K) (nw : ℕ) : K → List (Atom K) → Prop
  | _, [] => True
  | prev, a :: as => AtomOk fl nw prev a ∧ AtomsOk fl nw (atomPhase prev a) as

/-- the atoms of a call -/
def opAtoms : Op K → List (Atom K)
  | .process dir ps => ps.map (Atom.sample dir)
  | .setWaveform i => [.setWaveform i]
  | .reset p d => [.reset p d]

theorem atoms_append (as bs : List (Atom K)) : S.atoms o (as ++ bs) = (do
    let (o1, y1) ← S.atoms o as
    let (o2, y2) ← S.atoms o1 bs
    return (o2, y1 ++ y2)) := by
  induction as generalizing o with
  | nil =>
    have e : S.atoms o [] = .ok (o, []) := by unfold atoms; rfl
    rw [List.nil_append, e, R.ok_bind]
    dsimp only
    cases S.atoms o bs <;> rfl
  | cons a as ih =>
    rw [List.cons_append, atoms, atoms]
    cases h : S.atom o a with
    | error e => rfl
    | ok r =>
      obtain ⟨o1, y1⟩ := r
      simp only [R.ok_bind]
      rw [ih]
      cases h2 : S.atoms o1 as with
      | error e => rfl
      | ok r2 =>
        obtain ⟨o2, y2⟩ := r2
        simp only [R.ok_bind, R.pure_eq]
        cases h3 : S.atoms o2 bs with
        | error e => rfl
        | ok r3 => simp [R.ok_bind]

theorem atoms_run (dir : Direction) (ps : List K) :
    S.atoms o (ps.map (Atom.sample dir)) = S.runDir dir o ps := by
  induction ps generalizing o with
  | nil => rfl
  | cons p ps ih =>
    rw [List.map_cons, atoms, runDir, atom]
    cases h : S.stepDir dir o p with
    | error e => rfl
    | ok r =>
      simp only [R.ok_bind, R.pure_eq]
      rw [ih]
      rfl

theorem runOp_atoms (hw : o.wt.isSome = true) (op : Op K) : runOp S o op = S.atoms o (opAtoms op) := by
  cases op with
  | process dir ps =>
    unfold runOp opAtoms
    dsimp only
    rw [atoms_run, process_runDir S dir hw (by simp)]
  | setWaveform i =>
    unfold runOp opAtoms atoms atoms atom
    dsimp only
    cases S.setWaveform o i <;> rfl
  | reset p d =>
    unfold runOp opAtoms atoms atoms atom
    dsimp only
    cases S.resetInternals o p d <;> rfl

/-- output samples of a call -/
def atomCount : Atom K → ℕ
  | .sample _ _ => 1
  | _ => 0

theorem atoms_length {as : List (Atom K)} {ys : List K} (h : S.atoms o as = .ok (o', ys)) :
    ys.length = (as.map atomCount).sum := by
  induction as generalizing o ys with
  | nil => cases h; rfl
  | cons a as ih =>
    unfold atoms at h
    obtain ⟨⟨o1, y1⟩, e1, h⟩ := bind_ok h
    obtain ⟨⟨o2, y2⟩, e2, h⟩ := bind_ok h
    cases h
    rw [List.length_append, ih e2, List.map_cons, List.sum_cons]
    congr 1
    cases a <;> (unfold atom at e1; obtain ⟨r, -, e1⟩ := bind_ok e1; cases e1; rfl)

theorem atomsOk_append {fl : K → K} {prev : K} {as bs : List (Atom K)} :
    AtomsOk fl nw prev (as ++ bs) ↔ AtomsOk fl nw prev as ∧
      AtomsOk fl nw (as.foldl atomPhase prev) bs := by
  induction as generalizing prev with
  | nil => simp [AtomsOk]
  | cons a as ih => simp only [List.cons_append, AtomsOk, ih, List.foldl_cons, and_assoc]

theorem atomsOk_block {fl : K → K} {dir : Direction} {prev : K} {ps : List K} :
    AtomsOk fl nw prev (ps.map (Atom.sample dir)) ↔ BlockOk fl dir prev ps := by
  induction ps generalizing prev with
  | nil => simp [AtomsOk, BlockOk]
  | cons p ps ih =>
    rw [List.map_cons, AtomsOk, BlockOk]
    show (PhaseOk fl p ∧ StepOk dir prev p) ∧ AtomsOk fl nw p _ ↔ _
    rw [ih, and_assoc]

theorem foldl_block (dir : Direction) (prev : K) (ps : List K) :
    (ps.map (Atom.sample dir)).foldl atomPhase prev = ps.getLastD prev := by
  induction ps generalizing prev with
  | nil => rfl
  | cons p ps ih =>
    rw [List.map_cons, List.foldl_cons]
    show (ps.map (Atom.sample dir)).foldl atomPhase p = _
    rw [ih]
    cases ps <;> rfl

theorem atomsOk_history {fl : K → K} {prev : K} {ops : List (Op K)} :
    AtomsOk fl nw prev (ops.flatMap opAtoms) ↔ HistoryOk fl nw prev ops := by
  induction ops generalizing prev with
  | nil => simp [AtomsOk, HistoryOk]
  | cons op ops ih =>
    rw [List.flatMap_cons, atomsOk_append]
    cases op with
    | process dir ps =>
      simp only [opAtoms, HistoryOk, atomsOk_block, foldl_block, ih]
    | setWaveform i => simp [opAtoms, HistoryOk, AtomsOk, AtomOk, atomPhase, ih, and_assoc]
    | reset p d => simp [opAtoms, HistoryOk, AtomsOk, AtomOk, atomPhase, ih, and_assoc]

/-- one legal call that succeeds -/
theorem atom_play (hf : Rounding S.env.fl) (hB : 0 < S.B) (ho : OscPlay S nw L o) {a : Atom K}
    (ha : AtomOk S.env.fl nw o.prevPhase a) {ys : List K} (h : S.atom o a = .ok (o', ys)) :
    OscPlay S nw L o' ∧ o'.prevPhase = atomPhase o.prevPhase a := by
  obtain ⟨wt, hwt, hw⟩ := ho.wt
  cases a with
  | sample dir p =>
    unfold atom at h
    obtain ⟨⟨o1, y⟩, e, h⟩ := bind_ok h
    cases h
    obtain ⟨c, t, -, -, rfl, -, hok, -⟩ := step_form' hf hB ho hwt ha.1 ha.2 e
    exact ⟨hok, rfl⟩
  | setWaveform i =>
    unfold atom at h
    obtain ⟨o1, e, h⟩ := bind_ok h
    cases h
    unfold setWaveform at e
    obtain ⟨_, _, e⟩ := bind_ok e
    cases e
    exact ⟨⟨⟨ho.wt, ho.mip0, ho.mip1, ho.j0, ho.j1, ho.jf, ho.jb, ho.p0, ho.p1, ho.red, ho.fl, ho.diff,
      ho.posF, ho.posB⟩, ha.1, ha.2⟩, rfl⟩
  | reset p d =>
    unfold atom at h
    obtain ⟨o1, e, h⟩ := bind_ok h
    cases h
    have := (reset_play hf hwt hw ha.1 ha.2 ho.crt0 ho.crt1).elim e
    exact ⟨this.1, this.2.1⟩

theorem atoms_play (hf : Rounding S.env.fl) (hB : 0 < S.B) (ho : OscPlay S nw L o)
    {as : List (Atom K)} (ha : AtomsOk S.env.fl nw o.prevPhase as) {ys : List K}
    (h : S.atoms o as = .ok (o', ys)) :
    OscPlay S nw L o' ∧ o'.prevPhase = as.foldl atomPhase o.prevPhase := by
  induction as generalizing o ys with
  | nil => cases h; exact ⟨ho, rfl⟩
  | cons a as ih =>
    unfold atoms at h
    obtain ⟨⟨o1, y1⟩, e1, h⟩ := bind_ok h
    obtain ⟨⟨o2, y2⟩, e2, h⟩ := bind_ok h
    cases h
    obtain ⟨p1, p2⟩ := atom_play hf hB ho ha.1 e1
    have := ih p1 (by rw [p2]; exact ha.2) e2
    rw [List.foldl_cons, ← p2]
    exact this

/-- A history is a sequence of atoms. -/
theorem runOps_atoms (hf : Rounding S.env.fl) (hB : 0 < S.B) (ho : OscPlay S nw L o)
    {ops : List (Op K)} (ha : HistoryOk S.env.fl nw o.prevPhase ops) :
    runOps S o ops = S.atoms o (ops.flatMap opAtoms) := by
  induction ops generalizing o with
  | nil => rfl
  | cons op ops ih =>
    obtain ⟨wt, hwt, -⟩ := ho.wt
    rw [← atomsOk_history, List.flatMap_cons, atomsOk_append] at ha
    rw [runOps, List.flatMap_cons, atoms_append, runOp_atoms (by rw [hwt]; rfl)]
    cases h : S.atoms o (opAtoms op) with
    | error e => rfl
    | ok r =>
      obtain ⟨o1, y1⟩ := r
      simp only [R.ok_bind]
      obtain ⟨p1, p2⟩ := atoms_play hf hB ho ha.1 h
      rw [ih p1 (by rw [p2]; exact atomsOk_history.1 ha.2)]

/-- `resetInternals` depends on the control state only. -/
theorem ctl_reset (hf : Rounding S.env.fl) {o1 o2 o1' : Osc K C}
    (h1 : OscPlay S nw L o1) (h2 : OscPlay S nw L o2) (hc : Ctl o1 o2) {wt1 wt2 : WavetableData K}
    (e1 : o1.wt = some wt1) (e2 : o2.wt = some wt2) {p d : K} (hp : PhaseOk S.env.fl p) (hd : d ≠ 0)
    (h : S.resetInternals o1 p d = .ok o1') :
    ∃ c o2', S.resetInternals o2 p d = .ok o2' ∧ Ctl o1' o2' ∧
      OscPlay S nw L o1' ∧ OscPlay S nw L o2' ∧
      o1'.wt = some { wt1 with cf := c } ∧ o2'.wt = some { wt2 with cf := c } ∧
      o1'.prevY = List.replicate S.n 0 ∧ o2'.prevY = List.replicate S.n 0 := by
  have hw1 : WtOk nw L wt1 := by
    obtain ⟨wt', e', h⟩ := h1.wt
    rw [e1] at e'; cases e'; exact h
  have hw2 : WtOk nw L wt2 := by
    obtain ⟨wt', e', h⟩ := h2.wt
    rw [e2] at e'; cases e'; exact h
  obtain ⟨w1, w2, f1, f2, f3⟩ := hc.cf
  rw [e1] at f1; cases f1
  rw [e2] at f2; cases f2
  obtain ⟨c, t, hn, -⟩ := find_spec hf hw1 (abs_pos.2 hd)
  have q1 := reset_ok hf e1 hw1 hp hd hn
  have q2 := reset_ok hf e2 hw2 hp hd (f3 ▸ hn)
  have k1 := (reset_play hf e1 hw1 hp hd h1.crt0 h1.crt1).elim q1
  have k2 := (reset_play hf e2 hw2 hp hd h2.crt0 h2.crt1).elim q2
  rw [h] at q1
  cases q1
  exact ⟨c, _, q2, ⟨⟨_, _, rfl, rfl, rfl⟩, rfl, rfl, rfl, rfl, rfl, hc.crt⟩, k1.1, k2.1, rfl,
    rfl, rfl, rfl⟩

/-- `setWaveform` -/
theorem ctl_set {o1 o2 o1' : Osc K C} (hc : Ctl o1 o2) {i : ℤ} (h : S.setWaveform o1 i = .ok o1') :
    ∃ o2', S.setWaveform o2 i = .ok o2' ∧ Ctl o1' o2' ∧ o1' = { o1 with crt := i } ∧
      o2' = { o2 with crt := i } := by
  obtain ⟨w1, w2, f1, f2, f3⟩ := hc.cf
  unfold setWaveform at h ⊢
  obtain ⟨_, _, h⟩ := bind_ok h
  cases h
  have : o2.wt.isSome = true := by rw [f2]; rfl
  rw [chk_true this, R.ok_bind]
  exact ⟨_, rfl, ⟨⟨w1, w2, f1, f2, f3⟩, hc.phase, hc.red, hc.diff, hc.mip, hc.j, rfl⟩, rfl, rfl⟩

end Sys
end Adwt
