import Verif.Spec.Program
import Verif.Proofs.Reached
import Verif.Proofs.BuildApi
import Verif.Proofs.Bank

/-!
# Legal programs keep every object in a good state
-/

set_option linter.unusedSectionVars false

namespace Adwt
variable {K C : Type} [Field K] [LinearOrder K] [IsStrictOrderedRing K] [FloorRing K]
variable [Zero C] [Add C] [Sub C] [Mul C] [Div C]

namespace Program

/-- what is true of an oscillator of which `x` is known -/
def OscIs (S : Sys K C) (x : Option (Size × K)) (o : Osc K C) : Prop :=
  match x with
  | none => o.wt = none
  | some (z, p) => OscSafe S z.nw z.L o ∧ o.prevPhase = p

/-- what is true of a variable of which `x` is known -/
def SlotIs (x : Option Size) (w : Option (WavetableData K)) : Prop :=
  match x with
  | none => w = none
  | some z => ∃ wt, w = some wt ∧ WtOk z.nw z.L wt

/-- the invariant -/
structure Inv (S : ℕ → Sys K C) (k : Known K) (b : Bank K C) : Prop where
  osc : ∀ i, OscIs (S i) (k.oscs i) (b.oscs i)
  slot : ∀ s, SlotIs (k.slots s) (b.slots s)

variable {S : ℕ → Sys K C} {k k' : Known K} {b b' : Bank K C}

theorem all_update {α β : Type} {P : ℕ → α → β → Prop} {f : ℕ → α} {g : ℕ → β}
    (h : ∀ i, P i (f i) (g i)) {i : ℕ} {x : α} {y : β} (hx : P i x y) :
    ∀ j, P j (Function.update f i x j) (Function.update g i y j) := by
  intro j
  by_cases e : j = i
  · subst e; rw [Function.update_self, Function.update_self]; exact hx
  · rw [Function.update_of_ne e, Function.update_of_ne e]; exact h j

theorem null_update {f : ℕ → Option Size} {g : ℕ → Option (WavetableData K)}
    (h : ∀ s, SlotIs (f s) (g s)) (s : ℕ) :
    ∀ t, SlotIs (Function.update f s none t) (Function.update g s none t) :=
  all_update (P := fun _ => SlotIs) h rfl

/-- the wavetable of an oscillator can be handed back -/
theorem OscIs.slot {S : Sys K C} {x : Option (Size × K)} {o : Osc K C} (h : OscIs S x o) :
    SlotIs (x.map (·.1)) o.wt := by
  cases x with
  | none => exact h
  | some x => exact h.1.wt

theorem Inv.known_osc (h : Inv S k b) {i : ℕ} {z : Size} {p : K} (e : k.oscs i = some (z, p)) :
    OscSafe (S i) z.nw z.L (b.oscs i) ∧ (b.oscs i).prevPhase = p := by
  have := h.osc i; rw [e] at this; exact this

theorem Inv.known_slot (h : Inv S k b) {s : ℕ} {z : Size} (e : k.slots s = some z) :
    ∃ wt, b.slots s = some wt ∧ WtOk z.nw z.L wt := by
  have := h.slot s; rw [e] at this; exact this

theorem Inv.null_slot (h : Inv S k b) {s : ℕ} (e : k.slots s = none) : b.slots s = none := by
  have := h.slot s; rw [e] at this; exact this

theorem exec_ok (hE : ∀ i, (S i).env = (S 0).env) (hf : Rounding (S 0).env.fl)
    (hl : Log2Spec (S 0).env.log2f) (hc : SrcContract (S 0).env.src) (hB : ∀ i, 0 < (S i).B)
    {c : Stmt K} (hI : Inv S k b) (h : Legal S k c k') :
    Ok (b.execS S c) fun b' => Inv S k' b' ∧
      ∀ i, (b'.logs i).length = (b.logs i).length + c.samples i := by
  have hfi : ∀ i, Rounding (S i).env.fl := fun i => by rw [hE i]; exact hf
  cases h with
  | @build s ws z sr dur hn h2 h18 hws hr =>
    unfold Bank.execS Bank.exec
    dsimp only
    rcases WavetableData.build_spec hf hl h2 h18 hn hws hr.1 hr.2.1
      (toInt_ok (le_trans (by norm_num) hr.2.2.1) hr.2.2.2) with hb | ⟨hb, -⟩
    · rw [hb, R.ok_bind]
      exact Ok.pure ⟨⟨hI.osc, all_update hI.slot ⟨_, rfl, Built.ok hf hl ⟨hr.2.1, hr.2.2.1, hws, hb⟩⟩⟩, fun _ => rfl⟩
    · exact absurd hc hb
  | @init i s z p d hs hi =>
    obtain ⟨wt, ew, hw⟩ := hI.known_slot hs
    unfold Bank.execS Bank.exec
    dsimp only
    rw [ew]
    refine Ok.bind (Sys.init_play (hfi i) (b.oscs i) hw (by rw [hE]; exact hi.1.1) hi.1.2) fun r hr => ?_
    obtain ⟨o, n⟩ := r
    dsimp only at hr ⊢
    refine Ok.pure ⟨⟨all_update hI.osc ⟨⟨hr.1, ?_⟩, hr.2.1⟩, all_update hI.slot rfl⟩, fun _ => rfl⟩
    rw [hr.2.1, hr.2.2.1]; exact hi.2
  | @initNull i s p d hs =>
    unfold Bank.execS Bank.exec
    dsimp only
    have e := hI.null_slot hs
    rw [e]
    refine Ok.pure ⟨⟨?_, ?_⟩, fun _ => rfl⟩
    · dsimp only
      rw [Function.update_eq_self]; exact hI.osc
    · dsimp only
      rw [← e, Function.update_eq_self]; exact hI.slot
  | @swap i s t z p d hs hi =>
    obtain ⟨wt, ew, hw⟩ := hI.known_slot hs
    unfold Bank.execS Bank.exec
    dsimp only
    rw [ew]
    refine Ok.bind (Sys.swap_play (hfi i) (b.oscs i) hw (by rw [hE]; exact hi.1)) fun r hr => ?_
    obtain ⟨o, old⟩ := r
    dsimp only at hr ⊢
    refine Ok.pure ⟨⟨all_update hI.osc ⟨⟨hr.1, ?_⟩, hr.2.1⟩, all_update (null_update hI.slot s) ?_⟩, fun _ => rfl⟩
    · rw [hr.2.1, hr.2.2.1]; exact hi.2
    · rw [hr.2.2.2.2.1]; exact (hI.osc i).slot
  | @swapNull i s t p d hs =>
    unfold Bank.execS Bank.exec
    dsimp only
    have e := hI.null_slot hs
    rw [e]
    refine Ok.pure ⟨⟨?_, ?_⟩, fun _ => rfl⟩
    · dsimp only
      rw [Function.update_eq_self]; exact hI.osc
    · dsimp only
      have e2 : Function.update b.slots s none = b.slots := by
        rw [← e, Function.update_eq_self]
      rw [e2]
      exact null_update hI.slot t
  | @process i z prev dir ps ho hp =>
    obtain ⟨hs, rfl⟩ := hI.known_osc ho
    obtain ⟨wt, ew, -⟩ := hs.wt
    obtain ⟨⟨o', ys⟩, e, a, b', -, d⟩ := Sys.run_ok (hfi i) (hB i) hs (by rw [hE]; exact hp)
    unfold Bank.execS Bank.exec
    dsimp only
    rw [Sys.process_eq ew _ (by simp) e d, R.ok_bind]
    refine Ok.pure ⟨⟨all_update hI.osc ⟨a, b'⟩, hI.slot⟩, fun j => ?_⟩
    dsimp only [Stmt.samples]
    by_cases hj : j = i
    · subst hj
      rw [Function.update_self, if_pos rfl, List.length_append, d]
    · rw [Function.update_of_ne hj, if_neg (Ne.symm hj), Nat.add_zero]
  | @setWaveform i z prev w ho h0 h1 =>
    obtain ⟨hs, rfl⟩ := hI.known_osc ho
    obtain ⟨wt, ew, -⟩ := hs.wt
    unfold Bank.execS Bank.exec Sys.setWaveform
    dsimp only
    rw [chk_true (by rw [ew]; rfl)]
    simp only [R.pure_eq, R.ok_bind]
    refine Ok.ok ⟨⟨?_, hI.slot⟩, fun _ => rfl⟩
    have := all_update (P := fun i => OscIs (S i)) hI.osc (i := i) (x := some (z, (b.oscs i).prevPhase))
      (y := { b.oscs i with crt := w }) ⟨⟨⟨⟨hs.wt, hs.mip0, hs.mip1, hs.j0, hs.j1, hs.jf, hs.jb, hs.p0, hs.p1,
          hs.red, hs.fl, hs.diff, hs.posF, hs.posB⟩, h0, h1⟩, hs.back⟩, rfl⟩
    rw [← ho, Function.update_eq_self] at this
    exact this
  | @reset i z prev p d ho hi =>
    obtain ⟨hs, rfl⟩ := hI.known_osc ho
    obtain ⟨wt, ew, hw⟩ := hs.wt
    unfold Bank.execS Bank.exec
    dsimp only
    refine Ok.bind (Sys.reset_play (hfi i) ew hw (by rw [hE]; exact hi.1.1) hi.1.2 hs.crt0 hs.crt1) fun o1 h => ?_
    refine Ok.pure ⟨⟨all_update hI.osc ⟨⟨h.1, ?_⟩, h.2.1⟩, hI.slot⟩, fun _ => rfl⟩
    rw [h.2.1, h.2.2.1]; exact hi.2
  | @updateSamplerate i z prev sr ho hr =>
    obtain ⟨hs, rfl⟩ := hI.known_osc ho
    obtain ⟨wt, ew, hw⟩ := hs.wt
    obtain ⟨wt', e⟩ := hw.update_ok hf hl hc hr.2.1 hr.1 ⟨le_trans (by norm_num) hr.2.2.1, hr.2.2.2⟩
    unfold Bank.execS Bank.exec Sys.updateSamplerate
    dsimp only
    rw [ew]
    dsimp only
    rw [hE, e]
    simp only [R.pure_eq, R.ok_bind]
    refine Ok.ok ⟨⟨?_, hI.slot⟩, fun _ => rfl⟩
    have := all_update (P := fun i => OscIs (S i)) hI.osc (i := i) (x := some (z, (b.oscs i).prevPhase))
      (y := { b.oscs i with wt := some wt' }) ⟨⟨⟨⟨⟨_, rfl, hw.update hf hl hr.2.1 hr.2.2.1 e⟩, hs.mip0, hs.mip1, hs.j0, hs.j1,
          hs.jf, hs.jb, hs.p0, hs.p1,
          hs.red, hs.fl, hs.diff, hs.posF, hs.posB⟩, hs.crt0, hs.crt1⟩, hs.back⟩, rfl⟩
    rw [← ho, Function.update_eq_self] at this
    exact this
  | @tableRate s z sr dur hs hr =>
    obtain ⟨wt, ew, hw⟩ := hI.known_slot hs
    obtain ⟨wt', e⟩ := hw.update_ok hf hl hc hr.2.1 hr.1 ⟨le_trans (by norm_num) hr.2.2.1, hr.2.2.2⟩
    unfold Bank.execS
    dsimp only
    rw [ew]
    dsimp only
    rw [e]
    simp only [R.pure_eq, R.ok_bind]
    refine Ok.ok ⟨⟨hI.osc, ?_⟩, fun _ => rfl⟩
    have := all_update (P := fun _ => SlotIs) hI.slot (i := s) (x := some z) (y := some wt')
      ⟨_, rfl, hw.update hf hl hr.2.1 hr.2.2.1 e⟩
    rw [← hs, Function.update_eq_self] at this
    exact this
  | @tableFind s z d hs hd =>
    obtain ⟨wt, ew, hw⟩ := hI.known_slot hs
    obtain ⟨c, t, hn, hfind, hw', -⟩ := Sys.find_spec (S := S 0) hf hw hd
    unfold Bank.execS
    dsimp only
    rw [ew]
    dsimp only
    rw [hfind]
    simp only [R.pure_eq, R.ok_bind]
    refine Ok.ok ⟨⟨hI.osc, ?_⟩, fun _ => rfl⟩
    have := all_update (P := fun _ => SlotIs) hI.slot (i := s) (x := some z) (y := some { wt with cf := c })
      ⟨_, rfl, hw'⟩
    rw [← hs, Function.update_eq_self] at this
    exact this
  | @moveTable s t =>
    exact Ok.ok ⟨⟨hI.osc, all_update (null_update hI.slot s) (hI.slot s)⟩, fun _ => rfl⟩
  | @moveOsc i j hij ht =>
    refine Ok.ok ⟨⟨all_update (all_update hI.osc ?_) rfl, hI.slot⟩, fun _ => rfl⟩
    rw [← ht]; exact hI.osc i

theorem run_ok (hE : ∀ i, (S i).env = (S 0).env) (hf : Rounding (S 0).env.fl)
    (hl : Log2Spec (S 0).env.log2f) (hc : SrcContract (S 0).env.src) (hB : ∀ i, 0 < (S i).B)
    {cs : List (Stmt K)} (hI : Inv S k b) (h : LegalProg S k cs k') :
    Ok (b.runS S cs) fun b' => Inv S k' b' ∧
      ∀ i, (b'.logs i).length = (b.logs i).length + (cs.map (Stmt.samples i)).sum := by
  induction h generalizing b with
  | nil => exact Ok.ok ⟨hI, fun _ => rfl⟩
  | cons h hs ih =>
    unfold Bank.runS
    refine Ok.bind (exec_ok hE hf hl hc hB hI h) fun b1 h1 => ?_
    refine (ih h1.1).mono fun b2 h2 => ⟨h2.1, fun i => ?_⟩
    rw [h2.2, h1.2, List.map_cons, List.sum_cons, Nat.add_assoc]

theorem Inv.holds (h : Inv S k b) : k.Holds S b := by
  refine ⟨fun i e => ?_, fun s e => h.null_slot e, fun i z p e => ?_, fun s z e => ?_⟩
  · have := h.osc i; rw [e] at this; exact this
  · obtain ⟨ho, hp⟩ := h.known_osc e
    obtain ⟨wt, ew, hw⟩ := ho.wt
    refine ⟨?_, hp, ho.diff, ho.crt0, ho.crt1⟩
    unfold Sys.numWaveforms
    rw [ew]
    exact congrArg Except.ok hw.rows
  · obtain ⟨wt, ew, hw⟩ := h.known_slot e
    refine ⟨wt, ew, hw.rows, hw.scale_len, ?_⟩
    have := hw.L2
    exact hw.waveformLen (i := 0) le_rfl (by omega)

theorem inv_fresh : Inv S Known.start (Bank.fresh S) := ⟨fun _ => rfl, fun _ => rfl⟩

end Program
end Adwt
