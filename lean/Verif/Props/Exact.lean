import Verif.Props.Modes
import Verif.Proofs.Plays

/-!
# C33, C34, C35, C36: a sample is the filtered integral of the waveform
-/

set_option linter.unusedSectionVars false

namespace Adwt.Props
open WavetableData
variable {S : Sys ℝ ℂ} {ws : List ℝ} {nw L : ℕ} {o o' : Osc ℝ ℂ}

/-! ### every reached state plays some samples -/

/-- In exact arithmetic every state reached by legal calls holds the tables of some samples. -/
theorem C35_plays (S : Sys ℝ ℂ) (hS : ExactSys S) (hl : Log2Spec S.env.log2f) (nw L : ℕ)
    (o : Osc ℝ ℂ) (ho : Reached S nw L o) : ∃ ws, Plays S ws nw L o := by
  obtain ⟨ws, h⟩ := reached_holds hS.fl hl ho
  exact ⟨ws, ho, h⟩

/-- While playing, the samples stay the same. -/
theorem Plays.process {C : Type} [Zero C] [Add C] [Sub C] [Mul C] [Div C] {S : Sys ℝ C}
    {o o' : Osc ℝ C} {dir : Sys.Direction} {ps out ys : List ℝ} (h : Plays S ws nw L o)
    (hp : BlockOk S.env.fl dir o.prevPhase ps) (hlen : ps.length = out.length)
    (e : S.process dir o ps out = .ok (o', ys)) : Plays S ws nw L o' := by
  have hh : HoldsTables S ws nw L o := h.2
  exact ⟨h.1.process hp hlen e, hh.same (Sys.process_tables hh.isSome e).1⟩

theorem process_one {C : Type} [Zero C] [Add C] [Sub C] [Mul C] [Div C] {S : Sys ℝ C}
    {o o' : Osc ℝ C} {dir : Sys.Direction} {p b : ℝ} {ys : List ℝ} (hw : o.wt.isSome = true)
    (h : S.process dir o [p] [b] = .ok (o', ys)) : ∃ y, S.stepDir dir o p = .ok (o', y) ∧ ys = [y] := by
  rw [Sys.process_runDir S _ hw (show [p].length = [b].length from rfl)] at h
  unfold Sys.runDir at h
  obtain ⟨⟨o1, y⟩, e1, h⟩ := bind_ok h
  unfold Sys.runDir at h
  cases h
  exact ⟨y, e1, rfl⟩

/-! ### one sample -/

/-- C35: in exact arithmetic, from every reached state, one sample in either mode equals the formula
of the ADAA method for the mixture of tables which the crossfader selects: the memory of each
coefficient is `e^z y + 2 r ∫_0^1 e^{z(1-t)} W(x + t d) dt`, the output the real part of the sum of
the memories. `TableMove` and `OffDenormal` exclude the cases in which this fails, see C36 and
C48. -/
theorem C35_mixture (S : Sys ℝ ℂ) (hS : ExactSys S) (hl : Log2Spec S.env.log2f) (ws : List ℝ)
    (nw L : ℕ) (o : Osc ℝ ℂ) (ho : Plays S ws nw L o) (dir : Sys.Direction) (p b : ℝ)
    (hp : 0 ≤ p ∧ p < 1) (hs : StepOk dir o.prevPhase p) (o' : Osc ℝ ℂ) (ys : List ℝ)
    (h : S.process dir o [p] [b] = .ok (o', ys)) (t : MipMapIndices ℝ)
    (ht : NextIndices S o o'.prevPhaseDiff t) (hm : TableMove o t.idx)
    (hx : OffDenormal (2 ^ (L - t.idx.toNat)) o.prevPhase) :
    o'.prevY = nextMemory S.flt o.prevY (mixture S.env ws L o.crt t) o.prevPhase o'.prevPhaseDiff ∧
    ys = [output o'.prevY] ∧ o'.prevMip = t.idx := by
  have hpl := Sys.reached_play (Sys.exact_rounding hS) hl hS.B ho.1
  obtain ⟨wt, hwt, hlin⟩ := ho.lines hS.fl hl
  obtain ⟨y, e, rfl⟩ := process_one (by rw [hwt]; rfl) h
  have hd := (Sys.stepDir_tables e).2.2.1
  rw [hd] at ht ⊢
  obtain ⟨a, b, c, -⟩ := Sys.step_exact hS hpl hwt hlin ⟨hp.1, hp.2, by rw [hS.fl]; exact isPhase_id _⟩ hs e ht hm hx
  exact ⟨a, by rw [b], c⟩

/-- When the crossfader gives no weight to the upper table, the mixture is the lower table. -/
theorem mixture_single (hS : ExactSys S) (hl : Log2Spec S.env.log2f) (ho : Reached S nw L o) {d : ℝ}
    (hd : d ≠ 0) {t : MipMapIndices ℝ} (ht : NextIndices S o d t) (h0 : t.weightUp = 0) (w : ℤ) :
    mixture S.env ws L w t = waveAt S.env ws L w t.idx := by
  obtain ⟨wt, wt', hwt, hfind⟩ := ht
  obtain ⟨wt1, e, hw⟩ := (Sys.reached_play (Sys.exact_rounding hS) hl hS.B ho).wt
  rw [hwt] at e; cases e
  unfold findMipMapIndices at hfind
  obtain ⟨⟨c, t'⟩, hn, hfind⟩ := bind_ok hfind
  cases hfind
  have := (Sys.weight_one hS.fl hw.inv (abs_pos.2 hd) hn).1
  rw [h0, add_zero] at this
  funext u
  unfold mixture
  rw [h0, this]; ring

theorem step_ne_zero (hS : ExactSys S) (hl : Log2Spec S.env.log2f) (ho : Reached S nw L o)
    {dir : Sys.Direction} {p b : ℝ} (hp : 0 ≤ p ∧ p < 1) (hs : StepOk dir o.prevPhase p)
    {ys : List ℝ} (h : S.process dir o [p] [b] = .ok (o', ys)) : o'.prevPhaseDiff ≠ 0 :=
  (Sys.reached_play (Sys.exact_rounding hS) hl hS.B
    (ho.process (dir := dir) (ps := [p]) (out := [b])
      ⟨⟨hp.1, hp.2, by rw [hS.fl]; exact isPhase_id _⟩, hs, trivial⟩ rfl h)).diff

/-- C33: a sample with a positive step, while one table is selected: the filtered integral of this
table, however many table points are crossed and whether or not the step wraps. -/
theorem C33_forward (S : Sys ℝ ℂ) (hS : ExactSys S) (hl : Log2Spec S.env.log2f) (ws : List ℝ)
    (nw L : ℕ) (o : Osc ℝ ℂ) (ho : Plays S ws nw L o) (dir : Sys.Direction) (p b : ℝ)
    (hp : 0 ≤ p ∧ p < 1) (hs : StepOk dir o.prevPhase p) (o' : Osc ℝ ℂ) (ys : List ℝ)
    (h : S.process dir o [p] [b] = .ok (o', ys)) (_hpos : 0 < o'.prevPhaseDiff)
    (t : MipMapIndices ℝ) (ht : NextIndices S o o'.prevPhaseDiff t) (h0 : t.weightUp = 0)
    (hm : TableMove o t.idx) (hx : OffDenormal (2 ^ (L - t.idx.toNat)) o.prevPhase) :
    o'.prevY = nextMemory S.flt o.prevY (waveAt S.env ws L o.crt t.idx) o.prevPhase
      o'.prevPhaseDiff ∧ ys = [output o'.prevY] := by
  obtain ⟨a, b, -⟩ := C35_mixture S hS hl ws nw L o ho dir p b hp hs o' ys h t ht hm hx
  rw [mixture_single hS hl ho.1 (step_ne_zero hS hl ho.1 hp hs h) ht h0] at a
  exact ⟨a, b⟩

/-- C34: a sample with a negative step, while one table is selected. -/
theorem C34_backward (S : Sys ℝ ℂ) (hS : ExactSys S) (hl : Log2Spec S.env.log2f) (ws : List ℝ)
    (nw L : ℕ) (o : Osc ℝ ℂ) (ho : Plays S ws nw L o) (p b : ℝ)
    (hp : 0 ≤ p ∧ p < 1) (hs : p ≠ o.prevPhase) (o' : Osc ℝ ℂ) (ys : List ℝ)
    (h : S.process .kBidirectionnal o [p] [b] = .ok (o', ys)) (_hneg : o'.prevPhaseDiff < 0)
    (t : MipMapIndices ℝ) (ht : NextIndices S o o'.prevPhaseDiff t) (h0 : t.weightUp = 0)
    (hm : TableMove o t.idx) (hx : OffDenormal (2 ^ (L - t.idx.toNat)) o.prevPhase) :
    o'.prevY = nextMemory S.flt o.prevY (waveAt S.env ws L o.crt t.idx) o.prevPhase
      o'.prevPhaseDiff ∧ ys = [output o'.prevY] := by
  have hs : StepOk .kBidirectionnal o.prevPhase p := hs
  obtain ⟨a, b, -⟩ := C35_mixture S hS hl ws nw L o ho _ p b hp hs o' ys h t ht hm hx
  rw [mixture_single hS hl ho.1 (step_ne_zero hS hl ho.1 hp hs h) ht h0] at a
  exact ⟨a, b⟩

/-- C36, the part that holds: the sample on which the lower table changes is exact too, if the
change is upward after a forward step, or one octave downward. -/
theorem C36_change (S : Sys ℝ ℂ) (hS : ExactSys S) (hl : Log2Spec S.env.log2f) (ws : List ℝ)
    (nw L : ℕ) (o : Osc ℝ ℂ) (ho : Plays S ws nw L o) (dir : Sys.Direction) (p b : ℝ)
    (hp : 0 ≤ p ∧ p < 1) (hs : StepOk dir o.prevPhase p) (o' : Osc ℝ ℂ) (ys : List ℝ)
    (h : S.process dir o [p] [b] = .ok (o', ys)) (t : MipMapIndices ℝ)
    (ht : NextIndices S o o'.prevPhaseDiff t)
    (hm : (o.prevMip < t.idx ∧ 0 < o.prevPhaseDiff) ∨ t.idx = o.prevMip - 1)
    (hx : OffDenormal (2 ^ (L - t.idx.toNat)) o.prevPhase) :
    ys = [output (nextMemory S.flt o.prevY (mixture S.env ws L o.crt t) o.prevPhase
      o'.prevPhaseDiff)] := by
  obtain ⟨a, b, -⟩ := C35_mixture S hS hl ws nw L o ho dir p b hp hs o' ys h t ht
    (by rcases hm with ⟨h1, h2⟩ | h1
        · exact Or.inr (Or.inl ⟨h2, h1⟩)
        · exact Or.inr (Or.inr (by omega))) hx
  rw [b, a]

end Adwt.Props
