import Verif.Proofs.FloatRun2
import Verif.Proofs.WorkTrack

/-!
# How many points of a table a sample passes
-/

set_option linter.unusedSectionVars false

namespace Adwt
open WavetableData

variable {C : Type} [Zero C] [Add C] [Sub C] [Mul C] [Div C]

namespace Sys
variable {S : Sys ℝ C} {val : C → ℂ} {ε : ℝ} {nw L m : ℕ} {ws : List ℝ} {st : ℕ → Osc ℝ C}
  {sw : ℕ → Osc ℝ C} {w : ℕ → ℤ} {dir : ℕ → Sys.Direction} {p y : ℕ → ℝ} {t : ℕ → MipMapIndices ℝ}

theorem table_step (hf : Rounding S.env.fl) {o : Osc ℝ C} (hpl : OscPlay S nw L o) {dir : Direction}
    {p : ℝ} (hp : PhaseOk S.env.fl p) (hs : StepOk dir o.prevPhase p) {t : MipMapIndices ℝ}
    (ht : NextIndices S o (dirDiff S.env.fl dir p o.prevPhase) t) :
    2 ^ (L - t.idx.toNat) * |dirDiff S.env.fl dir p o.prevPhase| ≤ 4 := by
  obtain ⟨wt, hwt, hw⟩ := hpl.wt
  obtain ⟨wt1, wt2, q1, q2⟩ := ht
  rw [hwt] at q1; cases q1
  obtain ⟨r0, r1, r2⟩ := dirDiff_range hf hpl.toOscOk hp hs
  obtain ⟨c, t', hn, hfind, -⟩ := find_spec (S := S) hf hw (abs_pos.2 r0)
  rw [q2] at hfind; cases hfind
  obtain ⟨o1, o2, o3⟩ := CrossFader.near_octave hf hw.inv (abs_pos.2 r0) hn
  rw [hw.scale] at o1 o2 o3
  have hL2 := hw.L2
  obtain ⟨i0, i1, -, i3⟩ := CrossFader.findLoop_octave hL2 |dirDiff S.env.fl dir p o.prevPhase|
  set n := L - t.idx.toNat with hnn
  set d := dirDiff S.env.fl dir p o.prevPhase with hd
  have ha : |d| ≤ 1 / 2 := abs_le.2 ⟨by linarith, r2⟩
  rcases i3 with i3 | i3
  · have hn3 : n ≤ 3 := by omega
    have : (2 : ℝ) ^ n ≤ 2 ^ 3 := pow_le_pow_right₀ (by norm_num) hn3
    calc (2 : ℝ) ^ n * |d| ≤ 2 ^ 3 * (1 / 2) := by gcongr
      _ = 4 := by norm_num
  · rw [Int.toNat_natCast] at i3
    set k := CrossFader.findLoop |d| (octaveScale ℝ L) with hk
    have h1 : (2 : ℝ) ^ n * (2 ^ (k + 1) / 2 ^ L) ≤ 4 := by
      rw [← mul_div_assoc, div_le_iff₀ (by positivity), ← pow_add]
      calc (2 : ℝ) ^ (n + (k + 1)) ≤ 2 ^ (2 + L) := pow_le_pow_right₀ (by norm_num) (by omega)
        _ = 4 * 2 ^ L := by rw [pow_add]; norm_num
    refine le_trans ?_ h1
    gcongr

/-- In every sample fewer than 4.4 points. -/
theorem nu_le (hS : FloatSys S val ε) {o : Osc ℝ C} (hpl : OscPlay S nw L o) {dir : Direction}
    {p : ℝ} (hp : PhaseOk S.env.fl p) (hs : StepOk dir o.prevPhase p) {t : MipMapIndices ℝ}
    (ht : NextIndices S o (dirDiff S.env.fl dir p o.prevPhase) t) :
    2 ^ (L - t.idx.toNat) * |trueStep S.env.fl dir p o.prevPhase| + 2 ≤ 6.4 := by
  have h1 := table_step hS.fl hpl hp hs ht
  obtain ⟨h2, -⟩ := true_step hS (dir := dir) hpl.toOscOk.phase hp
  have hL : L ≤ 18 := by
    obtain ⟨wt, -, hw⟩ := hpl.wt
    exact hw.L18
  have h3 : (2 : ℝ) ^ (L - t.idx.toNat) ≤ 2 ^ 18 := pow_le_pow_right₀ (by norm_num) (by omega)
  have e1 := hS.ε1
  have h4 := abs_sub_abs_le_abs_sub (trueStep S.env.fl dir p o.prevPhase)
    (dirDiff S.env.fl dir p o.prevPhase)
  rw [abs_sub_comm] at h4
  have h5 : |trueStep S.env.fl dir p o.prevPhase| ≤ |dirDiff S.env.fl dir p o.prevPhase| + 3 / 2 ^ 21 := by
    norm_num at e1 ⊢; linarith
  have h6 := mul_le_mul_of_nonneg_left h5 (show (0 : ℝ) ≤ 2 ^ (L - t.idx.toNat) by positivity)
  rw [mul_add] at h6
  have h7 : (2 : ℝ) ^ (L - t.idx.toNat) * (3 / 2 ^ 21) ≤ 2 ^ 18 * (3 / 2 ^ 21) := by gcongr
  norm_num at h7 ⊢
  linarith

/-- the states of a run -/
theorem run_playsL (hf : Rounding S.env.fl) (hl : Log2Spec S.env.log2f) (hB : 0 < S.B)
    (h : LiveRun S ws nw L m st sw w dir p y t)
    (hp : ∀ i < m, IsPhase S.env.fl (p i)) {n : ℕ} (hn : n ≤ m) :
    Plays S ws nw L (st n) ∧ (st n).prevPhase = (if n = 0 then (st 0).prevPhase else p (n - 1)) := by
  induction n with
  | zero => exact ⟨h.plays, by simp⟩
  | succ n ih =>
    have hn' : n < m := hn
    obtain ⟨i1, -⟩ := setWaveform_plays (ih hn'.le).1 (h.wave n hn').1 (h.wave n hn').2 (h.set n hn')
    have hpl := reached_play hf hl hB i1.1
    obtain ⟨wt, hwt, -⟩ := hpl.wt
    obtain ⟨v, e, -⟩ := Props.process_one (by rw [hwt]; rfl) (h.call n hn')
    have hp' : PhaseOk S.env.fl (p n) := ⟨(h.phase n hn').1, (h.phase n hn').2, hp n hn'⟩
    exact ⟨Props.Plays.process (dir := dir n) (ps := [p n]) (out := [0]) i1
      ⟨hp', h.step n hn', trivial⟩ rfl (h.call n hn'), by simpa using (stepDir_tables e).2.1⟩

theorem run_nuL (hS : FloatSys S val ε) (hl : Log2Spec S.env.log2f)
    (h : LiveRun S ws nw L m st sw w dir p y t) (hp : ∀ i < m, IsPhase S.env.fl (p i)) {i : ℕ}
    (hi : i < m) :
    2 ^ (L - (t i).idx.toNat) * |trueStepOf S.env.fl dir (st 0).prevPhase p i| + 2 ≤ 6.4 := by
  obtain ⟨h0, h2⟩ := run_playsL hS.fl hl hS.B h hp hi.le
  obtain ⟨h1, hsw⟩ := setWaveform_plays h0 (h.wave i hi).1 (h.wave i hi).2 (h.set i hi)
  have ep : (st i).prevPhase = (sw i).prevPhase := by rw [hsw]
  rw [ep] at h2
  have hpl := reached_play hS.fl hl hS.B h1.1
  obtain ⟨wt, hwt, -⟩ := hpl.wt
  obtain ⟨v, e, -⟩ := Props.process_one (by rw [hwt]; rfl) (h.call i hi)
  have hp' : PhaseOk S.env.fl (p i) := ⟨(h.phase i hi).1, (h.phase i hi).2, hp i hi⟩
  have ht := h.next i hi
  rw [(stepDir_tables e).2.2.1] at ht
  have := nu_le hS hpl hp' (h.step i hi) ht
  rw [h2] at this
  exact this

theorem run_plays (hf : Rounding S.env.fl) (hl : Log2Spec S.env.log2f) (hB : 0 < S.B)
    (h : SwitchedRun S ws nw L m st sw w dir p y t)
    (hp : ∀ i < m, IsPhase S.env.fl (p i)) {n : ℕ} (hn : n ≤ m) :
    Plays S ws nw L (st n) ∧ (st n).prevPhase = (if n = 0 then (st 0).prevPhase else p (n - 1)) :=
  run_playsL hf hl hB h.live hp hn

theorem run_nuW (hS : FloatSys S val ε) (hl : Log2Spec S.env.log2f)
    (h : SwitchedRun S ws nw L m st sw w dir p y t) (hp : ∀ i < m, IsPhase S.env.fl (p i)) {i : ℕ}
    (hi : i < m) :
    2 ^ (L - (t i).idx.toNat) * |trueStepOf S.env.fl dir (st 0).prevPhase p i| + 2 ≤ 6.4 :=
  run_nuL hS hl h.live hp hi

theorem run_nu (hS : FloatSys S val ε) (hl : Log2Spec S.env.log2f)
    (h : TrackedRun S ws nw L m st dir p y t) (hp : ∀ i < m, IsPhase S.env.fl (p i)) {i : ℕ}
    (hi : i < m) :
    2 ^ (L - (t i).idx.toNat) * |trueStepOf S.env.fl dir (st 0).prevPhase p i| + 2 ≤ 6.4 :=
  run_nuW hS hl (h.switched hS.fl hl hS.B hp).1 hp hi

/-- the memory of a run that starts from zero -/
theorem run_mem {A Λ : ℝ} (hS : FloatSys S val ε) (hl : Log2Spec S.env.log2f)
    (hA : TablesWithin S.env ws nw L A) (hΛ : SlopesWithin S.env ws nw L Λ)
    (M0 : 1 / 2 ^ 40 ≤ A + Λ) (M1 : A + Λ ≤ 2 ^ 24)
    (h : SwitchedRun S ws nw L m st sw w dir p y t) (hp : ∀ i < m, IsPhase S.env.fl (p i))
    (hdl : ∀ i < m, 1 / 2 ^ 100 ≤ |(st (i + 1)).prevPhaseDiff|) {n : ℕ} (hn : n ≤ m) {k : ℕ}
    (hk : k < S.n) : ‖val ((st n).prevY.getD k 0)‖ ≤ 2 ^ 89 := by
  obtain ⟨-, -, -, h1, h2, -⟩ := run_nearW hS hl hA hΛ M0 M1 h hp
    (fun i hi => run_nuW hS hl h hp hi) (by norm_num) hdl hn
  obtain ⟨a, b⟩ := h2 k hk
  refine (near_norm a b).trans ?_
  by_cases hn0 : n = 0
  · rw [if_pos hn0, if_pos hn0]; norm_num
  · obtain ⟨hA0, hΛ0⟩ := h1 hn0
    rw [if_neg hn0, if_neg hn0]
    exact mem_range hS hk hA0 (by linarith) (by linarith) M1 (by norm_num) (by norm_num)

end Sys
end Adwt
