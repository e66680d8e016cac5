import Verif.Props.Decay
import Verif.Proofs.TrackedBound

/-!
# C38: the output is bounded
-/

set_option linter.unusedSectionVars false

namespace Adwt.Props
open WavetableData

theorem polesLeft_neg {S : Sys ℝ ℂ} (hS : ExactSys S) {σ : ℝ} (h0 : 0 < σ)
    (hσ : PolesLeft S.flt σ) {k : ℕ} (hk : k < S.n) : (S.zA k).re < 0 := by
  have := Sys.zA_re hS hσ hk
  linarith

/-- C38: with all poles in the left half plane, from any reached state whose memory is zero (for
example after `init` or `resetInternals`), no legal history of any length ever makes the output
larger than a constant of the filter and the waveform length times the largest sample. (No
assumption about position tracking.) -/
theorem C38_bounded (S : Sys ℝ ℂ) (hS : ExactSys S) (hl : Log2Spec S.env.log2f) (σ : ℝ)
    (h0 : 0 < σ) (hσ : PolesLeft S.flt σ) (ws : List ℝ) (nw L : ℕ) (A : ℝ) (hA0 : 0 ≤ A)
    (hA : TablesWithin S.env ws nw L A) (o : Osc ℝ ℂ) (ho : Plays S ws nw L o)
    (hy : ∀ y ∈ o.prevY, y = 0) (ops : List (Op ℝ)) (hops : HistoryOk S.env.fl nw o.prevPhase ops)
    (o' : Osc ℝ ℂ) (ys : List ℝ) (h : runOps S o ops = .ok (o', ys)) :
    ∀ y ∈ ys, |y| ≤ safeGain S.flt (2 ^ L) * A := by
  have hf := Sys.exact_rounding hS
  have hpl := Sys.reached_play hf hl hS.B ho.1
  obtain ⟨wt, hwt, hlin⟩ := ho.lines hS.fl hl
  have hz : ∀ k < S.n, (S.zA k).re < 0 := fun k hk => polesLeft_neg hS h0 hσ hk
  rw [Sys.runOps_atoms hf hS.B hpl hops] at h
  have key := (Sys.bound_atoms hS hpl hwt hlin hA hA0 hz (m := S.memB L A)
    (fun k _ => le_rfl) ?_ (Sys.atomsOk_history.2 hops) h).2
  · intro y hy
    refine (key y hy).trans (le_of_eq ?_)
    unfold safeGain Sys.memB Sys.sumBound
    rw [Finset.sum_mul]
    apply Finset.sum_congr rfl
    intro k _
    push_cast
    rfl
  · intro k hk
    have : o.prevY.getD k 0 = 0 := by
      rw [List.getD_eq_getElem?_getD]
      cases e : o.prevY[k]? with
      | none => rfl
      | some y => exact hy y (List.mem_of_getElem? e)
    rw [this, norm_zero]
    exact Sys.memB_nonneg hA0 (hz k hk)

/-- C38: if moreover the position is always carried over correctly, a constant of the filter alone
suffices. -/
theorem C38_tracked (S : Sys ℝ ℂ) (hS : ExactSys S) (hl : Log2Spec S.env.log2f) (σ : ℝ)
    (h0 : 0 < σ) (hσ : PolesLeft S.flt σ) (ws : List ℝ) (nw L : ℕ) (A : ℝ) (hA0 : 0 ≤ A)
    (hA : TablesWithin S.env ws nw L A) (o : Osc ℝ ℂ) (ho : Plays S ws nw L o)
    (hy : ∀ y ∈ o.prevY, y = 0) (ops : List (Op ℝ)) (hops : HistoryOk S.env.fl nw o.prevPhase ops)
    (hT : Tracked S L o ops) (o' : Osc ℝ ℂ) (ys : List ℝ) (h : runOps S o ops = .ok (o', ys)) :
    ∀ y ∈ ys, |y| ≤ filterGain S.flt * A := by
  have hf := Sys.exact_rounding hS
  have hpl := Sys.reached_play hf hl hS.B ho.1
  obtain ⟨wt, hwt, hlin⟩ := ho.lines hS.fl hl
  have hz : ∀ k < S.n, (S.flt.z.getD k 0).re < 0 := fun k hk => polesLeft_neg hS h0 hσ hk
  rw [Sys.runOps_atoms hf hS.B hpl hops] at h
  have key := Sys.tracked_atoms hS hT hpl hwt hlin hA hA0 hz
    (m := fun k => 2 * ‖S.flt.r.getD k 0‖ / -(S.flt.z.getD k 0).re * A)
    (fun k _ => le_rfl) ?_ (Sys.atomsOk_history.2 hops) h
  · intro y hy
    refine (key y hy).trans (le_of_eq ?_)
    unfold filterGain
    rw [Finset.sum_mul]
    rfl
  · intro k hk
    have : o.prevY.getD k 0 = 0 := by
      rw [List.getD_eq_getElem?_getD]
      cases e : o.prevY[k]? with
      | none => rfl
      | some y => exact hy y (List.mem_of_getElem? e)
    rw [this, norm_zero]
    have := hz k hk
    have : 0 < -(S.flt.z.getD k 0).re := by linarith
    positivity

/-- upper bounds of the gains of the built-in filters -/
def gainBound : FilterType → ℚ
  | .kType1 => 2.01
  | .kType2 => 41.7
  | .kType3 => 5.25
  | .kType4 => 13
  | .kType5 => 23

/-- upper bounds of the absolute values of the residues -/
def rBound : FilterType → List ℚ
  | .kType1 => [2]
  | .kType2 => [0.5, 2.57, 7.97, 18, 28.84]
  | .kType3 => [1.42, 3.42]
  | .kType4 => [4.31, 1.16, 7.47]
  | .kType5 => [0.6, 2.88, 7.9, 13.74]

theorem clit_norm {c : CLit} {q : ℚ} (hq : 0 ≤ q) (h : c.1 * c.1 + c.2 * c.2 ≤ q * q) :
    ‖clit c‖ ≤ q := by
  have hq' : (0 : ℝ) ≤ q := by exact_mod_cast hq
  rw [← abs_of_nonneg (norm_nonneg (clit c)), ← abs_of_nonneg hq']
  apply sq_le_sq.1
  rw [← Complex.normSq_eq_norm_sq]
  simp only [clit, Complex.normSq_mk]
  rw [pow_two]
  exact_mod_cast h

/-- C38: the constants of the built-in filters. -/
theorem C38_gain (t : FilterType) : filterGain (filterX t) ≤ gainBound t := by
  have hc : clit 0 = 0 := by unfold clit; apply Complex.ext <;> simp
  have hlen : (filterX t).r.length = (rLit t).length := by simp [filterX]
  unfold filterGain
  rw [hlen]
  have h1 : ∀ k ∈ Finset.range (rLit t).length,
      2 * ‖(filterX t).r.getD k 0‖ / -((filterX t).z.getD k 0).re ≤
        ((2 * (rBound t).getD k 0 / -((zLit t).getD k 0).1 : ℚ) : ℝ) := by
    intro k hk
    have hk := Finset.mem_range.1 hk
    have e1 : (filterX t).r.getD k 0 = clit ((rLit t).getD k 0) := by
      rw [← hc]; unfold filterX; rw [List.getD_map]
    have e2 : (filterX t).z.getD k 0 = clit ((zLit t).getD k 0) := by
      rw [← hc]; unfold filterX; rw [List.getD_map]
    rw [e1, e2]
    have hneg : ((zLit t).getD k 0).1 < 0 := by
      cases t <;> simp only [rLit, List.length_cons, List.length_nil] at hk <;>
        (interval_cases k <;> simp [zLit] <;> norm_num)
    have hq : 0 ≤ (rBound t).getD k 0 := by
      cases t <;> simp only [rLit, List.length_cons, List.length_nil] at hk <;>
        (interval_cases k <;> simp [rBound] <;> norm_num)
    have hr : ((rLit t).getD k 0).1 * ((rLit t).getD k 0).1 +
        ((rLit t).getD k 0).2 * ((rLit t).getD k 0).2 ≤
        (rBound t).getD k 0 * (rBound t).getD k 0 := by
      cases t <;> simp only [rLit, List.length_cons, List.length_nil] at hk <;>
        (interval_cases k <;> simp [rBound, rLit] <;> norm_num)
    have hn := clit_norm hq hr
    have hd : (0 : ℝ) < -((((zLit t).getD k 0).1 : ℚ) : ℝ) := by
      have : ((((zLit t).getD k 0).1 : ℚ) : ℝ) < 0 := by exact_mod_cast hneg
      linarith
    push_cast
    show 2 * ‖clit ((rLit t).getD k 0)‖ / -((((zLit t).getD k 0).1 : ℚ) : ℝ) ≤ _
    gcongr
  refine (Finset.sum_le_sum h1).trans ?_
  rw [← Rat.cast_sum]
  have : ∑ k ∈ Finset.range (rLit t).length, 2 * (rBound t).getD k 0 / -((zLit t).getD k 0).1 ≤
      gainBound t := by
    cases t <;> simp [rLit, zLit, rBound, gainBound, Finset.sum_range_succ] <;> norm_num
  exact_mod_cast this

/-! ### the hypotheses are met -/

/-- a steady forward step of 1/16, for any number of samples -/
noncomputable def steadyOps (n k : ℕ) : List (Op ℝ) :=
  [.process .kForward ((List.range n).map fun i => (((k + 1 + i) % 16 : ℕ) : ℝ) / 16)]

theorem mod16 (k : ℕ) : (((k % 16 : ℕ) : ℝ) / 16 = (((k + 1) % 16 : ℕ) : ℝ) / 16 - 1 / 16 ∧
    (k + 1) % 16 ≠ 0) ∨ (((k % 16 : ℕ) : ℝ) / 16 = 15 / 16 ∧ (k + 1) % 16 = 0) := by
  by_cases h : (k + 1) % 16 = 0
  · right
    have : k % 16 = 15 := by omega
    rw [this]; exact ⟨by norm_num, h⟩
  · left
    have : (k + 1) % 16 = k % 16 + 1 := by omega
    refine ⟨?_, h⟩
    rw [this]; push_cast; ring

theorem mod16_step (k : ℕ) : StepOk .kForward (((k % 16 : ℕ) : ℝ) / 16) ((((k + 1) % 16 : ℕ) : ℝ) / 16) ∧
    Sys.dirDiff id .kForward ((((k + 1) % 16 : ℕ) : ℝ) / 16) (((k % 16 : ℕ) : ℝ) / 16) = 1 / 16 := by
  unfold StepOk Forward Sys.dirDiff Sys.fwdDiff
  rcases mod16 k with ⟨h, h1⟩ | ⟨h, h1⟩
  · rw [h]
    refine ⟨Or.inl ⟨by linarith, by linarith⟩, ?_⟩
    simp only [id]
    rw [if_neg (by linarith)]; ring
  · rw [h, h1]
    refine ⟨Or.inr ⟨by norm_num, by norm_num⟩, ?_⟩
    simp only [id]
    rw [if_pos (by norm_num)]; norm_num

theorem range16 (k : ℕ) : (0 : ℝ) ≤ ((k % 16 : ℕ) : ℝ) / 16 ∧ ((k % 16 : ℕ) : ℝ) / 16 < 1 := by
  have : ((k % 16 : ℕ) : ℝ) < 16 := by exact_mod_cast Nat.mod_lt k (by norm_num)
  constructor
  · positivity
  · linarith

theorem steady_ok (n k : ℕ) : HistoryOk id 1 (((k % 16 : ℕ) : ℝ) / 16) (steadyOps n k) := by
  refine ⟨?_, trivial⟩
  induction n generalizing k with
  | zero => trivial
  | succ n ih =>
    rw [List.range_succ_eq_map, List.map_cons, List.map_map]
    refine ⟨⟨(range16 _).1, (range16 _).2, isPhase_id _⟩, (mod16_step k).1, ?_⟩
    have := ih (k + 1)
    convert this using 3
    simp only [Function.comp]
    congr 3; omega

theorem steady_run (ft : FilterType) (ws : List ℝ) (m n k : ℕ) (o : Osc ℝ ℂ)
    (h : At (sysOf envX ft) ws 3 o ⟨m, octaveScale ℝ 3, 0, 0, 0⟩ 0 (1 / 16)
      (((k % 16 : ℕ) : ℝ) / 16)) :
    Tracked (sysOf envX ft) 3 o (steadyOps n k) := by
  unfold steadyOps
  induction n generalizing k o with
  | zero => exact .block .done
  | succ n ih =>
    rw [List.range_succ_eq_map, List.map_cons, List.map_map]
    obtain ⟨⟨o2, y2, e, h2⟩, hn⟩ := h.step (dir := .kForward) (range16 (k + 1)) (mod16_step k).1
      (Or.inr (by norm_num)) (mod16_step k).2
      (cf_idle (by norm_num) (by norm_num) (oct0 (by norm_num [abs_of_pos])))
    have hx : OffDenormal (2 ^ 3) o.prevPhase := by
      rw [h.phase]
      have := offDenormal_dyadic (k % 16 : ℕ) 4 3 (by norm_num) (by norm_num)
      norm_num at this ⊢
      exact this
    have hn' : NextIndices (sysOf envX ft) o o2.prevPhaseDiff ⟨0, 1, 0 + 1, 0⟩ := by
      rw [h2.diff]; exact hn
    refine .sample (t := ⟨0, 1, 0 + 1, 0⟩) e hn' (Or.inl h.mip.symm) hx ?_
    have := ih (k + 1) o2 h2
    have e : List.map ((fun i => (((k + 1 + i) % 16 : ℕ) : ℝ) / 16) ∘ Nat.succ) (List.range n) =
        List.map (fun i => (((k + 1 + 1 + i) % 16 : ℕ) : ℝ) / 16) (List.range n) := by
      apply List.map_congr_left
      intro i _
      simp only [Function.comp]
      congr 3; omega
    rw [e]; exact this

/-- Any built-in filter, any eight samples: any number of samples can be played with the position
tracked correctly, and the execution succeeds. -/
theorem steady (ft : FilterType) (ws : List ℝ) (hws : ws.length = 2 ^ 3) (n : ℕ) :
    ∃ o o' ys, Plays (sysOf envX ft) ws 1 3 o ∧ (∀ y ∈ o.prevY, y = 0) ∧
      HistoryOk envX.fl 1 o.prevPhase (steadyOps n 0) ∧ Tracked (sysOf envX ft) 3 o (steadyOps n 0) ∧
      runOps (sysOf envX ft) o (steadyOps n 0) = .ok (o', ys) ∧ ys.length = n := by
  obtain ⟨o, h1, hy⟩ := at_init ft ws 3 (by norm_num) (by norm_num) hws 1
    le_rfl (by norm_num) (p := 0) (d := 1 / 16) (by norm_num) (by norm_num) (i := 0)
    (oct0 (by norm_num))
    (cf_idle (by norm_num) (by norm_num) (oct0 (by norm_num [abs_of_pos])))
  have hT := steady_run ft ws 1 n 0 o (by simpa using h1)
  have hok : HistoryOk envX.fl 1 o.prevPhase (steadyOps n 0) := by
    have := steady_ok n 0
    rw [h1.phase]
    show HistoryOk id 1 0 _
    simpa using this
  have hS := exactSys ft
  have hf := Sys.exact_rounding hS
  have hpl := Sys.reached_play hf log2X hS.B h1.plays.1
  have hrun : ∃ o' ys, runOps (sysOf envX ft) o (steadyOps n 0) = .ok (o', ys) := by
    have hs : HistorySafe (sysOf envX ft).env.fl 1 o.prevPhase (steadyOps n 0) := by
      refine ⟨?_, trivial⟩
      have := hok.1
      revert this
      generalize o.prevPhase = q
      generalize (List.range n).map (fun i => (((0 + 1 + i) % 16 : ℕ) : ℝ) / 16) = ps
      intro this
      induction ps generalizing q with
      | nil => trivial
      | cons p ps ih => exact ⟨this.1, this.2.1, ih _ this.2.2⟩
    have hz : ¬ AtZeroBackward o := fun hz => by
      have := hz.2; rw [h1.diff] at this; norm_num at this
    obtain ⟨⟨o', ys⟩, e, -⟩ :=
      Sys.history_ok hf hS.B (Sys.reached_safe hf log2X hS.B h1.plays.1 hz) hs
    exact ⟨o', ys, e⟩
  obtain ⟨o', ys, e⟩ := hrun
  refine ⟨o, o', ys, h1.plays, ?_, hok, hT, e, ?_⟩
  · intro y hy'
    rw [hy] at hy'
    exact (List.mem_replicate.1 hy').2
  · rw [Sys.runOps_atoms hf hS.B hpl hok] at e
    rw [Sys.atoms_length e]
    simp [steadyOps, Sys.opAtoms, Sys.atomCount, Function.comp_def]

theorem mipWithinX {A : ℝ} (hA : 0 ≤ A) {w : List ℝ} (h : ∀ x ∈ w, |x| ≤ A) (i : ℕ) :
    ∀ x ∈ mipSamples envX w i, |x| ≤ A := by
  have dec : ∀ (v : List ℝ) (r : ℕ), (∀ x ∈ v, |x| ≤ A) → ∀ x ∈ decimate envX v r, |x| ≤ A := by
    intro v r hv x hx
    unfold decimate at hx
    obtain ⟨j, -, rfl⟩ := List.mem_map.1 hx
    show |(v ++ v ++ v ++ v ++ v).getD ((2 * (v.length / r) + j) * r) 0| ≤ A
    rw [List.getD_eq_getElem?_getD]
    cases e : (v ++ v ++ v ++ v ++ v)[(2 * (v.length / r) + j) * r]? with
    | none => simpa using hA
    | some y =>
      have := List.mem_of_getElem? e
      simp only [List.mem_append, or_self] at this
      exact hv y this
  induction i using Nat.strong_induction_on with
  | _ i ih =>
    unfold mipSamples
    split_ifs with h0 h1
    · exact h
    · exact dec _ _ h
    · exact dec _ _ (ih (i - 8) (by omega))

theorem tablesWithinX {A : ℝ} (hA : 0 ≤ A) {ws : List ℝ} (h : ∀ x ∈ ws, |x| ≤ A) (nw L : ℕ) :
    TablesWithin envX ws nw L A := by
  intro w _ i _
  apply mipWithinX hA
  intro x hx
  unfold waveformOf at hx
  exact h x (List.mem_of_mem_drop (List.mem_of_mem_take hx))

/-- C38 applies: however many samples of a waveform with values in `[-1, 1]` are played, with the
resampler that keeps every n-th sample, a type 1 oscillator never exceeds 2.01. -/
example (ws : List ℝ) (hws : ws.length = 2 ^ 3) (hA : ∀ x ∈ ws, |x| ≤ 1) (n : ℕ) :
    ∃ o o' ys, runOps (sysOf envX .kType1) o (steadyOps n 0) = .ok (o', ys) ∧ ys.length = n ∧
      ∀ y ∈ ys, |y| ≤ 2.01 := by
  obtain ⟨o, o', ys, h1, h2, h3, h4, h5, h6⟩ := steady .kType1 ws hws n
  refine ⟨o, o', ys, h5, h6, fun y hy => ?_⟩
  have := C38_tracked _ (exactSys .kType1) log2X 0.29 (by norm_num) (C39_poles _) ws 1 3 1
    zero_le_one (tablesWithinX zero_le_one hA 1 3) o h1 h2 _ h3 h4 _ _ h5 y hy
  rw [mul_one] at this
  refine this.trans ((C38_gain .kType1).trans ?_)
  norm_num [gainBound]

end Adwt.Props
