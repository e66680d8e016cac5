import Verif.Props.Exact
import Verif.Props.ExactExamples
import Verif.Proofs.Dc

/-!
# C39, C41: the filter memory is forgotten, constant waveforms settle
-/

set_option linter.unusedSectionVars false

namespace Adwt.Props
open WavetableData

/-- The poles of every built-in filter lie left of `-0.29`. -/
theorem C39_poles (t : FilterType) : PolesLeft (filterX t) 0.29 := by
  intro z hz
  have : ∃ c ∈ zLit t, clit c = z := by simpa [filterX] using hz
  obtain ⟨c, hc, rfl⟩ := this
  have h : ∀ c ∈ zLit t, c.1 ≤ -0.29 := by cases t <;> simp [zLit] <;> norm_num
  have h := h c hc
  show (c.1 : ℝ) ≤ -0.29
  have : (c.1 : ℝ) ≤ ((-0.29 : ℚ) : ℝ) := by exact_mod_cast h
  exact this.trans (by norm_num)

/-- C39: change the filter memory of any reached oscillator to anything. Every legal history that
succeeded still does, gives the same number of samples, and sample `n` differs by at
most `e^{-σ(n+1)}` times the initial distance of the memories. In the end only the memories differ,
by `e^{-σ N}` times the initial distance for `N` samples. (No assumption about position tracking.) -/
theorem C39_forget (S : Sys ℝ ℂ) (hS : ExactSys S) (hl : Log2Spec S.env.log2f) (σ : ℝ)
    (hσ : PolesLeft S.flt σ) (nw L : ℕ) (o : Osc ℝ ℂ) (ho : Reached S nw L o) (y : List ℂ)
    (ops : List (Op ℝ)) (hops : HistoryOk S.env.fl nw o.prevPhase ops) (o' : Osc ℝ ℂ) (ys : List ℝ)
    (h : runOps S o ops = .ok (o', ys)) :
    ∃ y' ys', runOps S { o with prevY := y } ops = .ok ({ o' with prevY := y' }, ys') ∧
      ys'.length = ys.length ∧
      memDist S.flt.r.length o'.prevY y' ≤
        Real.exp (-σ * ys.length) * memDist S.flt.r.length o.prevY y ∧
      ∀ n < ys.length, |ys.getD n 0 - ys'.getD n 0| ≤
        Real.exp (-σ * (n + 1)) * memDist S.flt.r.length o.prevY y := by
  have hf := Sys.exact_rounding hS
  have hpl := Sys.reached_play hf hl hS.B ho
  have ho2 : OscPlay S nw L { o with prevY := y } :=
    ⟨⟨hpl.wt, hpl.mip0, hpl.mip1, hpl.j0, hpl.j1, hpl.jf, hpl.jb, hpl.p0, hpl.p1, hpl.red, hpl.fl,
      hpl.diff, hpl.posF, hpl.posB⟩, hpl.crt0, hpl.crt1⟩
  rw [Sys.runOps_atoms hf hS.B hpl hops] at h
  rw [Sys.runOps_atoms hf hS.B ho2 hops]
  exact Sys.mem_atoms hS hσ hpl (Sys.atomsOk_history.2 hops) h y

theorem waveform_const {c : ℝ} {nw L : ℕ} {w : ℕ} :
    ∃ n, waveformOf (List.replicate (nw * 2 ^ L) c) (2 ^ L) w = List.replicate n c := by
  unfold waveformOf
  rw [List.drop_replicate, List.take_replicate]
  exact ⟨_, rfl⟩

/-- C41: while constant waveforms of value `c` are played, in any way, from any reached state, the
output approaches `dcGain * c` like `e^{-σ(n+1)}`. (No assumption about position tracking.) -/
theorem C41_settles (S : Sys ℝ ℂ) (hS : ExactSys S) (hl : Log2Spec S.env.log2f)
    (hk : KeepsConstants S.env) (σ : ℝ) (hσ : PolesLeft S.flt σ) (nw L : ℕ) (c : ℝ) (o : Osc ℝ ℂ)
    (ho : Plays S (List.replicate (nw * 2 ^ L) c) nw L o)
    (ops : List (Op ℝ)) (hops : HistoryOk S.env.fl nw o.prevPhase ops) (hr : NoReset ops)
    (o' : Osc ℝ ℂ) (ys : List ℝ) (h : runOps S o ops = .ok (o', ys)) :
    ∀ n < ys.length, |ys.getD n 0 - dcGain S.flt * c| ≤ Real.exp (-σ * (n + 1)) *
      ∑ k ∈ Finset.range S.flt.r.length,
        ‖o.prevY.getD k 0 - -(2 * S.flt.r.getD k 0 / S.flt.z.getD k 0) * c‖ := by
  have hf := Sys.exact_rounding hS
  have hpl := Sys.reached_play hf hl hS.B ho.1
  obtain ⟨wt, hwt, hlin⟩ := ho.lines hS.fl hl
  rw [Sys.runOps_atoms hf hS.B hpl hops] at h
  have hc : ∀ w i j : ℤ, 0 ≤ w → w < nw → 0 ≤ i → i < (L : ℤ) - 1 →
      Sys.tabY S.env (List.replicate (nw * 2 ^ L) c) L w i j = c := by
    intro w i j a b d e
    have hlen := hlin.len w i a b d e
    unfold Sys.tabY
    obtain ⟨n, e1⟩ := waveform_const (c := c) (nw := nw) (L := L) (w := w.toNat)
    rw [e1] at hlen ⊢
    obtain ⟨m, e2⟩ := mip_const hk c n i.toNat
    rw [e2] at hlen ⊢
    apply cyc_const
    rw [List.length_replicate] at hlen
    rw [hlen]; positivity
  have key := Sys.dc_atoms hS hσ hpl hwt hlin hc (Sys.atomsOk_history.2 hops) ?_ h
  · intro n hn
    refine (key n hn).trans (le_of_eq ?_)
    congr 1
    apply Finset.sum_congr rfl
    intro k hk
    rw [Sys.dcMem_getD (Finset.mem_range.1 hk)]
    rfl
  · intro a ha p d e
    subst e
    obtain ⟨op, h1, h2⟩ := List.mem_flatMap.1 ha
    cases op with
    | process dir ps => simp [Sys.opAtoms] at h2
    | setWaveform i => simp [Sys.opAtoms] at h2
    | reset p' d' => exact hr _ h1 p' d' rfl

theorem clit_div (a b : CLit) : (clit a / clit b).re =
    ((a.1 * b.1 + a.2 * b.2) / (b.1 * b.1 + b.2 * b.2) : ℚ) := by
  rw [Complex.div_re]
  simp only [clit, Complex.normSq_mk]
  push_cast
  ring

theorem gain_eq (t : FilterType) (G : ℚ)
    (h : ∑ k ∈ Finset.range (rLit t).length, -(2 * ((((rLit t).getD k 0).1 * ((zLit t).getD k 0).1 +
      ((rLit t).getD k 0).2 * ((zLit t).getD k 0).2) /
      (((zLit t).getD k 0).1 * ((zLit t).getD k 0).1 +
        ((zLit t).getD k 0).2 * ((zLit t).getD k 0).2))) = G) : dcGain (filterX t) = G := by
  unfold dcGain
  rw [Complex.re_sum, ← h]
  push_cast
  have hc : clit 0 = 0 := by unfold clit; apply Complex.ext <;> simp
  have hlen : (filterX t).r.length = (rLit t).length := by simp [filterX]
  rw [hlen]
  apply Finset.sum_congr rfl
  intro k _
  have e1 : (filterX t).r.getD k 0 = clit ((rLit t).getD k 0) := by
    rw [← hc]; unfold filterX; rw [List.getD_map]
  have e2 : (filterX t).z.getD k 0 = clit ((zLit t).getD k 0) := by
    rw [← hc]; unfold filterX; rw [List.getD_map]
  rw [e1, e2, Complex.neg_re, mul_div_assoc]
  have : (2 * (clit ((rLit t).getD k 0) / clit ((zLit t).getD k 0))).re =
      2 * (clit ((rLit t).getD k 0) / clit ((zLit t).getD k 0)).re := by
    simp
  rw [this, clit_div]
  push_cast
  ring

/-- C41: the gains of the built-in filters at frequency 0. -/
theorem C41_gain (t : FilterType) : |dcGain (filterX t) - 1| < 1.1e-3 := by
  rw [gain_eq t _ rfl]
  have key : ∀ G : ℚ, |G - 1| < 1.1e-3 → |(G : ℝ) - 1| < 1.1e-3 := by
    intro G h
    have : ((|G - 1| : ℚ) : ℝ) < ((1.1e-3 : ℚ) : ℝ) := by exact_mod_cast h
    push_cast at this
    refine this.trans_le (by norm_num)
  apply key
  cases t <;> simp [rLit, zLit, Finset.sum_range_succ] <;> norm_num [abs_lt]

/-! ### the hypotheses are met -/

theorem keepsX : KeepsConstants envX := by
  intro c n r
  unfold decimate
  rw [List.length_replicate]
  apply List.ext_getElem
  · simp
  · intro i h1 h2
    have hi : i < n / r := by simpa using h1
    have hr : 0 < r := Nat.pos_of_ne_zero fun h => by simp [h] at hi
    have hle : n / r * r ≤ n := Nat.div_mul_le_self n r
    have hlt : (2 * (n / r) + i) * r < n + n + n := by
      have : (2 * (n / r) + i + 1) * r ≤ 3 * (n / r) * r := Nat.mul_le_mul_right _ (by omega)
      nlinarith
    rw [List.getElem_map, List.getElem_range, List.getElem_replicate]
    show (List.replicate n c ++ List.replicate n c ++ List.replicate n c ++ List.replicate n c ++
      List.replicate n c).getD ((2 * (n / r) + i) * r) 0 = c
    rw [List.replicate_append_replicate, List.replicate_append_replicate,
      List.replicate_append_replicate, List.replicate_append_replicate,
      List.getD_eq_getElem?_getD, List.getElem?_replicate_of_lt (by omega)]
    rfl

/-- a history in both modes -/
noncomputable def exampleOps : List (Op ℝ) :=
  [.process .kForward [3 / 8, 1 / 2], .setWaveform 0, .process .kBidirectionnal [1 / 4, 7 / 8]]

theorem exampleOps_safe : HistorySafe envX.fl 1 0 exampleOps := by
  refine ⟨⟨⟨?_, ?_, isPhase_id _⟩, Or.inl ?_, ⟨?_, ?_, isPhase_id _⟩, Or.inl ?_, trivial⟩, by norm_num, by norm_num,
    ⟨⟨?_, ?_, isPhase_id _⟩, ⟨?_, ?_⟩, ⟨?_, ?_, isPhase_id _⟩, ⟨?_, ?_⟩, trivial⟩, trivial⟩ <;> norm_num

theorem exampleOps_ok : HistoryOk envX.fl 1 0 exampleOps := by
  refine ⟨⟨⟨?_, ?_, isPhase_id _⟩, Or.inl ?_, ⟨?_, ?_, isPhase_id _⟩, Or.inl ?_, trivial⟩, by norm_num, by norm_num,
    ⟨⟨?_, ?_, isPhase_id _⟩, ?_, ⟨?_, ?_, isPhase_id _⟩, ?_, trivial⟩, trivial⟩ <;> norm_num [StepOk]

/-- Any filter, any eight samples: a reached state that plays them, a history of four samples in
both modes, and its execution. -/
theorem exampleRun (t : FilterType) (ws : List ℝ) (h : ws.length = 8) :
    ∃ o o' ys, Plays (sysOf envX t) ws 1 3 o ∧ o.prevY = List.replicate (sysOf envX t).n 0 ∧
      HistoryOk envX.fl 1 o.prevPhase exampleOps ∧ NoReset exampleOps ∧
      runOps (sysOf envX t) o exampleOps = .ok (o', ys) ∧ ys.length = 4 := by
  obtain ⟨o, h1, hy⟩ := at_init t ws 3 (by norm_num) (by norm_num) (by simpa using h) 1
    le_rfl (by norm_num) (p := 0) (d := 1 / 16) (by norm_num) (by norm_num) (i := 0)
    (oct0 (by norm_num))
    (cf_idle (by norm_num) (by norm_num) (oct0 (by norm_num [abs_of_pos])))
  have hph := h1.phase
  have hs : HistorySafe (sysOf envX t).env.fl 1 o.prevPhase exampleOps := by
    rw [hph]; exact exampleOps_safe
  have ho : HistoryOk (sysOf envX t).env.fl 1 o.prevPhase exampleOps := by
    rw [hph]; exact exampleOps_ok
  have hS := exactSys t
  have hf := Sys.exact_rounding hS
  have hpl := Sys.reached_play hf log2X hS.B h1.plays.1
  have hz : ¬ AtZeroBackward o := fun hz => by
    have := hz.2; rw [h1.diff] at this; norm_num at this
  obtain ⟨⟨o', ys⟩, e, -⟩ := Sys.history_ok hf hS.B (Sys.reached_safe hf log2X hS.B h1.plays.1 hz) hs
  refine ⟨o, o', ys, h1.plays, hy, ho, ?_, e, ?_⟩
  · intro op hop p d; simp [exampleOps] at hop; rcases hop with rfl | rfl | rfl <;> simp
  · rw [Sys.runOps_atoms hf hS.B hpl ho] at e
    rw [Sys.atoms_length e]; rfl

/-- C39, C41 apply: any built-in filter, any eight samples, any other memory; constant samples. -/
example (t : FilterType) (c : ℝ) (y : List ℂ) : ∃ o o' ys o2 ys2,
    runOps (sysOf envX t) o exampleOps = .ok (o', ys) ∧
    runOps (sysOf envX t) { o with prevY := y } exampleOps = .ok (o2, ys2) ∧
    |ys.getD 3 0 - ys2.getD 3 0| ≤ Real.exp (-0.29 * 4) * memDist (rLit t).length o.prevY y ∧
    |ys.getD 3 0 - dcGain (filterX t) * c| ≤ Real.exp (-0.29 * 4) *
      ∑ k ∈ Finset.range (rLit t).length,
        ‖2 * (filterX t).r.getD k 0 / (filterX t).z.getD k 0 * c‖ := by
  obtain ⟨o, o', ys, h1, hy, h2, h3, h4, h5⟩ := exampleRun t (List.replicate (1 * 2 ^ 3) c) (by simp)
  obtain ⟨y', ys', e1, e2, -, e4⟩ := C39_forget _ (exactSys t) log2X _ (C39_poles t) 1 3 o h1.1 y _ h2
    _ _ h4
  have e5 := C41_settles _ (exactSys t) log2X keepsX _ (C39_poles t) 1 3 c o h1 _ h2 h3 _ _ h4
  have hlen : (sysOf envX t).flt.r.length = (rLit t).length := by simp [sysOf, filterX]
  refine ⟨o, o', ys, _, ys', h4, e1, ?_, ?_⟩
  · have := e4 3 (by omega)
    rw [hlen] at this
    refine this.trans (le_of_eq ?_)
    norm_num
  · have := e5 3 (by omega)
    rw [hlen] at this
    refine this.trans (le_of_eq ?_)
    congr 1
    · norm_num
    · apply Finset.sum_congr rfl
      intro k hk
      have : o.prevY.getD k 0 = 0 := by
        rw [hy, List.getD_eq_getElem?_getD, List.getElem?_replicate]
        split <;> rfl
      rw [this, zero_sub, norm_neg, neg_mul, norm_neg]
      rfl

end Adwt.Props
