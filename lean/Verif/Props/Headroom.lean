import Verif.Proofs.HeadroomStored
import Verif.Props.Sensitive
import Verif.Props.Scratch
import Verif.Props.Stored

/-!
# C87: how much headroom an output needs
-/

set_option linter.unusedSectionVars false

namespace Adwt.Props

theorem waveAt_le {E : Env ℝ} {ws : List ℝ} {nw L : ℕ} {A : ℝ} (hws : ws.length = nw * 2 ^ L)
    (h : TablesWithin E ws nw L A) {w i : ℤ} (w0 : 0 ≤ w) (w1 : w < nw) (i0 : 0 ≤ i) (i1 : i < (L : ℤ) - 1)
    (u : ℝ) : |waveAt E ws L w i u| ≤ A := by
  have hl : 0 < (mipSamples E (waveformOf ws (2 ^ L) w.toNat) i.toNat).length := by
    rw [WavetableData.mipSamples_length E (WavetableData.waveformOf_length hws (by omega : w.toNat < nw)) _ (by omega)]; positivity
  unfold waveAt
  exact interp_bound (h _ (by omega) _ (by omega)) hl u

theorem mixture_le {E : Env ℝ} {ws : List ℝ} {nw L : ℕ} {A κ : ℝ} (hws : ws.length = nw * 2 ^ L)
    (h : TablesWithin E ws nw L A) {w : ℤ} (w0 : 0 ≤ w) (w1 : w < nw) {t : MipMapIndices ℝ} (ht : Sel L κ t)
    (u : ℝ) : |mixture E ws L w t u| ≤ κ * A := by
  have a := mul_le_mul_of_nonneg_left (waveAt_le hws h w0 w1 ht.i0 ht.i1 u) ht.w0
  have hA : 0 ≤ A := (abs_nonneg _).trans (waveAt_le hws h w0 w1 ht.i0 ht.i1 u)
  have b : t.weightUp * |waveAt E ws L w t.idxUp u| ≤ t.weightUp * A := by
    by_cases hz : t.weightUp = 0
    · rw [hz]; simp
    · obtain ⟨c1, c2⟩ := ht.up hz
      exact mul_le_mul_of_nonneg_left (waveAt_le hws h w0 w1 (by have := ht.i0; omega) c2 u) ht.w1
  unfold mixture
  refine (abs_add_le _ _).trans ?_
  rw [abs_mul, abs_mul, abs_of_nonneg ht.w0, abs_of_nonneg ht.w1]
  have c := mul_le_mul_of_nonneg_right ht.sum hA
  linarith

theorem signal_peak {E : Env ℝ} {ws : List ℝ} {nw L m : ℕ} {flt : Filter ℂ}
    (hz : ∀ k < flt.r.length, (flt.z.getD k 0).re < 0) {A κ : ℝ} (hκ : 0 ≤ κ)
    (hws : ws.length = nw * 2 ^ L) (hA : TablesWithin E ws nw L A) {w : ℕ → ℤ}
    (hw : ∀ i < m, 0 ≤ w i ∧ w i < nw) {t : ℕ → MipMapIndices ℝ} (ht : ∀ i < m, Sel L κ (t i))
    {x : ℝ} {d : ℕ → ℝ} (hm : 0 < m) :
    |filtered flt (playedW E ws L w t (unwrapped x d)) m| ≤ peakGain flt * (κ * A) := by
  have hA0 : 0 ≤ A := (abs_nonneg _).trans
    (waveAt_le hws hA (hw 0 hm).1 (hw 0 hm).2 (ht 0 hm).i0 (ht 0 hm).i1 0)
  refine filtered_peak hz
    (g := fun i τ => mixture E ws L (w i) (t i) (x + ∑ l ∈ Finset.range i, d l + τ * d i))
    (fun i _ => mixture_continuous.comp (by fun_prop)) ?_ ?_ (by positivity)
  · intro i _ u h0 h1
    unfold playedW
    rw [floor_mid h0 h1]
    unfold unwrapped
    rw [floor_mid h0 h1]
  · intro n hn u h0 h1
    unfold playedW
    rw [floor_mid h0 h1]
    exact mixture_le hws hA (hw n hn).1 (hw n hn).2 (ht n hn) _

/-- C87, exact arithmetic: however the phase moves, and whatever waveform is chosen before each sample, the
output never exceeds the peak of the tables times the peak gain of the filter, which is the area under the
absolute value of its impulse response. -/
theorem C87_exact (S : Sys ℝ ℂ) (hS : ExactSys S) (hl : Log2Spec S.env.log2f)
    (hz : ∀ k < S.flt.r.length, (S.flt.z.getD k 0).re < 0) (ws : List ℝ) (nw L : ℕ) (A : ℝ)
    (hA : TablesWithin S.env ws nw L A) (m : ℕ) (st sw : ℕ → Osc ℝ ℂ) (w : ℕ → ℤ) (dir : ℕ → Sys.Direction)
    (p y : ℕ → ℝ) (t : ℕ → MipMapIndices ℝ) (h : SwitchedRun S ws nw L m st sw w dir p y t) (n : ℕ)
    (hn : n < m) : |y n| ≤ peakGain S.flt * A := by
  have hf := Sys.exact_rounding hS
  have hid : ∀ i, i < m → IsPhase S.env.fl (p i) := fun i _ => by
    rw [hS.fl]; exact isPhase_id _
  rw [C72_switch S hS hl ws nw L m st sw w dir p y t h n hn]
  have := signal_peak (m := n + 1) hz (κ := 1) zero_le_one (plays_length h.plays) hA (w := w)
    (fun i hi => h.wave i (by omega)) (t := t)
    (fun i hi => run_sel hf hl hS.B h hid
      (fun hc _ hd _ e => (Sys.weight_one hS.fl hc hd e).1.le) (by omega))
    (x := (st 0).prevPhase) (d := stepOf dir (st 0).prevPhase p) (Nat.succ_pos n)
  push_cast at this
  rw [one_mul] at this
  exact this

/-- C87, float arithmetic: the same with every operation rounded, plus a thousandth and the rounding error
of the run. -/
theorem C87_float {C : Type} [Zero C] [Add C] [Sub C] [Mul C] [Div C]
    (S : Sys ℝ C) (val : C → ℂ) (ε : ℝ) (hS : FloatSys S val ε) (hl : Log2Spec S.env.log2f)
    (ws : List ℝ) (nw L : ℕ) (A Λ : ℝ)
    (hA : TablesWithin S.env ws nw L A) (hΛ : SlopesWithin S.env ws nw L Λ)
    (M0 : 1 / 2 ^ 40 ≤ A + Λ) (M1 : A + Λ ≤ 2 ^ 24)
    (m : ℕ) (st sw : ℕ → Osc ℝ C) (w : ℕ → ℤ) (dir : ℕ → Sys.Direction) (p y : ℕ → ℝ)
    (t : ℕ → MipMapIndices ℝ)
    (h : SwitchedRun S ws nw L m st sw w dir p y t) (hp : ∀ i < m, IsPhase S.env.fl (p i))
    (hd : ∀ i < m, 1 / 2 ^ 100 ≤ |(st (i + 1)).prevPhaseDiff|) (n : ℕ) (hn : n < m) :
    |y n| ≤ peakGain (valFilter val S.flt) * (1.001 * A) +
      ε * (A + Λ) * roundoffGain (valFilter val S.flt) 6.4 := by
  have hz : ∀ k < (valFilter val S.flt).r.length, ((valFilter val S.flt).z.getD k 0).re < 0 := by
    intro k hk
    unfold valFilter at hk ⊢
    rw [List.length_map, hS.len] at hk
    dsimp only
    rw [List.getD_eq_getElem?_getD, List.getElem?_map, List.getElem?_eq_getElem hk]
    have := (hS.poles _ (List.getElem_mem hk)).1
    show (val _).re < 0
    have h4 : (0 : ℝ) < 1 / 2 ^ 4 := by positivity
    linarith
  have := signal_peak (m := n + 1) hz (κ := 1.001) (by norm_num) (plays_length h.plays) hA (w := w)
    (fun i hi => h.wave i (by omega)) (t := t)
    (fun i hi => run_sel hS.fl hl hS.B h hp
      (fun hc _ hd _ e => (Sys.weight_facts hS hc hd e).2.2.1) (by omega))
    (x := (st 0).prevPhase) (d := trueStepOf S.env.fl dir (st 0).prevPhase p) (Nat.succ_pos n)
  push_cast at this
  have a := C72_float S val ε hS hl ws nw L A Λ hA hΛ M0 M1 m st sw w dir p y t h hp hd n hn
  have t1 := abs_sub_abs_le_abs_sub (y n) (filtered (valFilter val S.flt) (playedW S.env ws L w t
    (unwrapped (st 0).prevPhase (trueStepOf S.env.fl dir (st 0).prevPhase p))) (n + 1))
  linarith

/-- C87: the peak gains of the built-in filters, computed in exact arithmetic by the kernel, -/
theorem C87_gain (t : FilterType) : peakGain (filterX t) ≤ headroom t := by
  have := peak_builtin t
  have h : (0 : ℝ) < 1 / 2 ^ 12 := by positivity
  linarith

/-- and of the filters as the compiler stores them. -/
theorem C87_stored (t : FilterType) (flt : Filter ℂ) (h : StoredFilter (1 / 2 ^ 23) t flt) :
    peakGain flt ≤ headroom t := (peak_stored h).1

section
variable {rnd : ℝ → ℝ} [GoodRnd rnd]

/-- C87 for oscillators with any rounding of the arithmetic. -/
theorem C87_rounded (E : Env ℝ) (hf : Rounding rnd) (hE : E.fl = rnd)
    (hdb : ∀ x, |E.dbl x - x| ≤ |x| / 2 ^ 53) (hl : Log2Spec E.log2f)
    (ft : FilterType) (ws : List ℝ) (nw L : ℕ) (A Λ : ℝ)
    (hA : TablesWithin E ws nw L A) (hΛ : SlopesWithin E ws nw L Λ)
    (M0 : 1 / 2 ^ 40 ≤ A + Λ) (M1 : A + Λ ≤ 2 ^ 24)
    (sr dur : ℝ) (wt : WavetableData ℝ) (hb : Built E ws nw L sr dur wt)
    (o0 : Osc ℝ (CFl rnd)) (D : ℝ) (r : ℤ) (x : ℕ → ℝ)
    (hx : ∀ n, PhaseOk rnd (x n)) (hoff : ∀ n, OffDenormal (2 ^ L) (x n)) (hD : D ≠ 0)
    (w : ℕ → ℤ) (hw : ∀ n, 0 ≤ w n ∧ w n < nw) (dir : ℕ → Sys.Direction)
    (hstep : ∀ n, StepOk (dir n) (x n) (x (n + 1)))
    (hmin : ∀ n, 1 / 2 ^ 100 ≤ |Sys.dirDiff rnd (dir n) (x (n + 1)) (x n)|)
    (hslow : FallsSlowly L ⌊rnd (dur * sr)⌋ (stepsAlong rnd D dir x))
    (hclear : ClearOfChanges rnd L ⌊rnd (dur * sr)⌋ (stepsAlong rnd D dir x) x)
    (st sw : ℕ → Osc ℝ (CFl rnd)) (y : ℕ → ℝ)
    (hi : (sysRnd rnd E ft).init o0 (some wt) (x 0) D = .ok (st 0, r))
    (hset : ∀ n, (sysRnd rnd E ft).setWaveform (st n) (w n) = .ok (sw n))
    (hcall : ∀ n, (sysRnd rnd E ft).process (dir n) (sw n) [x (n + 1)] [0] = .ok (st (n + 1), [y n])) (n : ℕ) :
    |y n| ≤ peakGain (valFilter CFloat.val (sysRnd rnd E ft).flt) * (1.001 * A) +
        1 / 2 ^ 21 * (A + Λ) * roundoffGain (valFilter CFloat.val (sysRnd rnd E ft).flt) 6.4 := by
  subst hE
  have hS : FloatSys (sysRnd E.fl E ft) CFloat.val (1 / 2 ^ 21) := floatSysRnd (E := E) hf rfl hdb ft
  obtain ⟨s1, w1, y1, t, a1, a2, a3, a4, a5, a6⟩ := scratch_run (S := sysRnd E.fl E ft) (w := w) (dir := dir)
    (x := x) (d := stepsAlong E.fl D dir x) hS.fl hS.B hl hb hx hD hi hw hstep rfl (fun n => rfl)
    hslow hclear hoff
  have a5' : ∀ n, (s1 (n + 1)).prevPhaseDiff = Sys.dirDiff E.fl (dir n) (x (n + 1)) (x n) := a5
  have u1 := (calls_unique (m := n + 1) a1.symm (fun i _ => hset i) (fun i _ => hcall i)
    (fun i _ => a3 i) (fun i _ => a4 i) (Nat.le_succ n)).2 (Nat.lt_succ_self n)
  rw [u1.2]
  exact C87_float _ _ _ hS hl ws nw L A Λ hA hΛ M0 M1 (n + 1) s1 w1 w dir _ y1 t
    (a6 (n + 1)) (fun i _ => (hx _).2.2) (fun i _ => by rw [a5']; exact hmin i) n (Nat.lt_succ_self n)

end

/-- C87 for the library's oscillators on any machine with IEEE binary32 arithmetic, debug or release build,
any resampler: float phases that are zero or not subnormal, forwards or to and fro, any waveform chosen
before each sample. No output, ever, exceeds the peak of the tables by more than the headroom of the filter
chosen, apart from a thousandth and the rounding error. -/
theorem C87_builtin (E : Env ℝ) (hE : IeeeHost E) (ft : FilterType) (ws : List ℝ) (nw L : ℕ) (A Λ : ℝ)
    (hA0 : 0 ≤ A) (hA : TablesWithin E ws nw L A) (hΛ : SlopesWithin E ws nw L Λ)
    (M0 : 1 / 2 ^ 40 ≤ A + Λ) (M1 : A + Λ ≤ 2 ^ 24)
    (sr dur : ℝ) (wt : WavetableData ℝ) (hb : Built E ws nw L sr dur wt)
    (o0 : Osc ℝ CFloat) (D : ℝ) (r : ℤ) (x : ℕ → ℝ)
    (hx : ∀ n, 0 ≤ x n ∧ x n < 1 ∧ ieee32 (x n) = x n ∧ (x n = 0 ∨ 1 / 2 ^ 126 ≤ x n)) (hD : D ≠ 0)
    (w : ℕ → ℤ) (hw : ∀ n, 0 ≤ w n ∧ w n < nw) (dir : ℕ → Sys.Direction)
    (hstep : ∀ n, StepOk (dir n) (x n) (x (n + 1)))
    (hmin : ∀ n, 1 / 2 ^ 100 ≤ |Sys.dirDiff ieee32 (dir n) (x (n + 1)) (x n)|)
    (hslow : FallsSlowly L ⌊ieee32 (dur * sr)⌋ (stepsAlong ieee32 D dir x))
    (hclear : ClearOfChanges ieee32 L ⌊ieee32 (dur * sr)⌋ (stepsAlong ieee32 D dir x) x)
    (st sw : ℕ → Osc ℝ CFloat) (y : ℕ → ℝ)
    (hi : (sysRnd ieee32 E ft).init o0 (some wt) (x 0) D = .ok (st 0, r))
    (hset : ∀ n, (sysRnd ieee32 E ft).setWaveform (st n) (w n) = .ok (sw n))
    (hcall : ∀ n, (sysRnd ieee32 E ft).process (dir n) (sw n) [x (n + 1)] [0] = .ok (st (n + 1), [y n])) (n : ℕ) :
    |y n| ≤ 1.001 * headroom ft * A +
      1 / 2 ^ 21 * (A + Λ) * roundoffGain (valFilter CFloat.val (sysRnd ieee32 E ft).flt) 6.4 := by
  have h1 := C87_rounded E rounding_ieee32 hE.fl hE.dbl hE.log2 ft ws nw L A Λ hA hΛ M0 M1 sr dur wt hb o0 D r x
    (fun n => ⟨(hx n).1, (hx n).2.1, isPhase_ieee32 (hx n).2.2.1⟩)
    (fun n => normal_offDenormal (hx n).2.2.1 (hx n).1 (hx n).2.2.2 (hE.L100 hb)) hD w hw dir hstep
    hmin hslow hclear st sw y hi hset hcall n
  have h2 := C87_stored ft _ (C68_stored ft)
  have e : valFilter CFloat.val (sysRnd ieee32 E ft).flt = valFilter CFloat.val (sysF ft).flt := rfl
  rw [e] at h1 ⊢
  have := mul_le_mul_of_nonneg_right h2 (by positivity : 0 ≤ 1.001 * A)
  linarith

/-! ### the hypotheses are met -/

/-- The endless run of C84's example, for every built-in filter and two waveforms of 32 samples in
`[-1, 1]`: no output ever exceeds the headroom of the filter by more than the errors stated. -/
theorem headroomExample (ft : FilterType) (ws : List ℝ) (hws : ws.length = 2 * 2 ^ 5) (hv : ∀ x ∈ ws, |x| ≤ 1) :
    ∃ (wt : WavetableData ℝ) (o : Osc ℝ CFloat) (r : ℤ) (st sw : ℕ → Osc ℝ CFloat) (y : ℕ → ℝ),
      Built envI ws 2 5 44100 (1 / 256) wt ∧
      (sysF ft).init (sysF ft).fresh (some wt) (toAndFro 0) (1 / 32) = .ok (o, r) ∧ st 0 = o ∧
      (∀ n, (sysF ft).setWaveform (st n) (n % 2) = .ok (sw n)) ∧
      (∀ n, (sysF ft).process .kBidirectionnal (sw n) [toAndFro (n + 1)] [0] = .ok (st (n + 1), [y n])) ∧
      ∀ n, |y n| ≤ 1.001 * headroom ft + 1 / 2 ^ 21 * (1 + 64) *
        roundoffGain (valFilter CFloat.val (sysF ft).flt) 6.4 := by
  obtain ⟨wt, o, r, st, sw, y, t, hb, ho, a1, a2, a3, -⟩ := scratchExample ft ws hws hv
  have hph : ∀ n, PhaseOk envI.fl (toAndFro n) := fun n =>
    phaseOk_dyadic envI_ok.1 (n := 5) (by omega) (by norm_num)
  have habs : ∀ n, |Sys.dirDiff ieee32 .kBidirectionnal (toAndFro (n + 1)) (toAndFro n)| = 1 / 32 := by
    intro n
    rw [toAndFro_diff rounding_ieee32]
    split_ifs <;> norm_num [abs_of_pos, abs_of_neg]
  have hoct : IsOctave 5 0 (1 / 32 : ℝ) := ⟨by norm_num, by norm_num, Or.inl rfl, Or.inr (by norm_num)⟩
  have hok := hb.ok envI_ok.1 envI_ok.2.1
  have hs := scratch_octave (x := toAndFro) (d := stepsAlong ieee32 (1 / 32) (fun _ => .kBidirectionnal) toAndFro)
    (num := ⌊ieee32 ((1 : ℝ) / 256 * 44100)⌋) rounding_ieee32 hok.L2 (ieeeHostI.L100 hb) (i := 0) (Or.inl rfl) (fun n => by
      cases n with
      | zero => show IsOctave 5 0 |(1 / 32 : ℝ)|; rw [abs_of_pos (by norm_num)]; exact hoct
      | succ n =>
        show IsOctave 5 0 |Sys.dirDiff ieee32 .kBidirectionnal (toAndFro (n + 1)) (toAndFro n)|
        rw [habs]; exact hoct)
  refine ⟨wt, o, r, st, sw, y, hb, ho, a1, a2, a3, fun n => ?_⟩
  have := C87_builtin envI ieeeHostI ft ws 2 5 1 64 zero_le_one (tablesWithinI zero_le_one hv 2 5)
    (by have := slopesWithinI zero_le_one hv 2 5; norm_num at this; exact this)
    (by norm_num) (by norm_num) _ _ _ hb _ (1 / 32) r toAndFro
    (fun n => ⟨(hph n).1, (hph n).2.1, (hph n).2.2.1, by
      right
      unfold toAndFro
      have : (1 : ℝ) ≤ ((8 + n % 2 : ℕ) : ℝ) := by exact_mod_cast (by omega : 1 ≤ 8 + n % 2)
      have h8 : (1 : ℝ) / 2 ^ 5 ≤ ((8 + n % 2 : ℕ) : ℝ) / 2 ^ 5 := by gcongr
      refine le_trans ?_ h8
      norm_num⟩)
    (by norm_num) (fun n => n % 2) (fun n => by omega) (fun _ => .kBidirectionnal)
    (fun n => by
      show toAndFro (n + 1) ≠ toAndFro n
      intro h
      have := habs n
      rw [h] at this
      unfold Sys.dirDiff Sys.biDiff at this
      dsimp only at this
      rw [sub_self, rounding_ieee32.zero] at this
      norm_num at this)
    (fun n => by rw [habs]; norm_num) hs.1 hs.2 st sw y (by rw [a1]; exact ho) a2 a3 n
  rw [mul_one] at this
  exact this

end Adwt.Props
