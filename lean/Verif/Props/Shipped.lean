import Verif.Props.Passes
import Verif.Proofs.ExactSweep

/-!
# C67: the first benchmark as shipped, second pass

The sweep of 204800 frames at 44100 Hz ends near phase 0.4147, less than half a cycle after phase 0, where
the next pass starts.
-/

set_option linter.unusedSectionVars false

namespace Adwt.Props
open Drivers
variable {K C : Type} [Field K] [LinearOrder K] [IsStrictOrderedRing K] [FloorRing K]
variable [Zero C] [Add C] [Sub C] [Mul C] [Div C]

/-- the sum of the rounded quotients -/
theorem sum_quot (fs : List K) (h : ∀ f ∈ fs, 0 ≤ f ∧ f ≤ 22050) :
    |(fs.map fun f => ieee32 (f / 44100)).sum - fs.sum / 44100| ≤ fs.length / 2 ^ 25 := by
  induction fs with
  | nil => simp
  | cons f fs ih =>
    have ih := ih fun g hg => h g (by simp [hg])
    obtain ⟨h0, h1⟩ := h f (by simp)
    have hz : 0 ≤ f / 44100 := div_nonneg h0 (by norm_num)
    have h2 : f / 44100 ≤ 1 / 2 := by rw [div_le_div_iff₀ (by norm_num) (by norm_num)]; linarith
    have he := ieee32_err (x := f / 44100) (by
      rw [abs_of_nonneg hz]; exact h2.trans (by norm_num))
    have he : |ieee32 (f / 44100) - f / 44100| ≤ 1 / 2 ^ 25 := by
      refine he.trans ?_
      rw [abs_of_nonneg hz]
      refine (mul_le_mul_of_nonneg_left (max_le h2 (by norm_num)) (by positivity)).trans ?_
      norm_num
    simp only [List.map_cons, List.sum_cons, List.length_cons]
    have := abs_add_le (ieee32 (f / 44100) - f / 44100)
      ((fs.map fun f => ieee32 (f / 44100)).sum - fs.sum / 44100)
    rw [show ieee32 (f / 44100) - f / 44100 + ((fs.map fun f => ieee32 (f / 44100)).sum - fs.sum / 44100) =
      ieee32 (f / 44100) + (fs.map fun f => ieee32 (f / 44100)).sum - (f + fs.sum) / 44100 by ring] at this
    push_cast
    rw [add_div (fs.length : K)]
    linarith

/-- the hypotheses on the sweep, with its actual numbers -/
theorem shipped_sweep : ∃ step : K,
    step = ieee32 (ieee32 (ieee32 ((44100 : K) / 2) - ieee32 20) / ieee32 ((204799 + 1 : ℕ) : K)) ∧
    0 ≤ step ∧ |step - 22030 / 204800| ≤ 1 / 10 ^ 8 ∧ StepRange (ieee32 (ieee32 20 / (44100 : K))) ∧
    (∀ f ∈ (ramp ieee32 step (ieee32 20) 204799).getLast?, StepRange (ieee32 (f / (44100 : K))) ∧ f ≤ 22045) := by
  have hg := rounding_ieee32 (K := K)
  have h20 : ieee32 (20 : K) = 20 := by exact_mod_cast hg.natCast 20 (by norm_num)
  have hst := sweep_step (K := K) (204799 + 1) (by norm_num) (by norm_num)
  obtain ⟨step, hstep⟩ : ∃ s : K, s = ieee32 (ieee32 (ieee32 ((44100 : K) / 2) - ieee32 20) /
    ieee32 ((204799 + 1 : ℕ) : K)) := ⟨_, rfl⟩
  rw [← hstep] at hst
  have hclose : |step - 22030 / 204800| ≤ 1 / 10 ^ 8 := by
    refine (le_of_eq ?_).trans (hst.trans ?_) <;> norm_num
  have hst := abs_le.1 hst
  norm_num at hst
  have s0 : (10756 : K) / 100000 < step := by norm_num; linarith
  have s1 : step < (10757 : K) / 100000 := by norm_num; linarith
  have spos : 0 ≤ step := by linarith [show (0 : K) < 10756 / 100000 by norm_num]
  have hlow : (1 : K) / 4096 ≤ ieee32 (20 / 44100) := hg.ge_of_ge (by
    have := hg.inv_pow 12; norm_num at this ⊢; exact this) (by norm_num)
  have htop : ∀ f : K, f ≤ 22045 → ieee32 (f / 44100) ≤ 32767 / 65536 := fun f hf => hg.le_of_le (by
    have := hg.dyadic 32767 16 (by norm_num); norm_num at this ⊢; exact this) (by
      rw [div_le_div_iff₀ (by norm_num) (by norm_num)]; linarith)
  refine ⟨step, hstep, spos, hclose, ?_, ?_⟩
  · rw [h20]
    exact ⟨lt_of_lt_of_le (by norm_num) hlow, lt_of_le_of_lt (htop 20 (by norm_num)) (by norm_num)⟩
  · rw [h20]
    intro f hf
    have hm := ramp_between hg spos 204799 20 h20 f (List.mem_of_getLast? hf)
    have hfe := ramp_last 204798 hf
    have hend := sweep_end s0 s1
    rw [← hfe] at hend
    exact ⟨⟨lt_of_lt_of_le (by norm_num)
      (hlow.trans (hg.mono (div_le_div_of_nonneg_right hm.1 (by norm_num)))),
      lt_of_le_of_lt (htop f hend) (by norm_num)⟩, hend⟩

/-- the phase at the end of the sweep -/
theorem shipped_end : ∃ phases : List K,
    generateLinearSweepPhase ieee32 (ieee32 20) (ieee32 (44100 / 2)) 44100 204800 = .ok phases ∧
    phases.length = 204800 ∧ 39 / 100 < phases.getLastD 0 ∧ phases.getLastD 0 < 44 / 100 := by
  have hg := rounding_ieee32 (K := K)
  have h20 : ieee32 (20 : K) = 20 := by exact_mod_cast hg.natCast 20 (by norm_num)
  obtain ⟨step, hstep, spos, hclose, hs0, hs1⟩ := shipped_sweep (K := K)
  have hsw := linear_range (K := K) (hg.idem (20 : K)) (by norm_num) spos 204799 hs0 fun f hf => (hs1 f hf).1
  refine ⟨_, rfl, ?_, ?_⟩
  · rw [List.length_cons, accumulate_length, List.length_map, ramp_length]
  rw [← hstep, h20, List.getLastD_cons]
  rw [h20] at hsw hs1
  have hz : PhaseOk ieee32 (0 : K) := ⟨le_rfl, by norm_num, hg.zero_ph⟩
  obtain ⟨c, hc⟩ := C61_drift (0 : K) hz _ hsw
  have hok := blockSafe_last hz (C61_legal 0 hz _ hsw .kForward)
  have hq := sum_quot (ramp ieee32 step (20 : K) 204799) (by
    intro f hf
    have hm := ramp_between hg spos 204799 20 h20 f hf
    refine ⟨(by norm_num : (0 : K) ≤ 20).trans hm.1, ?_⟩
    obtain ⟨l, hl⟩ : ∃ l, (ramp ieee32 step (20 : K) 204799).getLast? = some l := by
      cases h : (ramp ieee32 step (20 : K) 204799).getLast? with
      | none => rw [List.getLast?_eq_none_iff] at h; rw [h] at hf; simp at hf
      | some l => exact ⟨l, rfl⟩
    have h2 := (hs1 l (by rw [hl]; rfl)).2
    have := hm.2 l (by rw [hl]; rfl)
    linarith)
  rw [sweep_sum hclose, ramp_length] at hq
  rw [List.length_map, ramp_length] at hc
  generalize (accumulate ieee32 (0 : K) _).getLastD 0 = x at hc hok
  generalize ((ramp ieee32 step (20 : K) 204799).map fun f => ieee32 (f / 44100)).sum = s at hq hc
  have hq := abs_le.1 hq
  have hc := abs_le.1 hc
  norm_num at hq hc
  have h0 := hok.1
  have h1 := hok.2.1
  have c1 : c ≤ 51205 := by
    by_contra hne
    have : (51206 : K) ≤ c := by exact_mod_cast (by omega : 51206 ≤ c)
    linarith
  have c2 : 51205 ≤ c := by
    by_contra hne
    have : (c : K) ≤ 51204 := by exact_mod_cast (by omega : c ≤ 51204)
    linarith
  rw [show c = 51205 by omega] at hc
  norm_num at hc ⊢
  constructor <;> linarith

/-- C67: the first benchmark as shipped (204800 frames at 44100 Hz, sweep from 20 Hz to 22050 Hz, initial
state (0.99, 0.01)), in a build with assertions: the first pass succeeds (`C61_shipped`), the second one
aborts, for every wavetable and every block size that divides the number of frames, as the shipped ones
(16 to 2048) do. -/
theorem C67_shipped (S : Sys K C) (he : S.env.fl = ieee32) (hl : Log2Spec S.env.log2f) (hB : 0 < S.B)
    (hdbg : S.env.dbg = true)
    (nw L : ℕ) (ws : List K) (bsr dur : K) (wt : WavetableData K) (hb : Built S.env ws nw L bsr dur wt)
    (bs : ℕ) (hbs : bs ∣ 204800) (passes : ℕ) (hpass : 2 ≤ passes) :
    benchRun S (some wt) (ieee32 (99 / 100)) (ieee32 (1 / 100)) 44100 204800 bs passes =
      .error .assertFail := by
  have hg := rounding_ieee32 (K := K)
  have h34 : ieee32 (3 / 4 : K) = 3 / 4 := by
    have := hg.dyadic 3 2 (by norm_num); norm_num at this ⊢; exact this
  have h98 : ieee32 ((255 : K) / 256) = 255 / 256 := by
    have := hg.dyadic 255 8 (by norm_num); norm_num at this ⊢; exact this
  have p1 : (3 : K) / 4 ≤ ieee32 (99 / 100) := hg.ge_of_ge h34 (by norm_num)
  have p2 : ieee32 ((99 : K) / 100) ≤ 255 / 256 := hg.le_of_le h98 (by norm_num)
  have hp : PhaseOk ieee32 (ieee32 ((99 : K) / 100)) :=
    ⟨by linarith [show (0 : K) < 3 / 4 by norm_num], lt_of_le_of_lt p2 (by norm_num), isPhase_ieee32 (hg.idem _)⟩
  have hd : 0 < ieee32 ((1 : K) / 100) := hg.pos_of_ge 7 (by norm_num)
  obtain ⟨step, hstep, spos, -, hs0, hs1⟩ := shipped_sweep (K := K)
  obtain ⟨phases, hph, hlen, -, hlast⟩ := shipped_end (K := K)
  refine C67_second_pass S he hl hB hdbg nw L ws bsr dur wt hb _ _ hp (le_trans (by norm_num) p1) hd 44100
    (by norm_num) 204799 bs (Nat.pos_of_dvd_of_pos hbs (by norm_num)) (Nat.le_of_dvd (by norm_num) hbs) ?_ hs0 ?_
    phases hph ?_ passes hpass
  · rw [← hstep]; exact spos
  · rw [← hstep]; exact fun f hf => (hs1 f hf).1
  · rw [show (204799 + 1) / bs * bs = 204800 from Nat.div_mul_cancel hbs, ← hlen, List.take_length]
    exact hlast.trans_le (by norm_num)

/-- `C67_shipped` applies: every waveform of 2048 samples, every built-in filter, block size 512. -/
example (t : FilterType) (ws : List ℝ) (h : ws.length = 2048) : ∃ wt,
    WavetableData.build envI ws 1 44100 (1 / 256) = .ok (some wt) ∧
    benchRun (sysOf envI t) (some wt) (ieee32 (99 / 100)) (ieee32 (1 / 100)) 44100 204800 512 2 =
      .error .assertFail := by
  have hf := envI_ok.1
  have h44 : IsRate envI.fl (44100 : ℝ) := by
    have := hf.isRate 44100 (by norm_num); simpa using this
  have e : (1 / 256 * 44100 : ℝ) = ((44100 : ℤ) : ℝ) / 2 ^ 8 := by norm_num
  have hd : (-2 ^ 31 : ℝ) ≤ envI.fl (1 / 256 * 44100) ∧ envI.fl (1 / 256 * 44100 : ℝ) < 2 ^ 31 := by
    rw [e, hf.dyadic 44100 8 (by norm_num)]; norm_num
  obtain ⟨wt, hw⟩ := C02_succeeds _ hf envI_ok.2.1 envI_ok.2.2 11 (by norm_num) (by norm_num) 1
    (by norm_num) ws (by simpa using h) 44100 (1 / 256) (by norm_num) h44 hd
  have hb : Built envI ws 1 11 44100 (1 / 256) wt := by
    refine ⟨h44, ?_, by simpa using h, hw⟩
    rw [e, hf.dyadic 44100 8 (by norm_num)]; norm_num
  exact ⟨wt, hw, C67_shipped (sysOf envI t) rfl envI_ok.2.1 (by norm_num [sysOf]) rfl 1 11 ws 44100 (1 / 256)
    wt hb 512 (by norm_num) 2 le_rfl⟩

end Adwt.Props
