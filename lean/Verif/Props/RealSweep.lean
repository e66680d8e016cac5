import Verif.Props.Drivers
import Verif.Props.Ovs
import Verif.Proofs.RealSweep

/-!
# C61, C73: the benchmarks with their actual numbers

44100 Hz, 204800 frames, a linear sweep from 20 Hz to 22050 Hz whose frequency is accumulated in floats.
-/

set_option linter.unusedSectionVars false

namespace Adwt.Props
open Drivers
variable {K C : Type} [Field K] [LinearOrder K] [IsStrictOrderedRing K] [FloorRing K]
variable [Zero C] [Add C] [Sub C] [Mul C] [Div C]

/-- the increment of the frequency in `m` steps -/
theorem sweep_step (m : ℕ) (hm : 1 ≤ m) (hm2 : m ≤ 2 ^ 24) :
    |ieee32 (ieee32 (ieee32 ((44100 : K) / 2) - ieee32 20) / ieee32 ((m : ℕ) : K)) - 22030 / m| ≤
      1 / 2 ^ 24 * (22030 / m) := by
  have hf := rounding_ieee32 (K := K)
  have h1 : ieee32 ((44100 : K) / 2) = 22050 := by
    have := hf.natCast 22050 (by norm_num); norm_num at this ⊢; exact this
  have h2 : ieee32 (20 : K) = 20 := by exact_mod_cast hf.natCast 20 (by norm_num)
  have h3 : ieee32 (22030 : K) = 22030 := by exact_mod_cast hf.natCast 22030 (by norm_num)
  rw [h1, h2, show (22050 : K) - 20 = 22030 by norm_num, h3, hf.natCast m hm2]
  have hm' : (1 : K) ≤ m := by exact_mod_cast hm
  have hm2' : (m : K) ≤ 2 ^ 24 := by exact_mod_cast hm2
  have hz : 0 ≤ (22030 : K) / m := by positivity
  have hlo : (1 : K) / 2 ^ 126 ≤ 22030 / m := by
    rw [div_le_div_iff₀ (by positivity) (by linarith)]
    have : (2 : K) ^ 24 ≤ 22030 * 2 ^ 126 := by norm_num
    linarith
  have hhi : (22030 : K) / m ≤ 22030 := div_le_self (by norm_num) hm'
  have he := ieee32_err (x := (22030 : K) / m) (by
    rw [abs_of_nonneg hz]
    have : (22030 : K) ≤ 2 ^ 127 := by norm_num
    linarith)
  rw [abs_of_nonneg hz, max_eq_left hlo] at he
  exact he

/-- C61: the first benchmark as shipped (204800 frames at 44100 Hz, sweep from 20 Hz to 22050 Hz, initial
state (0.99, 0.01)), and the profiling program, which is the same with another filter: the frequency
accumulated in floats stays below half the samplerate, so one pass succeeds with assertions enabled, for
every wavetable and every block size, and fills all blocks. -/
theorem C61_shipped (S : Sys K C) (he : S.env.fl = ieee32) (hl : Log2Spec S.env.log2f) (hB : 0 < S.B)
    (nw L : ℕ) (ws : List K) (bsr dur : K) (wt : WavetableData K) (hb : Built S.env ws nw L bsr dur wt)
    (bs : ℕ) :
    ∃ o ys, bench S (some wt) (ieee32 (99 / 100)) (ieee32 (1 / 100)) 44100 204800 bs = .ok (o, ys) ∧
      ys.length = 204800 / bs * bs := by
  have hg := rounding_ieee32 (K := K)
  have h34 : ieee32 (3 / 4 : K) = 3 / 4 := by
    have := hg.dyadic 3 2 (by norm_num); norm_num at this ⊢; exact this
  have h98 : ieee32 ((255 : K) / 256) = 255 / 256 := by
    have := hg.dyadic 255 8 (by norm_num); norm_num at this ⊢; exact this
  have p1 : (3 : K) / 4 ≤ ieee32 (99 / 100) := hg.ge_of_ge h34 (by norm_num)
  have p2 : ieee32 ((99 : K) / 100) ≤ 255 / 256 := hg.le_of_le h98 (by norm_num)
  have hp : PhaseOk ieee32 (ieee32 ((99 : K) / 100)) :=
    ⟨by linarith [show (0 : K) < 3 / 4 by norm_num], lt_of_le_of_lt p2 (by norm_num), isPhase_ieee32 (hg.idem _)⟩
  have hd : 0 < ieee32 ((1 : K) / 100) := hg.pos_of_ge 7 (by norm_num)
  have h20 : ieee32 (20 : K) = 20 := by exact_mod_cast hg.natCast 20 (by norm_num)
  have hst := sweep_step (K := K) (204799 + 1) (by norm_num) (by norm_num)
  obtain ⟨step, hstep⟩ : ∃ s : K, s = ieee32 (ieee32 (ieee32 ((44100 : K) / 2) - ieee32 20) /
    ieee32 ((204799 + 1 : ℕ) : K)) := ⟨_, rfl⟩
  rw [← hstep] at hst
  have hst := abs_le.1 hst
  norm_num at hst
  have s0 : (10756 : K) / 100000 < step := by norm_num; linarith
  have s1 : step < (10757 : K) / 100000 := by norm_num; linarith
  have spos : 0 ≤ step := by linarith [show (0 : K) < 10756 / 100000 by norm_num]
  have hlow : (1 : K) / 4096 ≤ ieee32 (20 / 44100) := hg.ge_of_ge (by
    have := hg.inv_pow 12; norm_num at this ⊢; exact this) (by norm_num)
  have htop : ∀ f : K, f ≤ 22045 → ieee32 (f / 44100) ≤ 32767 / 65536 := fun f hf => hg.le_of_le (by
    have := hg.dyadic 32767 16 (by norm_num); norm_num at this ⊢; exact this) (by
      rw [div_le_div_iff₀ (by norm_num) (by norm_num)]; linarith)
  refine C61_benchmark S he hl hB nw L ws bsr dur wt hb _ _ hp
    (lt_of_lt_of_le (by norm_num) p1) hd 44100 (by norm_num) 204799 bs ?_ ?_ ?_
  · rw [← hstep]; exact spos
  · rw [h20]
    exact ⟨lt_of_lt_of_le (by norm_num) hlow, lt_of_le_of_lt (htop 20 (by norm_num)) (by norm_num)⟩
  · rw [← hstep, h20]
    intro f hf
    have hm := ramp_between hg spos 204799 20 h20 f (List.mem_of_getLast? hf)
    have hfe := ramp_last 204798 hf
    have hend := sweep_end s0 s1
    rw [← hfe] at hend
    exact ⟨lt_of_lt_of_le (by norm_num) (hlow.trans (hg.mono (div_le_div_of_nonneg_right hm.1 (by norm_num)))),
      lt_of_le_of_lt (htop f hend) (by norm_num)⟩

/-- C73: the JUCE benchmark as shipped, in a release build: one pass succeeds for every waveform of `2^n`
samples bounded by `A` and every block size. -/
theorem C73_shipped {D : Type} (E : Env ℝ) (hE : E.fl = ieee32) (hd : E.dbg = false) (initD : D → ℕ → D)
    (down : D → List ℝ → ℕ → D × List ℝ) (o : Ovs.OvsOsc ℝ D) (ws : List ℝ) (n : ℕ)
    (hlen : ws.length = 2 ^ n) (hn : n ≤ 24) (A : ℝ) (hA : A ≤ 2 ^ 90) (hws : ∀ w ∈ ws, |w| ≤ A)
    (b : ℕ) (hb : 0 < b) :
    ∃ o' outs, Ovs.juceBench E initD down o ws 44100 204800 b = .ok (some (o', outs)) ∧
      outs.length = 204800 / b := by
  have hg := rounding_ieee32 (K := ℝ)
  have h20 : ieee32 (20 : ℝ) = 20 := by exact_mod_cast hg.natCast 20 (by norm_num)
  have h8 : ieee32 ((44100 : ℝ) * 8) = 352800 := by
    have := hg.natCast 352800 (by norm_num); norm_num at this ⊢; exact this
  have hst := sweep_step (K := ℝ) (204800 * 8) (by norm_num) (by norm_num)
  obtain ⟨step, hstep⟩ : ∃ s : ℝ, s = ieee32 (ieee32 (ieee32 ((44100 : ℝ) / 2) - ieee32 20) /
    ieee32 ((204800 * 8 : ℕ) : ℝ)) := ⟨_, rfl⟩
  rw [← hstep] at hst
  have hst := abs_le.1 hst
  norm_num at hst
  have s0 : (0.0134 : ℝ) < step := by norm_num; linarith
  have s1 : step < (0.0135 : ℝ) := by norm_num; linarith
  norm_num at s0 s1
  refine C73_bench E hE hd initD down o ws n hlen hn A hA hws 44100 (by rw [h8]; norm_num) 204800 b hb
    (by norm_num) ?_ ?_
  · rw [← hstep]; linarith
  · rw [← hstep, h20, h8]
    intro f hf
    have hfe := ramp_last 1638398 hf
    have hc := (ramp_crude (K := ℝ) (x := 20) (M := 65536) (step := step) (by linarith)
      (by norm_num) (by norm_num) (by norm_num) 1638398 (by norm_num; linarith) (by norm_num; linarith)
      1638398 le_rfl).2
    rw [← hfe] at hc
    norm_num at hc
    linarith

/-- a falling saw of `N` samples -/
noncomputable def fallingSaw (N : ℕ) : List ℝ := (List.range N).map fun i : ℕ => 1 - 2 * (i : ℝ) / N

theorem fallingSaw_bound (N : ℕ) : ∀ w ∈ fallingSaw N, |w| ≤ 1 := by
  intro w hw
  unfold fallingSaw at hw
  obtain ⟨i, hi, rfl⟩ := List.mem_map.1 hw
  have hi' : (i : ℝ) < N := by exact_mod_cast List.mem_range.1 hi
  have h0 : (0 : ℝ) ≤ i := by positivity
  have h1 : 0 ≤ 2 * (i : ℝ) / N := div_nonneg (by positivity) (by linarith)
  have h2 : 2 * (i : ℝ) / N ≤ 2 := by
    rw [div_le_iff₀ (by linarith)]; linarith
  rw [abs_le]
  constructor <;> linarith

/-- the hypotheses of `C73_shipped` are met by a saw of 2048 samples -/
example (b : ℕ) (hb : 0 < b) : ∃ o' outs, Ovs.juceBench (ovsEnv false) (fun _ _ => ()) ovsDown ovsFresh
    (fallingSaw 2048) 44100 204800 b = .ok (some (o', outs)) ∧ outs.length = 204800 / b :=
  C73_shipped (ovsEnv false) rfl rfl _ _ _ _ 11 (by rw [fallingSaw, List.length_map, List.length_range]; rfl)
    (by norm_num) 1 (by norm_num) (fallingSaw_bound _) b hb

/-- `C61_shipped` applies: every waveform of 2048 samples, every built-in filter, every block size. -/
example (t : FilterType) (ws : List ℝ) (h : ws.length = 2048) (bs : ℕ) : ∃ wt o ys,
    WavetableData.build envI ws 1 44100 (1 / 256) = .ok (some wt) ∧
    bench (sysOf envI t) (some wt) (ieee32 (99 / 100)) (ieee32 (1 / 100)) 44100 204800 bs = .ok (o, ys) ∧
      ys.length = 204800 / bs * bs := by
  have hf := envI_ok.1
  have h44 : IsRate envI.fl (44100 : ℝ) := by
    have := hf.isRate 44100 (by norm_num); simpa using this
  have e : (1 / 256 * 44100 : ℝ) = ((44100 : ℤ) : ℝ) / 2 ^ 8 := by norm_num
  have hd : (-2 ^ 31 : ℝ) ≤ envI.fl (1 / 256 * 44100) ∧ envI.fl (1 / 256 * 44100 : ℝ) < 2 ^ 31 := by
    rw [e, hf.dyadic 44100 8 (by norm_num)]; norm_num
  obtain ⟨wt, hw⟩ := C02_succeeds _ hf envI_ok.2.1 envI_ok.2.2 11 (by norm_num) (by norm_num) 1
    (by norm_num) ws (by simpa using h) 44100 (1 / 256) (by norm_num) h44 hd
  have hb : Built envI ws 1 11 44100 (1 / 256) wt := by
    refine ⟨h44, ?_, by simpa using h, hw⟩
    rw [e, hf.dyadic 44100 8 (by norm_num)]; norm_num
  obtain ⟨o, ys, e1, e2⟩ := C61_shipped (sysOf envI t) rfl envI_ok.2.1 (by norm_num [sysOf]) 1 11 ws 44100 (1 / 256)
    wt hb bs
  exact ⟨wt, o, ys, hw, e1, e2⟩

end Adwt.Props
