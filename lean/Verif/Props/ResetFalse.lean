import Verif.Props.JumpLoud
import Verif.Props.Reset
import Verif.Spec.Scratch

/-!
# C102: `resetInternals` while a crossfade is in progress
-/

set_option linter.unusedSectionVars false

namespace Adwt.Props
open CrossFader WavetableData Seg MeasureTheory

/-- the last call of a fade, when it asks for the table the fade comes from -/
theorem cf_last_back {L : ℕ} {n i k : ℤ} {d : ℝ} (hL : 2 ≤ L) (hn : 1 ≤ n) (hd : 0 < d) (hik : i ≠ k)
    (h : IsOctave L i d) :
    (⟨n, octaveScale ℝ L, 1, i, k⟩ : CrossFader ℝ).newIndices envX d =
      .ok (⟨n, octaveScale ℝ L, 0, k, k⟩, ⟨k, 1, k, 0⟩) := by
  unfold CrossFader.newIndices
  rw [CrossFader.findMipMapIndex_eq hd, R.ok_bind]
  dsimp only
  rw [CrossFader.findLoop_of_octave hL h, if_pos (by simp), chk_true hik, R.ok_bind]
  unfold CrossFader.continueFade
  dsimp only
  have h1 : ¬ (i ≠ k ∧ i ≠ i) := fun h => h.2 rfl
  simp only [if_neg h1, sub_self, if_true]
  unfold CrossFader.fadeTuple
  rw [fadeX _ hn, R.ok_bind]
  dsimp only
  rw [if_neg (by omega), Int.cast_zero, zero_div, sub_zero]
  rfl

/-- the spike, farther on -/
theorem spike_wave2 (s : ℝ) (h0 : 3 / 8 ≤ s) (h1 : s < 1 / 2) : waveAt envX (spike 2) 4 0 1 s = 1 := by
  have e : waveAt envX (spike 2) 4 0 1 =
      interp ((List.range (4 * 2)).map fun i => if i = 2 then (-1 : ℝ) else 1) := by
    unfold waveAt
    rw [show (1 : ℤ).toNat = 1 from rfl, show (0 : ℤ).toNat = 0 from rfl, spike_mip (by norm_num)]
  have hlen : ((List.range (4 * 2)).map fun i => if i = 2 then (-1 : ℝ) else 1).length = 4 * 2 := by simp
  rw [e]
  unfold interp
  rw [hlen]
  have g0 : ((3 : ℤ) : ℝ) ≤ s * ((4 * 2 : ℕ) : ℝ) := by push_cast; linarith
  have g1 : s * ((4 * 2 : ℕ) : ℝ) < ((4 : ℤ) : ℝ) := by push_cast; linarith
  have k0 := Int.le_floor.2 g0
  have k1 := Int.floor_lt.2 g1
  rw [spike_cyc (q := 2) _ (by omega) (by omega), spike_cyc (q := 2) _ (by omega) (by omega), if_neg (by omega), if_neg (by omega)]
  ring

/-- C102: why a fade in progress matters. A crossfade of two samples; `init` starts a fade to the top octave,
`resetInternals` to a step an octave lower does not end it. The steps given to `resetInternals` and to the two calls
after it (3/16, 3/16, 3/32) fall by one octave, which would be slow enough, but the second sample after
`resetInternals` is wrong. -/
theorem C102_false :
    ∃ (ws : List ℝ) (sr dur : ℝ) (wt : WavetableData ℝ) (o0 o1 o2 o3 : Osc ℝ ℂ) (y1 y2 : ℝ)
      (t : MipMapIndices ℝ),
      (∀ s ∈ ws, |s| ≤ 1) ∧ Built envX ws 1 4 sr dur wt ∧
      (sysOf envX .kType1).init (sysOf envX .kType1).fresh (some wt) 0 (3 / 8) = .ok (o0, 0) ∧
      FadeLength o0 2 ∧
      (sysOf envX .kType1).resetInternals o0 (7 / 32) (3 / 16) = .ok o1 ∧
      (sysOf envX .kType1).process .kForward o1 [13 / 32] [0] = .ok (o2, [y1]) ∧
      (sysOf envX .kType1).process .kForward o2 [1 / 2] [0] = .ok (o3, [y2]) ∧
      FallsSlowly 4 2 (fun n => if n ≤ 1 then 3 / 16 else 3 / 32) ∧
      NextIndices (sysOf envX .kType1) o2 (3 / 32) t ∧
      y2 < output (nextMemory (filterX .kType1) o2.prevY (mixture envX ws 4 o2.crt t) (13 / 32) (3 / 32)) := by
  have hlen : (spike 2).length = 2 ^ 4 := by simp [spike]
  have hws1 : ∀ s ∈ spike 2, |s| ≤ 1 := by
    intro s hs
    unfold spike at hs
    obtain ⟨i, -, rfl⟩ := List.mem_map.1 hs
    split_ifs <;> norm_num
  have e38 : |(3 / 8 : ℝ)| = 3 / 8 := abs_of_pos (by norm_num)
  have e16 : |(3 / 16 : ℝ)| = 3 / 16 := abs_of_pos (by norm_num)
  have e32 : |(3 / 32 : ℝ)| = 3 / 32 := abs_of_pos (by norm_num)
  have octHi : IsOctave 4 2 (3 / 8 : ℝ) := by
    refine ⟨by norm_num, by norm_num, ?_, Or.inl (by norm_num)⟩
    right; rw [show (2 : ℤ).toNat = 2 from rfl]; norm_num
  have oct1 : IsOctave 4 1 (3 / 16 : ℝ) := by
    refine ⟨by norm_num, by norm_num, Or.inr ?_, Or.inr ?_⟩ <;> rw [show (1 : ℤ).toNat = 1 from rfl] <;> norm_num
  have oct0 : IsOctave 4 0 (3 / 32 : ℝ) := by
    refine ⟨le_rfl, by norm_num, Or.inl rfl, Or.inr ?_⟩
    norm_num
  have octMid : IsOctave 4 0 (1 / 10 : ℝ) := by
    refine ⟨le_rfl, by norm_num, Or.inl rfl, Or.inr ?_⟩
    norm_num
  obtain ⟨o0, hi0, a0, -⟩ := at_init' .kType1 (spike 2) 4 (by norm_num) (by norm_num) hlen 2 (by norm_num) (by norm_num)
    (p := 0) (d := 3 / 8) (by norm_num) (by norm_num) octMid
    (cf_up (by norm_num) (by norm_num) (by norm_num) (k := 2) (by rw [e38]; exact octHi) (by norm_num))
  obtain ⟨o1, hr1, a1, -⟩ := a0.reset (p' := 7 / 32) (d' := 3 / 16) (by norm_num) (by norm_num)
    (cf_back (n := 2) (i := 1) (l := 2) (L := 4) (by norm_num) (by norm_num) le_rfl (by norm_num)
      (by rw [e16]; exact oct1))
  obtain ⟨⟨o2, y1, hp1, a2⟩, -⟩ := a1.step (dir := .kForward) (p' := 13 / 32) (d' := 3 / 16)
    (by norm_num) (show Forward _ _ by unfold Forward; norm_num) (Or.inr (by norm_num))
    (by unfold Sys.dirDiff Sys.fwdDiff; norm_num)
    (cf_last_back (n := 2) (i := 1) (k := 2) (L := 4) (by norm_num) (by norm_num) (by norm_num)
      (by norm_num) (by rw [e16]; exact oct1))
  obtain ⟨⟨o3, y2, hp2, a3⟩, hn2⟩ := a2.step (dir := .kForward) (p' := 1 / 2) (d' := 3 / 32)
    (by norm_num) (show Forward _ _ by unfold Forward; norm_num) (Or.inr (by norm_num))
    (by unfold Sys.dirDiff Sys.fwdDiff; norm_num)
    (cf_down (n := 2) (i := 2) (k := 0) (L := 4) (by norm_num) (by norm_num) (by norm_num)
      (by rw [e32]; exact oct0) (by norm_num))
  have ed : (1 / 2 : ℝ) - 13 / 32 = 3 / 32 := by norm_num
  refine ⟨spike 2, 44100, ((2 : ℕ) : ℝ) / 44100, _, o0, o1, o2, o3, y1, y2, ⟨0, 0, 0 + 1, 1⟩, hws1,
    builtX (spike 2) 4 (by norm_num) (by norm_num) hlen 2 (by norm_num) (by norm_num), hi0, ?_, hr1, hp1, hp2,
    ?_, hn2, ?_⟩
  · obtain ⟨wt, w1, w2⟩ := a0.cf
    exact ⟨wt, w1, by rw [w2]; rfl⟩
  · intro k n hk _ i j hi hj
    dsimp only at hi hj
    by_cases hk1 : k ≤ 1
    · rw [if_pos hk1, e16] at hi
      have := hi.unique oct1
      have := hj.1
      omega
    · rw [if_neg hk1, e32] at hi
      have := hi.unique oct0
      have := hj.1
      omega
  have key := C101_error (sysOf envX .kType1) (exactSys .kType1) log2X (spike 2) 1 4 o2 a2.plays
    (by rw [a2.diff]; norm_num) .kForward (1 / 2) 0 (by rw [a2.phase]; norm_num) (by norm_num)
    (by rw [a2.phase]; norm_num) o3 [y2] hp2 ⟨0, 0, 0 + 1, 1⟩ (by rw [a2.phase, ed]; exact hn2)
    (by rw [a2.mip]; norm_num) 16 4 (by norm_num) (by rw [a2.mip]; rfl)
    (by rw [a2.phase]
        have := offDenormal_dyadic 13 5 4 (by norm_num) (by norm_num)
        norm_num at this ⊢
        exact this) (1 / 4)
    (by rw [a2.phase]
        have : ⌊(13 / 32 : ℝ) * ((4 : ℕ) : ℝ)⌋ = 1 := by rw [Int.floor_eq_iff]; norm_num
        rw [this]; norm_num)
    (by rw [a2.phase]; norm_num)
  have key := List.head_eq_of_cons_eq key
  rw [a2.phase, ed] at key
  dsimp only at key
  rw [zero_mul, one_mul, zero_add (missed _ _ _ _ _ _)] at key
  rw [key]
  have hpos : missed (filterX .kType1) (waveAt envX (spike 2) 4 0 1) (1 / 4) (2 / ((16 : ℕ) : ℝ)) (1 / 2) (3 / 32) < 0 := by
    obtain ⟨w0, -⟩ := spike_wave (L := 4) (q := 2) (by norm_num) (by norm_num)
    have hi : ∀ u : ℝ, impulse (filterX .kType1) u = (2 * r1 * Complex.exp (z1 * u)).re := by
      intro u
      unfold impulse
      rw [show filterX .kType1 = ⟨[r1], [z1]⟩ from filter1]
      simp
    have e : missed (filterX .kType1) (waveAt envX (spike 2) 4 0 1) (1 / 4) (2 / ((16 : ℕ) : ℝ)) (1 / 2) (3 / 32) =
        -∫ u in (1 : ℝ)..(4 / 3), (2 * r1 * Complex.exp (z1 * u)).re * (2 - 3 / 2 * u) := by
      unfold missed
      rw [show ((1 / 2 - (1 / 4 + 2 / ((16 : ℕ) : ℝ))) / (3 / 32) : ℝ) = 4 / 3 by norm_num,
        ← intervalIntegral.integral_neg]
      apply intervalIntegral.integral_congr
      intro u hu
      rw [Set.uIcc_of_le (by norm_num)] at hu
      dsimp only
      rw [hi, w0, spike_wave2 (1 / 2 - u * (3 / 32)) (by linarith [hu.2]) (by linarith [hu.1]),
        spike_wave2 (1 / 4 + 2 / ((16 : ℕ) : ℝ)) (by norm_num) (by norm_num)]
      push_cast
      ring
    rw [e, neg_lt_zero]
    apply intervalIntegral.intervalIntegral_pos_of_pos_on
    · apply Continuous.intervalIntegrable
      exact (Complex.continuous_re.comp (by fun_prop)).mul (by fun_prop)
    · intro u hu
      apply mul_pos (impulse1_pos (by linarith [hu.1]) (by linarith [hu.2]))
      linarith [hu.2]
    · norm_num
  rw [a2.crt]
  show output (nextMemory (filterX .kType1) _ (mixture envX (spike 2) 4 0 _) _ _) + _ < _
  have := add_lt_add_right hpos (output (nextMemory (filterX .kType1) o2.prevY
    (mixture envX (spike 2) 4 0 ⟨0, 0, 0 + 1, 1⟩) (13 / 32) (3 / 32)))
  rw [add_zero] at this
  exact this

end Adwt.Props
