import Verif.Props.Safety
import Verif.Proofs.ToneDrive
import Verif.Props.HoldExact
import Verif.Props.Tests

/-!
# C27 with default settings: a steady backward tone that reads out of bounds
-/

set_option linter.unusedSectionVars false

namespace Adwt.Props
open Adwt WavetableData CrossFader Drivers

variable {K C : Type} [Field K] [LinearOrder K] [IsStrictOrderedRing K] [FloorRing K]
variable [Zero C] [Add C] [Sub C] [Mul C] [Div C]

/-- The phases of a tone of `-d` cycles per sample that starts at phase 0: `n` phases in `[0, 1)`, the first of them
after one step. -/
def backwardTone (d : K) (n : ℕ) : List K := (List.range n).map fun k => Int.fract (-((k + 1 : ℕ) * d))

theorem fract_dyadic (j m k : ℕ) : Int.fract (-((k : K) * ((j : K) / 2 ^ m))) =
    ((-(k * j : ℤ) % (2 ^ m : ℕ) : ℤ) : K) / 2 ^ m := by
  have h := Int.fract_div_intCast_eq_div_intCast_mod (k := K) (m := -(k * j : ℤ)) (n := 2 ^ m)
  push_cast at h ⊢
  rw [← h]
  congr 1; ring

theorem phaseOk_fract {fl : K → K} (hf : Rounding fl) {j m : ℕ} (hm : m ≤ 24) (k : ℕ) :
    PhaseOk fl (Int.fract (-((k : K) * ((j : K) / 2 ^ m)))) := by
  refine ⟨Int.fract_nonneg _, Int.fract_lt_one _, ?_⟩
  rw [fract_dyadic]
  have h1 := Int.emod_nonneg (-(k * j : ℤ)) (b := (2 ^ m : ℕ)) (by positivity)
  have h2 := Int.emod_lt_of_pos (-(k * j : ℤ)) (b := (2 ^ m : ℕ)) (by positivity)
  have h3 : (2 : ℤ) ^ m ≤ 2 ^ 24 := pow_le_pow_right₀ (by norm_num) hm
  obtain ⟨a, ha⟩ := Int.eq_ofNat_of_zero_le h1
  rw [ha] at h2 ⊢
  push_cast at h2
  have h4 : (a : ℤ) < 2 ^ 24 := lt_of_lt_of_le h2 h3
  rw [Int.cast_natCast]
  exact hf.dyadic_ph a m (by have : a < 2 ^ 24 := by exact_mod_cast h4
                             omega)

theorem fract_back {q : K} (h0 : 0 < q) (h1 : q < 1) (k : ℕ) :
    Int.fract (-(((k + 1 : ℕ) : K) * q)) - Int.fract (-((k : K) * q)) = -q ∨
    Int.fract (-(((k + 1 : ℕ) : K) * q)) - Int.fract (-((k : K) * q)) = 1 - q := by
  have e : -(((k + 1 : ℕ) : K) * q) = -((k : K) * q) - q := by push_cast; ring
  have a0 := Int.fract_nonneg (-((k : K) * q))
  have a1 := Int.fract_lt_one (-((k : K) * q))
  by_cases h : q ≤ Int.fract (-((k : K) * q))
  · left
    have : Int.fract (-(((k + 1 : ℕ) : K) * q)) = Int.fract (-((k : K) * q)) - q := by
      rw [Int.fract_eq_iff]
      refine ⟨by linarith, by linarith, ⌊-((k : K) * q)⌋, ?_⟩
      rw [e]; unfold Int.fract; ring
    rw [this]; ring
  · right
    have : Int.fract (-(((k + 1 : ℕ) : K) * q)) = Int.fract (-((k : K) * q)) - q + 1 := by
      rw [Int.fract_eq_iff]
      refine ⟨by linarith, by linarith, ⌊-((k : K) * q)⌋ - 1, ?_⟩
      rw [e]; unfold Int.fract; push_cast; ring
    rw [this]; ring

theorem biDiff_back {fl : K → K} (hf : Rounding fl) {j m : ℕ} (hm : m ≤ 24) (hj : 0 < j) (hj4 : 4 * j < 2 ^ m) (k : ℕ) :
    Sys.biDiff fl (Int.fract (-(((k + 1 : ℕ) : K) * ((j : K) / 2 ^ m)))) (Int.fract (-((k : K) * ((j : K) / 2 ^ m)))) =
      -((j : K) / 2 ^ m) := by
  have hq0 : (0 : K) < (j : K) / 2 ^ m := by positivity
  have hq4 : (j : K) / 2 ^ m < 1 / 4 := by
    rw [div_lt_div_iff₀ (by positivity) (by norm_num)]
    have : ((4 * j : ℕ) : K) < ((2 ^ m : ℕ) : K) := by exact_mod_cast hj4
    push_cast at this; linarith
  have h24 : 2 ^ m ≤ 2 ^ 24 := Nat.pow_le_pow_right (by norm_num) hm
  have f1 : fl (-((j : K) / 2 ^ m)) = -((j : K) / 2 ^ m) := by
    have := hf.dyadic (-(j : ℤ)) m (by rw [abs_neg, abs_of_nonneg (by positivity)]; norm_cast; omega)
    push_cast at this; rwa [neg_div] at this
  have f2 : fl (1 - (j : K) / 2 ^ m) = 1 - (j : K) / 2 ^ m := by
    have := hf.dyadic (2 ^ m - (j : ℤ)) m (by
      have : (2 : ℤ) ^ m ≤ 2 ^ 24 := by exact_mod_cast h24
      have : 4 * (j : ℤ) < 2 ^ m := by exact_mod_cast hj4
      rw [abs_of_nonneg (by omega)]; omega)
    push_cast at this
    rwa [sub_div, div_self (by positivity)] at this
  unfold Sys.biDiff
  dsimp only
  rcases fract_back hq0 (by linarith) k with h | h
  · rw [h, f1, if_neg (by linarith), if_neg (by linarith)]
  · rw [h, f2, if_neg (by linarith), if_pos (by linarith)]
    rw [show (1 - (j : K) / 2 ^ m - 1) = -((j : K) / 2 ^ m) by ring, f1]

/-- the lower table of a sample, in terms of the new state of the crossfader -/
theorem idx_min {E : Env K} (hf : Rounding E.fl) {c c' : CrossFader K} (h : c.Inv) {d : K} (hd : 0 < d)
    {t : MipMapIndices K} (e : c.newIndices E d = .ok (c', t)) :
    t.idx = min (c.stepD d).prevIdx (c.stepD d).nextIdx := by
  obtain ⟨t', e', ht⟩ := newIndices_eq hf h hd
  have htt : t = t' := by rw [e] at e'; exact congrArg (fun x => x.2) (Except.ok.inj e')
  rw [htt]
  unfold stepD
  rcases ht with ⟨h1, h2, ht⟩ | ⟨-, f, -, ht⟩
  · have hc : c.nextState (findLoop d c.scale) = c := by
      unfold nextState
      rw [if_neg (by simpa using h1), if_pos h2]
    rw [ht, hc, h.idle h1]; simp
  · rw [ht]
    split
    · next h => exact (min_eq_left h.le).symm
    · next h => exact (min_eq_right (not_lt.1 h)).symm

/-- the state of the crossfader after `k` of the `N` samples of the crossfade from the third octave to the top one,
during which the octave being left is played -/
structure Leaving (L : ℕ) (N k : ℤ) (c : CrossFader K) : Prop where
  num : c.numSamples = N
  left : c.samplesLeft = N - k
  fading : k < N → c.prevIdx = (L : ℤ) - 3 ∧ c.nextIdx = (L : ℤ) - 2
  done : k = N → c.prevIdx = (L : ℤ) - 2 ∧ c.nextIdx = (L : ℤ) - 2

theorem Leaving.next {L : ℕ} {N k : ℤ} {c : CrossFader K} (h : Leaving L N k c) (hk : k < N) :
    Leaving L N (k + 1) (c.nextState ((L : ℤ) - 3)) := by
  obtain ⟨h1, h2, h3, -⟩ := h
  obtain ⟨h3, h4⟩ := h3 hk
  unfold nextState continueFade
  dsimp only
  rw [if_pos (show c.samplesLeft ≠ 0 by omega), if_neg (by omega : ¬ ((L : ℤ) - 3 ≠ c.nextIdx ∧ (L : ℤ) - 3 ≠ c.prevIdx))]
  by_cases hz : c.samplesLeft - 1 = 0
  · rw [if_pos hz]
    exact ⟨h1, by show c.samplesLeft - 1 = _; omega, fun h => by omega, fun _ => ⟨h4, h4⟩⟩
  · rw [if_neg hz]
    exact ⟨h1, by show c.samplesLeft - 1 = _; omega, fun _ => ⟨h3, h4⟩, fun h => by omega⟩

theorem oct3 {L j m : ℕ} (hL : 3 ≤ L) (h8 : 2 ^ m ≤ 8 * j) (h4 : 4 * j < 2 ^ m) :
    IsOctave L ((L : ℤ) - 3) ((j : K) / 2 ^ m) := by
  have a : ((2 ^ m : ℕ) : K) ≤ ((8 * j : ℕ) : K) := by exact_mod_cast h8
  have b : ((4 * j : ℕ) : K) < ((2 ^ m : ℕ) : K) := by exact_mod_cast h4
  push_cast at a b
  obtain ⟨l, rfl⟩ := Nat.exists_eq_add_of_le hL
  have e : ((3 + l : ℕ) : ℤ) - 3 = (l : ℤ) := by push_cast; ring
  rw [e]
  refine ⟨by omega, by omega, Or.inr ?_, Or.inr ?_⟩
  · rw [Int.toNat_natCast, div_le_div_iff₀ (by positivity) (by positivity), pow_add]
    nlinarith [show (0 : K) < 2 ^ l by positivity]
  · rw [Int.toNat_natCast, div_lt_div_iff₀ (by positivity) (by positivity), pow_add, pow_add]
    linarith [mul_lt_mul_of_pos_left b (show (0 : K) < 2 ^ l by positivity)]

theorem default_init {S : Sys K C} (hf : Rounding S.env.fl) (hl : Log2Spec S.env.log2f) {ws : List K} {nw L : ℕ}
    {sr dur : K} {wt : WavetableData K} (hb : Built S.env ws nw L sr dur wt) (hL : 3 ≤ L) (q : Osc K C) :
    ∃ o N wt', S.init q (some wt) 0 (S.env.fl (2 / 5)) = .ok (o, 0) ∧ toInt (S.env.fl (dur * sr)) = .ok N ∧
      1 ≤ N ∧ OscPlay S nw L o ∧ o.prevPhase = 0 ∧ o.wt = some wt' ∧ Leaving L N 0 wt'.cf ∧
      o.prevMip = (L : ℤ) - 3 := by
  have hok := hb.ok hf hl
  have h0 : PhaseOk S.env.fl (0 : K) := ⟨le_rfl, by norm_num, hf.zero_ph⟩
  have h14 : S.env.fl (1 / 4 : K) = 1 / 4 := by
    have := hf.dyadic 1 2 (by norm_num); norm_num at this ⊢; exact this
  have h12 : S.env.fl (1 / 2 : K) = 1 / 2 := by
    have := hf.dyadic 1 1 (by norm_num); norm_num at this ⊢; exact this
  have h18 : S.env.fl (1 / 8 : K) = 1 / 8 := by
    have := hf.dyadic 1 3 (by norm_num); norm_num at this ⊢; exact this
  have d1 : (1 : K) / 4 ≤ S.env.fl (2 / 5) := hf.ge_of_ge h14 (by norm_num)
  have d2 : S.env.fl (1 / 10 : K) ≤ 1 / 8 := hf.le_of_le h18 (by norm_num)
  have hd : S.env.fl (2 / 5 : K) ≠ 0 := by linarith
  have hL2 := hok.L2
  have hoct : IsOctave L ((L : ℤ) - 2) |S.env.fl (2 / 5 : K)| := by
    rw [abs_of_pos (by linarith)]
    refine ⟨by omega, le_rfl, Or.inr ?_, Or.inl rfl⟩
    rw [show ((L : ℤ) - 2).toNat = L - 2 by omega, div_le_iff₀ (by positivity)]
    calc (2 : K) ^ (L - 2) = 1 / 4 * 2 ^ L := by
          obtain ⟨k, rfl⟩ := Nat.exists_eq_add_of_le hL2
          rw [show 2 + k - 2 = k by omega, pow_add]; ring
      _ ≤ _ := by gcongr
  obtain ⟨c, t, hn, -, -, hcs, -⟩ := Sys.find_spec (S := S) hf hok (abs_pos.2 hd)
  obtain ⟨⟨o, r⟩, e, h1, h2, -, -, h3, -⟩ := Sys.init_play hf q hok h0 hd
  dsimp only at h1 h2 h3
  obtain ⟨L', xf, -, -, -, -, hlen, hxf, ewt⟩ := WavetableData.build_some hf hl hb.1 hb.2.2.2
  have hLL : L' = L := by
    have := hb.2.2.1
    rw [hlen] at this
    exact pow_inj_of_mul (by have := hok.nw0; omega) (by simpa using this)
  subst hLL
  have hw : o.wt = some { wt with cf := c } ∧ o.prevMip = t.idx := by
    unfold Sys.init at e
    dsimp only at e
    rw [Sys.reset_ok (o := { q with wt := some wt }) hf rfl hok h0 hd hn, R.ok_bind] at e
    cases e
    exact ⟨rfl, rfl⟩
  have hnum : wt.cf.numSamples = xf := by rw [ewt]; rfl
  have hidle : wt.cf.samplesLeft = 0 := by rw [ewt]; rfl
  have hprev := hok.inv.prev1
  rw [hok.scale, CrossFader.octaveScale_length] at hprev
  have hnext := hok.inv.idle hidle
  have hstart : wt.cf.nextIdx ≠ (L' : ℤ) - 2 := by
    have e1 : wt.cf.nextIdx = findLoop (S.env.fl (1 / 10)) (octaveScale K L') := by rw [ewt]; rfl
    have e2 := findLoop_octave hL2 (S.env.fl (1 / 10 : K))
    rw [e1]
    intro e3
    rw [e3] at e2
    rcases e2.2.2.1 with h | h
    · omega
    · rw [show ((L' : ℤ) - 2).toNat = L' - 2 by omega, div_le_iff₀ (by positivity)] at h
      have h4 : (2 : K) ^ L' = 2 ^ (L' - 2) * 4 := by
        conv_lhs => rw [show L' = L' - 2 + 2 by omega, pow_add]
        norm_num
      rw [h4] at h
      have h5 : (0 : K) < 2 ^ (L' - 2) := by positivity
      have h6 := mul_le_mul_of_nonneg_right d2 (show (0 : K) ≤ 2 ^ (L' - 2) * 4 by positivity)
      linarith
  have hloop : (findLoop |S.env.fl (2 / 5 : K)| wt.cf.scale : ℤ) = (L' : ℤ) - 2 := by
    rw [hok.scale]; exact findLoop_of_octave hL2 hoct
  have hst : c = { wt.cf with samplesLeft := xf, prevIdx := (L' : ℤ) - 3, nextIdx := (L' : ℤ) - 2 } := by
    rw [hcs]
    unfold stepD
    rw [hloop]
    unfold nextState updateIndices
    rw [if_neg (by simpa using hidle), if_neg (Ne.symm hstart), if_pos (by dsimp only; omega)]
    rw [← hnum]
    congr 1; ring
  have hN : 1 ≤ xf := by rw [← hnum]; exact hok.inv.num
  refine ⟨o, xf, _, by rw [e, h3], hxf, hN, h1, h2, hw.1, ?_, ?_⟩
  · dsimp only
    rw [hst]
    exact ⟨hnum, by dsimp only; ring, fun _ => ⟨rfl, rfl⟩, fun h => by omega⟩
  · rw [hw.2, idx_min hf hok.inv (abs_pos.2 hd) hn, ← hcs, hst]
    dsimp only
    omega

/-- one sample of the tone during the crossfade: nothing can fail, since the table does not drop -/
theorem leaving_step {S : Sys K C} (hf : Rounding S.env.fl) (hB : 0 < S.B) {nw L j m : ℕ} (hL : 3 ≤ L) (hm : m ≤ 24)
    (h8 : 2 ^ m ≤ 8 * j) (h4 : 4 * j < 2 ^ m) {o : Osc K C} (ho : OscPlay S nw L o) {k : ℕ} {N : ℤ}
    (hp : o.prevPhase = Int.fract (-((k : K) * ((j : K) / 2 ^ m)))) {wt : WavetableData K} (hw : o.wt = some wt)
    (hc : Leaving L N k wt.cf) (hk : (k : ℤ) < N) (hmip : o.prevMip = (L : ℤ) - 3) :
    ∃ o' y wt', S.stepDir .kBidirectionnal o (Int.fract (-(((k + 1 : ℕ) : K) * ((j : K) / 2 ^ m)))) = .ok (o', y) ∧
      OscPlay S nw L o' ∧ o'.prevPhase = Int.fract (-(((k + 1 : ℕ) : K) * ((j : K) / 2 ^ m))) ∧
      o'.prevPhaseDiff = -((j : K) / 2 ^ m) ∧ o'.wt = some wt' ∧ Leaving L N (k + 1 : ℕ) wt'.cf ∧
      o'.prevMip = if ((k + 1 : ℕ) : ℤ) < N then (L : ℤ) - 3 else (L : ℤ) - 2 := by
  have hj : 0 < j := by
    have : 0 < 2 ^ m := by positivity
    omega
  have hq : (0 : K) < (j : K) / 2 ^ m := by positivity
  have hd := biDiff_back (K := K) hf hm hj h4 k
  have hstep : StepOk .kBidirectionnal o.prevPhase (Int.fract (-(((k + 1 : ℕ) : K) * ((j : K) / 2 ^ m)))) := by
    rw [hp]
    intro h
    have := (Sys.biDiff_range hf (phaseOk_fract hf (j := j) hm k) (phaseOk_fract hf (j := j) hm (k + 1))).2.2.2 h
    rw [hd] at this
    linarith
  have hdd : Sys.dirDiff S.env.fl .kBidirectionnal (Int.fract (-(((k + 1 : ℕ) : K) * ((j : K) / 2 ^ m)))) o.prevPhase =
      -((j : K) / 2 ^ m) := by rw [hp]; exact hd
  have habs : |(-((j : K) / 2 ^ m))| = (j : K) / 2 ^ m := by rw [abs_neg, abs_of_pos hq]
  obtain ⟨wt0, hw0, hok⟩ := ho.wt
  rw [hw] at hw0; cases hw0
  have hloop : (findLoop ((j : K) / 2 ^ m) wt.cf.scale : ℤ) = (L : ℤ) - 3 := by
    rw [hok.scale]; exact findLoop_of_octave hok.L2 (oct3 hL h8 h4)
  have hst : wt.cf.stepD ((j : K) / 2 ^ m) = wt.cf.nextState ((L : ℤ) - 3) := by unfold stepD; rw [hloop]
  have hnx := hc.next hk
  have hmin : min (wt.cf.nextState ((L : ℤ) - 3)).prevIdx (wt.cf.nextState ((L : ℤ) - 3)).nextIdx =
      if ((k + 1 : ℕ) : ℤ) < N then (L : ℤ) - 3 else (L : ℤ) - 2 := by
    by_cases h : ((k + 1 : ℕ) : ℤ) < N
    · rw [if_pos h]
      obtain ⟨a, b⟩ := hnx.fading (by push_cast at h; exact h)
      omega
    · rw [if_neg h]
      obtain ⟨a, b⟩ := hnx.done (by push_cast at h; omega)
      omega
  rcases Sys.step_cases hf hB ho (phaseOk_fract hf (j := j) hm (k + 1)) hstep with
    ⟨⟨⟨o1, y⟩, e, hr⟩, -⟩ | ⟨-, -, wt1, wt2, t, hw1, ht, hlt⟩
  · dsimp only at hr
    obtain ⟨wt1, c, t, hw1, -, hn, hcs, hw2, hmip'⟩ := hr.find
    rw [hw] at hw1; cases hw1
    rw [hdd, habs] at hn hcs
    refine ⟨o1, y, _, e, hr.ok, hr.phase, by rw [hr.diff, hdd], hw2, ?_, ?_⟩
    · dsimp only
      rw [hcs, hst]; push_cast; exact hnx
    · rw [hmip', idx_min hf hok.inv hq hn, hst, hmin]
  · exfalso
    rw [hw] at hw1; cases hw1
    rw [hdd, habs] at ht
    obtain ⟨c, t', hn, hfind, -⟩ := Sys.find_spec hf hok hq
    rw [hfind] at ht; cases ht
    rw [idx_min hf hok.inv hq hn, hst, hmin, hmip] at hlt
    split at hlt <;> omega

theorem backwardTone_succ (d : K) (n : ℕ) :
    backwardTone d (n + 1) = backwardTone d n ++ [Int.fract (-((n + 1 : ℕ) * d))] := by
  unfold backwardTone; rw [List.range_succ, List.map_append]; rfl

theorem leaving_run {S : Sys K C} (hf : Rounding S.env.fl) (hB : 0 < S.B) {nw L j m : ℕ} (hL : 3 ≤ L) (hm : m ≤ 24)
    (h8 : 2 ^ m ≤ 8 * j) (h4 : 4 * j < 2 ^ m) {o : Osc K C} (ho : OscPlay S nw L o) {N : ℤ} (hN : 1 ≤ N)
    (hp : o.prevPhase = 0) {wt : WavetableData K} (hw : o.wt = some wt) (hc : Leaving L N 0 wt.cf)
    (hmip : o.prevMip = (L : ℤ) - 3) (n : ℕ) (hn : (n : ℤ) ≤ N) :
    ∃ o' ys wt', S.runDir .kBidirectionnal o (backwardTone ((j : K) / 2 ^ m) n) = .ok (o', ys) ∧ ys.length = n ∧
      OscPlay S nw L o' ∧ o'.prevPhase = Int.fract (-((n : K) * ((j : K) / 2 ^ m))) ∧
      (0 < n → o'.prevPhaseDiff = -((j : K) / 2 ^ m)) ∧ o'.wt = some wt' ∧ Leaving L N n wt'.cf ∧
      o'.prevMip = if (n : ℤ) < N then (L : ℤ) - 3 else (L : ℤ) - 2 := by
  induction n with
  | zero =>
    refine ⟨o, [], wt, rfl, rfl, ho, ?_, fun h => absurd h (by norm_num), hw, by simpa using hc, ?_⟩
    · rw [hp]; simp
    · rw [if_pos (by push_cast; omega), hmip]
  | succ n ih =>
    push_cast at hn
    obtain ⟨o1, ys, wt1, e, e0, a1, a2, -, a4, a5, a6⟩ := ih (by omega)
    rw [if_pos (by omega)] at a6
    obtain ⟨o2, y, wt2, f, b1, b2, b3, b4, b5, b6⟩ := leaving_step hf hB hL hm h8 h4 a1 a2 a4 a5 (by omega) a6
    refine ⟨o2, ys ++ [y], wt2, ?_, by simp [e0], b1, b2, fun _ => b3, b4, b5, b6⟩
    rw [backwardTone_succ, runDir_append, e, R.ok_bind]
    dsimp only
    unfold Sys.runDir Sys.runDir
    rw [f]; rfl

/-- C27: a steady tone is enough. Any wavetable of at least 8 samples per waveform, with a crossfade of `N` samples,
given to `init` with the default arguments (phase 0, step 0.4). Then a tone played backwards at a constant frequency
between an eighth and a quarter of the samplerate, whose phase is a multiple of `2^-m` and is back at 0 after `N`
samples, plays for `N` samples; any longer block reads out of bounds. -/
theorem C27_steady_tone (S : Sys K C) (hf : Rounding S.env.fl) (hl : Log2Spec S.env.log2f) (hB : 0 < S.B)
    (ws : List K) (nw L : ℕ) (hL : 3 ≤ L) (sr dur : K) (wt : WavetableData K) (hb : Built S.env ws nw L sr dur wt)
    (N : ℕ) (hN : toInt (S.env.fl (dur * sr)) = .ok (N : ℤ)) (q : Osc K C)
    (j m : ℕ) (hm : m ≤ 24) (h8 : (1 : K) / 8 ≤ (j : K) / 2 ^ m) (h4 : (j : K) / 2 ^ m < 1 / 4) (hz : 2 ^ m ∣ N * j) :
    ∃ o, S.init q (some wt) 0 (S.env.fl (2 / 5)) = .ok (o, 0) ∧
      (∃ o' ys, S.process .kBidirectionnal o (backwardTone ((j : K) / 2 ^ m) N) (List.replicate N 0) = .ok (o', ys)) ∧
      ∀ n, N < n → S.process .kBidirectionnal o (backwardTone ((j : K) / 2 ^ m) n) (List.replicate n 0) =
        .error .outOfBounds := by
  have h8' : 2 ^ m ≤ 8 * j := by
    rw [div_le_div_iff₀ (by norm_num) (by positivity)] at h8
    have : ((2 ^ m : ℕ) : K) ≤ ((8 * j : ℕ) : K) := by push_cast; linarith
    exact_mod_cast this
  have h4' : 4 * j < 2 ^ m := by
    rw [div_lt_div_iff₀ (by positivity) (by norm_num)] at h4
    have : ((4 * j : ℕ) : K) < ((2 ^ m : ℕ) : K) := by push_cast; linarith
    exact_mod_cast this
  have hj : 0 < j := by
    have : 0 < 2 ^ m := by positivity
    omega
  have hq : (0 : K) < (j : K) / 2 ^ m := by positivity
  obtain ⟨o, N', wt', e, hN', hN1, i1, i2, i3, i4, i5⟩ := default_init hf hl hb hL q
  rw [hN] at hN'; cases hN'
  have hproc : ∀ n, S.process .kBidirectionnal o (backwardTone ((j : K) / 2 ^ m) n) (List.replicate n 0) =
      S.runDir .kBidirectionnal o (backwardTone ((j : K) / 2 ^ m) n) := fun n =>
    Sys.process_runDir S _ (by rw [i3]; rfl) (by simp [backwardTone])
  obtain ⟨o1, ys, wt1, r, -, a1, a2, a3, a4, a5, a6⟩ := leaving_run hf hB hL hm h8' h4' i1 hN1 i2 i3 i4 i5 N le_rfl
  have hphase : o1.prevPhase = 0 := by
    rw [a2]
    obtain ⟨c, hc⟩ := hz
    have : (N : K) * ((j : K) / 2 ^ m) = (c : K) := by
      have h : ((N * j : ℕ) : K) = ((2 ^ m * c : ℕ) : K) := by rw [hc]
      push_cast at h
      rw [← mul_div_assoc, h, mul_div_cancel_left₀ _ (by positivity)]
    rw [this, Int.fract_eq_zero_iff]
    exact ⟨-(c : ℤ), by push_cast; rfl⟩
  rw [if_neg (lt_irrefl _)] at a6
  -- the next sample drops a table
  have hstepErr : S.stepDir .kBidirectionnal o1 (Int.fract (-(((N + 1 : ℕ) : K) * ((j : K) / 2 ^ m)))) =
      .error .outOfBounds := by
    have hd := biDiff_back (K := K) hf hm hj h4' N
    rw [← a2] at hd
    have hstep : StepOk .kBidirectionnal o1.prevPhase (Int.fract (-(((N + 1 : ℕ) : K) * ((j : K) / 2 ^ m)))) := by
      intro h
      have := (Sys.biDiff_range hf a1.phase (phaseOk_fract hf (j := j) hm (N + 1))).2.2.2 h
      rw [hd] at this
      linarith
    rcases Sys.step_cases hf hB a1 (phaseOk_fract hf (j := j) hm (N + 1)) hstep with ⟨-, hno⟩ | ⟨e4, -⟩
    · exfalso
      apply hno
      refine ⟨⟨hphase, by rw [a3 (by omega)]; linarith⟩, ?_⟩
      show DropsTable S o1 (Sys.biDiff _ _ _)
      rw [hd]
      obtain ⟨wt0, hw0, hok⟩ := a1.wt
      rw [a4] at hw0; cases hw0
      have habs : |(-((j : K) / 2 ^ m))| = (j : K) / 2 ^ m := by rw [abs_neg, abs_of_pos hq]
      obtain ⟨c, t, hn, hfind, -⟩ := Sys.find_spec hf hok hq
      refine ⟨_, _, t, a4, by rw [habs]; exact hfind, ?_⟩
      have hloop : (findLoop ((j : K) / 2 ^ m) wt1.cf.scale : ℤ) = (L : ℤ) - 3 := by
        rw [hok.scale]; exact findLoop_of_octave hok.L2 (oct3 hL h8' h4')
      obtain ⟨d1, d2⟩ := a5.done rfl
      have hleft : wt1.cf.samplesLeft = 0 := by rw [a5.left]; ring
      have hst : wt1.cf.stepD ((j : K) / 2 ^ m) =
          { wt1.cf with samplesLeft := wt1.cf.numSamples, prevIdx := (L : ℤ) - 2, nextIdx := (L : ℤ) - 3 } := by
        unfold stepD
        rw [hloop]
        unfold nextState updateIndices
        rw [if_neg (by simpa using hleft), if_neg (by omega), if_neg (by dsimp only; omega)]
        congr 1; ring
      rw [idx_min hf hok.inv hq hn, hst, a6]
      dsimp only
      omega
    · exact e4
  refine ⟨o, e, ⟨o1, ys, by rw [hproc]; exact r⟩, fun n hn => ?_⟩
  rw [hproc]
  obtain ⟨l, rfl⟩ := Nat.exists_eq_add_of_lt hn
  have hsplit : ∃ rest, backwardTone ((j : K) / 2 ^ m) (N + l + 1) = backwardTone ((j : K) / 2 ^ m) N ++
      (Int.fract (-(((N + 1 : ℕ) : K) * ((j : K) / 2 ^ m))) :: rest) := by
    clear hn
    induction l with
    | zero => exact ⟨[], by rw [Nat.add_zero, backwardTone_succ]⟩
    | succ l ih =>
      obtain ⟨rest, h⟩ := ih
      exact ⟨rest ++ [_], by rw [← Nat.add_assoc N l 1, backwardTone_succ, h, List.append_assoc, List.cons_append]⟩
  obtain ⟨rest, h⟩ := hsplit
  rw [h, runDir_append, r, R.ok_bind]
  dsimp only
  unfold Sys.runDir
  rw [hstepErr]; rfl

theorem roundEven_near {y : K} {n : ℤ} (h : |y - n| < 1 / 2) : roundEven y = n := by
  have h1 := abs_le.1 (roundEven_err y)
  have h2 := abs_lt.1 h
  have h3 : ((roundEven y - n : ℤ) : K) < ((1 : ℤ) : K) := by push_cast; linarith [h1.2, h2.2]
  have h4 : ((-1 : ℤ) : K) < ((roundEven y - n : ℤ) : K) := by push_cast; linarith [h1.1, h2.1]
  have := Int.cast_lt.1 h3
  have := Int.cast_lt.1 h4
  omega

/-- the default crossfade at 48 kHz is 240 samples, in floats and in exact arithmetic -/
theorem default_240 (E : Env K) (hE : E.fl = ieee32 ∨ E.fl = id) : E.fl (defaultDuration E * 48000) = 240 := by
  unfold defaultDuration
  rcases hE with hE | hE
  · rw [hE]
    have e1 : ieee32 (5 / 1000 : K) = 10737418 / 2 ^ 31 := by
      rw [ieee32_grid 8 (by norm_num) (by norm_num) (by norm_num),
        roundEven_near (n := 10737418) (by rw [abs_lt]; constructor <;> norm_num)]
      norm_num
    rw [e1]
    have hx : (0 : K) < 10737418 / 2 ^ 31 * 48000 := by norm_num
    have hlog : Int.log 2 (10737418 / 2 ^ 31 * 48000 : K) = 7 := by
      apply CrossFader.log_of_bounds
      · norm_num
      · rw [show (7 : ℤ) + 1 = (8 : ℕ) by norm_num, zpow_natCast]; norm_num
    have hu : ulpExp (10737418 / 2 ^ 31 * 48000 : K) = -((16 : ℕ) : ℤ) := by
      unfold ulpExp; rw [abs_of_pos hx, hlog]; norm_num
    rw [ieee32_normal (Or.inr (by rw [abs_of_pos hx]; norm_num)) (by rw [abs_of_pos hx]; norm_num)]
    unfold rne24
    rw [hu, pow_neg_nat, roundEven_near (n := 240 * 2 ^ 16) (by rw [abs_lt]; constructor <;> norm_num)]
    norm_num
  · rw [hE]; norm_num

/-- C27: with the defaults everywhere. At 48 kHz, any wavetable of at least 8 samples per waveform, built with the default
crossfade and given to `init` with the default arguments: tones of -6000 Hz and of -9000 Hz, all of whose phases are
exact, play for 240 samples (5 ms), and the next sample is read out of bounds, in debug and release builds, in floats and
in exact arithmetic. -/
theorem C27_default (S : Sys K C) (hE : S.env.fl = ieee32 ∨ S.env.fl = id) (hl : Log2Spec S.env.log2f) (hB : 0 < S.B)
    (hsrc : SrcContract S.env.src) (ws : List K) (nw L : ℕ) (hnw : 0 < nw) (hL : 3 ≤ L) (hL18 : L ≤ 18)
    (hws : ws.length = nw * 2 ^ L) (freq : K) (hfreq : freq = 6000 ∨ freq = 9000) :
    ∃ wt o, build S.env ws nw 48000 (defaultDuration S.env) = .ok (some wt) ∧
      S.init S.fresh (some wt) 0 (S.env.fl (2 / 5)) = .ok (o, 0) ∧
      (∃ o' ys, S.process .kBidirectionnal o (backwardTone (freq / 48000) 240) (List.replicate 240 0) = .ok (o', ys)) ∧
      ∀ n, 240 < n → S.process .kBidirectionnal o (backwardTone (freq / 48000) n) (List.replicate n 0) =
        .error .outOfBounds := by
  have hf : Rounding S.env.fl := by
    rcases hE with h | h <;> rw [h]
    · exact rounding_ieee32
    · exact rounding_id
  have hrate : IsRate S.env.fl 48000 := by have := hf.isRate 48000 (by norm_num); simpa using this
  have h240 := default_240 S.env hE
  obtain ⟨wt, e⟩ := C02_succeeds S.env hf hl hsrc L (by omega) hL18 nw hnw ws hws 48000 (defaultDuration S.env)
    (by norm_num) hrate (by rw [h240]; norm_num)
  have hb : Built S.env ws nw L 48000 (defaultDuration S.env) wt := ⟨hrate, by rw [h240]; norm_num, hws, e⟩
  have hN : toInt (S.env.fl (defaultDuration S.env * 48000)) = .ok ((240 : ℕ) : ℤ) := by
    rw [h240]
    have ht : trunc (240 : K) = 240 := by
      unfold trunc
      rw [if_pos (by norm_num)]
      exact_mod_cast Int.floor_intCast (R := K) 240
    unfold toInt
    rw [ht]; rfl
  have key : ∀ j : ℕ, (1 : K) / 8 ≤ (j : K) / 2 ^ 4 → (j : K) / 2 ^ 4 < 1 / 4 → freq / 48000 = (j : K) / 2 ^ 4 →
      ∃ wt o, build S.env ws nw 48000 (defaultDuration S.env) = .ok (some wt) ∧
      S.init S.fresh (some wt) 0 (S.env.fl (2 / 5)) = .ok (o, 0) ∧
      (∃ o' ys, S.process .kBidirectionnal o (backwardTone (freq / 48000) 240) (List.replicate 240 0) = .ok (o', ys)) ∧
      ∀ n, 240 < n → S.process .kBidirectionnal o (backwardTone (freq / 48000) n) (List.replicate n 0) =
        .error .outOfBounds := by
    intro j h8 h4 hj
    rw [hj]
    obtain ⟨o, a, b, c⟩ := C27_steady_tone S hf hl hB ws nw L hL 48000 (defaultDuration S.env) wt hb 240 hN S.fresh j 4
      (by norm_num) h8 h4 ⟨15 * j, by ring⟩
    exact ⟨wt, o, e, a, b, c⟩
  rcases hfreq with rfl | rfl
  · exact key 2 (by norm_num) (by norm_num) (by norm_num)
  · exact key 3 (by norm_num) (by norm_num) (by norm_num)

/-- The hypotheses are those of IEEE floats and of exact arithmetic with every built-in filter. -/
example (t : FilterType) : (sysF t).env.fl = ieee32 ∧ Log2Spec (sysF t).env.log2f ∧ 0 < (sysF t).B ∧
    SrcContract (sysF t).env.src := ⟨rfl, envI_ok.2.1, by norm_num [sysF, sysRnd], envI_ok.2.2⟩
example (t : FilterType) : (sysOf envXR t).env.fl = id ∧ Log2Spec (sysOf envXR t).env.log2f ∧ 0 < (sysOf envXR t).B ∧
    SrcContract (sysOf envXR t).env.src := ⟨rfl, envX_ok.2.1, by norm_num [sysOf], envX_ok.2.2⟩

/-- The tone of -9000 Hz at 48 kHz. -/
example : backwardTone (9000 / 48000 : ℝ) 4 = [13 / 16, 10 / 16, 7 / 16, 4 / 16] := by
  have h : ∀ (x y : ℝ) (n : ℤ), 0 ≤ y → y < 1 → x = y + n → Int.fract x = y := fun x y n h0 h1 e => by
    rw [e, Int.fract_add_intCast, Int.fract_eq_self.2 ⟨h0, h1⟩]
  unfold backwardTone
  simp only [List.range, List.range.loop, List.map_cons, List.map_nil]
  congr 1 <;> [skip; congr 1 <;> [skip; congr 1 <;> [skip; congr 1]]]
  all_goals exact h _ _ (-1) (by norm_num) (by norm_num) (by norm_num)

end Adwt.Props
