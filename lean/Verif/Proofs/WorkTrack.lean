import Verif.Proofs.WorkStep
import Verif.Proofs.Sample

/-!
# How many corners a sample can have
-/

set_option linter.unusedSectionVars false

namespace Adwt
open Seg

namespace CrossFader
variable {K : Type} [Field K] [LinearOrder K] [IsStrictOrderedRing K] [FloorRing K]

/-- The tables of a tuple are near the octave requested. -/
theorem near_octave {E : Env K} (hf : Rounding E.fl) {c c' : CrossFader K} (h : c.Inv) {d : K}
    (hd : 0 < d) {t} (e : c.newIndices E d = .ok (c', t)) :
    (findLoop d c.scale : ℤ) - 1 ≤ t.idx ∧ t.idx ≤ (findLoop d c.scale : ℤ) + 1 ∧
    (t.weightUp ≠ 0 → t.idx ≤ findLoop d c.scale) := by
  obtain ⟨t', e', ht⟩ := newIndices_eq hf h hd
  rw [e] at e'; cases e'
  have hinv := nextState_inv h (findLoop_range h d).1 (findLoop_range h d).2
  generalize (findLoop d c.scale : ℤ) = i at ht hinv
  rcases ht with ⟨h1, h2, rfl⟩ | ⟨hne, f, ef, rfl⟩
  · dsimp only
    omega
  · obtain ⟨f', ef', hfl, h0, h1, hz, -⟩ := computeFading_eq hf hinv
    rw [ef] at ef'; cases ef'
    have key : (c.nextState i).samplesLeft = 0 → f = 0 := hz
    have k1 : (c.nextState i).samplesLeft ≠ 0 → i = (c.nextState i).prevIdx ∨
        i = (c.nextState i).nextIdx := by
      unfold nextState continueFade updateIndices
      dsimp only
      split_ifs <;> (try dsimp only at *) <;> omega
    have k2 : i - 1 ≤ (c.nextState i).nextIdx ∧ (c.nextState i).nextIdx ≤ i + 1 := by
      have a1 := h.idle
      have a2 := h.fading
      unfold nextState continueFade updateIndices
      dsimp only
      split_ifs <;> (try dsimp only at *) <;> omega
    have a5 := hinv.idle
    have a6 := hinv.fading
    split
    · rename_i hgt
      dsimp only
      have : (c.nextState i).samplesLeft ≠ 0 := fun h => by have := a5 h; omega
      have := k1 this
      have := a6 ‹_›
      omega
    · rename_i hgt
      dsimp only
      refine ⟨k2.1, k2.2, fun hw => ?_⟩
      have : (c.nextState i).samplesLeft ≠ 0 := fun h => hw (key h)
      have := k1 this
      have := a6 ‹_›
      omega

end CrossFader

namespace Sys

/-- the true distance behind a computed step -/
theorem true_dist {fl : ℝ → ℝ} (hf : Rounding fl) {x p : ℝ} (hx : PhaseOk fl x)
    (hp : PhaseOk fl p) {dir : Direction} (hs : StepOk dir x p) :
    (0 < dirDiff fl dir p x → ∃ δ, (δ = p - x ∨ δ = p - x + 1) ∧ 0 < δ ∧ δ < 5 / 8 ∧
      ∀ k ≤ 20, dirDiff fl dir p x < 1 / 2 ^ k → δ < 1 / 2 ^ k) ∧
    (dirDiff fl dir p x < 0 → ∃ δ, (δ = p - x ∨ δ = p - x - 1) ∧ δ < 0 ∧ -(5 / 8) < δ ∧
      ∀ k ≤ 20, |dirDiff fl dir p x| < 1 / 2 ^ k → -δ < 1 / 2 ^ k) := by
  have f58 : fl (5 / 8 : ℝ) = 5 / 8 := by
    have := hf.dyadic 5 3 (by norm_num); norm_num at this; exact this
  have g : ∀ k ≤ 20, fl (1 / 2 ^ k : ℝ) = 1 / 2 ^ k := fun k hk => hf.inv_pow k
  have gn : ∀ k ≤ 20, fl (-(1 / 2 ^ k) : ℝ) = -(1 / 2 ^ k) := fun k hk => hf.symm _ (g k hk)
  have g1 : ∀ k ≤ 20, fl (1 / 2 ^ k - 1 : ℝ) = 1 / 2 ^ k - 1 := fun k hk => by
    have := hf.dyadic (1 - 2 ^ k) k (by
      have h1 : (1 : ℤ) ≤ 2 ^ k := one_le_pow₀ (by norm_num)
      have h2 : (2 : ℤ) ^ k ≤ 2 ^ 20 := pow_le_pow_right₀ (by norm_num) hk
      rw [abs_le]; constructor <;> omega)
    have e : (((1 - 2 ^ k : ℤ) : ℝ)) / 2 ^ k = 1 / 2 ^ k - 1 := by
      push_cast; field_simp
    rwa [e] at this
  have g1n : ∀ k ≤ 20, fl (1 - 1 / 2 ^ k : ℝ) = 1 - 1 / 2 ^ k := fun k hk => by
    have := hf.symm _ (g1 k hk)
    have e : -(1 / 2 ^ k - 1 : ℝ) = 1 - 1 / 2 ^ k := by ring
    rwa [e] at this
  have l0 : ∀ {y : ℝ} {k : ℕ}, k ≤ 20 → fl y < 1 / 2 ^ k → y < 1 / 2 ^ k := fun {y k} hk h => by
    by_contra hc
    have := hf.mono (not_lt.1 hc)
    rw [g k hk] at this; linarith
  have l1 : ∀ {y : ℝ} {k : ℕ}, k ≤ 20 → fl (fl y + 1) < 1 / 2 ^ k → y + 1 < 1 / 2 ^ k :=
    fun {y k} hk h => by
      by_contra hc
      have := hf.mono (show 1 / 2 ^ k - 1 ≤ y by linarith)
      rw [g1 k hk] at this
      have := hf.mono (show 1 / 2 ^ k ≤ fl y + 1 by linarith)
      rw [g k hk] at this; linarith
  have l2 : ∀ {y : ℝ} {k : ℕ}, k ≤ 20 → -(1 / 2 ^ k) < fl y → -(1 / 2 ^ k) < y := fun {y k} hk h => by
    by_contra hc
    have := hf.mono (not_lt.1 hc)
    rw [gn k hk] at this; linarith
  have l3 : ∀ {y : ℝ} {k : ℕ}, k ≤ 20 → -(1 / 2 ^ k) < fl (fl y - 1) → -(1 / 2 ^ k) < y - 1 :=
    fun {y k} hk h => by
      by_contra hc
      have := hf.mono (show y ≤ 1 - 1 / 2 ^ k by linarith)
      rw [g1n k hk] at this
      have := hf.mono (show fl y - 1 ≤ -(1 / 2 ^ k) by linarith)
      rw [gn k hk] at this; linarith
  obtain ⟨x0, x1, x2⟩ := hx
  obtain ⟨p0, p1, p2⟩ := hp
  cases dir with
  | kForward =>
    obtain ⟨r0, r1⟩ := fwdDiff_range hf ⟨x0, x1, x2⟩ ⟨p0, p1, p2⟩ hs
    refine ⟨fun _ => ?_, fun h => absurd h (not_lt.2 (show 0 ≤ fwdDiff fl p x from r0.le))⟩
    rcases (hs : Forward x p) with ⟨ha, hb⟩ | ⟨ha, hb⟩
    · refine ⟨p - x, Or.inl rfl, by linarith, by linarith, fun k hk h => l0 hk ?_⟩
      have : ¬ fl (p - x) < 0 := not_lt.2 (hf.nonneg (by linarith))
      unfold dirDiff fwdDiff at h
      dsimp only at h
      rwa [if_neg this] at h
    · refine ⟨p - x + 1, Or.inr rfl, by linarith, by linarith, fun k hk h => l1 hk ?_⟩
      have : fl (p - x) < 0 := hf.sub_neg p2 x2 (by linarith) (by rintro rfl; linarith)
      unfold dirDiff fwdDiff at h
      dsimp only at h
      rwa [if_pos this] at h
  | kBidirectionnal =>
    show (0 < biDiff fl p x → ∃ δ, _ ∧ _ ∧ _ ∧ ∀ k ≤ 20, biDiff fl p x < _ → _) ∧
      (biDiff fl p x < 0 → ∃ δ, _ ∧ _ ∧ _ ∧ ∀ k ≤ 20, |biDiff fl p x| < _ → _)
    have hne : p - x ≠ 0 := sub_ne_zero.2 hs
    unfold biDiff
    dsimp only
    by_cases h1 : fl (p - x) < -(1 / 2)
    · rw [if_pos h1]
      have hlt : p - x < -(1 / 2) := by
        by_contra hc
        have := hf.mono (not_lt.1 hc)
        rw [hf.neg_half] at this; linarith
      refine ⟨fun _ => ⟨p - x + 1, Or.inr rfl, by linarith, by linarith, fun k hk h => l1 hk h⟩,
        fun h => ?_⟩
      obtain ⟨r0, r1⟩ := raw_range hf ⟨x0, x1, x2⟩ ⟨p0, p1, p2⟩
      have := hf.nonneg (show 0 ≤ fl (p - x) + 1 by linarith)
      linarith
    rw [if_neg h1]
    by_cases h2 : fl (p - x) > 1 / 2
    · rw [if_pos h2]
      have hlt : 1 / 2 < p - x := by
        by_contra hc
        have := hf.mono (not_lt.1 hc)
        rw [hf.half] at this; linarith
      have hneg : fl (fl (p - x) - 1) < 0 := by
        obtain ⟨r0, r1⟩ := raw_range hf ⟨x0, x1, x2⟩ ⟨p0, p1, p2⟩
        exact hf.sub_one_neg (hf.idem _) r1
      refine ⟨fun h => by linarith, fun _ => ⟨p - x - 1, Or.inr rfl, by linarith, by linarith,
        fun k hk h => ?_⟩⟩
      have := l3 (y := p - x) hk (by rw [abs_of_neg hneg] at h; linarith)
      linarith
    · rw [if_neg h2]
      have b1 : p - x < 5 / 8 := by
        by_contra hc
        have := hf.mono (not_lt.1 hc)
        rw [f58] at this; linarith
      have b2 : -(5 / 8) < p - x := by
        by_contra hc
        have := hf.mono (not_lt.1 hc)
        rw [hf.symm _ f58] at this; linarith
      refine ⟨fun h => ⟨p - x, Or.inl rfl, ?_, b1, fun k hk h => l0 hk h⟩,
        fun h => ⟨p - x, Or.inl rfl, ?_, b2, fun k hk h' => ?_⟩⟩
      · by_contra hc
        have := hf.nonpos (not_lt.1 hc); linarith
      · by_contra hc
        have := hf.nonneg (not_lt.1 hc); linarith
      · rw [abs_of_neg h] at h'
        have := l2 (y := p - x) (k := k) hk (by linarith)
        linarith

/-- counting grid points in an interval -/
theorem corners_le {N : ℕ} {jmin jmax : ℤ} {u v δ : ℝ} (hu : u * N ≤ jmin + 1)
    (hv : (jmax : ℝ) ≤ v * N) (hd : δ = v - u + (if jmin > jmax then 1 else 0)) {m : ℕ}
    (hm : δ * N < m) : corners jmin jmax N ≤ m := by
  have key : ((jmax + (if jmin > jmax then (N : ℤ) else 0) - jmin : ℤ) : ℝ) < m + 1 := by
    push_cast
    split_ifs at hd ⊢
    · have : δ * N = v * N - u * N + N := by rw [hd]; ring
      linarith
    · have : δ * N = v * N - u * N := by rw [hd]; ring
      linarith
  have : jmax + (if jmin > jmax then (N : ℤ) else 0) - jmin < m + 1 := by exact_mod_cast key
  unfold corners bornSup
  omega

variable {S : Sys ℝ ℂ} {nw L : ℕ} {o o' : Osc ℝ ℂ}

/-- A sample whose position was carried over correctly. -/
theorem tracked_count (hf : Rounding S.env.fl) (hB : 0 < S.B) (ho : OscPlay S nw L o)
    {wt wt' : WavetableData ℝ} (hwt : o.wt = some wt) {dir : Direction} {p y : ℝ}
    (hp : PhaseOk S.env.fl p) (hs : StepOk dir o.prevPhase p) {w : ℕ × ℕ}
    (h : S.stepDirW dir o p = .ok ((o', y), w)) {t : MipMapIndices ℝ}
    (ht : wt.findMipMapIndices S.env |dirDiff S.env.fl dir p o.prevPhase| = .ok (wt', t))
    (hm : TableMove o t.idx) (hx : OffDenormal (2 ^ (L - t.idx.toNat)) o.prevPhase) :
    w.1 ≤ 5 ∧ w.2 ≤ 3 := by
  have hw : WtOk nw L wt := by
    obtain ⟨wt', e', h⟩ := ho.wt
    rw [hwt] at e'; cases e'; exact h
  obtain ⟨-, c, t', hn, hno, hfind, b0, b1, b2, jmin, jmax, e1, e2, m0, m1, x0, x1, w1, w2⟩ :=
    step_count hf hB ho hwt hp hs h
  rw [ht] at hfind
  cases hfind
  obtain ⟨r0, r1, r2⟩ := dirDiff_range hf ho.toOscOk hp hs
  have hL := hw.L18
  have hL2 := hw.L2
  obtain ⟨o1, o2, o3⟩ := CrossFader.near_octave hf hw.inv (abs_pos.2 r0) hn
  rw [hw.scale] at o1 o2 o3
  obtain ⟨i0, i1, -, i3⟩ := CrossFader.findLoop_octave hL2 |dirDiff S.env.fl dir p o.prevPhase|
  obtain ⟨t1, t2⟩ := true_dist hf ho.toOscOk.phase hp hs
  have hz : o.prevPhaseDiff < 0 → t.idx < o.prevMip → o.prevPhase ≠ 0 :=
    fun h1 h2 h3 => hno ⟨⟨h3, h1⟩, h2⟩
  set n := L - t.idx.toNat with hnn
  set d := dirDiff S.env.fl dir p o.prevPhase with hd
  have hn2 : 2 ≤ n := by omega
  have hN4 : 4 ≤ 2 ^ n := by
    calc 4 = 2 ^ 2 := by norm_num
      _ ≤ 2 ^ n := Nat.pow_le_pow_right (by norm_num) hn2
  -- the step is small compared with the table
  have small : n ≤ 3 ∨ |d| < 1 / 2 ^ (n - 2) := by
    rcases i3 with i3 | i3
    · left; omega
    · right
      refine lt_of_lt_of_le i3 ?_
      rw [Int.toNat_natCast]
      rw [div_le_div_iff₀ (by positivity) (by positivity), one_mul, ← pow_add]
      apply pow_le_pow_right₀ (by norm_num)
      omega
  have fin : ∀ δ : ℝ, δ < 5 / 8 → (∀ k ≤ 20, |d| < 1 / 2 ^ k → δ < 1 / 2 ^ k) →
      δ * ((2 ^ n : ℕ) : ℝ) < (5 : ℕ) ∧ (3 ≤ n → δ * ((2 ^ (n - 1) : ℕ) : ℝ) < (3 : ℕ)) := by
    intro δ h58 hk
    have e3 : (2 : ℝ) ^ n = 4 * 2 ^ (n - 2) := by
      have : n = n - 2 + 2 := by omega
      rw [this, pow_add]; norm_num; ring
    rcases small with hs | hs
    · have : (2 : ℝ) ^ n ≤ 8 := by
        calc (2 : ℝ) ^ n ≤ 2 ^ 3 := pow_le_pow_right₀ (by norm_num) hs
          _ = 8 := by norm_num
      have hpos : (0 : ℝ) < 2 ^ n := by positivity
      refine ⟨?_, fun h3 => ?_⟩
      · push_cast; nlinarith
      · have : n = 3 := by omega
        rw [this]; norm_num; linarith
    · have h4 := hk (n - 2) (by omega) hs
      have hpos : (0 : ℝ) < 2 ^ (n - 2) := by positivity
      rw [lt_div_iff₀ hpos] at h4
      refine ⟨by push_cast; rw [e3]; linarith, fun h3 => ?_⟩
      have : (2 : ℝ) ^ (n - 1) = 2 * 2 ^ (n - 2) := by
        have : n - 1 = n - 2 + 1 := by omega
        rw [this, pow_add]; ring
      push_cast; rw [this]; linarith
  have hN4' : t.weightUp ≠ 0 → 4 ≤ 2 ^ (n - 1) := fun hu => by
    have := b2 hu
    calc 4 = 2 ^ 2 := by norm_num
      _ ≤ 2 ^ (n - 1) := Nat.pow_le_pow_right (by norm_num) (by omega)
  rcases lt_or_gt_of_ne r0 with hneg | hpos
  · obtain ⟨δ, hδ, δ0, δ1, δk⟩ := t2 hneg
    have hin := prevJB_in hf ho.toOscOk b0 b1 hm hz hx
    rw [← hnn] at hin
    have hnp := not_lt.2 hneg.le
    unfold firstSeg at e1
    unfold lastSeg at e2
    rw [if_neg hnp] at e1 e2
    obtain ⟨hv, hv'⟩ := ceil_in (n := n) hp.1 hp.2.1
    rw [← e1] at hv hv'
    rw [← e2] at hin
    obtain ⟨f1, f2⟩ := fin (-δ) (by linarith) δk
    have NR : (0 : ℝ) < ((2 ^ n : ℕ) : ℝ) := by positivity
    refine ⟨?_, ?_⟩
    · obtain ⟨q1, -⟩ := wrapB hN4 ho.p0 hp.1 m0 (by push_cast; exact m1) hin hv hv' δ0
        (by linarith) hδ
      rw [w1]
      have := corners_le (N := 2 ^ n) (jmin := jmin) (jmax := jmax) (u := bar p) (v := o.prevPhase)
        (δ := -δ) hv' (by have := hin.1; rwa [div_le_iff₀ NR] at this) (by rw [q1]; ring) f1
      push_cast at this
      exact this
    · rcases w2 with ⟨-, w2⟩ | ⟨hu, w2⟩
      · omega
      · obtain ⟨-, g2, g3⟩ := half_range (n := n) (by omega) m0 m1
        have hin' := half_in (n := n) (by omega) hin
        have hv2 := half_lt' (n := n) (by omega) hv
        have hv2' := half_ge (n := n) (by omega) hv'
        obtain ⟨q1, -⟩ := wrapB (hN4' hu) ho.p0 hp.1 g2 (by push_cast; exact g3) hin' hv2 hv2' δ0
          (by linarith) hδ
        rw [w2]
        have NR : (0 : ℝ) < ((2 ^ (n - 1) : ℕ) : ℝ) := by positivity
        have := corners_le (N := 2 ^ (n - 1)) (jmin := jmin / 2) (jmax := jmax / 2) (u := bar p)
          (v := o.prevPhase) (δ := -δ) hv2'
          (by have := hin'.1; rwa [div_le_iff₀ NR] at this) (by rw [q1]; ring)
          (f2 (by have := b2 hu; omega))
        push_cast at this
        exact this
  · obtain ⟨δ, hδ, δ0, δ1, δk⟩ := t1 hpos
    have hin := prevJF_in hf ho.toOscOk b0 b1 hm hz hx
    rw [← hnn] at hin
    unfold firstSeg at e1
    unfold lastSeg at e2
    rw [if_pos hpos] at e1 e2
    obtain ⟨hv, hv'⟩ := floor_in (n := n) p
    rw [← e2] at hv hv'
    rw [← e1] at hin
    obtain ⟨f1, f2⟩ := fin δ (by linarith) (by rw [abs_of_pos hpos]; exact δk)
    have NR : (0 : ℝ) < ((2 ^ n : ℕ) : ℝ) := by positivity
    refine ⟨?_, ?_⟩
    · have q1 := wrapF hN4 ho.p0 hp.1 hp.2.1 m0 (by push_cast; exact m1) hin hv hv' δ0
        (by linarith) hδ
      rw [w1]
      have := corners_le (N := 2 ^ n) (jmin := jmin) (jmax := jmax) (u := bar o.prevPhase) (v := p)
        (δ := δ) (by have := hin.2; rwa [le_div_iff₀ NR] at this) hv q1 f1
      push_cast at this
      exact this
    · rcases w2 with ⟨-, w2⟩ | ⟨hu, w2⟩
      · omega
      · obtain ⟨-, g2, g3⟩ := half_range (n := n) (by omega) m0 m1
        have hin' := half_in (n := n) (by omega) hin
        have hv2 := half_le (n := n) (by omega) hv
        have hv2' := half_gt (n := n) (by omega) hv'
        have q1 := wrapF (hN4' hu) ho.p0 hp.1 hp.2.1 g2 (by push_cast; exact g3) hin' hv2 hv2' δ0
          (by linarith) hδ
        rw [w2]
        have NR : (0 : ℝ) < ((2 ^ (n - 1) : ℕ) : ℝ) := by positivity
        have := corners_le (N := 2 ^ (n - 1)) (jmin := jmin / 2) (jmax := jmax / 2)
          (u := bar o.prevPhase) (v := p) (δ := δ)
          (by have := hin'.2; rwa [le_div_iff₀ NR] at this) hv2 q1
          (f2 (by have := b2 hu; omega))
        push_cast at this
        exact this

end Sys
end Adwt
