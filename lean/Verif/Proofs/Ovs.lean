import Verif.Model.Ovs
import Verif.Proofs.Maths
import Verif.Proofs.Kernel
import Verif.Num.CFloat
import Verif.Spec.Integral
import Verif.Proofs.Sweep

/-!
# The reference oscillator of the benchmarks
-/

set_option linter.unusedSectionVars false

namespace Adwt.Ovs

section
variable {K D : Type} [Field K] [LinearOrder K] [IsStrictOrderedRing K] [FloorRing K]
  {E : Env K} {ws : List K} {p : K}

theorem rd_err {α : Type} {l : List α} {i : ℤ} {e : Err} (h : rd l i = .error e) : e = .outOfBounds := by
  unfold rd at h
  split at h
  · split at h
    · cases h
    · cases h; rfl
  · cases h; rfl

/-- the position in the waveform -/
def rel (E : Env K) (ws : List K) (p : K) : K := E.fl (p * E.fl (ws.length : K))

theorem rel_range (hf : Rounding E.fl) (hlen : ws.length ≤ 2 ^ 24) (h0 : 0 ≤ p) (h1 : p ≤ 1) :
    0 ≤ rel E ws p ∧ rel E ws p ≤ ws.length := by
  unfold rel
  rw [hf.natCast _ hlen]
  have hn : (0 : K) ≤ (ws.length : K) := by positivity
  constructor
  · exact hf.nonneg (mul_nonneg h0 hn)
  · have := hf.mono (show p * (ws.length : K) ≤ ws.length by
      have := mul_le_mul_of_nonneg_right h1 hn
      rwa [one_mul] at this)
    rwa [hf.natCast _ hlen] at this

theorem floor_rel (hf : Rounding E.fl) (hlen : ws.length ≤ 2 ^ 24) (h0 : 0 ≤ p) (h1 : p ≤ 1) :
    Maths.floor E.fl (rel E ws p) = .ok ⌊rel E ws p⌋ ∧ 0 ≤ ⌊rel E ws p⌋ ∧
      ⌊rel E ws p⌋ ≤ ws.length := by
  obtain ⟨a, b⟩ := rel_range hf hlen h0 h1
  have hl : (ws.length : K) ≤ 2 ^ 24 := by exact_mod_cast hlen
  refine ⟨Maths.floor_small hf (by linarith [show (0 : K) ≤ 2 ^ 24 by positivity]) (b.trans hl),
    Int.floor_nonneg.2 a, ?_⟩
  have : (⌊rel E ws p⌋ : K) ≤ ws.length := (Int.floor_le _).trans b
  exact_mod_cast this

/-- In a debug build `reduce` on unsigned integers fails its assertion. -/
theorem reduceU_debug {v t : ℕ} (ht : t ≤ 2 ^ 24) (hv : v ≤ 2 ^ 24 + 1) :
    reduceU true v t = .error .assertFail := by
  unfold reduceU
  by_cases h : 0 < t
  · rw [chk_true h, R.ok_bind]
    have : ¬ (v ≤ 2 * t % 2 ^ 64 ∧ v ≥ (2 ^ 64 - t) % 2 ^ 64) := by
      rintro ⟨-, h2⟩
      rw [Nat.mod_eq_of_lt (by omega)] at h2
      omega
    unfold chk
    rw [if_pos ⟨rfl, this⟩]; rfl
  · unfold chk
    rw [if_pos ⟨rfl, h⟩]; rfl

theorem sample_debug (hf : Rounding E.fl) (hd : E.dbg = true) (hlen : ws.length ≤ 2 ^ 24) (h0 : 0 ≤ p)
    (h1 : p ≤ 1) : sample E ws p = .error .assertFail := by
  obtain ⟨a, b, c⟩ := floor_rel hf hlen h0 h1
  unfold sample
  dsimp only
  rw [show E.fl (p * E.fl (ws.length : K)) = rel E ws p from rfl, a, R.ok_bind, hd,
    reduceU_debug hlen (by omega)]
  rfl

/-- the straight line through two neighbouring samples, with roundings -/
def line (E : Env K) (x y k r : K) : K :=
  let a := E.fl (y - x)
  E.mad a r (E.mad (-k) a x)

theorem sample_release (hf : Rounding E.fl) (hd : E.dbg = false) (hlen : ws.length ≤ 2 ^ 24) (h0 : 0 ≤ p)
    (h1 : p ≤ 1) :
    (rel E ws p < ws.length → ∃ k : ℕ, ⌊rel E ws p⌋ = k ∧ k < ws.length ∧
      sample E ws p = .ok (line E (ws.getD k 0) (ws.getD ((k + 1) % ws.length) 0) k (rel E ws p))) ∧
    (rel E ws p = ws.length → sample E ws p = .error .outOfBounds) := by
  obtain ⟨a, b, c⟩ := floor_rel hf hlen h0 h1
  obtain ⟨k, hk⟩ := Int.eq_ofNat_of_zero_le b
  rw [hk] at a b c
  have hk1 : k ≤ ws.length := by omega
  have e1 : ((k : ℤ) % 2 ^ 64) = (k : ℤ) := Int.emod_eq_of_lt (by omega) (by omega)
  have e2 : (k + 1) % 2 ^ 64 = k + 1 := Nat.mod_eq_of_lt (by omega)
  have key : sample E ws p = (do
      let next ← reduceU E.dbg (k + 1) ws.length
      let wn ← rd ws next
      let wp ← rd ws (k : ℤ)
      return line E wp wn k (rel E ws p)) := by
    unfold sample
    dsimp only
    rw [show E.fl (p * E.fl (ws.length : K)) = rel E ws p from rfl, a, R.ok_bind, e1,
      Int.toNat_natCast, e2, Int.cast_natCast, hf.natCast k (by omega)]
    rfl
  have hr : reduceU E.dbg (k + 1) ws.length = .ok (if k + 1 ≥ ws.length then k + 1 - ws.length else k + 1) := by
    unfold reduceU
    rw [hd]; simp
  rw [hr, R.ok_bind] at key
  constructor
  · intro h
    have hlt : k < ws.length := by
      have : ((⌊rel E ws p⌋ : ℤ) : K) < ws.length := lt_of_le_of_lt (Int.floor_le _) h
      rw [hk] at this
      exact_mod_cast this
    refine ⟨k, hk, hlt, ?_⟩
    have hnx : (if k + 1 ≥ ws.length then k + 1 - ws.length else k + 1) = (k + 1) % ws.length := by
      split_ifs with hc
      · have : k + 1 = ws.length := by omega
        rw [this]; simp
      · exact (Nat.mod_eq_of_lt (by omega)).symm
    rw [key, hnx, Sys.rd_getD' (by omega) (by have := Nat.mod_lt (k + 1) (show 0 < ws.length by omega); omega),
      R.ok_bind, Sys.rd_getD' (by omega) (by omega), R.ok_bind, Int.toNat_natCast, Int.toNat_natCast]
    rfl
  · intro h
    have hkl : k = ws.length := by
      have e : ⌊rel E ws p⌋ = (ws.length : ℤ) := by rw [h]; exact Int.floor_natCast _
      rw [hk] at e
      omega
    rw [key]
    have : rd ws (k : ℤ) = .error .outOfBounds := rd_big (by omega)
    rw [this]
    cases hx : rd ws ((if k + 1 ≥ ws.length then k + 1 - ws.length else k + 1 : ℕ) : ℤ) with
    | ok v => rfl
    | error e => rw [rd_err hx]; rfl

end
end Adwt.Ovs

namespace Adwt.Ovs

section
variable {K D : Type} [Field K] [LinearOrder K] [IsStrictOrderedRing K] [FloorRing K]
  {E : Env K} {ws : List K} {p : K}

theorem fill_ok {g : K → K} : ∀ {ps us : List K}, ps.length = us.length →
    (∀ p ∈ ps, sample E ws p = .ok (g p)) → fill E ws ps us = .ok (ps.map g)
  | [], [], _, _ => rfl
  | [], _ :: _, h, _ => by simp at h
  | _ :: _, [], h, _ => by simp at h
  | p :: ps, u :: us, h, hs => by
    unfold fill
    rw [hs p (by simp), R.ok_bind, fill_ok (g := g) (by simpa using h) (fun q hq => hs q (by simp [hq])),
      R.ok_bind]
    rfl

/-- When one of the samples fails with `e` and the others succeed or fail with `e`, so does the loop. -/
theorem fill_err {e : Err} : ∀ {ps us : List K}, ps.length = us.length →
    (∀ p ∈ ps, (∃ y, sample E ws p = .ok y) ∨ sample E ws p = .error e) →
    (∃ p ∈ ps, sample E ws p = .error e) → fill E ws ps us = .error e
  | [], _, _, _, h => by simp at h
  | _ :: _, [], h, _, _ => by simp at h
  | p :: ps, u :: us, h, hs, hx => by
    unfold fill
    rcases hs p (by simp) with ⟨y, hy⟩ | hy
    · rw [hy, R.ok_bind, fill_err (e := e) (by simpa using h) (fun q hq => hs q (by simp [hq]))]
      · rfl
      · obtain ⟨q, hq, hqe⟩ := hx
        rcases List.mem_cons.1 hq with rfl | hq
        · rw [hy] at hqe; cases hqe
        · exact ⟨q, hq, hqe⟩
    · rw [hy]; rfl

theorem init_ok {initD : D → ℕ → D} {o : OvsOsc K D} {b r : ℤ} (hb : 0 < b) (hr : 0 < r) :
    init initD o ws b r =
      ({ upsampled := o.upsampled.take (b.toNat * r.toNat) ++
          List.replicate (b.toNat * r.toNat - o.upsampled.length) 0
         waveform := ws, ratio := r, dRatio := r, dBlock := 8 * b.toNat
         down := initD o.down b.toNat }, 0) := by
  unfold init
  rw [if_neg (by omega)]

theorem init_length (l : List K) (n : ℕ) :
    (l.take n ++ List.replicate (n - l.length) (0 : K)).length = n := by
  simp; omega

/-- ready to process `b` samples with ratio `r` -/
def Ready (ws : List K) (b r : ℕ) (o : OvsOsc K D) : Prop :=
  o.waveform = ws ∧ o.ratio = r ∧ o.dRatio = r ∧ o.dBlock = 8 * b ∧ o.upsampled.length = b * r

theorem init_ready {initD : D → ℕ → D} {o : OvsOsc K D} {b r : ℕ} (hb : 0 < b) (hr : 0 < r) :
    Ready ws b r (init initD o ws b r).1 := by
  rw [init_ok (by omega) (by omega)]
  refine ⟨rfl, rfl, rfl, by simp, ?_⟩
  rw [init_length]; simp

theorem fill_length : ∀ {ps us ys : List K}, fill E ws ps us = .ok ys → ys.length = us.length
  | [], us, ys, h => by
    cases us <;> · unfold fill at h; cases h; rfl
  | _ :: _, [], ys, h => by unfold fill at h; cases h; rfl
  | p :: ps, u :: us, ys, h => by
    unfold fill at h
    obtain ⟨y, -, h⟩ := bind_ok h
    obtain ⟨zs, hz, h⟩ := bind_ok h
    cases h
    rw [List.length_cons, fill_length hz, List.length_cons]

theorem process_ready {down : D → List K → ℕ → D × List K} {o o' : OvsOsc K D} {ps out : List K}
    {b r n : ℕ} (ho : Ready ws b r o) (h : process E down o ps n = .ok (o', out)) : Ready ws b r o' := by
  unfold process at h
  obtain ⟨-, -, h⟩ := bind_ok h
  obtain ⟨-, -, h⟩ := bind_ok h
  obtain ⟨up, hu, h⟩ := bind_ok h
  obtain ⟨-, -, h⟩ := bind_ok h
  split at h
  · cases h
  · cases h
    obtain ⟨o1, o2, o3, o4, o5⟩ := ho
    exact ⟨o1, o2, o3, o4, (fill_length hu).trans o5⟩

end

section
variable {D : Type}

/-- a float below one is at most `1 - 2^-24` -/
theorem below_one {p : ℝ} (hp : ieee32 p = p) (h1 : p < 1) : p ≤ 1 - 1 / 2 ^ 24 := by
  rcases lt_or_ge p (1 / 2) with h | h
  · have : (1 : ℝ) / 2 ≤ 1 - 1 / 2 ^ 24 := by norm_num
    linarith
  have hp0 : 0 < p := by linarith
  have hu : ulpExp p = -24 := by
    unfold ulpExp
    rw [abs_of_pos hp0]
    have a : (-1 : ℤ) ≤ Int.log 2 p := by
      rw [← Int.zpow_le_iff_le_log (by norm_num) hp0]; norm_num; linarith
    have b : ¬ 0 ≤ Int.log 2 p := by
      rw [← Int.zpow_le_iff_le_log (by norm_num) hp0]; simp; linarith
    omega
  have hr := rne24_of_ieee32 hp
  unfold rne24 at hr
  rw [hu, show ((2 : ℝ) ^ (-24 : ℤ)) = 1 / 2 ^ 24 by norm_num] at hr
  generalize roundEven (p / (1 / 2 ^ 24)) = n at hr
  have hn : (n : ℝ) < ((2 ^ 24 : ℤ) : ℝ) := by
    by_contra hc
    rw [not_lt] at hc
    push_cast at hc
    norm_num at hc hr
    linarith
  have hn' : n ≤ 2 ^ 24 - 1 := by have : n < 2 ^ 24 := by exact_mod_cast hn
                                  omega
  have hn2 : (n : ℝ) ≤ 2 ^ 24 - 1 := by exact_mod_cast hn'
  norm_num at hn2 hr ⊢
  linarith

/-- a float phase below one is read inside the waveform -/
theorem rel_lt {E : Env ℝ} {ws : List ℝ} {p : ℝ} (hE : E.fl = ieee32) (hne : ws ≠ [])
    (hlen : ws.length ≤ 2 ^ 24) (hp : ieee32 p = p) (h0 : 0 ≤ p) (h1 : p < 1) :
    rel E ws p < ws.length := by
  have hf : Rounding E.fl := by rw [hE]; exact rounding_ieee32
  have hp2 : p ≤ 1 - 1 / 2 ^ 24 := by
    exact below_one hp h1
  unfold rel
  rw [hf.natCast _ hlen, hE]
  have hn : (1 : ℝ) ≤ ws.length := by
    exact_mod_cast (List.length_pos_iff.2 hne)
  have hl : (ws.length : ℝ) ≤ 2 ^ 24 := by exact_mod_cast hlen
  have hx0 : 0 ≤ p * (ws.length : ℝ) := mul_nonneg h0 (by linarith)
  have hx1 : p * (ws.length : ℝ) ≤ (1 - 1 / 2 ^ 24) * ws.length :=
    mul_le_mul_of_nonneg_right hp2 (by linarith)
  have hr := CFloat.rel32 (x := p * (ws.length : ℝ)) (by
    rw [abs_of_nonneg hx0]
    have hl2 : (ws.length : ℝ) ≤ 2 ^ 127 := hl.trans (by norm_num)
    have : (1 - 1 / 2 ^ 24 : ℝ) * ws.length ≤ 1 * ws.length :=
      mul_le_mul_of_nonneg_right (by norm_num) (by linarith)
    linarith)
  rw [abs_of_nonneg hx0] at hr
  have hr := (abs_le.1 hr).2
  norm_num at hr hx1 ⊢
  linarith

/-- exact arithmetic: the straight line is the linear interpolation -/
theorem line_exact {E : Env ℝ} (hE : E.fl = id) (x y k r : ℝ) :
    line E x y k r = x + (r - k) * (y - x) := by
  unfold line
  dsimp only
  rw [WavetableData.mad_id hE, WavetableData.mad_id hE, hE]; simp only [id]; ring

/-- error of the straight line in floats -/
theorem line_err {E : Env ℝ} (hE : E.fl = ieee32) {x y k r A N : ℝ} (hx : |x| ≤ A) (hy : |y| ≤ A)
    (hA : A ≤ 2 ^ 90) (hN : 1 ≤ N) (hN2 : N ≤ 2 ^ 24) (hk0 : 0 ≤ k) (hkr : k ≤ r) (hrk : r < k + 1)
    (hr : r < N) : |line E x y k r - (x + (r - k) * (y - x))| ≤ N * A / 2 ^ 20 + 1 / 2 ^ 140 := by
  have hA0 : 0 ≤ A := (abs_nonneg x).trans hx
  have hAN : A ≤ A * N := le_mul_of_one_le_right hA0 hN
  have hANb : A * N ≤ 2 ^ 90 * 2 ^ 24 := mul_le_mul hA hN2 (by linarith) (by norm_num)
  unfold line
  dsimp only
  rw [show E.fl (y - x) = ieee32 (y - x) by rw [hE]]
  -- the slope
  obtain ⟨a, ha⟩ : ∃ a, a = ieee32 (y - x) := ⟨_, rfl⟩
  rw [← ha]
  have h1 : |y - x| ≤ 2 * A := by
    have := abs_sub y x
    linarith
  have e1 := CFloat.rel32 (x := y - x) (h1.trans (by norm_num at hA ⊢; linarith))
  rw [← ha] at e1
  have e1' : |a - (y - x)| ≤ 2 * A / 2 ^ 24 + 1 / 2 ^ 150 := by
    have := mul_le_mul_of_nonneg_left h1 (show (0 : ℝ) ≤ 1 / 2 ^ 24 by positivity)
    linarith
  have hab : |a| ≤ 2 * A + 2 * A / 2 ^ 24 + 1 / 2 ^ 150 := by
    have := abs_add_le (a - (y - x)) (y - x)
    rw [sub_add_cancel] at this
    linarith
  -- products with something between 0 and N
  have prod : ∀ t : ℝ, 0 ≤ t → t ≤ N → |a * t| ≤ 3 * (A * N) + 1 / 2 ^ 126 ∧
      |ieee32 (a * t) - a * t| ≤ 1 / 2 ^ 24 * (2.1 * (A * N)) + 1 / 2 ^ 149 := by
    intro t h0 hN'
    have b1 : |a * t| ≤ (2 * A + 2 * A / 2 ^ 24 + 1 / 2 ^ 150) * N := by
      rw [abs_mul, abs_of_nonneg h0]
      exact mul_le_mul hab hN' h0 ((abs_nonneg _).trans hab)
    have b2 : (2 * A + 2 * A / 2 ^ 24 + 1 / 2 ^ 150) * N =
        2 * (A * N) + 2 * (A * N) / 2 ^ 24 + 1 / 2 ^ 150 * N := by ring
    rw [b2] at b1
    have b3 : (1 : ℝ) / 2 ^ 150 * N ≤ 1 / 2 ^ 126 := by
      have := mul_le_mul_of_nonneg_left hN2 (show (0 : ℝ) ≤ 1 / 2 ^ 150 by positivity)
      refine this.trans (le_of_eq ?_)
      norm_num
    have b4 : |a * t| ≤ 2.1 * (A * N) + 1 / 2 ^ 126 := by
      norm_num at b1 b3 ⊢
      linarith
    have e := CFloat.rel32 (x := a * t) (b4.trans (by norm_num at hANb ⊢; linarith))
    have b5 := mul_le_mul_of_nonneg_left b4 (show (0 : ℝ) ≤ 1 / 2 ^ 24 by positivity)
    refine ⟨?_, ?_⟩
    · norm_num at b4 ⊢; linarith
    · norm_num at e b5 ⊢; linarith
  obtain ⟨p1, q1⟩ := prod r (hk0.trans hkr) hr.le
  obtain ⟨p2, q2⟩ := prod k hk0 (hkr.trans hr.le)
  obtain ⟨P2, hP2, m2⟩ := WavetableData.mad_cases E (-k) a x
  obtain ⟨t1, hP1, m1⟩ := WavetableData.mad_cases E a r (E.fl (P2 + x))
  obtain ⟨t2, ht2⟩ : ∃ t, t = -P2 := ⟨_, rfl⟩
  have q1 : |t1 - a * r| ≤ 1 / 2 ^ 24 * (2.1 * (A * N)) + 1 / 2 ^ 149 := by
    rcases hP1 with h | h <;> rw [h]
    · rw [sub_self, abs_zero]; positivity
    · rw [hE]; exact q1
  have q2 : |t2 - a * k| ≤ 1 / 2 ^ 24 * (2.1 * (A * N)) + 1 / 2 ^ 149 := by
    rcases hP2 with h | h <;> rw [ht2, h]
    · rw [show -(-k * a) - a * k = 0 by ring, abs_zero]; positivity
    · rw [hE, show -k * a = -(a * k) by ring, ieee32_neg, neg_neg]; exact q2
  rw [m2, m1, hE, show P2 + x = x - t2 by rw [ht2]; ring]
  -- the offset
  have b2 : |x - t2| ≤ 4.1 * (A * N) + 1 / 2 ^ 125 := by
    have h := abs_add_three x (-(a * k)) (-(t2 - a * k))
    rw [abs_neg, abs_neg, show x + -(a * k) + -(t2 - a * k) = x - t2 by ring] at h
    have n1 : (1 : ℝ) / 2 ^ 149 + 1 / 2 ^ 126 ≤ 1 / 2 ^ 125 := by norm_num
    have n2 : 1 / 2 ^ 24 * (2.1 * (A * N)) ≤ 0.1 * (A * N) := by
      rw [← mul_assoc]
      exact mul_le_mul_of_nonneg_right (by norm_num) (by linarith)
    linarith
  have e2 := CFloat.rel32 (x := x - t2) (b2.trans (by norm_num at hANb ⊢; linarith))
  have e2' : |ieee32 (x - t2) - (x - t2)| ≤ 1 / 2 ^ 24 * (4.1 * (A * N)) + 1 / 2 ^ 148 := by
    have := mul_le_mul_of_nonneg_left b2 (show (0 : ℝ) ≤ 1 / 2 ^ 24 by positivity)
    norm_num at this e2 ⊢
    linarith
  obtain ⟨b, hb⟩ : ∃ b, b = ieee32 (x - t2) := ⟨_, rfl⟩
  rw [← hb] at e2' ⊢
  -- the sum
  have s1 : |(r - k) * (a - (y - x))| ≤ 2 * A / 2 ^ 24 + 1 / 2 ^ 150 := by
    rw [abs_mul]
    have : |r - k| ≤ 1 := by rw [abs_of_nonneg (by linarith)]; linarith
    exact (mul_le_of_le_one_left (abs_nonneg _) this).trans e1'
  have s2 : |(t1 + b) - (x + (r - k) * (y - x))| ≤
      1 / 2 ^ 24 * (10.3 * (A * N)) + 1 / 2 ^ 146 := by
    have h := abs_add_three (t1 - a * r) (-(t2 - a * k)) (b - (x - t2))
    have h2 := abs_add_le (t1 - a * r + -(t2 - a * k) + (b - (x - t2))) ((r - k) * (a - (y - x)))
    rw [abs_neg] at h
    rw [show t1 - a * r + -(t2 - a * k) + (b - (x - t2)) + (r - k) * (a - (y - x)) =
      (t1 + b) - (x + (r - k) * (y - x)) by ring] at h2
    have n1 : (1 : ℝ) / 2 ^ 149 + 1 / 2 ^ 149 + 1 / 2 ^ 148 + 1 / 2 ^ 150 ≤ 1 / 2 ^ 146 := by norm_num
    have n2 : 2 * A / 2 ^ 24 ≤ 1 / 2 ^ 24 * (2 * (A * N)) := by
      rw [div_eq_mul_one_div, mul_comm]
      exact mul_le_mul_of_nonneg_left (by linarith) (by positivity)
    linarith
  have s3 : |x + (r - k) * (y - x)| ≤ 3 * (A * N) := by
    have h := abs_add_le x ((r - k) * (y - x))
    have : |(r - k) * (y - x)| ≤ 2 * A := by
      rw [abs_mul]
      have : |r - k| ≤ 1 := by rw [abs_of_nonneg (by linarith)]; linarith
      exact (mul_le_of_le_one_left (abs_nonneg _) this).trans h1
    linarith
  have s4 : |t1 + b| ≤ 3.1 * (A * N) + 1 / 2 ^ 146 := by
    have h := abs_add_le ((t1 + b) - (x + (r - k) * (y - x))) (x + (r - k) * (y - x))
    rw [sub_add_cancel] at h
    norm_num at s2 s3 ⊢
    linarith
  have e3 := CFloat.rel32 (x := t1 + b) (s4.trans (by norm_num at hANb ⊢; linarith))
  have h := abs_add_le (ieee32 (t1 + b) - (t1 + b)) ((t1 + b) - (x + (r - k) * (y - x)))
  rw [sub_add_sub_cancel] at h
  have := mul_le_mul_of_nonneg_left s4 (show (0 : ℝ) ≤ 1 / 2 ^ 24 by positivity)
  rw [mul_comm N A]
  norm_num at this e3 s2 ⊢
  linarith

/-- one addition to a phase -/
theorem accum_ok {x s : ℝ} (hx : PhaseOk ieee32 x) (h0 : 0 ≤ s) (h1 : s ≤ 1) :
    PhaseOk ieee32 (Drivers.fmod1 (ieee32 (x + s))) := by
  have hf := rounding_ieee32 (K := ℝ)
  obtain ⟨x0, x1, xf⟩ := hx
  have hge : 0 ≤ ieee32 (x + s) := hf.nonneg (by linarith)
  unfold Drivers.fmod1
  rcases lt_or_ge (ieee32 (x + s)) 1 with hl | hl
  · rw [Drivers.trunc_zero hge hl, Int.cast_zero, sub_zero]
    exact ⟨hge, hl, isPhase_ieee32 (hf.idem _)⟩
  · have h2 : ieee32 (x + s) ≤ 2 := hf.le_of_le (by exact_mod_cast hf.natCast 2 (by norm_num)) (by linarith)
    rcases h2.lt_or_eq with h2 | h2
    · obtain ⟨k, k0, k1, hk⟩ := Drivers.ieee32_one_two hl h2
      rw [hf.idem] at hk
      rw [Drivers.trunc_one hl h2, Int.cast_one]
      refine ⟨by linarith, by linarith, ?_⟩
      rw [hk, add_sub_cancel_left]
      exact isPhase_ieee32 (hf.dyadic k 23 (by
        rw [abs_of_nonneg k0]; linarith [show (2 : ℤ) ^ 23 ≤ 2 ^ 24 by norm_num]))
    · have : trunc (2 : ℝ) = 2 := by
        unfold trunc; rw [if_pos (by norm_num)]; exact_mod_cast Int.floor_natCast (R := ℝ) 2
      rw [h2, this]
      norm_num
      exact ⟨le_rfl, by norm_num, hf.zero_ph⟩

theorem accumulate_ok {x : ℝ} (hx : PhaseOk ieee32 x) {ss : List ℝ} (h : ∀ s ∈ ss, 0 ≤ s ∧ s ≤ 1) :
    ∀ p ∈ Drivers.accumulate ieee32 x ss, PhaseOk ieee32 p := by
  induction ss generalizing x with
  | nil => intro p hp; simp [Drivers.accumulate] at hp
  | cons s ss ih =>
    have h1 := accum_ok hx (h s (by simp)).1 (h s (by simp)).2
    intro p hp
    unfold Drivers.accumulate at hp
    rcases List.mem_cons.1 hp with rfl | hp
    · exact h1
    · exact ih h1 (fun s hs => h s (by simp [hs])) p hp

end
end Adwt.Ovs
