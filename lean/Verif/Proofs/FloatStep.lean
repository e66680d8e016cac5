import Verif.Proofs.FloatVal3
import Verif.Proofs.Plays
import Verif.Proofs.BoundRun

/-!
# The sums of one sample in float arithmetic
-/

set_option linter.unusedSectionVars false

namespace Adwt
open Seg WavetableData

variable {C : Type} [Zero C] [Add C] [Sub C] [Mul C] [Div C]

/-- the getters return tables close to those made from `ws` -/
structure HasFLines (E : Env ℝ) (ε M : ℝ) (ws : List ℝ) (nw L : ℕ) (wt : WavetableData ℝ) : Prop where
  lines : ∀ w i : ℤ, 0 ≤ w → w < nw → 0 ≤ i → i < (L : ℤ) - 1 →
    FLines ε M (2 ^ (L - i.toNat)) (cyc (mipSamples E (waveformOf ws (2 ^ L) w.toNat) i.toNat))
      (Sys.getOr (wt.mSpan w i)) (Sys.getOr (wt.qSpan w i)) (Sys.getOr (wt.mDiffSpan w i))
      (Sys.getOr (wt.qDiffSpan w i)) (Sys.getOr (wt.phaseSpan i))
  len : ∀ w i : ℤ, 0 ≤ w → w < nw → 0 ≤ i → i < (L : ℤ) - 1 →
    (mipSamples E (waveformOf ws (2 ^ L) w.toNat) i.toNat).length = 2 ^ (L - i.toNat)

theorem HasFLines.with_cf {E : Env ℝ} {ε M : ℝ} {ws : List ℝ} {nw L : ℕ} {wt : WavetableData ℝ}
    (h : HasFLines E ε M ws nw L wt) (c : CrossFader ℝ) : HasFLines E ε M ws nw L { wt with cf := c } :=
  ⟨h.lines, h.len⟩

theorem built_flines {E : Env ℝ} (hf : Rounding E.fl) (hl : Log2Spec E.log2f) {ε A Λ : ℝ}
    (h0 : 0 ≤ ε) (h1 : ε ≤ 1 / 1000)
    (hfl : RelTo E.fl ε (1 / 2 ^ 80) (2 ^ 110)) (hdbl : ∀ x, |E.dbl x - x| ≤ ε * |x|) {ws : List ℝ}
    {nw L : ℕ} (M0 : 1 / 2 ^ 40 ≤ A + Λ) (M1 : A + Λ ≤ 2 ^ 24) (hA : TablesWithin E ws nw L A) (hΛ : SlopesWithin E ws nw L Λ)
    {sr dur : ℝ} {wt0 wt : WavetableData ℝ} (h : Built E ws nw L sr dur wt0)
    (ht : tablesOf wt = tablesOf wt0) : HasFLines E ε (A + Λ) ws nw L wt := by
  have hws := h.2.2.1
  obtain ⟨hnw, h2, h18, xf, rfl, -⟩ := built_wtOf hf hl h
  rw [tables_eq ht]
  apply HasFLines.with_cf
  have hlen : ∀ w i : ℤ, 0 ≤ w → w < nw → 0 ≤ i → i < (L : ℤ) - 1 →
      (mipSamples E (waveformOf ws (2 ^ L) w.toNat) i.toNat).length = 2 ^ (L - i.toNat) := by
    intro w i a b c d
    exact mipSamples_length E (waveformOf_length hws (by omega)) _ (by omega)
  refine ⟨?_, hlen⟩
  intro w i a b c d
  have hl' := hlen w i a b c d
  obtain ⟨w, rfl⟩ := Int.eq_ofNat_of_zero_le a
  obtain ⟨i, rfl⟩ := Int.eq_ofNat_of_zero_le c
  rw [wtOf_mSpan (by omega) (by omega), wtOf_qSpan (by omega) (by omega),
    wtOf_mDiffSpan (by omega) (by omega), wtOf_qDiffSpan (by omega) (by omega),
    wtOf_phaseSpan (by omega)]
  exact tab_flines hf h0 h1 hfl hdbl (by omega) hl'
    (fun k => cyc_bound (hA w (by omega) i (by omega)) (by
      simp only [Int.toNat_natCast] at hl'; rw [hl']; positivity) k)
    (fun k => hΛ w (by omega) i (by omega) k) M0 M1

namespace Sys
variable {S : Sys ℝ C} {val : C → ℂ} {ε M : ℝ} {nw L : ℕ} {o : Osc ℝ C} {ws : List ℝ}

theorem FloatSys.relTo (hS : FloatSys S val ε) : RelTo S.env.fl ε (1 / 2 ^ 80) (2 ^ 110) :=
  fun x _ hx h1 h2 => (hS.rel x (hx.trans h2)).trans (roundErr_le hS.ε0 hx h1)

/-- the rounded step and the one it stands for -/
theorem true_step (hS : FloatSys S val ε) {dir : Direction} {p x : ℝ} (hx : PhaseOk S.env.fl x)
    (hp : PhaseOk S.env.fl p) :
    |dirDiff S.env.fl dir p x - trueStep S.env.fl dir p x| ≤ 3 * ε ∧
    (0 < dirDiff S.env.fl dir p x → 0 < trueStep S.env.fl dir p x ∧
      (trueStep S.env.fl dir p x = p - x ∨ trueStep S.env.fl dir p x = p - x + 1)) ∧
    (dirDiff S.env.fl dir p x < 0 → trueStep S.env.fl dir p x < 0 ∧
      (trueStep S.env.fl dir p x = p - x ∨ trueStep S.env.fl dir p x = p - x - 1)) ∧
    ∃ k : ℤ, trueStep S.env.fl dir p x = p - x + k := by
  have hf := hS.fl
  have e0 := hS.ε0
  have e1 := FloatSys.εs hS
  set d := dirDiff S.env.fl dir p x with hd
  set r := S.env.fl (p - x) with hr
  obtain ⟨x0, x1, -⟩ := hx
  obtain ⟨p0, p1, -⟩ := hp
  have ha : |p - x| ≤ 1 := by rw [abs_le]; constructor <;> linarith
  have hre : |r - (p - x)| ≤ ε := by
    refine (hS.rel _ (ha.trans (by norm_num))).trans ?_
    have := roundErr_le e0 ha (by norm_num)
    linarith
  have hr1 : |r| ≤ 1 := by
    have m1 := hf.mono (show -1 ≤ p - x by linarith)
    have m2 := hf.mono (show p - x ≤ 1 by linarith)
    rw [hf.one] at m2
    have : S.env.fl (-1 : ℝ) = -1 := by simpa using hf.int (-1) (by norm_num)
    rw [this] at m1
    exact abs_le.2 ⟨m1, m2⟩
  obtain ⟨hr2, hr3⟩ := abs_le.1 hr1
  have hrd : ∀ k : ℤ, |d - (p - x + k)| ≤ 3 * ε → round (d - (p - x)) = k := by
    intro k hk
    rw [round_eq_iff]
    have := abs_le.1 hk
    constructor <;> push_cast <;> linarith [this.1, this.2]
  have two : ∀ c : ℝ, |c| = 1 → |S.env.fl (r + c) - (p - x + c)| ≤ 3 * ε := by
    intro c hc
    have a1 : |r + c| ≤ 2 := (abs_add_le _ _).trans (by linarith)
    have a2 : |S.env.fl (r + c) - (r + c)| ≤ ε * 2 :=
      (hS.rel _ (a1.trans (by norm_num))).trans (roundErr_le e0 a1 (by norm_num))
    have e : S.env.fl (r + c) - (p - x + c) =
      (S.env.fl (r + c) - (r + c)) + (r - (p - x)) := by ring
    rw [e]
    refine (abs_add_le _ _).trans ?_
    linarith
  have three : (d = r) ∨ (r < 0 ∧ d = S.env.fl (r + 1)) ∨ (1 / 2 < r ∧ d = S.env.fl (r + -1)) := by
    cases dir
    · simp only [hd, dirDiff, fwdDiff, ← hr]
      split_ifs with h
      · exact Or.inr (Or.inl ⟨h, rfl⟩)
      · exact Or.inl rfl
    · simp only [hd, dirDiff, biDiff, ← hr]
      split_ifs with h h'
      · exact Or.inr (Or.inl ⟨by linarith, rfl⟩)
      · exact Or.inr (Or.inr ⟨h', by rw [sub_eq_add_neg]⟩)
      · exact Or.inl rfl
  unfold trueStep
  rw [← hd]
  rcases three with h | ⟨h1, h⟩ | ⟨h1, h⟩
  · have hk : |d - (p - x + (0 : ℤ))| ≤ 3 * ε := by
      rw [h]; push_cast; rw [add_zero]; linarith
    rw [hrd 0 hk]
    refine ⟨hk, fun hp => ⟨?_, Or.inl (by simp)⟩, fun hn => ⟨?_, Or.inl (by simp)⟩, 0, rfl⟩
    · rw [h] at hp
      push_cast
      by_contra hc
      have := hf.nonpos (show p - x ≤ 0 by linarith)
      linarith
    · rw [h] at hn
      push_cast
      by_contra hc
      have := hf.nonneg (show 0 ≤ p - x by linarith)
      linarith
  · have hk : |d - (p - x + (1 : ℤ))| ≤ 3 * ε := by
      rw [h]; push_cast; exact two 1 (by norm_num)
    rw [hrd 1 hk]
    refine ⟨hk, fun hp => ⟨?_, Or.inr (by simp)⟩, fun hn => ?_, 1, rfl⟩
    · push_cast; linarith
    · have := hf.nonneg (show 0 ≤ r + 1 by linarith)
      linarith
  · have hk : |d - (p - x + (-1 : ℤ))| ≤ 3 * ε := by
      rw [h]; push_cast; exact two (-1) (by norm_num)
    rw [hrd (-1) hk]
    refine ⟨hk, fun hp => ?_, fun hn => ⟨?_, Or.inr (by push_cast; ring)⟩, -1, rfl⟩
    · have := hf.nonpos (show r + -1 ≤ 0 by linarith)
      linarith
    · push_cast; linarith

theorem weight_facts (hS : FloatSys S val ε) {c c' : CrossFader ℝ} (h : c.Inv) {d : ℝ}
    (hd : 0 < d) {t : MipMapIndices ℝ} (e : c.newIndices S.env d = .ok (c', t)) :
    0 ≤ t.weight ∧ 0 ≤ t.weightUp ∧ t.weight + t.weightUp ≤ 1.001 ∧
      (t.weightUp = 0 → t.weight = 1) := by
  have hf := hS.fl
  have e1 := FloatSys.εs hS
  have e0 := hS.ε0
  obtain ⟨-, -, -, h0, -, h1, -, f, f1, f2, f3, hfw⟩ := CrossFader.tuple_facts hf h hd e
  have key : S.env.fl (1 - f) ≤ 1 - f + 0.001 := by
    have hb : |1 - f| ≤ 1 := abs_le.2 ⟨by linarith, by linarith⟩
    have := (abs_le.1 ((hS.rel (1 - f) (hb.trans (by norm_num))).trans
      (roundErr_le e0 hb (by norm_num)))).2
    linarith
  refine ⟨h0, h1, ?_, ?_⟩
  · rcases hfw with ⟨a, b⟩ | ⟨a, b⟩ <;> rw [a, b] <;> linarith
  · intro hu
    rcases hfw with ⟨a, b⟩ | ⟨a, b⟩
    · rw [b] at hu
      rcases f3.lt_or_eq with f4 | f4
      · exact absurd hu (hf.one_sub_pos f1 f4).ne'
      · rw [a, f4]
    · rw [b] at hu
      rw [a, hu, sub_zero, hf.one]

set_option maxHeartbeats 1000000 in
theorem mix_near (hS : FloatSys S val ε) {t : MipMapIndices ℝ} {lo up : ℕ → C} {k : ℕ}
    {I J : ℂ} {Q ν : ℝ} (hν : 2 ≤ ν) (hν2 : ν ≤ 2 ^ 19) (hQl : 1 / 2 ^ 40 ≤ Q)
    (hQh : Q ≤ 2 ^ 30) (w0 : 0 ≤ t.weight) (w1 : 0 ≤ t.weightUp)
    (w2 : t.weight + t.weightUp ≤ 1.001) (hw : t.weightUp = 0 → t.weight = 1)
    (hlo : ‖val (lo k) - I‖ ≤ 120 * ν ^ 2 * ε * Q) (hI : ‖I‖ ≤ 2.02 * ν * Q)
    (hup : t.weightUp ≠ 0 → ‖val (up k) - J‖ ≤ 120 * ν ^ 2 * ε * Q ∧ ‖J‖ ≤ 2.02 * ν * Q) :
    ‖val (S.mix t lo up k) - (t.weight * I + t.weightUp * J)‖ ≤ 130 * ν ^ 2 * ε * Q := by
  have e0 := hS.ε0
  have e1 := FloatSys.εs hS
  have hQ : 0 ≤ Q := le_trans (by positivity) hQl
  have hνQ : 0 ≤ ν ^ 2 * ε * Q := by positivity
  unfold mix
  by_cases h : t.weightUp ≠ 0
  · rw [if_pos h]
    obtain ⟨u1, u2⟩ := hup h
    set e := 120 * ν ^ 2 * ε * Q with he
    set P := 2.02 * ν * Q with hP
    have he0 : 0 ≤ e := by positivity
    have hP0 : 0 ≤ P := by positivity
    have he1 : e ≤ 2 ^ 90 := by
      calc e ≤ 120 * (2 ^ 19 : ℝ) ^ 2 * (1 / 1000) * 2 ^ 30 := by rw [he]; gcongr
        _ ≤ _ := by norm_num
    have hP1 : P ≤ 2 ^ 90 := by
      calc P ≤ 2.02 * (2 ^ 19 : ℝ) * 2 ^ 30 := by rw [hP]; gcongr
        _ ≤ _ := by norm_num
    obtain ⟨τ, hτ⟩ : ∃ τ : ℝ, τ = 1 / 2 ^ 80 := ⟨_, rfl⟩
    have hτ0 : 0 ≤ τ := by positivity
    have hPe : ε * (P + e) ≤ 1 / 1000 * (P + e) := by gcongr
    have hετ : ε * τ ≤ 1 / 1000 * τ := by gcongr
    have hετ0 : 0 ≤ ε * τ := by positivity
    have hτ1 : τ ≤ 1 := by rw [hτ]; norm_num
    have one : ∀ {a : C} {I : ℂ} {w : ℝ}, 0 ≤ w → w ≤ 1.001 → ‖val a - I‖ ≤ e → ‖I‖ ≤ P →
        ‖val (a * S.ops.ofK w) - w * I‖ ≤ w * (e + ε * (P + e)) + ε * τ ∧
        ‖val (a * S.ops.ofK w)‖ ≤ w * (P + e + ε * (P + e)) + ε * τ := by
      intro a I w hw hw1 ha hI
      have hn := near_norm ha hI
      have hw' : |w| ≤ w := by rw [abs_of_nonneg hw]
      have hwn := hS.ops.norm_ofK hw'
      have hb : ‖val a‖ * ‖val (S.ops.ofK w)‖ ≤ (P + e) * w :=
        mul_le_mul hn hwn (norm_nonneg _) (by positivity)
      have hb1 : (P + e) * w ≤ (2 ^ 90 + 2 ^ 90) * 1.001 := by gcongr
      have r := (hS.ops.mul a (S.ops.ofK w) (hb.trans (hb1.trans (by norm_num)))).trans
        (roundErr_add e0 (B := (P + e) * w) (by rw [norm_mul]; exact hb) (by positivity))
      have this := near_trans r (near_mul ha (hS.ops.self_ofK w) hwn hI)
      rw [mul_comm (w : ℂ) I]
      have k1 : ‖val (a * S.ops.ofK w) - I * w‖ ≤ w * (e + ε * (P + e)) + ε * τ := by
        refine this.trans (le_of_eq (by rw [hτ]; ring))
      refine ⟨k1, ?_⟩
      have k2 : ‖I * (w : ℂ)‖ ≤ P * w := norm_mul_le' hI (norm_real_le hw')
      exact (near_norm k1 k2).trans (le_of_eq (by ring))
    obtain ⟨a1, a2⟩ := one w0 (by linarith) hlo hI
    obtain ⟨b1, b2⟩ := one w1 (by linarith) u1 u2
    set w := t.weight + t.weightUp with hwd
    set X := t.weight * (P + e + ε * (P + e)) + ε * τ with hX
    set Y := t.weightUp * (P + e + ε * (P + e)) + ε * τ with hY
    have hXY : X + Y = w * (P + e + ε * (P + e)) + 2 * (ε * τ) := by rw [hX, hY, hwd]; ring
    have hXY1 : X + Y ≤ 2 ^ 110 := by
      rw [hXY]
      have : w * (P + e + ε * (P + e)) ≤ 1.001 * (1.001 * (P + e)) := by
        apply mul_le_mul w2 (by linarith) (by positivity) (by norm_num)
      have h8 : (8 : ℝ) * 2 ^ 90 ≤ 2 ^ 110 := by norm_num
      have h9 : (1 : ℝ) ≤ 2 ^ 90 := by norm_num
      linarith only [this, h8, h9, he1, hP1, hετ, hτ1]
    have hXY0 : 0 ≤ X + Y := by rw [hXY]; positivity
    have r := (hS.ops.add _ _ ((add_le_add a2 b2).trans hXY1)).trans
        (roundErr_add e0 (B := X + Y) ((norm_add_le _ _).trans (add_le_add a2 b2)) hXY0)
    refine (near_trans r (near_add a1 b1)).trans ?_
    have : ε * (X + Y + 1 / 2 ^ 80) +
        (t.weight * (e + ε * (P + e)) + ε * τ + (t.weightUp * (e + ε * (P + e)) + ε * τ)) =
        w * ((1 + ε) ^ 2 * e + (2 * ε + ε ^ 2) * P) + (3 * (ε * τ) + 2 * (ε * (ε * τ))) := by
      rw [← hτ, hXY, hwd]; ring
    rw [this]
    have hsm : 3 * (ε * τ) + 2 * (ε * (ε * τ)) ≤ ε * Q := by
      have : ε * (ε * τ) ≤ 1 / 1000 * (ε * τ) := by gcongr
      have h4 : ε * (4 * τ) ≤ ε * Q := by
        apply mul_le_mul_of_nonneg_left _ e0
        refine le_trans ?_ hQl
        rw [hτ]; norm_num
      linarith
    have hε2 : (1 + ε) ^ 2 ≤ 1.003 := by nlinarith
    have hε3 : 2 * ε + ε ^ 2 ≤ 2.001 * ε := by nlinarith
    calc w * ((1 + ε) ^ 2 * e + (2 * ε + ε ^ 2) * P) + (3 * (ε * τ) + 2 * (ε * (ε * τ))) ≤
          1.001 * (1.003 * e + 2.001 * ε * P) + ε * Q := by
          gcongr
      _ ≤ 130 * ν ^ 2 * ε * Q := by
          rw [he, hP]
          have : ν * (ε * Q) ≤ ν ^ 2 / 2 * (ε * Q) := by
            apply mul_le_mul_of_nonneg_right _ (by positivity)
            nlinarith
          have : ε * Q ≤ ν ^ 2 / 4 * (ε * Q) := by
            have h4 : 1 ≤ ν ^ 2 / 4 := by nlinarith
            have h5 : 0 ≤ ε * Q := by positivity
            nlinarith
          nlinarith
  · rw [if_neg h]
    rw [not_not] at h
    rw [h, hw h]
    push_cast
    rw [one_mul, zero_mul, add_zero]
    linarith

end Sys
end Adwt
