import Verif.Props.FloatExamples
import Verif.Proofs.FloatNu
import Verif.Spec.Symmetry
import Verif.Model.Simd

/-!
# C42 in float arithmetic: the SIMD width, and whatever else differs between two builds, only matters
up to rounding
-/

set_option linter.unusedSectionVars false

namespace Adwt
variable {C C' : Type} [Zero C] [Add C] [Sub C] [Mul C] [Div C] [Zero C'] [Add C'] [Sub C'] [Mul C'] [Div C']
  {S : Sys ℝ C} {S' : Sys ℝ C'} {nw L m : ℕ} {ws : List ℝ} {st : ℕ → Osc ℝ C}
  {dir : ℕ → Sys.Direction} {p y : ℕ → ℝ} {t : ℕ → MipMapIndices ℝ} {st' : ℕ → Osc ℝ C'}
  {y' : ℕ → ℝ} {t' : ℕ → MipMapIndices ℝ}

namespace Sys

/-- The crossfader and the tuple it gives during a run, in any arithmetic. -/
theorem run_fadeR (hf : Rounding S.env.fl) (hl : Log2Spec S.env.log2f) (hB : 0 < S.B)
    (h : TrackedRun S ws nw L m st dir p y t) (hp : ∀ i < m, IsPhase S.env.fl (p i)) {n : ℕ} (hn : n < m) :
    ∃ wt wt1, (st n).wt = some wt ∧ (st (n + 1)).wt = some wt1 ∧
      wt.cf.newIndices S.env |dirDiff S.env.fl (dir n) (p n)
        (if n = 0 then (st 0).prevPhase else p (n - 1))| = .ok (wt1.cf, t n) := by
  obtain ⟨h0, h2⟩ := run_plays hf hl hB (h.switched hf hl hB hp).1 hp hn.le
  have hpl := reached_play hf hl hB h0.1
  obtain ⟨wt, hwt, hw⟩ := hpl.wt
  obtain ⟨v, e, -⟩ := Props.process_one (by rw [hwt]; rfl) (h.call n hn)
  have hp' : PhaseOk S.env.fl (p n) := ⟨(h.phase n hn).1, (h.phase n hn).2, hp n hn⟩
  obtain ⟨-, s1, s2, s3⟩ := stepDir_tables e
  obtain ⟨c, u, hn1, -, e1, -, -, b0, b1, b2⟩ := step_form' hf hB hpl hwt hp' (h.step n hn) e
  rw [h2] at hn1 s2
  obtain ⟨wta, wtb, k1, k2⟩ := h.next n hn
  rw [hwt] at k1; cases k1
  rw [s2] at k2
  unfold WavetableData.findMipMapIndices at k2
  rw [hn1] at k2
  change (Except.ok _ : R _) = .ok _ at k2
  obtain ⟨-, rfl⟩ := Prod.mk.injEq _ _ _ _ ▸ Except.ok.inj k2
  refine ⟨wt, { wt with cf := c }, hwt, ?_, hn1⟩
  rw [e1]
  rfl

/-- The step that is remembered. -/
theorem run_diff (hf : Rounding S.env.fl) (hl : Log2Spec S.env.log2f) (hB : 0 < S.B)
    (h : TrackedRun S ws nw L m st dir p y t) (hp : ∀ i < m, IsPhase S.env.fl (p i)) {n : ℕ} (hn : n < m) :
    (st (n + 1)).prevPhaseDiff = dirDiff S.env.fl (dir n) (p n)
      (if n = 0 then (st 0).prevPhase else p (n - 1)) := by
  obtain ⟨h0, h2⟩ := run_plays hf hl hB (h.switched hf hl hB hp).1 hp hn.le
  have hpl := reached_play hf hl hB h0.1
  obtain ⟨wt, hwt, hw⟩ := hpl.wt
  obtain ⟨v, e, -⟩ := Props.process_one (by rw [hwt]; rfl) (h.call n hn)
  rw [← h2]
  exact (stepDir_tables e).2.2.1

/-- Two builds of the oscillator, played through the same phases, use the same tables and weights. -/
theorem same_tuplesR (he : S'.env = S.env) (hf : Rounding S.env.fl) (hl : Log2Spec S.env.log2f) (hB : 0 < S.B)
    (hB' : 0 < S'.B) (h : TrackedRun S ws nw L m st dir p y t) (h' : TrackedRun S' ws nw L m st' dir p y' t')
    (hp : ∀ i < m, IsPhase S.env.fl (p i))
    (hcf : ∀ wt wt', (st 0).wt = some wt → (st' 0).wt = some wt' → wt.cf = wt'.cf)
    (hx : (st' 0).prevPhase = (st 0).prevPhase) {n : ℕ} (hn : n < m) : t' n = t n := by
  have hfade' := fun {n : ℕ} (hn : n < m) => run_fadeR (S := S') (by rw [he]; exact hf) (by rw [he]; exact hl) hB' h'
    (by rw [he]; exact hp) hn
  simp only [he, hx] at hfade'
  have key : ∀ n ≤ m, ∀ wt wt', (st n).wt = some wt → (st' n).wt = some wt' → wt.cf = wt'.cf := by
    intro n
    induction n with
    | zero => intro _; exact hcf
    | succ n ih =>
      intro hn wt wt' e e'
      obtain ⟨w, w1, a1, a2, a3⟩ := run_fadeR hf hl hB h hp hn
      obtain ⟨w', w1', b1, b2, b3⟩ := hfade' hn
      rw [a2] at e; cases e
      rw [b2] at e'; cases e'
      have := ih (Nat.le_of_succ_le hn) _ _ a1 b1
      rw [← this, a3] at b3
      exact (Prod.mk.inj (Except.ok.inj b3)).1
  obtain ⟨w, w1, a1, a2, a3⟩ := run_fadeR hf hl hB h hp hn
  obtain ⟨w', w1', b1, b2, b3⟩ := hfade' hn
  have := key n hn.le _ _ a1 b1
  rw [← this, a3] at b3
  exact (Prod.mk.inj (Except.ok.inj b3)).2.symm

end Sys

namespace Props

/-- C42 in rounded arithmetic: two oscillators of the same filter and the same real arithmetic, whatever
their SIMD widths and complex operations (fused or not, scalar or vector exponentials), started in the
same state on the same tables and played through the same phases, in whatever modes: their outputs
differ, after any number of samples, by at most `ε` times the size of the tables times twice the constant
of C60. -/
theorem C42_float (S : Sys ℝ C) (S' : Sys ℝ C') (val : C → ℂ) (val' : C' → ℂ) (ε : ℝ)
    (hS : FloatSys S val ε) (hS' : FloatSys S' val' ε) (he : S'.env = S.env)
    (hflt : valFilter val' S'.flt = valFilter val S.flt) (hl : Log2Spec S.env.log2f) (ws : List ℝ) (nw L : ℕ)
    (A Λ : ℝ) (hA : TablesWithin S.env ws nw L A) (hΛ : SlopesWithin S.env ws nw L Λ)
    (M0 : 1 / 2 ^ 40 ≤ A + Λ) (M1 : A + Λ ≤ 2 ^ 24) (m : ℕ) (st : ℕ → Osc ℝ C) (st' : ℕ → Osc ℝ C')
    (dir : ℕ → Sys.Direction) (p y y' : ℕ → ℝ) (t t' : ℕ → MipMapIndices ℝ)
    (h : TrackedRun S ws nw L m st dir p y t) (h' : TrackedRun S' ws nw L m st' dir p y' t')
    (hp : ∀ i < m, IsPhase S.env.fl (p i))
    (hd : ∀ i < m, 1 / 2 ^ 100 ≤ |(st (i + 1)).prevPhaseDiff|)
    (hcf : ∀ wt wt', (st 0).wt = some wt → (st' 0).wt = some wt' → wt.cf = wt'.cf)
    (hx : (st' 0).prevPhase = (st 0).prevPhase) (hw : (st' 0).crt = (st 0).crt) (n : ℕ) (hn : n < m) :
    |y' n - y n| ≤ 2 * (ε * (A + Λ) * roundoffGain (valFilter val S.flt) 6.4) := by
  have hl' : Log2Spec S'.env.log2f := by rw [he]; exact hl
  have hp' : ∀ i < m, IsPhase S'.env.fl (p i) := by rw [he]; exact hp
  have ht : ∀ i < m, t' i = t i := fun i hi => Sys.same_tuplesR he hS.fl hl hS.B hS'.B h h' hp hcf hx hi
  have h'' : TrackedRun S' ws nw L m st' dir p y' t := by
    refine ⟨h'.plays, h'.zero, h'.phase, h'.step, h'.call, fun i hi => ?_, fun i hi => ?_, fun i hi => ?_⟩
    · rw [← ht i hi]; exact h'.next i hi
    · rw [← ht i hi]; exact h'.move i hi
    · rw [← ht i hi]; exact h'.off i hi
  have hd' : ∀ i < m, 1 / 2 ^ 100 ≤ |(st' (i + 1)).prevPhaseDiff| := by
    intro i hi
    have e1 := Sys.run_diff hS.fl hl hS.B h hp hi
    have e2 := Sys.run_diff hS'.fl hl' hS'.B h' hp' hi
    rw [he, hx] at e2
    rw [e2, ← e1]
    exact hd i hi
  have b1 := C60_run S val ε hS hl ws nw L A Λ hA hΛ M0 M1 m st dir p y t h hp hd n hn
  have b2 := C60_run S' val' ε hS' hl' ws nw L A Λ (by rw [he]; exact hA) (by rw [he]; exact hΛ) M0 M1 m st' dir p y'
    t h'' hp' hd' n hn
  rw [he, hx, hw, hflt] at b2
  rw [abs_sub_comm] at b1
  exact (abs_sub_le (y' n) _ (y n)).trans ((add_le_add b2 b1).trans_eq (two_mul _).symm)

/-- Batches of four complex floats (AVX) and of two (SSE, NEON): any built-in filter, any eight samples
in `[-1, 1]`, any number of samples. -/
example (ft : FilterType) (ws : List ℝ) (hws : ws.length = 2 ^ 3) (h1 : ∀ x ∈ ws, |x| ≤ 1) (n : ℕ) :
    ∃ (st st' : ℕ → Osc ℝ CFloat) (y y' : ℕ → ℝ),
      (∀ i ≤ n, (sysF ft).process .kForward (st i) [(((i + 1) % 16 : ℕ) : ℝ) / 16] [0] =
        .ok (st (i + 1), [y i])) ∧
      (∀ i ≤ n, ({ sysF ft with B := 2 } : Sys ℝ CFloat).process .kForward (st' i)
        [(((i + 1) % 16 : ℕ) : ℝ) / 16] [0] = .ok (st' (i + 1), [y' i])) ∧
      |y' n - y n| ≤ 2 * (1 / 2 ^ 21 * 17 * roundoffGain (valFilter CFloat.val (sysF ft).flt) 6.4) := by
  obtain ⟨wt, xf, hb, hcf⟩ := builtI ws hws
  obtain ⟨st, y, h, h0, hd, hc, hf⟩ := steadyRunF (sysF ft) envI_ok.1 envI_ok.2.1 (by norm_num [sysF, sysRnd]) ws wt
    xf hb hcf (n + 1)
  obtain ⟨st', y', h', h0', hd', hc', hf'⟩ := steadyRunF { sysF ft with B := 2 } envI_ok.1 envI_ok.2.1 (by norm_num)
    ws wt xf hb hcf (n + 1)
  have hS' : FloatSys ({ sysF ft with B := 2 } : Sys ℝ CFloat) CFloat.val (1 / 2 ^ 21) :=
    { floatSys ft with B := by norm_num, rel := (floatSys ft).rel, dbl := (floatSys ft).dbl }
  refine ⟨st, st', y, y', fun i hi => h.call i (by omega), fun i hi => h'.call i (by omega), ?_⟩
  have := C42_float (sysF ft) { sysF ft with B := 2 } _ _ _ (floatSys ft) hS' rfl rfl log2I ws 1 3 1 16
    (tablesWithinI zero_le_one h1 1 3)
    (by have := slopesWithinI zero_le_one h1 1 3; norm_num at this; exact this)
    (by norm_num) (by norm_num) (n + 1) st st' _ _ y y' _ _ h h' (fun i _ => (phase16 (i + 1)).2.2)
    (fun i _ => by rw [hd]; norm_num [abs_of_pos])
    (by
      intro wt wt' e e'
      exact (hf wt e).trans (hf' wt' e').symm)
    (h0'.trans h0.symm) (hc'.trans hc.symm) n (Nat.lt_succ_self n)
  norm_num at this ⊢
  exact this

/-- C42: the size of the padded arrays, computed in float arithmetic, is the smallest multiple of the batch
size that is not below the number of coefficients (and not zero), for every rounding, up to `2^22`
coefficients and lanes: no batch reaches beyond the arrays, and there is no idle batch. -/
theorem C42_padding {K : Type} [Field K] [LinearOrder K] [IsStrictOrderedRing K] [FloorRing K]
    (fl : K → K) (hf : Rounding fl) (n B : ℕ) (hB : 0 < B) (hn : n ≤ 2 ^ 22) (hB2 : B ≤ 2 ^ 22) :
    ∃ k, 0 < k ∧ Sys.upperNumCoeffsF fl n B = .ok (k * B) ∧ Sys.upperNumCoeffs n B = k * B ∧ n ≤ k * B ∧ ∀ j, 0 < j → n ≤ j * B → k ≤ j := by
  have hB' : (0 : K) < B := by exact_mod_cast hB
  have e1 : fl (n : K) = n := by
    have := hf.int (n : ℤ) (by rw [abs_of_nonneg (by positivity)]; omega)
    exact_mod_cast this
  have e2 : fl (B : K) = B := by
    have := hf.int (B : ℤ) (by rw [abs_of_nonneg (by positivity)]; omega)
    exact_mod_cast this
  -- the quotient and the remainder
  obtain ⟨q, r, hr, hq⟩ : ∃ q r, r < B ∧ n = q * B + r := ⟨n / B, n % B, Nat.mod_lt _ hB, by
    rw [Nat.div_add_mod']⟩
  have hqn : q ≤ 2 ^ 22 := by
    have : q ≤ q * B := Nat.le_mul_of_pos_right q hB
    omega
  have hx : (n : K) / B = q + r / B := by
    rw [hq]; push_cast; field_simp
  -- the rounded quotient
  have lo : (q : K) ≤ fl ((n : K) / B) := by
    have h1 : fl (q : K) = q := by
      have := hf.int (q : ℤ) (by rw [abs_of_nonneg (by positivity)]; omega)
      exact_mod_cast this
    rw [← h1]
    apply hf.mono
    rw [hx]
    have : (0 : K) ≤ r / B := by positivity
    linarith
  have hi : fl ((n : K) / B) < q + 1 := by
    -- a float between the quotient and the next integer
    obtain ⟨s, hs1, hs2⟩ : ∃ s, B ≤ 2 ^ s ∧ 2 ^ s ≤ 2 * B :=
      ⟨Nat.clog 2 B, Nat.le_pow_clog (by norm_num) B, by
        rcases Nat.lt_or_ge 1 B with h | h
        · have := Nat.pow_pred_clog_lt_self (b := 2) (by norm_num) h
          have hc : Nat.clog 2 B ≠ 0 := by
            have := Nat.clog_pos (b := 2) (by norm_num) (n := B) (by omega)
            omega
          obtain ⟨c, hc⟩ := Nat.exists_eq_succ_of_ne_zero hc
          rw [hc] at this ⊢
          simp only [Nat.succ_eq_add_one, Nat.pred_succ, Nat.pow_succ] at this ⊢
          omega
        · have : B = 1 := by omega
          subst this; simp⟩
    have hqs : (q + 1) * 2 ^ s ≤ 2 ^ 24 := by
      calc (q + 1) * 2 ^ s ≤ (q + 1) * (2 * B) := Nat.mul_le_mul_left _ hs2
        _ = 2 * (q * B) + 2 * B := by ring
        _ ≤ 2 ^ 24 := by omega
    have h2s : 2 ^ s ≤ 2 ^ 24 := by
      refine le_trans ?_ hqs
      exact Nat.le_mul_of_pos_left _ (Nat.succ_pos q)
    have hs24 : s ≤ 24 := (Nat.pow_le_pow_iff_right (by norm_num)).1 h2s
    have hfl := hf.dyadic ((((q + 1) * 2 ^ s - 1 : ℕ) : ℕ) : ℤ) s
      (by rw [abs_of_nonneg (by positivity)]; exact_mod_cast (Nat.sub_le _ _).trans hqs) (by omega)
    have hpos : 1 ≤ (q + 1) * 2 ^ s := Nat.mul_pos (Nat.succ_pos q) (by positivity)
    have e : (((((q + 1) * 2 ^ s - 1 : ℕ) : ℕ) : ℤ) : K) / 2 ^ s = q + 1 - 1 / 2 ^ s := by
      rw [Int.cast_natCast, Nat.cast_sub hpos]
      push_cast
      field_simp
    rw [e] at hfl
    have hle : (n : K) / B ≤ q + 1 - 1 / 2 ^ s := by
      rw [hx]
      have h1 : ((r : K) + 1) / B ≤ 1 := by
        rw [div_le_one hB']; exact_mod_cast hr
      have h2 : (1 : K) / 2 ^ s ≤ 1 / B := by
        apply one_div_le_one_div_of_le hB'
        exact_mod_cast hs1
      rw [add_div] at h1
      linarith
    have := hf.mono hle
    rw [hfl] at this
    have h3 : (0 : K) < 1 / 2 ^ s := by positivity
    linarith
  have hfloor : ⌊fl ((n : K) / B)⌋ = (q : ℤ) := by
    rw [Int.floor_eq_iff]
    exact ⟨by exact_mod_cast lo, by exact_mod_cast hi⟩
  have hq24 : (q : K) + 1 ≤ 2 ^ 23 := by
    have : q + 1 ≤ 2 ^ 23 := by omega
    exact_mod_cast this
  have q0 : (0 : K) ≤ q := by positivity
  have ev : Sys.upperNumCoeffsF fl n B = .ok (if (q : ℤ) = 0 then B
      else if n % B = 0 then (q : ℤ).toNat * B else ((q : ℤ) + 1).toNat * B) := by
    unfold Sys.upperNumCoeffsF fdiv
    rw [e1, e2, if_neg hB'.ne', R.ok_bind, Maths.floor_small hf (by linarith) (by linarith), hfloor]
    rfl
  have hmod : n % B = r := by rw [hq, Nat.mul_comm, Nat.mul_add_mod, Nat.mod_eq_of_lt hr]
  have hdiv : n / B = q := by
    rw [hq, Nat.mul_comm, Nat.mul_add_div hB, Nat.div_eq_of_lt hr, add_zero]
  rw [ev, hmod]
  unfold Sys.upperNumCoeffs
  rw [hdiv, hmod]
  by_cases h0 : q = 0
  · subst h0
    refine ⟨1, one_pos, by simp, by simp, by omega, fun j hj _ => hj⟩
  · rw [if_neg (by exact_mod_cast h0), if_neg h0]
    by_cases hr0 : r = 0
    · subst hr0
      refine ⟨q, Nat.pos_of_ne_zero h0, by simp, by simp, by omega, fun j _ hj => ?_⟩
      rw [hq, add_zero] at hj
      exact Nat.le_of_mul_le_mul_right hj hB
    · rw [if_neg hr0, if_neg hr0]
      refine ⟨q + 1, Nat.succ_pos q, ?_, rfl, ?_, fun j _ hj => ?_⟩
      · congr 1
      · rw [hq, Nat.add_mul, one_mul]; omega
      · by_contra hc
        have : j ≤ q := by omega
        have := Nat.mul_le_mul_right B this
        omega

/-- The five built-in filters in batches of four complex floats: 1, 5, 2, 3, 4 coefficients. -/
example : Sys.upperNumCoeffs (numCoeffs .kType1) 4 = 4 ∧ Sys.upperNumCoeffs (numCoeffs .kType2) 4 = 8 ∧
    Sys.upperNumCoeffs (numCoeffs .kType3) 4 = 4 ∧ Sys.upperNumCoeffs (numCoeffs .kType4) 4 = 4 ∧
    Sys.upperNumCoeffs (numCoeffs .kType5) 4 = 4 := ⟨rfl, rfl, rfl, rfl, rfl⟩

end Props
end Adwt
