import Verif.Props.Wavetable

/-!
# C08: the cascade, as it shows in the tables
-/

set_option linter.unusedSectionVars false

namespace Adwt.Props
open WavetableData

variable {K : Type} [Field K] [LinearOrder K] [IsStrictOrderedRing K] [FloorRing K]

/-- C08, of the tables that a built wavetable returns, with any rounding: behind the tables of waveform `w`
there are lists of samples `y i`, of length `2^L / 2^i`, of which `y 0` is the waveform given, `y i` its
decimation by `2^i` up to 8, and beyond that the decimation by 256 of `y (i - 8)`; the slopes of table `i`
are the rounded differences of `y i`. -/
theorem C08_tables (E : Env K) (hf : Rounding E.fl) (hl : Log2Spec E.log2f) (ws : List K)
    (nw L : ℕ) (hws : ws.length = nw * 2 ^ L) (sr dur : K) (hs : IsRate E.fl sr)
    (wt : WavetableData K) (h : build E ws nw sr dur = .ok (some wt)) (w : ℕ) (hw : w < nw) :
    ∃ y : ℕ → List K, y 0 = (ws.drop (w * 2 ^ L)).take (2 ^ L) ∧
      (∀ i, 1 ≤ i → i ≤ 8 → y i = decimate E (y 0) (2 ^ i)) ∧
      (∀ i, 8 < i → y i = decimate E (y (i - 8)) 256) ∧
      ∀ i, i + 1 < L → (y i).length = 2 ^ (L - i) ∧ ∃ m, wt.mSpan w i = .ok m ∧ m.length = 2 ^ (L - i) ∧
        ∀ k : ℕ, k < 2 ^ (L - i) → m[k]? = some (E.fl (E.dbl (E.dbl (sampleAt (y i) (k + 1) - sampleAt (y i) k) /
          E.dbl (((k + 1 : ℕ) : K) / 2 ^ (L - i) - (k : K) / 2 ^ (L - i))))) := by
  obtain ⟨L', xf, h2, h18, hn, hs0, hlen, -, rfl⟩ := build_some hf hl hs h
  simp only [Int.toNat_natCast] at hlen ⊢
  have hLL : L = L' := by
    rw [hws] at hlen
    exact Nat.pow_right_injective (le_refl 2) (Nat.eq_of_mul_eq_mul_left (by omega) hlen)
  subst hLL
  refine ⟨fun i => mipSamples E (waveformOf ws (2 ^ L) w) i, mipSamples_zero _ _, fun i h1 h8 => ?_,
    fun i h8 => mipSamples_high E _ h8, fun i hi => ?_⟩
  · dsimp only
    rw [mipSamples_zero]
    exact mipSamples_low E _ (by omega) h8
  · have hl := mipSamples_length E (waveformOf_length hws hw) i (by omega)
    refine ⟨hl, _, wtOf_mSpan hw (by omega), by simp [tabOf, mqOf], fun k hk => ?_⟩
    unfold sampleAt
    rw [hl, Nat.mod_eq_of_lt hk]
    simp [tabOf, mqOf, mF, hk]

/-- In exact arithmetic the lines of table `i` therefore join the samples of `y i`. -/
theorem C08_lines (E : Env K) (he : E.fl = id) (hl : Log2Spec E.log2f) (ws : List K)
    (nw L : ℕ) (hws : ws.length = nw * 2 ^ L) (sr dur : K)
    (wt : WavetableData K) (h : build E ws nw sr dur = .ok (some wt)) (w : ℕ) (hw : w < nw) :
    ∃ y : ℕ → List K, y 0 = (ws.drop (w * 2 ^ L)).take (2 ^ L) ∧
      (∀ i, 1 ≤ i → i ≤ 8 → y i = decimate E (y 0) (2 ^ i)) ∧
      (∀ i, 8 < i → y i = decimate E (y (i - 8)) 256) ∧
      ∀ i, i + 1 < L → ∃ m q, wt.mSpan w i = .ok m ∧ wt.qSpan w i = .ok q ∧
        ∀ k : ℕ, k < 2 ^ (L - i) → ∃ a b, m[k]? = some a ∧ q[k]? = some b ∧
          a * ((k : K) / 2 ^ (L - i)) + b = sampleAt (y i) k ∧
          a * (((k + 1 : ℕ) : K) / 2 ^ (L - i)) + b = sampleAt (y i) (k + 1) := by
  have hf : Rounding E.fl := by rw [he]; exact rounding_id
  refine ⟨fun i => mipSamples E (waveformOf ws (2 ^ L) w) i, mipSamples_zero _ _, fun i h1 h8 => ?_,
    fun i h8 => mipSamples_high E _ h8, fun i hi => ?_⟩
  · dsimp only
    rw [mipSamples_zero]
    exact mipSamples_low E _ (by omega) h8
  · obtain ⟨m, q, ph, -, -, -, -, em, eq, eph, -⟩ := C06_lines E he hl ws nw L hws sr dur wt h w i 0 hw hi
      (by positivity)
    refine ⟨m, q, em, eq, fun k hk => ?_⟩
    obtain ⟨m', q', ph', a, b, x0, x1, em', eq', eph', ea, eb, e0, e1, l0, l1⟩ :=
      C06_lines E he hl ws nw L hws sr dur wt h w i k hw hi hk
    rw [em] at em'; cases em'
    rw [eq] at eq'; cases eq'
    obtain ⟨ph2, ep, -, hg, -⟩ := C05_grid E hf hl ws nw L hws sr dur (by rw [he]; exact isRate_id _) wt h i hi
    rw [ep] at eph'; cases eph'
    have g0 := hg k hk.le
    have g1 := hg (k + 1) hk
    rw [e0] at g0; cases g0
    rw [e1] at g1; cases g1
    exact ⟨a, b, ea, eb, l0, l1⟩

/-- The hypotheses are met with 4096 samples, where table 10 is made from table 2. -/
example (ws : List ℝ) (hws : ws.length = 1 * 2 ^ 12) : ∃ wt,
    build (K := ℝ) envX ws (1 : ℕ) 44100 (1 / 256) = .ok (some wt) ∧ 0 < 1 ∧ 10 + 1 < 12 := by
  have hr : IsRate envX.fl (44100 : ℝ) := by
    show IsRate id _
    exact isRate_id _
  obtain ⟨wt, h⟩ := C02_succeeds envX envX_ok.1 envX_ok.2.1 envX_ok.2.2 12
    (by norm_num) (by norm_num) 1 one_pos ws hws 44100 (1 / 256) (by norm_num) hr (by
      show -2 ^ 31 ≤ id (1 / 256 * 44100) ∧ id (1 / 256 * 44100) < 2 ^ 31
      norm_num)
  exact ⟨wt, h, by norm_num, by norm_num⟩

end Adwt.Props
