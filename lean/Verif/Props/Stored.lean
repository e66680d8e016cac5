import Verif.Proofs.Stored
import Verif.Props.Gain
import Verif.Props.FloatExamples

/-!
# C68: the gains of the filters with their coefficients as stored
-/

set_option linter.unusedSectionVars false

namespace Adwt.Props

/-- C68: rounding the coefficients to `float` changes the frequency response by at most `3e-5` at any
frequency. -/
theorem C68_response (t : FilterType) (flt : Filter ℂ) (h : StoredFilter (1 / 2 ^ 23) t flt) (ω : ℝ) :
    ‖freqResponse flt ω - freqResponse (filterX t) ω‖ ≤ 3e-5 := stored_near h ω

/-- C68: so the gains of C54 are those of the filters as stored, up to `3e-5`: above the Nyquist
frequency, -/
theorem C68_nyquist (t : FilterType) (flt : Filter ℂ) (h : StoredFilter (1 / 2 ^ 23) t flt) (ω : ℝ)
    (hω : Real.pi ≤ |ω|) : ‖freqResponse flt ω‖ ≤ nyquistGain t + 3e-5 := by
  have := norm_sub_norm_le (freqResponse flt ω) (freqResponse (filterX t) ω)
  linarith [C68_response t flt h ω, C54_nyquist t ω hω]

/-- in the stop band of the Chebyshev filters, -/
theorem C68_stopband (t : FilterType) (ht : t = .kType2 ∨ t = .kType5) (flt : Filter ℂ)
    (h : StoredFilter (1 / 2 ^ 23) t flt) (ω : ℝ) (hω : 2 * Real.pi * 0.61 ≤ |ω|) :
    ‖freqResponse flt ω‖ ≤ 0.00203 := by
  have := norm_sub_norm_le (freqResponse flt ω) (freqResponse (filterX t) ω)
  linarith [C68_response t flt h ω, C54_stopband t ht ω hω]

/-- at every frequency, -/
theorem C68_no_boost (t : FilterType) (flt : Filter ℂ) (h : StoredFilter (1 / 2 ^ 23) t flt) (ω : ℝ) :
    ‖freqResponse flt ω‖ ≤ 1.00113 := by
  have := norm_sub_norm_le (freqResponse flt ω) (freqResponse (filterX t) ω)
  linarith [C68_response t flt h ω, C54_no_boost t ω]

/-- and of the Butterworth filters, compared with the documented ones. -/
theorem C68_butterworth (t : FilterType) (n : ℕ) (ht : butterworthOrder t = some n) (flt : Filter ℂ)
    (h : StoredFilter (1 / 2 ^ 23) t flt) (ω : ℝ) :
    |‖freqResponse flt ω‖ ^ 2 - 1 / (1 + (ω / (2 * Real.pi * 0.45)) ^ (2 * n))| ≤ 7e-5 := by
  have h1 := C54_butterworth t n ht ω
  have h2 := (abs_norm_sub_norm_le (freqResponse flt ω) (freqResponse (filterX t) ω)).trans
    (C68_response t flt h ω)
  have h3 := C54_no_boost t ω
  have h4 := C68_no_boost t flt h ω
  have p1 := norm_nonneg (freqResponse flt ω)
  have p2 := norm_nonneg (freqResponse (filterX t) ω)
  have e : ‖freqResponse flt ω‖ ^ 2 - ‖freqResponse (filterX t) ω‖ ^ 2 =
      (‖freqResponse flt ω‖ - ‖freqResponse (filterX t) ω‖) *
        (‖freqResponse flt ω‖ + ‖freqResponse (filterX t) ω‖) := by ring
  have h5 : |‖freqResponse flt ω‖ ^ 2 - ‖freqResponse (filterX t) ω‖ ^ 2| ≤ 6.9e-5 := by
    rw [e, abs_mul, abs_of_nonneg (add_nonneg p1 p2)]
    refine (mul_le_mul h2 (add_le_add h4 h3) (add_nonneg p1 p2) (by norm_num)).trans (by norm_num)
  have := abs_sub_le (‖freqResponse flt ω‖ ^ 2) (‖freqResponse (filterX t) ω‖ ^ 2)
    (1 / (1 + (ω / (2 * Real.pi * 0.45)) ^ (2 * n)))
  norm_num at this h1 h5 ⊢
  linarith

/-- The coefficients of an oscillator of the library, each part rounded to nearest `float`, are
stored coefficients in this sense. -/
theorem C68_stored (t : FilterType) : StoredFilter (1 / 2 ^ 23) t (valFilter CFloat.val (sysF t).flt) := by
  have one : ∀ q : ℚ, (q = 0 ∨ 1 / 2 ^ 60 ≤ |q|) → |q| ≤ 30 → |ieee32 (q : ℝ) - q| ≤ 1 / 2 ^ 23 * |(q : ℝ)| := by
    intro q h1 h2
    have h2' : |(q : ℝ)| ≤ 30 := by exact_mod_cast h2
    have h1' : (q : ℝ) = 0 ∨ 1 / 2 ^ 126 ≤ |(q : ℝ)| := by
      rcases h1 with rfl | h1
      · exact Or.inl (by norm_num)
      · right
        have : ((1 / 2 ^ 60 : ℚ) : ℝ) ≤ ((|q| : ℚ) : ℝ) := by exact_mod_cast h1
        push_cast at this
        exact le_trans (by norm_num) this
    rw [ieee32_normal h1' (h2'.trans (by norm_num))]
    refine (rne24_rel _).trans ?_
    rw [div_eq_inv_mul, ← one_div]
    gcongr <;> norm_num
  have key : ∀ c : CLit, ((c.1 = 0 ∨ 1 / 2 ^ 60 ≤ |c.1|) ∧ (c.2 = 0 ∨ 1 / 2 ^ 60 ≤ |c.2|)) ∧ |c.1| ≤ 30 ∧
      |c.2| ≤ 30 → StoredAs (1 / 2 ^ 23) (CFloat.val (flit c : CFloat)) c :=
    fun c h => ⟨one _ h.1.1 h.2.1, one _ h.1.2 h.2.2⟩
  have all : ∀ l : List CLit, (∀ c ∈ l, ((c.1 = 0 ∨ 1 / 2 ^ 60 ≤ |c.1|) ∧
      (c.2 = 0 ∨ 1 / 2 ^ 60 ≤ |c.2|)) ∧ |c.1| ≤ 30 ∧ |c.2| ≤ 30) →
      List.Forall₂ (StoredAs (1 / 2 ^ 23)) ((l.map (flit (rnd := ieee32))).map CFloat.val) l := by
    intro l
    induction l with
    | nil => exact fun _ => .nil
    | cons c l ih =>
      exact fun h => .cons (key c (h c List.mem_cons_self)) (ih fun c hc => h c (List.mem_cons_of_mem _ hc))
  refine ⟨all _ ?_, all _ ?_⟩
  · cases t <;> simp [rLit] <;> norm_num [abs_of_pos, abs_of_neg]
  · cases t <;> simp [zLit] <;> norm_num [abs_of_pos, abs_of_neg]

end Adwt.Props
