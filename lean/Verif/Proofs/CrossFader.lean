import Verif.Proofs.Maths
import Verif.Spec.Octave
import Mathlib.Tactic.Ring
import Mathlib.Tactic.FieldSimp

set_option linter.unusedSectionVars false

namespace Adwt
variable {K : Type} [Field K] [LinearOrder K] [IsStrictOrderedRing K] [FloorRing K]

namespace CrossFader

/-! ### the octave search -/

theorem findLoop_lt (d : K) {l : List K} (h : l ≠ []) : findLoop d l < l.length := by
  induction l with
  | nil => exact absurd rfl h
  | cons s l ih =>
    cases l with
    | nil => simp [findLoop]
    | cons s' rest =>
      unfold findLoop
      split
      · simp
      · have := ih (by simp)
        simp only [List.length_cons] at this ⊢; omega

theorem findLoop_spec (d : K) (l : List K) :
    (∀ k, k < findLoop d l → ∃ s, l[k]? = some s ∧ s ≤ d) ∧
    (l.length ≤ findLoop d l + 1 ∨ ∃ s, l[findLoop d l]? = some s ∧ d < s) := by
  induction l with
  | nil => simp [findLoop]
  | cons s l ih =>
    cases l with
    | nil => simp [findLoop]
    | cons s' rest =>
      unfold findLoop
      split
      · rename_i hlt; simp [hlt]
      · rename_i hlt
        obtain ⟨ih1, ih2⟩ := ih
        constructor
        · intro k hk
          cases k with
          | zero => exact ⟨s, by simp, not_lt.1 hlt⟩
          | succ k =>
            obtain ⟨a, ha, hb⟩ := ih1 k (by omega)
            exact ⟨a, by simpa using ha, hb⟩
        · rcases ih2 with h | ⟨a, ha, hb⟩
          · left; simp only [List.length_cons] at h ⊢; omega
          · right; exact ⟨a, by simpa using ha, hb⟩

theorem octaveScale_length (L : ℕ) : (octaveScale K L).length = L - 1 := by simp [octaveScale]

theorem octaveScale_get {L k : ℕ} (h : k < L - 1) :
    (octaveScale K L)[k]? = some (2 ^ (k + 1) / 2 ^ L) := by
  simp [octaveScale, h]

theorem findLoop_octave {L : ℕ} (hL : 2 ≤ L) (d : K) :
    IsOctave L (findLoop d (octaveScale K L) : ℕ) d := by
  have hlt := findLoop_lt d (l := octaveScale K L) (by
    intro h; have := octaveScale_length (K := K) L; rw [h] at this; simp at this; omega)
  obtain ⟨h1, h2⟩ := findLoop_spec d (octaveScale K L)
  rw [octaveScale_length] at hlt h2
  refine ⟨by omega, by omega, ?_, ?_⟩
  · rcases Nat.eq_zero_or_pos (findLoop d (octaveScale K L)) with h | h
    · left; simp [h]
    · right
      obtain ⟨s, hs, hd⟩ := h1 (findLoop d (octaveScale K L) - 1) (by omega)
      rw [octaveScale_get (by omega)] at hs
      cases hs
      rw [Int.toNat_natCast]
      rwa [Nat.sub_add_cancel h] at hd
  · rcases h2 with h | ⟨s, hs, hd⟩
    · left; omega
    · right
      rw [octaveScale_get hlt] at hs
      cases hs
      rw [Int.toNat_natCast]; exact hd

theorem findMipMapIndex_eq {dbg : Bool} {scale : List K} {d : K} (hd : 0 < d) :
    findMipMapIndex dbg scale d = .ok (findLoop d scale : ℤ) := by
  unfold findMipMapIndex; rw [chk_true hd]; rfl

theorem findLoop_mono {l : List K} {d e : K} (h : d ≤ e) : findLoop d l ≤ findLoop e l := by
  induction l with
  | nil => simp [findLoop]
  | cons s l ih =>
    cases l with
    | nil => simp [findLoop]
    | cons s' rest =>
      unfold findLoop
      split
      · omega
      · rename_i hd
        rw [if_neg (by linarith [not_lt.1 hd])]
        omega

/-! ### the scale -/

theorem numTables_eq {E : Env K} (hf : Rounding E.fl) (hl : Log2Spec E.log2f) {L : ℕ}
    (hL : L ≤ 24) : computeNumMipMapTables E ((2 : ℤ) ^ L) = .ok ((L : ℤ) - 1) := by
  have e1 : E.fl (((2 : ℤ) ^ L : ℤ) : K) = 2 ^ L := by
    rw [hf.int _ (by
      rw [abs_of_nonneg (by positivity)]
      exact pow_le_pow_right₀ (by norm_num) hL)]
    push_cast; rfl
  have e2 : E.fl ((2 : K) ^ L / 4) = 2 ^ L / 4 := by
    have : (2 : K) ^ L / 4 = (2 ^ L : ℕ) / 2 ^ 2 := by push_cast; norm_num
    have h2 := hf.dyadic ((2 ^ L : ℕ) : ℤ) 2 (by
      rw [abs_of_nonneg (by positivity)]
      exact_mod_cast Nat.pow_le_pow_right (by norm_num) hL)
    rw [this]; rw [Int.cast_natCast] at h2; exact h2
  have e3 : (2 : K) ^ L / 4 = 2 ^ ((L : ℤ) - 2) := by
    rw [zpow_sub₀ (by norm_num), zpow_natCast]; norm_num
  unfold computeNumMipMapTables
  have h4 : (4 : K) ≠ 0 := by norm_num
  simp only [fdiv, h4, if_false, e1, e2, R.ok_bind]
  have e4 : E.log2f ((2 : K) ^ L / 4) = (((L : ℤ) - 2 : ℤ) : K) := by
    rw [e3, hl.pow _ (by rw [abs_le]; constructor <;> omega)]
  have hb1 : (-(2 ^ 24) : K) ≤ (((L : ℤ) - 2 : ℤ) : K) := by
    have : ((-(2 ^ 24) : ℤ) : K) ≤ (((L : ℤ) - 2 : ℤ) : K) := by
      exact_mod_cast (by omega : (-(2 ^ 24) : ℤ) ≤ (L : ℤ) - 2)
    rw [Int.cast_neg, Int.cast_pow] at this; exact_mod_cast this
  have hb2 : (((L : ℤ) - 2 : ℤ) : K) ≤ 2 ^ 24 := by
    have : (((L : ℤ) - 2 : ℤ) : K) ≤ ((2 ^ 24 : ℤ) : K) := by
      exact_mod_cast (by omega : (L : ℤ) - 2 ≤ (2 ^ 24 : ℤ))
    rw [Int.cast_pow] at this; exact_mod_cast this
  rw [e4, Maths.floor_small hf hb1 hb2]
  simp only [R.ok_bind, R.pure_eq, Int.floor_intCast]
  congr 1; ring

omit [FloorRing K] in
/-- natural numbers up to 2^24 are samplerates -/
theorem _root_.Adwt.Rounding.isRate {fl : K → K} (hf : Rounding fl) (n : ℕ) (hn : n ≤ 2 ^ 24) :
    IsRate fl (n : K) := by
  intro k hk
  have := hf.range n k (by rw [abs_of_nonneg (by positivity)]; exact_mod_cast hn)
    (by rw [abs_le] at hk; omega) (by rw [abs_le] at hk; omega)
  rwa [Int.cast_natCast] at this

omit [LinearOrder K] [IsStrictOrderedRing K] [FloorRing K] in
theorem _root_.Adwt.IsRate.fl {fl : K → K} {sr : K} (h : IsRate fl sr) : fl sr = sr := by
  simpa using h 0 (by norm_num)

theorem scale_eq {E : Env K} (hf : Rounding E.fl) (hl : Log2Spec E.log2f) {L : ℕ} (hL1 : 1 ≤ L)
    (hL : L ≤ 24) {sr : K} (hs0 : 0 < sr) (hs : IsRate E.fl sr) :
    computeMipMapScale E ((2 : ℤ) ^ L) sr = .ok (octaveScale K L) := by
  have e1 : E.fl (((2 : ℤ) ^ L : ℤ) : K) = 2 ^ L := by
    rw [hf.int _ (by
      rw [abs_of_nonneg (by positivity)]
      exact pow_le_pow_right₀ (by norm_num) hL)]
    push_cast; rfl
  have hp : (2 : K) ^ L ≠ 0 := by positivity
  have e2 : E.fl (sr / 2 ^ L) = sr / 2 ^ L := by
    have := hs (-L) (by rw [abs_le]; constructor <;> omega)
    rwa [zpow_neg, zpow_natCast, ← div_eq_mul_inv] at this
  have e4 : ∀ i < L, E.fl (sr / 2 ^ L * 2 * 2 ^ i) = sr / 2 ^ L * 2 * 2 ^ i := by
    intro i hi
    have := hs (1 + i - L) (by rw [abs_le]; constructor <;> omega)
    have e : sr * 2 ^ (1 + (i : ℤ) - L) = sr / 2 ^ L * 2 * 2 ^ i := by
      rw [zpow_sub₀ (by norm_num), zpow_add₀ (by norm_num), zpow_natCast, zpow_natCast, zpow_one]
      ring
    rwa [e] at this
  have e3 : E.fl (sr / 2 ^ L * 2) = sr / 2 ^ L * 2 := by
    have := e4 0 (by omega)
    rwa [pow_zero, mul_one] at this
  unfold computeMipMapScale
  simp only [fdiv, e1, hp, if_false, R.ok_bind, e2, e3, numTables_eq hf hl hL]
  rw [if_neg (by omega)]
  have : ((L : ℤ) - 1).toNat = L - 1 := by omega
  rw [this]
  apply mapM_eq_map
  intro i hi
  rw [List.mem_range] at hi
  unfold scaleEntry fdiv
  rw [if_neg hs0.ne']
  congr 1
  rw [e4 i (by omega)]
  have : sr / 2 ^ L * 2 * 2 ^ i / sr = ((2 : ℕ) : K) ^ (i + 1) / 2 ^ L := by
    push_cast; field_simp; ring
  rw [this]
  have h2 := hf.dyadic (2 ^ (i + 1)) L (by
    rw [abs_of_nonneg (by positivity)]; exact pow_le_pow_right₀ (by norm_num) (by omega))
  push_cast at h2 ⊢; exact h2

/-! ### invariant -/

/-- What holds of a crossfader of `n` tables between any two calls. -/
structure Inv (c : CrossFader K) : Prop where
  pos : 1 ≤ c.scale.length
  num : 1 ≤ c.numSamples
  left0 : 0 ≤ c.samplesLeft
  left1 : c.samplesLeft ≤ c.numSamples
  prev0 : 0 ≤ c.prevIdx
  prev1 : c.prevIdx < c.scale.length
  next0 : 0 ≤ c.nextIdx
  next1 : c.nextIdx < c.scale.length
  idle : c.samplesLeft = 0 → c.prevIdx = c.nextIdx
  fading : c.samplesLeft ≠ 0 → c.prevIdx = c.nextIdx + 1 ∨ c.nextIdx = c.prevIdx + 1

/-- The pure state transition: next state as a function of the requested octave. -/
def nextState (c : CrossFader K) (newIdx : ℤ) : CrossFader K :=
  if c.samplesLeft ≠ 0 then c.continueFade newIdx
  else if newIdx = c.nextIdx then c
  else { c with samplesLeft := c.numSamples }.updateIndices newIdx

/-- The state transition keeps the number of tables and the crossfade length. -/
theorem nextState_const (c : CrossFader K) (i : ℤ) :
    (c.nextState i).scale = c.scale ∧ (c.nextState i).numSamples = c.numSamples := by
  unfold nextState continueFade updateIndices
  dsimp only
  split_ifs <;> exact ⟨rfl, rfl⟩

theorem nextState_inv {c : CrossFader K} (h : c.Inv) {i : ℤ} (h0 : 0 ≤ i)
    (h1 : i < c.scale.length) : (c.nextState i).Inv := by
  obtain ⟨a1, a2, a3, a4, a5, a6, a7, a8, a9, a10⟩ := h
  have hc := nextState_const c i
  constructor
  · rw [hc.1]; exact a1
  · rw [hc.2]; exact a2
  all_goals first | rw [hc.1] | rw [hc.2] | skip
  all_goals
    unfold nextState continueFade updateIndices
    dsimp only
    split_ifs <;> (try dsimp only at *) <;> omega

/-- the fraction left of the fade -/
def frac (c : CrossFader K) : K := (c.samplesLeft : K) / c.numSamples

theorem frac_range {c : CrossFader K} (h : c.Inv) : 0 ≤ c.frac ∧ c.frac ≤ 1 := by
  have h1 : (0 : K) ≤ c.samplesLeft := by exact_mod_cast h.left0
  have h2 : (c.samplesLeft : K) ≤ c.numSamples := by exact_mod_cast h.left1
  have h3 : (0 : K) < c.numSamples := by
    have := h.num; exact_mod_cast (by omega : (0 : ℤ) < c.numSamples)
  exact ⟨div_nonneg h1 h3.le, (div_le_one h3).2 h2⟩

theorem computeFading_eq {E : Env K} (hf : Rounding E.fl) {c : CrossFader K} (h : c.Inv) :
    ∃ f, computeFading E c = .ok f ∧ E.fl f = f ∧ 0 ≤ f ∧ f ≤ 1 ∧ (c.samplesLeft = 0 → f = 0) ∧
      (c.samplesLeft = c.numSamples → f = 1) ∧
      f = E.fl (E.fl (c.samplesLeft : K) / E.fl (c.numSamples : K)) := by
  have hn : (0 : K) < c.numSamples := by
    have := h.num; exact_mod_cast (by omega : (0 : ℤ) < c.numSamples)
  have hn' : 0 < E.fl (c.numSamples : K) := hf.pos_of_ge 0 (by
    rw [pow_zero, div_one]; exact_mod_cast h.num)
  have h1 : (0 : K) ≤ E.fl c.samplesLeft := hf.nonneg (by exact_mod_cast h.left0)
  have h2 : E.fl (c.samplesLeft : K) ≤ E.fl c.numSamples := hf.mono (by exact_mod_cast h.left1)
  unfold computeFading fdiv
  rw [if_neg hn'.ne']
  refine ⟨_, rfl, hf.idem _, hf.nonneg (div_nonneg h1 hn'.le),
    hf.le_of_le hf.one ((div_le_one hn').2 h2), ?_, ?_, rfl⟩
  · intro h0; rw [h0]; simp [hf.zero]
  · intro h0; rw [h0, div_self hn'.ne', hf.one]

/-- The tuple returned for a state after the transition (fading branch). -/
theorem fadeTuple_eq {E : Env K} (hf : Rounding E.fl) {c : CrossFader K} (h : c.Inv) :
    ∃ f, computeFading E c = .ok f ∧
    fadeTuple E c = .ok (c, if c.nextIdx > c.prevIdx
      then ⟨c.prevIdx, f, c.nextIdx, E.fl (1 - f)⟩
      else ⟨c.nextIdx, E.fl (1 - f), c.prevIdx, f⟩) := by
  obtain ⟨f, e, _⟩ := computeFading_eq hf h
  refine ⟨f, e, ?_⟩
  unfold fadeTuple
  rw [e, R.ok_bind]
  split <;> rfl

/-- One call: it succeeds, moves to `nextState`, and the tuple is described by the new state. -/
theorem newIndices_eq {E : Env K} (hf : Rounding E.fl) {c : CrossFader K} (h : c.Inv) {d : K}
    (hd : 0 < d) :
    ∃ t, c.newIndices E d = .ok (c.nextState (findLoop d c.scale), t) ∧
      ((c.samplesLeft = 0 ∧ (findLoop d c.scale : ℤ) = c.nextIdx ∧
        t = ⟨c.nextIdx, 1, c.nextIdx + 1, 0⟩) ∨
       (¬ (c.samplesLeft = 0 ∧ (findLoop d c.scale : ℤ) = c.nextIdx) ∧
        ∃ f, computeFading E (c.nextState (findLoop d c.scale)) = .ok f ∧
          t = if (c.nextState (findLoop d c.scale)).nextIdx >
                  (c.nextState (findLoop d c.scale)).prevIdx
            then ⟨(c.nextState (findLoop d c.scale)).prevIdx, f,
                  (c.nextState (findLoop d c.scale)).nextIdx, E.fl (1 - f)⟩
            else ⟨(c.nextState (findLoop d c.scale)).nextIdx, E.fl (1 - f),
                  (c.nextState (findLoop d c.scale)).prevIdx, f⟩)) := by
  have hi0 : (0 : ℤ) ≤ (findLoop d c.scale : ℤ) := by omega
  have hi1 : (findLoop d c.scale : ℤ) < c.scale.length := by
    have := findLoop_lt d (l := c.scale) (by
      intro hh; have := h.pos; rw [hh] at this; simp at this)
    omega
  have hinv := nextState_inv h hi0 hi1
  obtain ⟨f, ef, et⟩ := fadeTuple_eq hf hinv
  unfold newIndices
  rw [findMipMapIndex_eq hd, R.ok_bind]
  by_cases hs : c.samplesLeft ≠ 0
  · have hne : c.prevIdx ≠ c.nextIdx := by have := h.fading hs; omega
    rw [if_pos hs, chk_true hne, R.ok_bind]
    have e : c.nextState (findLoop d c.scale) = c.continueFade (findLoop d c.scale) := by
      unfold nextState; rw [if_pos hs]
    rw [← e, et]
    exact ⟨_, rfl, Or.inr ⟨fun hh => hs hh.1, f, ef, rfl⟩⟩
  · rw [if_neg hs]
    have hs0 : c.samplesLeft = 0 := not_not.1 hs
    by_cases hn : (findLoop d c.scale : ℤ) = c.nextIdx
    · rw [if_pos hn, chk_true (h.idle hs0), R.ok_bind]
      have e : c.nextState (findLoop d c.scale) = c := by
        unfold nextState; rw [if_neg hs, if_pos hn]
      rw [e]
      refine ⟨_, rfl, Or.inl ⟨hs0, hn, by rw [hn]⟩⟩
    · rw [if_neg hn]
      have e : c.nextState (findLoop d c.scale) =
          { c with samplesLeft := c.numSamples }.updateIndices (findLoop d c.scale) := by
        unfold nextState; rw [if_neg hs, if_neg hn]
      rw [← e, et]
      exact ⟨_, rfl, Or.inr ⟨fun hh => hn hh.2, f, ef, rfl⟩⟩

end CrossFader
end Adwt
