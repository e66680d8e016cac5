import Verif.Proofs.CrossFader

set_option linter.unusedSectionVars false

namespace Adwt
variable {K : Type} [Field K] [LinearOrder K] [IsStrictOrderedRing K] [FloorRing K]

namespace CrossFader

theorem findLoop_range {c : CrossFader K} (h : c.Inv) (d : K) :
    (0 : ℤ) ≤ (findLoop d c.scale : ℤ) ∧ (findLoop d c.scale : ℤ) < c.scale.length := by
  have := findLoop_lt d (l := c.scale) (by
    intro hh; have := h.pos; rw [hh] at this; simp at this)
  omega

/-- next state for a phase step -/
def stepD (c : CrossFader K) (d : K) : CrossFader K := c.nextState (findLoop d c.scale)

theorem stepD_inv {c : CrossFader K} (h : c.Inv) (d : K) : (c.stepD d).Inv :=
  nextState_inv h (findLoop_range h d).1 (findLoop_range h d).2

theorem stepD_const (c : CrossFader K) (d : K) :
    (c.stepD d).scale = c.scale ∧ (c.stepD d).numSamples = c.numSamples := nextState_const _ _

theorem make_eq {E : Env K} (hf : Rounding E.fl) (hl : Log2Spec E.log2f) {L : ℕ} (hL1 : 1 ≤ L)
    (hL : L ≤ 24) {sr : K} (hs0 : 0 < sr) (hs : IsRate E.fl sr) (num : ℤ) :
    make E num ((2 : ℤ) ^ L) sr =
      .ok ⟨num, octaveScale K L, 0, findLoop (E.fl (1 / 10)) (octaveScale K L),
        findLoop (E.fl (1 / 10)) (octaveScale K L)⟩ := by
  unfold make
  rw [scale_eq hf hl hL1 hL hs0 hs, R.ok_bind, findMipMapIndex_eq (hf.pos_of_ge 4 (by norm_num))]
  rfl

theorem make_inv {L : ℕ} (hL : 2 ≤ L) {num : ℤ} (hn : 1 ≤ num) (d : K) :
    Inv (⟨num, octaveScale K L, 0, findLoop d (octaveScale K L),
        findLoop d (octaveScale K L)⟩ : CrossFader K) := by
  have hlen := octaveScale_length (K := K) L
  have := findLoop_lt d (l := octaveScale K L) (by
    intro h; rw [h] at hlen; simp at hlen; omega)
  constructor <;> dsimp only <;> omega

theorem run_nil {E : Env K} (c : CrossFader K) : c.run E [] = .ok (c, []) := rfl

theorem run_cons_ok {E : Env K} {c c' : CrossFader K} {d : K} {ds : List K}
    {ts : List (MipMapIndices K)} (h : c.run E (d :: ds) = .ok (c', ts)) :
    ∃ c1 t ts', c.newIndices E d = .ok (c1, t) ∧ c1.run E ds = .ok (c', ts') ∧ ts = t :: ts' := by
  unfold run at h
  obtain ⟨⟨c1, t⟩, h1, h⟩ := bind_ok h
  obtain ⟨⟨c2, ts'⟩, h2, h⟩ := bind_ok h
  cases h
  exact ⟨c1, t, ts', h1, h2, rfl⟩

theorem newIndices_stepD {E : Env K} (hf : Rounding E.fl) {c : CrossFader K} (h : c.Inv) {d : K}
    (hd : 0 < d) {c1 : CrossFader K} {t} (e : c.newIndices E d = .ok (c1, t)) :
    c1 = c.stepD d := by
  obtain ⟨t', e', _⟩ := newIndices_eq hf h hd
  rw [e] at e'; cases e'; rfl

/-- every history succeeds -/
theorem run_ok {E : Env K} (hf : Rounding E.fl) {c : CrossFader K} (h : c.Inv) {ds : List K}
    (hd : ∀ d ∈ ds, 0 < d) :
    ∃ ts, c.run E ds = .ok (ds.foldl stepD c, ts) ∧ ts.length = ds.length := by
  induction ds generalizing c with
  | nil => exact ⟨[], rfl, rfl⟩
  | cons d ds ih =>
    obtain ⟨t, e, _⟩ := newIndices_eq hf h (hd d (by simp))
    obtain ⟨ts, e2, hl⟩ := ih (c := c.stepD d) (stepD_inv h d) fun d' hd' => hd d' (by simp [hd'])
    refine ⟨t :: ts, ?_, by simp [hl]⟩
    unfold run
    rw [e, R.ok_bind]
    show (do let (c2, ts) ← (c.stepD d).run E ds; _) = _
    rw [e2]; rfl

theorem foldl_inv {c : CrossFader K} (h : c.Inv) (ds : List K) : (ds.foldl stepD c).Inv := by
  induction ds generalizing c with
  | nil => exact h
  | cons d ds ih => exact ih (stepD_inv h d)

theorem foldl_const (c : CrossFader K) (ds : List K) :
    (ds.foldl stepD c).scale = c.scale ∧ (ds.foldl stepD c).numSamples = c.numSamples := by
  induction ds generalizing c with
  | nil => exact ⟨rfl, rfl⟩
  | cons d ds ih =>
    have := ih (c.stepD d)
    have h2 := stepD_const c d
    exact ⟨this.1.trans h2.1, this.2.trans h2.2⟩

/-- each tuple of a history is the answer to one call, from the state reached before it -/
theorem run_get {E : Env K} (hf : Rounding E.fl) {c c' : CrossFader K} (h : c.Inv) {ds : List K}
    (hd : ∀ d ∈ ds, 0 < d) {ts} (e : c.run E ds = .ok (c', ts)) :
    ts.length = ds.length ∧ c' = ds.foldl stepD c ∧
    ∀ (i : ℕ) (hi : i < ts.length) (hi' : i < ds.length),
      ((ds.take i).foldl stepD c).newIndices E ds[i] =
        .ok ((ds.take (i + 1)).foldl stepD c, ts[i]) := by
  induction ds generalizing c ts with
  | nil =>
    cases e
    exact ⟨rfl, rfl, fun i hi => absurd hi (by simp)⟩
  | cons d ds ih =>
    obtain ⟨c1, t, ts', e1, e2, rfl⟩ := run_cons_ok e
    have e3 := newIndices_stepD hf h (hd d (by simp)) e1
    subst e3
    obtain ⟨hl, hc, hg⟩ := ih (stepD_inv h d) (fun d' hd' => hd d' (by simp [hd'])) e2
    refine ⟨by simp [hl], by simp [hc], ?_⟩
    intro i hi hi'
    cases i with
    | zero => simpa using e1
    | succ i => simpa using hg i (by simpa using hi) (by simpa using hi')

theorem run_forall {E : Env K} (hf : Rounding E.fl) {c c' : CrossFader K} (h : c.Inv)
    {ds : List K} (hd : ∀ d ∈ ds, 0 < d) {ts} (e : c.run E ds = .ok (c', ts))
    (P : MipMapIndices K → Prop)
    (hP : ∀ (c1 : CrossFader K) (d : K) c2 t, c1.Inv → c1.scale = c.scale →
      c1.numSamples = c.numSamples → 0 < d →
      c1.newIndices E d = .ok (c2, t) → P t) : ∀ t ∈ ts, P t := by
  intro t ht
  obtain ⟨hl, -, hg⟩ := run_get hf h hd e
  obtain ⟨i, hi, rfl⟩ := List.mem_iff_getElem.1 ht
  exact hP _ _ _ _ (foldl_inv h _) (foldl_const c _).1 (foldl_const c _).2
    (hd _ (List.getElem_mem (by omega))) (hg i hi (by omega))

theorem Reachable.inv {E : Env K} (hf : Rounding E.fl) (hl : Log2Spec E.log2f) {L : ℕ} {num : ℤ}
    (hn : 1 ≤ num) {c : CrossFader K} (h : Reachable E L num c) :
    c.Inv ∧ c.scale = octaveScale K L ∧ c.numSamples = num := by
  obtain ⟨hL, hL', sr, c0, ds, ts, hs0, hs, hm, hds, hr⟩ := h
  rw [make_eq hf hl (by omega) hL' hs0 hs] at hm
  cases hm
  have hi := make_inv (K := K) hL hn (E.fl (1 / 10))
  obtain ⟨-, hc, -⟩ := run_get hf hi hds hr
  subst hc
  refine ⟨foldl_inv hi _, (foldl_const _ _).1, (foldl_const _ _).2⟩

theorem findLoop_of_octave {L : ℕ} (hL : 2 ≤ L) {d : K} {i : ℤ} (h : IsOctave L i d) :
    (findLoop d (octaveScale K L) : ℤ) = i := (findLoop_octave hL d).unique h

/-- what each call returns, in terms of the new state -/
theorem tuple_facts {E : Env K} (hf : Rounding E.fl) {c c' : CrossFader K} (h : c.Inv) {d : K}
    (hd : 0 < d) {t} (e : c.newIndices E d = .ok (c', t)) :
    0 ≤ t.idx ∧ t.idx < c.scale.length ∧
    (t.weightUp ≠ 0 → t.idxUp = t.idx + 1 ∧ t.idxUp < c.scale.length) ∧
    0 ≤ t.weight ∧ t.weight ≤ 1 ∧ 0 ≤ t.weightUp ∧ t.weightUp ≤ 1 ∧
    ∃ f, E.fl f = f ∧ 0 ≤ f ∧ f ≤ 1 ∧
      ((t.weight = f ∧ t.weightUp = E.fl (1 - f)) ∨ (t.weight = E.fl (1 - f) ∧ t.weightUp = f)) := by
  obtain ⟨t', e', ht⟩ := newIndices_eq hf h hd
  rw [e] at e'; cases e'
  have hinv := nextState_inv h (findLoop_range h d).1 (findLoop_range h d).2
  have hcon := nextState_const c (findLoop d c.scale)
  rcases ht with ⟨h1, h2, rfl⟩ | ⟨hne, f, ef, rfl⟩
  · refine ⟨h.next0, h.next1, by simp, by simp, by simp, by simp, by simp, 1, hf.one, by simp,
      by simp, Or.inl ⟨rfl, by simp [hf.zero]⟩⟩
  · obtain ⟨f', ef', hfl, h0, h1, hz, -⟩ := computeFading_eq hf hinv
    rw [ef] at ef'; cases ef'
    have g0 : 0 ≤ E.fl (1 - f) := hf.nonneg (by linarith)
    have g1 : E.fl (1 - f) ≤ 1 := hf.le_of_le hf.one (by linarith)
    have a1 := hinv.prev0
    have a2 := hinv.prev1
    have a3 := hinv.next0
    have a4 := hinv.next1
    have a5 := hinv.idle
    have a6 := hinv.fading
    rw [hcon.1] at a2 a4
    split
    · rename_i hgt
      refine ⟨a1, a2, fun _ => ?_, h0, h1, g0, g1, f, hfl, h0, h1, Or.inl ⟨rfl, rfl⟩⟩
      dsimp only
      by_cases hs : (c.nextState (findLoop d c.scale)).samplesLeft = 0
      · have := a5 hs; omega
      · have := a6 hs; omega
    · rename_i hgt
      refine ⟨a3, a4, fun hw => ?_, g0, g1, h0, h1, f, hfl, h0, h1, Or.inr ⟨rfl, rfl⟩⟩
      dsimp only at hw ⊢
      by_cases hs : (c.nextState (findLoop d c.scale)).samplesLeft = 0
      · exact absurd (hz hs) hw
      · have := a6 hs; omega

/-! ### IEEE: complementary weights add up to one -/

theorem rne24_eq_of_scaled {x : K} {e n : ℤ} (hx : 0 < x) (hlog : Int.log 2 x = e + 23)
    (hn : roundEven (x / 2 ^ e) = n) : rne24 x = n * 2 ^ e := by
  have hu : ulpExp x = e := by unfold ulpExp; rw [abs_of_pos hx, hlog]; ring
  unfold rne24; rw [hu, hn]

theorem log_of_bounds {x : K} {e : ℤ} (h1 : (2 : K) ^ e ≤ x) (h2 : x < 2 ^ (e + 1)) :
    Int.log 2 x = e := by
  have hx : 0 < x := lt_of_lt_of_le (zpow_pos (by norm_num) _) h1
  have a : e ≤ Int.log 2 x := by
    rw [← Int.zpow_le_iff_le_log (by norm_num) hx]; exact_mod_cast h1
  have b : ¬ e + 1 ≤ Int.log 2 x := by
    rw [← Int.zpow_le_iff_le_log (by norm_num) hx]
    push_cast; exact not_le.2 h2
  omega

theorem rne24_below_one : rne24 (1 - 1 / 2 ^ 25 : K) = 1 := by
  have hx : (0 : K) < 1 - 1 / 2 ^ 25 := by norm_num
  have hlog : Int.log 2 (1 - 1 / 2 ^ 25 : K) = -24 + 23 := by
    apply log_of_bounds <;> norm_num
  have hn : roundEven ((1 - 1 / 2 ^ 25 : K) / 2 ^ (-24 : ℤ)) = 2 ^ 24 := by
    have e : (1 - 1 / 2 ^ 25 : K) / 2 ^ (-24 : ℤ) = 2 ^ 24 - 1 / 2 := by norm_num
    rw [e]
    have hfl : ⌊(2 : K) ^ 24 - 1 / 2⌋ = 2 ^ 24 - 1 := by
      rw [Int.floor_eq_iff]; norm_num
    unfold roundEven
    rw [hfl]
    have hodd : ¬ Even (2 ^ 24 - 1 : ℤ) := by decide
    rw [if_neg hodd]
    norm_num
  rw [rne24_eq_of_scaled hx hlog hn]; norm_num

theorem rne24_above_one : rne24 (1 + 1 / 2 ^ 25 : K) = 1 := by
  have hx : (0 : K) < 1 + 1 / 2 ^ 25 := by norm_num
  have hlog : Int.log 2 (1 + 1 / 2 ^ 25 : K) = -23 + 23 := by
    apply log_of_bounds <;> norm_num
  have hn : roundEven ((1 + 1 / 2 ^ 25 : K) / 2 ^ (-23 : ℤ)) = 2 ^ 23 := by
    have e : (1 + 1 / 2 ^ 25 : K) / 2 ^ (-23 : ℤ) = 2 ^ 23 + 1 / 4 := by norm_num
    rw [e]
    have hfl : ⌊(2 : K) ^ 23 + 1 / 4⌋ = 2 ^ 23 := by
      rw [Int.floor_eq_iff]; norm_num
    unfold roundEven
    rw [hfl]
    norm_num
  rw [rne24_eq_of_scaled hx hlog hn]; norm_num

/-- For a float `f` in `[0,1]`, `f + fl(1 - f)` rounds to exactly one. -/
theorem rne24_complement {f : K} (h0 : 0 ≤ f) (h1 : f ≤ 1) (hf : rne24 f = f) :
    rne24 (f + rne24 (1 - f)) = 1 := by
  have hone : rne24 (1 : K) = 1 := by simpa using rne24_int (K := K) 1 (by norm_num)
  have herr : |rne24 (1 - f) - (1 - f)| ≤ 1 / 2 ^ 25 := by
    rcases eq_or_lt_of_le h1 with rfl | hlt
    · simp
    · have hp : 0 < 1 - f := by linarith
      rcases eq_or_lt_of_le h0 with rfl | hgt
      · simp [hone]
      refine (rne24_err (1 - f)).trans ?_
      have hu : ulpExp (1 - f) ≤ -24 := by
        unfold ulpExp
        rw [abs_of_pos hp]
        have : ¬ 0 ≤ Int.log 2 (1 - f) := by
          rw [← Int.zpow_le_iff_le_log (by norm_num) hp]; simp; linarith
        omega
      have : (2 : K) ^ ulpExp (1 - f) ≤ 2 ^ (-24 : ℤ) := zpow_le_zpow_right₀ (by norm_num) hu
      have e : (2 : K) ^ (-24 : ℤ) = 1 / 2 ^ 24 := by norm_num
      rw [e] at this
      have : (1 : K) / 2 ^ 24 / 2 = 1 / 2 ^ 25 := by norm_num
      linarith
  rw [abs_le] at herr
  apply le_antisymm
  · conv_rhs => rw [← rne24_above_one (K := K)]
    apply rne24_mono; linarith
  · conv_lhs => rw [← rne24_below_one (K := K)]
    apply rne24_mono; linarith

theorem ieee32_complement {f : K} (h0 : 0 ≤ f) (h1 : f ≤ 1) (hf : ieee32 f = f) :
    ieee32 (f + ieee32 (1 - f)) = 1 := by
  have hr := rounding_ieee32 (K := K)
  have hsub : ieee32 (1 - f) = rne24 (1 - f) := by
    apply ieee32_normal
    · by_cases h : 1 / 2 ^ 126 ≤ |1 - f|
      · exact Or.inr h
      · left
        -- a float below one is at least 2^-24 below one
        have hlt : |1 - f| < 1 / 2 ^ 24 := lt_of_lt_of_le (not_le.1 h) (by norm_num)
        have := rne24_of_ieee32 hf
        have hb : rne24 (1 - 1 / 2 ^ 25 : K) = 1 := rne24_below_one
        by_contra hne
        have hlt1 : f < 1 := lt_of_le_of_ne h1 (fun e => hne (by rw [e, sub_self]))
        rw [abs_of_nonneg (by linarith)] at h
        have hge : 1 - 1 / 2 ^ 25 ≤ f := by
          have : (1 : K) / 2 ^ 126 ≤ 1 / 2 ^ 25 := by norm_num
          linarith [not_le.1 h]
        have h5 := rne24_mono hge
        rw [hb, this] at h5
        linarith
    · rw [abs_of_nonneg (by linarith)]
      have : (1 : K) ≤ 2 ^ 127 := by norm_num
      linarith
  have hc := rne24_complement h0 h1 (rne24_of_ieee32 hf)
  rw [hsub, ieee32_normal ?_ ?_, hc]
  · by_cases hz : f + rne24 (1 - f) = 0
    · exact Or.inl hz
    · right
      by_contra hh
      have := rne24_mono (show f + rne24 (1 - f) ≤ 1 / 2 by
        have h6 := abs_lt.1 (not_le.1 hh)
        have : (1 : K) / 2 ^ 126 ≤ 1 / 2 := by norm_num
        linarith [h6.2])
      rw [hc, rounding_rne24.half] at this
      norm_num at this
  · have h2 : rne24 (1 - f) ≤ 1 := rounding_rne24.le_of_le rounding_rne24.one (by linarith)
    have h3 : 0 ≤ rne24 (1 - f) := rounding_rne24.nonneg (by linarith)
    rw [abs_of_nonneg (by linarith)]
    have : (2 : K) ≤ 2 ^ 127 := by norm_num
    linarith

end CrossFader
end Adwt
