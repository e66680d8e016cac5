import Verif.Proofs.BuildApi
import Mathlib.Data.List.Forall2

set_option linter.unusedSectionVars false

namespace Adwt
variable {K : Type} [Field K] [LinearOrder K] [IsStrictOrderedRing K] [FloorRing K]

namespace WavetableData

/-! ### getters of the closed form -/

section getters
variable {E : Env K} {ws : List K} {nw L : ℕ} {xf : ℤ} {w i : ℕ}

theorem rd_map_range {α : Type} (f : ℕ → α) {n k : ℕ} (h : k < n) :
    rd ((List.range n).map f) (k : ℤ) = .ok (f k) := by
  rw [rd_get rfl (by simpa using h)]; simp

theorem wtOf_mSpan (hw : w < nw) (hi : i < L - 1) :
    (wtOf E ws nw L xf).mSpan (w : ℤ) (i : ℤ) = .ok (tabOf E L (waveformOf ws (2 ^ L) w) i).m := by
  unfold mSpan rd2 wtOf
  simp only [List.map_map]
  rw [rd_map_range _ hw, R.ok_bind]
  simp only [Function.comp, List.map_map]
  rw [rd_map_range _ hi]; rfl

theorem wtOf_qSpan (hw : w < nw) (hi : i < L - 1) :
    (wtOf E ws nw L xf).qSpan (w : ℤ) (i : ℤ) = .ok (tabOf E L (waveformOf ws (2 ^ L) w) i).q := by
  unfold qSpan rd2 wtOf
  simp only [List.map_map]
  rw [rd_map_range _ hw, R.ok_bind]
  simp only [Function.comp, List.map_map]
  rw [rd_map_range _ hi]; rfl

theorem wtOf_mDiffSpan (hw : w < nw) (hi : i < L - 1) :
    (wtOf E ws nw L xf).mDiffSpan (w : ℤ) (i : ℤ) =
      .ok (tabOf E L (waveformOf ws (2 ^ L) w) i).mDiff := by
  unfold mDiffSpan rd2 wtOf
  simp only [List.map_map]
  rw [rd_map_range _ hw, R.ok_bind]
  simp only [Function.comp, List.map_map]
  rw [rd_map_range _ hi]; rfl

theorem wtOf_qDiffSpan (hw : w < nw) (hi : i < L - 1) :
    (wtOf E ws nw L xf).qDiffSpan (w : ℤ) (i : ℤ) =
      .ok (tabOf E L (waveformOf ws (2 ^ L) w) i).qDiff := by
  unfold qDiffSpan rd2 wtOf
  simp only [List.map_map]
  rw [rd_map_range _ hw, R.ok_bind]
  simp only [Function.comp, List.map_map]
  rw [rd_map_range _ hi]; rfl

theorem wtOf_phaseSpan (hi : i < L - 1) :
    (wtOf E ws nw L xf).phaseSpan (i : ℤ) = .ok (grid K (L - i)) := by
  unfold phaseSpan wtOf
  rw [rd_map_range _ hi]

theorem tabOf_len (w : List K) (i : ℕ) : (tabOf E L w i).m.length = 2 ^ (L - i) ∧
    (tabOf E L w i).q.length = 2 ^ (L - i) ∧ (tabOf E L w i).mDiff.length = 2 ^ (L - i) ∧
    (tabOf E L w i).qDiff.length = 2 ^ (L - i) := by
  simp [tabOf, mqOf]

theorem wtOf_waveformLen (hnw : 0 < nw) (hi : i < L - 1) :
    (wtOf E ws nw L xf).waveformLen (i : ℤ) = .ok ((2 ^ (L - i) : ℕ) : ℤ) := by
  unfold waveformLen
  have := wtOf_mSpan (E := E) (ws := ws) (xf := xf) hnw hi
  unfold mSpan at this
  rw [show ((0 : ℕ) : ℤ) = 0 from rfl] at this
  rw [this, R.ok_bind, (tabOf_len _ _).1]; rfl

theorem wtOf_numWaveforms : (wtOf E ws nw L xf).numWaveforms = nw := by
  simp [wtOf, numWaveforms]

theorem wtOf_numMipMapTables (hL : 1 ≤ L) : (wtOf E ws nw L xf).numMipMapTables = (L : ℤ) - 1 := by
  simp [wtOf, numMipMapTables, CrossFader.numMipMapTables, octaveScale]; omega

end getters

/-! ### closed form in exact arithmetic -/

theorem dbl_id {E : Env K} (he : E.fl = id) : E.dbl = id := by
  funext x; exact E.dbl_fl x (by rw [he]; rfl)

/-- in exact arithmetic contraction changes nothing -/
theorem mad_id {E : Env K} (he : E.fl = id) (a b c : K) : E.mad a b c = a * b + c := by
  rcases E.mad_eq a b c with h | h <;> rw [h, he] <;> rfl

theorem dmm_id {E : Env K} (he : E.fl = id) (a b c d : K) : E.dmm a b c d = a * b - c * d := by
  rcases E.dmm_eq a b c d with h | h | h <;> rw [h, dbl_id he] <;> rfl

/-- the product of a multiply-add is rounded or not -/
theorem mad_cases (E : Env K) (a b c : K) :
    ∃ P, (P = a * b ∨ P = E.fl (a * b)) ∧ E.mad a b c = E.fl (P + c) := by
  rcases E.mad_eq a b c with h | h
  · exact ⟨_, .inl rfl, h⟩
  · exact ⟨_, .inr rfl, h⟩

theorem dmm_cases (E : Env K) (a b c d : K) :
    ∃ P Q, (P = a * b ∨ P = E.dbl (a * b)) ∧ (Q = c * d ∨ Q = E.dbl (c * d)) ∧
      E.dmm a b c d = E.dbl (P - Q) := by
  rcases E.dmm_eq a b c d with h | h | h
  · exact ⟨_, _, .inr rfl, .inr rfl, h⟩
  · exact ⟨_, _, .inl rfl, .inr rfl, h⟩
  · exact ⟨_, _, .inr rfl, .inl rfl, h⟩

/-- line `k` of the interpolation, exact -/
theorem mF_id {E : Env K} (he : E.fl = id) {n k : ℕ} {y : ℕ → K} :
    mF E (fun k => (k : K) / 2 ^ n) y (2 ^ n) k = (y ((k + 1) % 2 ^ n) - y k) * 2 ^ n := by
  unfold mF
  have : ((k + 1 : ℕ) : K) / 2 ^ n - (k : K) / 2 ^ n = 1 / 2 ^ n := by push_cast; ring
  rw [this, he, dbl_id he]; simp

theorem qF_id {E : Env K} (he : E.fl = id) {n k : ℕ} {y : ℕ → K} :
    qF E (fun k => (k : K) / 2 ^ n) y (2 ^ n) k = y k - k * (y ((k + 1) % 2 ^ n) - y k) := by
  unfold qF
  have h : ((k + 1 : ℕ) : K) / 2 ^ n - (k : K) / 2 ^ n = 1 / 2 ^ n := by push_cast; ring
  have hp : (2 : K) ^ n ≠ 0 := by positivity
  rw [h, he, dmm_id he, dbl_id he]; simp only [id]; field_simp

/-! ### rebuilding the samples -/

theorem flatten_chunks {ws : List K} {nw len : ℕ} (h : ws.length = nw * len) :
    ((List.range nw).map fun w => waveformOf ws len w).flatten = ws := by
  have aux : ∀ n, ((List.range n).map fun w => waveformOf ws len w).flatten = ws.take (n * len) := by
    intro n
    induction n with
    | zero => simp
    | succ n ih =>
      rw [List.range_succ, List.map_append, List.flatten_append, ih, add_mul, one_mul, List.take_add]
      simp [waveformOf]
  rw [aux, ← h, List.take_length]

/-- closed form of one rebuilt waveform -/
def rebuilt (E : Env K) (L : ℕ) (w : List K) : List K :=
  (List.range (2 ^ L)).map fun (k : ℕ) =>
    E.mad (mF E (fun k => (k : K) / 2 ^ L) (w.getD · 0) (2 ^ L) k) ((k : K) / 2 ^ L)
      (qF E (fun k => (k : K) / 2 ^ L) (w.getD · 0) (2 ^ L) k)

theorem rebuildOne_eq {E : Env K} {L : ℕ} {w : List K} :
    rebuildOne E (tabOf E L w 0).m (tabOf E L w 0).q (grid K (L - 0)) = rebuilt E L w := by
  unfold rebuildOne rebuilt tabOf mqOf grid
  simp only [mipSamples_zero, Nat.sub_zero]
  apply List.ext_getElem?
  intro k
  rw [List.getElem?_zipWith, List.zip, List.getElem?_zipWith]
  simp only [List.getElem?_map]
  by_cases hk : k < 2 ^ L
  · rw [List.getElem?_range hk, List.getElem?_range (by omega)]; rfl
  · rw [List.getElem?_eq_none (by simpa using hk)]; rfl

theorem rebuild_wtOf {E : Env K} {ws : List K} {nw L : ℕ} {xf : ℤ} {c : CrossFader K}
    (hnw : 0 < nw) (hL : 2 ≤ L) :
    rebuildWaveforms E { wtOf E ws nw L xf with cf := c } =
      .ok ((List.range nw).map fun w => rebuilt E L (waveformOf ws (2 ^ L) w)).flatten := by
  unfold rebuildWaveforms
  have hne : (wtOf E ws nw L xf).phases ≠ [] := by
    intro h; have := congrArg List.length h; simp [wtOf] at this; omega
  have h0 := wtOf_waveformLen (E := E) (ws := ws) (xf := xf) (L := L) (i := 0) hnw (by omega)
  have h0' : ({ wtOf E ws nw L xf with cf := c } : WavetableData K).waveformLen 0 =
    .ok ((2 ^ (L - 0) : ℕ) : ℤ) := h0
  rw [chk_true hne, R.ok_bind, h0', R.ok_bind]
  have hlen : (wtOf E ws nw L xf).m.length = nw := by simp [wtOf]
  dsimp only
  rw [hlen, mapM_eq_map (g := fun w => rebuilt E L (waveformOf ws (2 ^ L) w))]
  · rfl
  · intro w hw
    have hw' := List.mem_range.1 hw
    have a := wtOf_mSpan (E := E) (ws := ws) (xf := xf) (L := L) (i := 0) hw' (by omega)
    have b := wtOf_qSpan (E := E) (ws := ws) (xf := xf) (L := L) (i := 0) hw' (by omega)
    have d := wtOf_phaseSpan (E := E) (ws := ws) (nw := nw) (xf := xf) (L := L) (i := 0) (by omega)
    have a' : ({ wtOf E ws nw L xf with cf := c } : WavetableData K).mSpan (w : ℤ) 0 = _ := a
    have b' : ({ wtOf E ws nw L xf with cf := c } : WavetableData K).qSpan (w : ℤ) 0 = _ := b
    have d' : ({ wtOf E ws nw L xf with cf := c } : WavetableData K).phaseSpan 0 = _ := d
    rw [a', R.ok_bind, b', R.ok_bind, d', R.ok_bind, rebuildOne_eq]; rfl

theorem eq_map_getD {w : List K} {n : ℕ} (h : w.length = n) :
    w = (List.range n).map fun k => w.getD k 0 := by
  apply List.ext_getElem?
  intro k
  by_cases hk : k < n
  · simp [hk, h]
  · rw [List.getElem?_eq_none (by omega), List.getElem?_eq_none (by simpa using hk)]

theorem rebuilt_id {E : Env K} (he : E.fl = id) {L : ℕ} {w : List K} (h : w.length = 2 ^ L) :
    rebuilt E L w = w := by
  conv_rhs => rw [eq_map_getD h]
  unfold rebuilt
  apply List.map_congr_left
  intro k _
  rw [mF_id he, qF_id he, mad_id he]
  have hp : (2 : K) ^ L ≠ 0 := by positivity
  field_simp; ring

/-- the width of a segment is a float, hence a double -/
theorem dbl_gap {E : Env K} (hf : Rounding E.fl) {n k : ℕ} (hn : n ≤ 24) :
    E.dbl (((k + 1 : ℕ) : K) / 2 ^ n - (k : K) / 2 ^ n) = 1 / 2 ^ n := by
  have : ((k + 1 : ℕ) : K) / 2 ^ n - (k : K) / 2 ^ n = 1 / 2 ^ n := by push_cast; ring
  have h1 := hf.dyadic 1 n (by norm_num)
  push_cast at h1
  rw [this, E.dbl_fl _ h1]

theorem rel_step {f : K → K} {u x y T e : K} (hu : 0 ≤ u) (hf : ∀ x, |f x - x| ≤ u * |x|)
    (hx : |x - y| ≤ e) (hy : |y| ≤ T) : |f x - y| ≤ e + u * (T + e) := by
  have h1 := hf x
  have h2 : |x| ≤ T + e := by
    have := abs_add_le (x - y) y
    rw [sub_add_cancel] at this; linarith
  have h3 := abs_add_le (f x - x) (x - y)
  rw [sub_add_sub_cancel] at h3
  have := mul_le_mul_of_nonneg_left h2 hu
  linarith

/-- relative error `u`, with an absolute floor `τ` (underflow) and a ceiling `β` (overflow) -/
def RelTo (f : K → K) (u τ β : K) : Prop :=
  ∀ x b, |x| ≤ b → τ ≤ b → b ≤ β → |f x - x| ≤ u * b

theorem relTo_of_rel {f : K → K} {u : K} (hu : 0 ≤ u) (hf : ∀ x, |f x - x| ≤ u * |x|) (β : K) :
    RelTo f u 0 β := fun x _ hb _ _ => (hf x).trans (mul_le_mul_of_nonneg_left hb hu)

theorem relTo_step {f : K → K} {u τ β x y T e : K} (hf : RelTo f u τ β)
    (hx : |x - y| ≤ e) (hy : |y| ≤ T) (h1 : τ ≤ T) (h2 : T + e ≤ β) : |f x - y| ≤ e + u * (T + e) := by
  have he : 0 ≤ e := (abs_nonneg _).trans hx
  have h3 : |x| ≤ T + e := by
    have := abs_add_le (x - y) y
    rw [sub_add_cancel] at this; linarith
  have h4 := hf x (T + e) h3 (by linarith) h2
  have h5 := abs_add_le (f x - x) (x - y)
  rw [sub_add_sub_cancel] at h5
  linarith

/-- error of a slope: `u` and `v` are the relative errors of float and double operations -/
theorem mF_err {E : Env K} (hf : Rounding E.fl) {u v : K} (hu : 0 ≤ u) (hu1 : u ≤ 1 / 100)
    (hv : 0 ≤ v) (hv1 : v ≤ 1 / 100) {τ β : K} (hfl : RelTo E.fl u τ β)
    (hdbl : ∀ x, |E.dbl x - x| ≤ v * |x|) {n k : ℕ} (hn : n ≤ 24) {y : ℕ → K} {T : K}
    (hT : |(y ((k + 1) % 2 ^ n) - y k) * 2 ^ n| ≤ T) (hτ : τ ≤ T) (hβ : 2 * T ≤ β) :
    |mF E (fun k => (k : K) / 2 ^ n) y (2 ^ n) k - (y ((k + 1) % 2 ^ n) - y k) * 2 ^ n| ≤
      (u + 3 * v) * T := by
  unfold mF
  rw [dbl_gap hf hn]
  set d := y ((k + 1) % 2 ^ n) - y k with hd
  have hp : (0 : K) < 2 ^ n := by positivity
  have hT0 : 0 ≤ T := (abs_nonneg _).trans hT
  have h1 : |E.dbl d / (1 / 2 ^ n) - d * 2 ^ n| ≤ v * T := by
    have e : E.dbl d / (1 / 2 ^ n) - d * 2 ^ n = (E.dbl d - d) * 2 ^ n := by field_simp
    rw [e, abs_mul, abs_of_pos hp]
    rw [abs_mul, abs_of_pos hp] at hT
    calc |E.dbl d - d| * 2 ^ n ≤ v * |d| * 2 ^ n := by gcongr; exact hdbl d
      _ = v * (|d| * 2 ^ n) := by ring
      _ ≤ v * T := by gcongr
  have h2 := rel_step hv hdbl h1 hT
  have hvT : 0 ≤ v * T := by positivity
  have a1 : v * (v * T) ≤ 1 / 100 * (v * T) := by gcongr
  have a0 : v * T ≤ 1 / 100 * T := by gcongr
  have h3 := relTo_step hfl h2 hT hτ (by linarith)
  refine h3.trans ?_
  have a2 : u * (v * T) ≤ 1 / 100 * (v * T) := by gcongr
  have a3 : u * (v * (v * T)) ≤ 1 / 100 * (1 / 100 * (v * T)) := by gcongr
  linarith

/-- error of an offset -/
theorem qF_err {E : Env K} (hf : Rounding E.fl) {u v : K} (hu : 0 ≤ u) (hu1 : u ≤ 1 / 100)
    (hv : 0 ≤ v) (hv1 : v ≤ 1 / 100) {τ β : K} (hfl : RelTo E.fl u τ β)
    (hdbl : ∀ x, |E.dbl x - x| ≤ v * |x|) {n k : ℕ} (hn : n ≤ 24) {y : ℕ → K} {T : K}
    (hT : |y k| + k * |y ((k + 1) % 2 ^ n) - y k| ≤ T) (hτ : τ ≤ T) (hβ : 2 * T ≤ β) :
    |qF E (fun k => (k : K) / 2 ^ n) y (2 ^ n) k - (y k - k * (y ((k + 1) % 2 ^ n) - y k))| ≤
      (u + 5 * v) * T := by
  unfold qF
  rw [dbl_gap hf hn]
  set d := y ((k + 1) % 2 ^ n) - y k with hd
  have hp : (0 : K) < 2 ^ n := by positivity
  have hk : (0 : K) ≤ k := by positivity
  have hT0 : 0 ≤ T := le_trans (by positivity) hT
  set a := y k * (1 / 2 ^ n) with ha
  set b := (k : K) / 2 ^ n * d with hb
  have hab : |a| + |b| ≤ T / 2 ^ n := by
    rw [le_div_iff₀ hp, ha, hb, abs_mul, abs_mul, abs_of_pos (by positivity : (0 : K) < 1 / 2 ^ n),
      abs_of_nonneg (by positivity : (0 : K) ≤ k / 2 ^ n)]
    calc (|y k| * (1 / 2 ^ n) + k / 2 ^ n * |d|) * 2 ^ n = |y k| + k * |d| := by field_simp
      _ ≤ T := hT
  obtain ⟨P, Q, hP, hQ, he⟩ := dmm_cases E (y k) (1 / 2 ^ n) ((k : K) / 2 ^ n) (E.dbl d)
  rw [he]
  have h1 : |P - a| ≤ v * |a| := by
    rcases hP with hP | hP <;> rw [hP]
    · rw [sub_self, abs_zero]; positivity
    · exact hdbl a
  have h2 : |(k : K) / 2 ^ n * E.dbl d - b| ≤ v * |b| := by
    rw [hb, ← mul_sub, abs_mul, abs_mul, abs_of_nonneg (by positivity : (0 : K) ≤ k / 2 ^ n)]
    calc (k : K) / 2 ^ n * |E.dbl d - d| ≤ k / 2 ^ n * (v * |d|) := by gcongr; exact hdbl d
      _ = v * (k / 2 ^ n * |d|) := by ring
  have h3 : |Q - b| ≤ v * |b| + v * (|b| + v * |b|) := by
    rcases hQ with hQ | hQ <;> rw [hQ]
    · refine h2.trans ?_
      have : 0 ≤ v * (|b| + v * |b|) := by positivity
      linarith
    · exact rel_step hv hdbl h2 le_rfl
  have h4 : |P - Q - (a - b)| ≤
      (2 * v + v * v) * (T / 2 ^ n) := by
    have e : P - Q - (a - b) =
      (P - a) - (Q - b) := by ring
    rw [e]
    have t1 := abs_sub (P - a) (Q - b)
    have t2 : (2 * v + v * v) * (|a| + |b|) ≤ (2 * v + v * v) * (T / 2 ^ n) := by gcongr
    have t3 : 0 ≤ (v + v * v) * |a| := by positivity
    linarith
  have hab2 : |a - b| ≤ T / 2 ^ n := (abs_sub a b).trans hab
  have h5 := rel_step hv hdbl h4 hab2
  have h6 : |E.dbl (P - Q) / (1 / 2 ^ n) - (y k - k * d)| ≤
      ((2 * v + v * v) + v * (1 + (2 * v + v * v))) * T := by
    have e : E.dbl (P - Q) / (1 / 2 ^ n) - (y k - k * d) =
      (E.dbl (P - Q) - (a - b)) * 2 ^ n := by
      rw [ha, hb]; field_simp
    rw [e, abs_mul, abs_of_pos hp]
    calc _ ≤ ((2 * v + v * v) * (T / 2 ^ n) + v * (T / 2 ^ n + (2 * v + v * v) * (T / 2 ^ n))) * 2 ^ n := by
          gcongr
      _ = _ := by field_simp
  have hq : |y k - k * d| ≤ T := by
    have := abs_sub (y k) (k * d)
    rw [abs_mul, abs_of_nonneg hk] at this
    linarith
  have h7 := rel_step hv hdbl h6 hq
  have hvT : 0 ≤ v * T := by positivity
  have g1 : ((2 * v + v * v) + v * (1 + (2 * v + v * v))) * T ≤ 304 / 100 * (v * T) := by
    have b1 : v * (v * T) ≤ 1 / 100 * (v * T) := by gcongr
    have b2 : v * (v * (v * T)) ≤ 1 / 100 * (1 / 100 * (v * T)) := by gcongr
    linarith
  have g2 : ((2 * v + v * v) + v * (1 + (2 * v + v * v))) * T +
      v * (T + ((2 * v + v * v) + v * (1 + (2 * v + v * v))) * T) ≤ 41 / 10 * (v * T) := by
    have b1 : v * (((2 * v + v * v) + v * (1 + (2 * v + v * v))) * T) ≤ 1 / 100 * (304 / 100 * (v * T)) := by
      gcongr
    linarith
  have a0 : v * T ≤ 1 / 100 * T := by gcongr
  have h8 := relTo_step hfl h7 hq hτ (by linarith)
  refine h8.trans ?_
  have g3 : u * (T + (((2 * v + v * v) + v * (1 + (2 * v + v * v))) * T +
      v * (T + ((2 * v + v * v) + v * (1 + (2 * v + v * v))) * T))) ≤ u * T + 1 / 100 * (41 / 10 * (v * T)) := by
    have b1 : u * (((2 * v + v * v) + v * (1 + (2 * v + v * v))) * T +
      v * (T + ((2 * v + v * v) + v * (1 + (2 * v + v * v))) * T)) ≤ 1 / 100 * (41 / 10 * (v * T)) := by
      gcongr
    linarith
  linarith

/-- error of one rebuilt sample: `u` is the relative error of one operation -/
theorem rebuild_bound {fl : K → K} {u A d y : K} {N k : ℕ} (hu0 : 0 ≤ u) (hu1 : u ≤ 1 / 100)
    (huN : u * N ≤ 1 / 32) {τ β : K} (hfl : RelTo fl u τ β) (h00 : fl 0 = 0) (hτ : τ ≤ A)
    (hβ : 4 * A * N ≤ β) (hk : k < N) (hy : |y| ≤ A)
    (hd : |d| ≤ 2 * A) {M Q : K} (e1 : |M - d * N| ≤ u * (2 * A * N))
    (e3' : |Q - (y - k * d)| ≤ u * (A + 2 * A * k)) {P : K}
    (hP : P = M * (k / N) ∨ P = fl (M * (k / N))) :
    |fl (P + Q) - y| ≤ u * ((6 * N + 4) * A) := by
  have hN : (0 : K) < N := by exact_mod_cast (by omega : 0 < N)
  have hA : 0 ≤ A := (abs_nonneg y).trans hy
  have hk0 : (0 : K) ≤ k := by positivity
  have hkN : (k : K) + 1 ≤ N := by exact_mod_cast hk
  have hr0 : 0 ≤ (k : K) / N := by positivity
  have hMx : |M * (k / N) - d * k| ≤ u * (2 * A * k) := by
    have : M * (k / N) - d * k = (M - d * N) * (k / N) := by field_simp
    rw [this, abs_mul, abs_of_nonneg hr0]
    calc |M - d * N| * (k / N) ≤ u * (2 * A * N) * (k / N) := by
          apply mul_le_mul_of_nonneg_right _ hr0
          exact e1
      _ = u * (2 * A * k) := by field_simp
  have hdk : |d * k| ≤ 2 * A * k := by
    rw [abs_mul, abs_of_nonneg hk0]; exact mul_le_mul_of_nonneg_right hd hk0
  have hMxb : |M * (k / N)| ≤ (1 + u) * (2 * A * k) := by
    have := abs_add_le (M * (k / N) - d * k) (d * k)
    rw [sub_add_cancel] at this
    linarith
  have h1N : (1 : K) ≤ N := by linarith
  have hAN : A * 1 ≤ A * N := by gcongr
  have e2 : |P - M * (k / N)| ≤ u * ((1 + u) * (2 * A * k)) := by
    rcases hP with hP | hP <;> rw [hP]
    · rw [sub_self, abs_zero]; positivity
    rcases Nat.eq_zero_or_pos k with rfl | hk1
    · simp [h00]
    · have h1k : (1 : K) ≤ k := by exact_mod_cast hk1
      have b1 : A * 1 ≤ A * k := by gcongr
      have b2 : A * k ≤ A * N := by gcongr
      have b3 : u * (2 * A * k) ≤ 1 / 100 * (2 * A * k) := by gcongr
      have b4 : 0 ≤ u * (2 * A * k) := by positivity
      exact hfl _ _ hMxb (by linarith) (by linarith)
  have e2' : |P - d * k| ≤ u * (2 * A * k) * (2 + u) := by
    have h1 := abs_add_le (P - M * (k / N)) (M * (k / N) - d * k)
    rw [sub_add_sub_cancel] at h1
    linarith
  have e4 : |P + Q - y| ≤ u * (2 * A * k) * (2 + u) + u * (A + 2 * A * k) := by
    have := abs_add_le (P - d * k) (Q - (y - k * d))
    have e : P - d * k + (Q - (y - k * d)) = P + Q - y := by ring
    rw [e] at this; linarith
  have huk : u * k ≤ 1 / 32 := by
    have : u * k ≤ u * N := mul_le_mul_of_nonneg_left (by linarith) hu0
    linarith
  -- the two small terms
  have t1 : u * (2 * A * k) * (2 + u) + u * (A + 2 * A * k) ≤ u * (A * (6 * k + 1)) + u * A * (1 / 16) := by
    have : u * (2 * A * k) * u ≤ u * A * (1 / 16) := by
      have h8 : 0 ≤ u * A := by positivity
      calc u * (2 * A * k) * u = u * A * (2 * (u * k)) := by ring
        _ ≤ u * A * (1 / 16) := mul_le_mul_of_nonneg_left (by linarith) h8
    linarith
  have t2 : u * (A * (6 * k + 1)) + u * A * (1 / 16) ≤ A * (1 / 4) := by
    calc u * (A * (6 * k + 1)) + u * A * (1 / 16) = A * (6 * (u * k) + u * (17 / 16)) := by ring
      _ ≤ A * (1 / 4) := mul_le_mul_of_nonneg_left (by linarith) hA
  have b5 : |P + Q| ≤ A + A * (1 / 4) := by
    have := abs_add_le (P + Q - y) y
    rw [sub_add_cancel] at this
    linarith
  have e5 := hfl (P + Q) _ b5 (by linarith) (by linarith)
  have e6 : |fl (P + Q) - y| ≤ u * (A + A * (1 / 4)) + |P + Q - y| := by
    have := abs_add_le (fl (P + Q) - (P + Q)) (P + Q - y)
    rw [sub_add_sub_cancel] at this
    linarith
  refine e6.trans ?_
  have t4 : u * (A * (6 * k + 1)) ≤ u * (A * (6 * (N - 1) + 1)) := by
    apply mul_le_mul_of_nonneg_left _ hu0
    apply mul_le_mul_of_nonneg_left _ hA
    linarith
  have h9 : 0 ≤ u * A := by positivity
  linarith

/-- the error of IEEE single precision -/
theorem relTo_ieee32 : RelTo (ieee32 : K → K) (1 / 2 ^ 24) (1 / 2 ^ 126) (2 ^ 127) := by
  intro x b hx hb1 hb2
  have h1 : |ieee32 x - x| ≤ 1 / 2 ^ 24 * max |x| (1 / 2 ^ 126) := ieee32_err (hx.trans hb2)
  exact h1.trans (mul_le_mul_of_nonneg_left (max_le hx hb1) (by positivity))

theorem rebuilt_err {E : Env K} (he : E.fl = ieee32) (hdbl : ∀ x, |E.dbl x - x| ≤ |x| / 2 ^ 53)
    {L : ℕ} (hL : L ≤ 18) {w : List K} (h : w.length = 2 ^ L) {A : K} (hτ : 1 / 2 ^ 126 ≤ A)
    (hβ : A ≤ 2 ^ 100) (hA : ∀ y ∈ w, |y| ≤ A) :
    List.Forall₂ (fun y y' => |y' - y| ≤ (6 * 2 ^ L + 5) * A / 2 ^ 24) w (rebuilt E L w) := by
  conv => arg 2; rw [eq_map_getD h]
  unfold rebuilt
  rw [List.forall₂_map_left_iff, List.forall₂_map_right_iff, List.forall₂_same]
  intro k hk
  have hk := List.mem_range.1 hk
  have hA' : ∀ j, j < 2 ^ L → |w.getD j 0| ≤ A := by
    intro j hj
    have e : w.getD j 0 = w[j] := by simp [List.getD_eq_getElem?_getD, h, hj]
    rw [e]
    exact hA _ (List.getElem_mem _)
  have hf : Rounding E.fl := by rw [he]; exact rounding_ieee32
  have h1 := hA' k hk
  have h2 := hA' ((k + 1) % 2 ^ L) (Nat.mod_lt _ (by positivity))
  have hA0 : 0 ≤ A := (abs_nonneg _).trans h1
  have hd : |w.getD ((k + 1) % 2 ^ L) 0 - w.getD k 0| ≤ 2 * A := by
    have := abs_sub (w.getD ((k + 1) % 2 ^ L) 0) (w.getD k 0); linarith
  have h2L : (2 : K) ^ L ≤ 2 ^ 18 := pow_le_pow_right₀ (by norm_num) hL
  have hfl : RelTo E.fl (1 / 2 ^ 24) (1 / 2 ^ 126) (2 ^ 127) := by rw [he]; exact relTo_ieee32
  have h1L : (1 : K) ≤ 2 ^ L := one_le_pow₀ (by norm_num)
  have hAL : A * 2 ^ L ≤ 2 ^ 100 * 2 ^ 18 := by gcongr
  have hA1 : A * 1 ≤ A * 2 ^ L := by gcongr
  have hkL : (k : K) ≤ 2 ^ L := by exact_mod_cast hk.le
  have hAk : A * k ≤ A * 2 ^ L := by gcongr
  have hAk0 : 0 ≤ A * k := by positivity
  have hbig : (8 : K) * (2 ^ 100 * 2 ^ 18) ≤ 2 ^ 127 := by norm_num
  have hdb : ∀ x : K, |E.dbl x - x| ≤ 1 / 2 ^ 53 * |x| := fun x => by
    have := hdbl x
    rwa [div_eq_mul_one_div, mul_comm] at this
  set u : K := 1 / 2 ^ 24 + 5 * (1 / 2 ^ 53) with hu
  have hkk : (k : K) * |w.getD ((k + 1) % 2 ^ L) 0 - w.getD k 0| ≤ k * (2 * A) := by gcongr
  have hM := mF_err hf (u := 1 / 2 ^ 24) (v := 1 / 2 ^ 53) (by positivity) (by norm_num)
    (by positivity) (by norm_num) hfl hdb (n := L) (hn := by omega) (k := k) (y := fun k => w.getD k 0)
    (T := 2 * A * 2 ^ L) (by
      rw [abs_mul, abs_of_pos (by positivity : (0 : K) < 2 ^ L)]
      gcongr) (by linarith) (by linarith)
  have hQ := qF_err hf (u := 1 / 2 ^ 24) (v := 1 / 2 ^ 53) (by positivity) (by norm_num)
    (by positivity) (by norm_num) hfl hdb (n := L) (hn := by omega) (k := k) (y := fun k => w.getD k 0)
    (T := A + 2 * A * k) (by linarith) (by linarith) (by linarith)
  have hM' := hM.trans (b := _) (c := u * (2 * A * 2 ^ L)) (by gcongr; rw [hu]; norm_num)
  obtain ⟨P, hP, hmad⟩ := mad_cases E (mF E (fun k => (k : K) / 2 ^ L) (fun k => w.getD k 0) (2 ^ L) k)
    ((k : K) / 2 ^ L) (qF E (fun k => (k : K) / 2 ^ L) (fun k => w.getD k 0) (2 ^ L) k)
  rw [hmad]
  have := rebuild_bound (fl := E.fl) (u := u) (A := A) (N := 2 ^ L) (k := k)
    (by positivity) (by rw [hu]; norm_num) (by
      push_cast
      calc u * 2 ^ L ≤ u * 2 ^ 18 := by gcongr
        _ ≤ 1 / 32 := by rw [hu]; norm_num)
    (τ := 1 / 2 ^ 126) (β := 2 ^ 127) (fun x b h1 h2 h3 => (hfl x b h1 h2 h3).trans (by
      have : 0 ≤ b := (abs_nonneg x).trans h1
      gcongr; rw [hu]; norm_num)) hf.zero hτ (by push_cast; linarith) hk h1 hd
    (M := mF E (fun k => (k : K) / 2 ^ L) (fun k => w.getD k 0) (2 ^ L) k)
    (Q := qF E (fun k => (k : K) / 2 ^ L) (fun k => w.getD k 0) (2 ^ L) k)
    (by push_cast; exact hM') hQ (P := P) (by push_cast; exact hP)
  push_cast at this
  refine this.trans ?_
  rw [hu, le_div_iff₀ (by positivity)]
  have hx : (6 * (2 : K) ^ L + 4) * (1 + 5 / 2 ^ 29) ≤ 6 * 2 ^ L + 5 := by
    have : (2 : K) ^ L * (5 / 2 ^ 29) ≤ 2 ^ 18 * (5 / 2 ^ 29) := by gcongr
    norm_num at this ⊢
    linarith
  calc (1 / 2 ^ 24 + 5 * (1 / 2 ^ 53)) * ((6 * 2 ^ L + 4) * A) * 2 ^ 24
      = (6 * (2 : K) ^ L + 4) * (1 + 5 / 2 ^ 29) * A := by ring
    _ ≤ _ := by gcongr

end WavetableData
end Adwt
