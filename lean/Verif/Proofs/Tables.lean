import Verif.Proofs.CrossFaderRun
import Verif.Spec.Tables

set_option linter.unusedSectionVars false

namespace Adwt
variable {K : Type} [Field K] [LinearOrder K] [IsStrictOrderedRing K] [FloorRing K]

namespace WavetableData

/-! ### phase grids -/

/-- `0, 1/2^n, ..., 1` -/
def grid (K : Type) [Field K] (n : ℕ) : List K := (List.range (2 ^ n + 1)).map fun (k : ℕ) => (k : K) / 2 ^ n

theorem grid_length (n : ℕ) : (grid K n).length = 2 ^ n + 1 := by simp [grid]

theorem grid_get {n k : ℕ} (h : k ≤ 2 ^ n) : (grid K n)[k]? = some ((k : K) / 2 ^ n) := by
  simp only [grid, List.getElem?_map]
  rw [List.getElem?_range (by omega)]; rfl

theorem computePhaseVector_eq {fl : K → K} (hf : Rounding fl) {n : ℕ} (hn : n ≤ 24) :
    computePhaseVector fl (2 ^ n) = .ok (grid K n) := by
  unfold computePhaseVector grid
  apply mapM_eq_map
  intro k hk
  have hk' : k ≤ 2 ^ n := by have := List.mem_range.1 hk; omega
  have hp : (2 : ℕ) ^ n ≤ 2 ^ 24 := Nat.pow_le_pow_right (by norm_num) hn
  rw [hf.natCast k (by omega), hf.natCast _ hp]
  unfold fdiv
  rw [if_neg (by positivity)]
  congr 1
  have := hf.dyadic (k : ℤ) n (by rw [abs_of_nonneg (by positivity)]; exact_mod_cast (by omega))
  push_cast at this ⊢
  exact this

theorem computePhaseVectors_eq {fl : K → K} (hf : Rounding fl) {num L : ℕ} (hL : L ≤ 24)
    (hnum : num ≤ L + 1) :
    computePhaseVectors fl num (2 ^ L) = .ok ((List.range num).map fun i => grid K (L - i)) := by
  unfold computePhaseVectors
  apply mapM_eq_map
  intro i hi
  have := List.mem_range.1 hi
  rw [Nat.pow_div (by omega) (by norm_num)]
  exact computePhaseVector_eq hf (by omega)

/-! ### closed form of the tables -/

/-- closed form of the slope table -/
def mF (E : Env K) (x : ℕ → K) (y : ℕ → K) (N k : ℕ) : K :=
  E.fl (E.dbl (E.dbl (y ((k + 1) % N) - y k) / E.dbl (x (k + 1) - x k)))
/-- closed form of the offset table -/
def qF (E : Env K) (x : ℕ → K) (y : ℕ → K) (N k : ℕ) : K :=
  E.fl (E.dbl (E.dmm (y k) (E.dbl (x (k + 1) - x k)) (x k) (E.dbl (y ((k + 1) % N) - y k)) /
    E.dbl (x (k + 1) - x k)))
/-- closed form of the slope differences -/
def mdF (E : Env K) (x : ℕ → K) (y : ℕ → K) (N k : ℕ) : K :=
  E.fl (mF E x y N ((k + 1) % N) - mF E x y N k)
/-- closed form of the offset differences -/
def qdF (E : Env K) (x : ℕ → K) (y : ℕ → K) (N k : ℕ) : K :=
  if k = N - 1 then E.fl (E.fl (qF E x y N ((k + 1) % N) - qF E x y N k) - mF E x y N 0)
  else E.fl (qF E x y N ((k + 1) % N) - qF E x y N k)

/-- closed form of the result of `computeMQVector` -/
def mqOf (E : Env K) (x : ℕ → K) (y : ℕ → K) (N : ℕ) : MQ K :=
  ⟨(List.range N).map (mF E x y N), (List.range N).map (qF E x y N),
   (List.range N).map (mdF E x y N), (List.range N).map (qdF E x y N)⟩

theorem rd_getD {l : List K} {k : ℕ} (h : k < l.length) : rd l (k : ℤ) = .ok (l.getD k 0) := by
  rw [rd_get rfl h]; simp [List.getD_eq_getElem?_getD, List.getElem?_eq_getElem h]

theorem mqEntry_eq {E : Env K} {pv wf : List K} {k : ℕ} (hk : k < wf.length)
    (hpv : wf.length + 1 ≤ pv.length) (hgap : E.dbl (pv.getD (k + 1) 0 - pv.getD k 0) ≠ 0) :
    mqEntry E pv wf k = .ok (mF E (pv.getD · 0) (wf.getD · 0) wf.length k,
      qF E (pv.getD · 0) (wf.getD · 0) wf.length k) := by
  unfold mqEntry
  have h1 : (k + 1) % wf.length < wf.length := Nat.mod_lt _ (by omega)
  have h2 : rd pv ((k : ℤ) + 1) = .ok (pv.getD (k + 1) 0) := by
    have := rd_getD (l := pv) (k := k + 1) (by omega)
    exact_mod_cast this
  rw [rd_getD hk, rd_getD h1, rd_getD (by omega : k < pv.length), h2]
  simp only [R.ok_bind]
  unfold computeM computeQ ddiv fdiv
  rw [if_neg hgap, if_neg hgap]
  rfl

theorem getD_map_range {f : ℕ → K} {n k : ℕ} (h : k < n) :
    ((List.range n).map f).getD k 0 = f k := by
  simp [List.getD_eq_getElem?_getD, h]

theorem diffEntry_eq {fl : K → K} {f : ℕ → K} {n k : ℕ} (h : k < n) :
    diffEntry fl ((List.range n).map f) n k = .ok (fl (f ((k + 1) % n) - f k)) := by
  have h1 : (k + 1) % n < n := Nat.mod_lt _ (by omega)
  unfold diffEntry
  rw [rd_getD (by simpa using h1), rd_getD (by simpa using h), getD_map_range h1,
    getD_map_range h]
  rfl

theorem computeMQVector_eq {E : Env K} {pv wf : List K} (hne : wf ≠ [])
    (hpv : wf.length + 1 ≤ pv.length)
    (hgap : ∀ k, k < wf.length → E.dbl (pv.getD (k + 1) 0 - pv.getD k 0) ≠ 0) :
    computeMQVector E pv wf = .ok (mqOf E (pv.getD · 0) (wf.getD · 0) wf.length) := by
  have hpos : 0 < wf.length := List.length_pos_of_ne_nil hne
  unfold computeMQVector
  dsimp only
  rw [mapM_eq_map (g := fun k => (mF E (pv.getD · 0) (wf.getD · 0) wf.length k,
      qF E (pv.getD · 0) (wf.getD · 0) wf.length k))
    (fun k hk => mqEntry_eq (List.mem_range.1 hk) hpv (hgap k (List.mem_range.1 hk)))]
  simp only [R.ok_bind, List.map_map]
  have hfst : (Prod.fst ∘ fun k => (mF E (pv.getD · 0) (wf.getD · 0) wf.length k,
      qF E (pv.getD · 0) (wf.getD · 0) wf.length k)) =
      mF E (pv.getD · 0) (wf.getD · 0) wf.length := rfl
  have hsnd : (Prod.snd ∘ fun k => (mF E (pv.getD · 0) (wf.getD · 0) wf.length k,
      qF E (pv.getD · 0) (wf.getD · 0) wf.length k)) =
      qF E (pv.getD · 0) (wf.getD · 0) wf.length := rfl
  rw [hfst, hsnd]
  rw [mapM_eq_map (g := fun k => mdF E (pv.getD · 0) (wf.getD · 0) wf.length k)
    (fun k hk => diffEntry_eq (f := mF E (pv.getD · 0) (wf.getD · 0) wf.length)
      (List.mem_range.1 hk))]
  rw [R.ok_bind]
  rw [mapM_eq_map (g := fun k => E.fl (qF E (pv.getD · 0) (wf.getD · 0) wf.length
      ((k + 1) % wf.length) - qF E (pv.getD · 0) (wf.getD · 0) wf.length k))
    (fun k hk => diffEntry_eq (f := qF E (pv.getD · 0) (wf.getD · 0) wf.length)
      (List.mem_range.1 hk))]
  rw [R.ok_bind]
  have e1 : ((wf.length : ℤ) - 1) = ((wf.length - 1 : ℕ) : ℤ) := by omega
  rw [e1, rd_getD (by simp; omega), R.ok_bind,
    show (0 : ℤ) = ((0 : ℕ) : ℤ) from rfl, rd_getD (by simp; omega), R.ok_bind]
  simp only [R.pure_eq]
  congr 1
  unfold mqOf
  congr 1
  rw [getD_map_range (by omega)]
  rw [getD_map_range hpos]
  apply List.ext_getElem?
  intro i
  rw [List.getElem?_set]
  by_cases hi : wf.length - 1 = i
  · subst hi
    have : wf.length - 1 < wf.length := by omega
    simp [this, qdF]
  · rw [if_neg hi]
    by_cases hlt : i < wf.length
    · simp only [List.getElem?_map, List.getElem?_range hlt, Option.map_some]
      congr 1
      unfold qdF
      rw [if_neg (fun h => hi h.symm)]
    · rw [List.getElem?_eq_none (by simpa using hlt), List.getElem?_eq_none (by simpa using hlt)]

theorem mqOf_congr {E : Env K} {x x' y y' : ℕ → K} {N : ℕ} (hN : 0 < N)
    (hx : ∀ k, k ≤ N → x k = x' k) (hy : ∀ k, k < N → y k = y' k) :
    mqOf E x y N = mqOf E x' y' N := by
  have hm : ∀ k, k < N → mF E x y N k = mF E x' y' N k := by
    intro k hk
    have := Nat.mod_lt (k + 1) hN
    unfold mF; rw [hx _ hk, hx k hk.le, hy k hk, hy _ this]
  have hq : ∀ k, k < N → qF E x y N k = qF E x' y' N k := by
    intro k hk
    have := Nat.mod_lt (k + 1) hN
    unfold qF; rw [hx _ hk, hx k hk.le, hy k hk, hy _ this]
  unfold mqOf
  congr 1
  · exact List.map_congr_left fun k hk => hm k (List.mem_range.1 hk)
  · exact List.map_congr_left fun k hk => hq k (List.mem_range.1 hk)
  · refine List.map_congr_left fun k hk => ?_
    have := Nat.mod_lt (k + 1) hN
    unfold mdF; rw [hm _ this, hm k (List.mem_range.1 hk)]
  · refine List.map_congr_left fun k hk => ?_
    have := Nat.mod_lt (k + 1) hN
    unfold qdF; rw [hq _ this, hq k (List.mem_range.1 hk), hm 0 hN]

/-! ### resampling -/

theorem downsample_length {E : Env K} {w : List K} {r : ℕ} (h : downsampleWaveform E w r ≠ []) :
    (downsampleWaveform E w r).length = w.length / r ∧ downsampleWaveform E w r = decimate E w r := by
  have hrep : (List.replicate kRepetitions w).flatten = w ++ w ++ w ++ w ++ w := by
    simp [kRepetitions, List.replicate]
  unfold downsampleWaveform at h ⊢
  dsimp only at h ⊢
  split_ifs at h ⊢ <;> simp_all
  unfold decimate
  apply List.map_congr_left
  intro i _
  simp [kRepetitions, mul_comm, List.append_assoc]

theorem downsample_contract {E : Env K} (hc : SrcContract E.src) {w : List K} {r : ℕ} (h2 : 2 ≤ r)
    (h256 : r ≤ 256) (hd : r ∣ w.length) : downsampleWaveform E w r = decimate E w r := by
  have hrep : (List.replicate kRepetitions w).flatten = w ++ w ++ w ++ w ++ w := by
    simp [kRepetitions, List.replicate]
  have hlen : (w ++ w ++ w ++ w ++ w).length = w.length / r * kRepetitions * r := by
    obtain ⟨k, hk⟩ := hd
    have : w.length / r = k := by rw [hk]; exact Nat.mul_div_cancel_left k (by omega)
    rw [this]; simp [kRepetitions]; rw [hk]; ring
  obtain ⟨c1, c2, c3⟩ := hc (w ++ w ++ w ++ w ++ w) (w.length / r * kRepetitions) r h2 h256 hlen
  unfold downsampleWaveform
  dsimp only
  rw [hrep, if_neg (by simpa using c1), if_neg (by
    rw [c2, c3]; simp [kRepetitions]; ring)]
  unfold decimate
  apply List.map_congr_left
  intro i _
  simp [kRepetitions, mul_comm]

end WavetableData
end Adwt
