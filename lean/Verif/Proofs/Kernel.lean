import Verif.Proofs.WtOf
import Verif.Model.Osc

/-!
# The inner loops over filter coefficients and over corners, for any complex arithmetic
-/

set_option linter.unusedSectionVars false

namespace Adwt
variable {K C : Type} [Field K] [LinearOrder K] [IsStrictOrderedRing K] [FloorRing K]
variable [Zero C] [Add C] [Sub C] [Mul C] [Div C]

namespace Sys

/-- the function by which coefficient `k` is computed: SIMD or scalar -/
def eff (n B : ℕ) (fv fs : ℕ → C → C) (k : ℕ) : C → C :=
  if k < n - n % B ∨ 1 < n % B then fv k else fs k

theorem whole_eq (n B : ℕ) : n - n % B = n / B * B := by
  have := Nat.div_add_mod n B
  rw [mul_comm] at this; omega

theorem batches_spec {up B : ℕ} (hB : 0 < B) {fv : ℕ → C → C} (n : ℕ) (hn : n * B ≤ up)
    (a : ℕ → C) :
    Ok ((List.range n).foldlM (fun a b => batch up B (b * B) fv a) a) fun a' =>
      ∀ k, a' k = if k < n * B then fv k (a k) else a k := by
  induction n with
  | zero => exact Ok.pure fun k => by simp
  | succ n ih =>
    rw [List.range_succ, List.foldlM_append]
    have hle : n * B ≤ up := by rw [add_mul, one_mul] at hn; omega
    refine Ok.bind (ih hle) fun a1 h1 => ?_
    rw [List.foldlM_cons]
    unfold batch
    rw [if_pos (by rw [add_mul, one_mul] at hn; omega), R.ok_bind]
    refine Ok.pure fun k => ?_
    have e : (n + 1) * B = n * B + B := by ring
    rw [e]
    by_cases h : k < n * B
    · rw [if_neg (by omega), if_pos (by omega), h1, if_pos h]
    · by_cases h' : k < n * B + B
      · rw [if_pos (by omega), if_pos h', h1, if_neg h]
      · rw [if_neg (by omega), if_neg h', h1, if_neg h]

theorem upper_ge (n B : ℕ) (hB : 0 < B) :
    n / B * B ≤ upperNumCoeffs n B ∧ (0 < n % B → n / B * B + B ≤ upperNumCoeffs n B) ∧
      n ≤ upperNumCoeffs n B := by
  have h1 := Nat.div_add_mod n B
  rw [mul_comm] at h1
  have h2 := Nat.mod_lt n hB
  unfold upperNumCoeffs
  split
  · rename_i h; rw [h]; rw [h] at h1; simp; omega
  · split
    · refine ⟨le_rfl, by omega, by omega⟩
    · have e : (n / B + 1) * B = n / B * B + B := by ring
      rw [e]; omega

theorem scalar_spec {fs : ℕ → C → C} (s n : ℕ) (a : ℕ → C) (k : ℕ) :
    (List.range' s n).foldl (fun a i => fun k => if k = i then fs i (a i) else a k) a k =
      if s ≤ k ∧ k < s + n then fs k (a k) else a k := by
  induction n generalizing s a with
  | zero => simp; try (intros; omega)
  | succ n ih =>
    rw [List.range'_succ, List.foldl_cons, ih]
    by_cases h : s + 1 ≤ k ∧ k < s + 1 + n
    · rw [if_pos h, if_neg (by omega : ¬ k = s), if_pos (by omega)]
    · rw [if_neg h]
      by_cases h' : k = s
      · subst h'; rw [if_pos rfl, if_pos (by omega)]
      · rw [if_neg h', if_neg (by omega)]

/-- Every coefficient is computed exactly once, by `eff`, from its own old value; no batch leaves
the padded array. -/
theorem overCoeffs_spec {n B : ℕ} (hB : 0 < B) (fv fs : ℕ → C → C) (a : ℕ → C) :
    Ok (overCoeffs n B fv fs a) fun a' => ∀ k < n, a' k = eff n B fv fs k (a k) := by
  unfold overCoeffs
  dsimp only
  have hw := whole_eq n B
  have hdiv : (n - n % B) / B = n / B := by rw [hw]; exact Nat.mul_div_cancel _ hB
  obtain ⟨u1, u2, u3⟩ := upper_ge n B hB
  rw [hdiv]
  refine Ok.bind (batches_spec hB (n / B) u1 a) fun a1 h1 => ?_
  have hmod := Nat.div_add_mod n B
  rw [mul_comm] at hmod
  have hlt := Nat.mod_lt n hB
  by_cases hp : n % B > 1
  · rw [if_pos hp]
    unfold batch
    rw [if_pos (by rw [hw]; exact u2 (by omega))]
    refine Ok.pure fun k hk => ?_
    unfold eff
    rw [if_pos (Or.inr hp), h1, hw]
    by_cases h : k < n / B * B
    · rw [if_neg (by omega), if_pos h]
    · rw [if_pos (by omega), if_neg h]
  · rw [if_neg hp]
    refine Ok.pure fun k hk => ?_
    rw [scalar_spec, h1, hw]
    unfold eff
    rw [hw]
    by_cases h : k < n / B * B
    · rw [if_neg (by omega), if_pos h, if_pos (Or.inl h)]
    · rw [if_pos (by omega), if_neg h, if_neg (by omega)]

/-! ### `computeI0` -/

/-- value of coefficient `k` after `computeI0` -/
def i0Val (S : Sys K C) (mp qp mn qn d pb nb : K) (k : ℕ) : C :=
  eff S.n S.B
    (fun k _ => S.ops.fnma (S.zA k) (S.ops.ofK (S.env.mad mn nb qn))
      (S.ops.fms (S.expZA k) (S.ops.fma (S.zA k) (S.ops.ofK (S.env.mad mp pb qp))
        (S.ops.ofK (S.env.fl (mp * d)))) (S.ops.ofK (S.env.fl (mn * d)))))
    (fun k _ => S.expZA k * (S.ops.ofK (S.env.fl (mp * d)) +
      S.zA k * S.ops.ofK (S.env.mad mp pb qp)) -
      S.ops.ofK (S.env.fl (mn * d)) - S.zA k * S.ops.ofK (S.env.mad mn nb qn)) k 0

theorem rd_getD' {l : List K} {i : ℤ} (h0 : 0 ≤ i) (h : i < l.length) :
    rd l i = .ok (l.getD i.toNat 0) := by
  have := WavetableData.rd_getD (l := l) (k := i.toNat) (by omega)
  rwa [Int.toNat_of_nonneg h0] at this

/-- The tables of one waveform at one mipmap level, as the getters return them. -/
structure Tabs (wt : WavetableData K) (crt mip : ℤ) (N : ℤ) (m q md qd ph : List K) : Prop where
  em : wt.mSpan crt mip = .ok m
  eq : wt.qSpan crt mip = .ok q
  emd : wt.mDiffSpan crt mip = .ok md
  eqd : wt.qDiffSpan crt mip = .ok qd
  eph : wt.phaseSpan mip = .ok ph
  len : wt.waveformLen mip = .ok N
  lm : (m.length : ℤ) = N
  lq : (q.length : ℤ) = N
  lmd : (md.length : ℤ) = N
  lqd : (qd.length : ℤ) = N
  lph : (ph.length : ℤ) = N + 1

variable {S : Sys K C} {wt : WavetableData K} {crt mip N : ℤ} {m q md qd ph : List K}

theorem computeI0_spec (hB : 0 < S.B) (T : Tabs wt crt mip N m q md qd ph) {jp jn : ℤ}
    (hp0 : 0 ≤ jp) (hp1 : jp < N) (hn0 : 0 ≤ jn) (hn1 : jn < N) (d pb nb : K) (a : ℕ → C) :
    Ok (S.computeI0 wt crt mip jp jn d pb nb a) fun a' => ∀ k < S.n,
      a' k = S.i0Val (m.getD jp.toNat 0) (q.getD jp.toNat 0) (m.getD jn.toNat 0)
        (q.getD jn.toNat 0) d pb nb k := by
  unfold computeI0
  dsimp only
  rw [T.em, R.ok_bind, T.eq, R.ok_bind, rd_getD' hp0 (by rw [T.lm]; exact hp1), R.ok_bind,
    rd_getD' hp0 (by rw [T.lq]; exact hp1), R.ok_bind, rd_getD' hn0 (by rw [T.lm]; exact hn1),
    R.ok_bind, rd_getD' hn0 (by rw [T.lq]; exact hn1), R.ok_bind]
  refine (overCoeffs_spec hB _ _ a).mono fun a' h k hk => ?_
  rw [h k hk]
  unfold i0Val eff
  split <;> rfl

/-! ### corner sums -/

/-- `reduce` of a corner index in `[0, 2N)` -/
def red (i N : ℤ) : ℤ := if i ≥ N then i - N else i

/-- new value of coefficient `k` after a forward corner -/
def cornF (S : Sys K C) (d bar ph md qd : K) (k : ℕ) (old : C) : C :=
  eff S.n S.B
    (fun k old => S.ops.fma (S.ops.vexp (S.zA k * S.ops.ofK (S.env.fl (S.env.fl (bar - ph) / d))))
      (S.cornerV d ph md qd k) old)
    (fun k old => old + S.cornerS (S.env.fl (S.env.fl (bar - ph) / d)) d ph md qd k) k old

/-- new value of coefficient `k` after a backward corner -/
def cornB (S : Sys K C) (d bar ph md qd : K) (k : ℕ) (old : C) : C :=
  eff S.n S.B
    (fun k old => S.ops.fnma (S.ops.vexp (S.zA k * S.ops.ofK (S.env.fl (S.env.fl (bar - ph) / d))))
      (S.cornerV d ph md qd k) old)
    (fun k old => old - S.cornerS (S.env.fl (S.env.fl (bar - ph) / d)) d ph md qd k) k old

theorem foldlM_pt {ι : Type} {n : ℕ} {f : (ℕ → C) → ι → R (ℕ → C)} {g : ℕ → ι → C → C}
    (l : List ι)
    (hs : ∀ a, ∀ i ∈ l, Ok (f a i) fun a' => ∀ k < n, a' k = g k i (a k)) (a : ℕ → C) :
    Ok (l.foldlM f a) fun a' => ∀ k < n, a' k = l.foldl (fun old i => g k i old) (a k) := by
  induction l generalizing a with
  | nil => exact Ok.pure fun _ _ => rfl
  | cons i l ih =>
    rw [List.foldlM_cons]
    refine Ok.bind (hs a i (by simp)) fun a1 h1 => ?_
    refine (ih (fun a i hi => hs a i (by simp [hi])) a1).mono fun a2 h2 k hk => ?_
    rw [h2 k hk, h1 k hk]; rfl

theorem reduceI_red {dbg : Bool} {i N : ℤ} (h0 : 0 ≤ i) (h1 : i < 2 * N) :
    Maths.reduceI dbg i N = .ok (red i N) ∧ 0 ≤ red i N ∧ red i N < N := by
  have hN : 0 < N := by omega
  unfold Maths.reduceI
  rw [chk_true hN, chk_true ⟨h1.le, by omega⟩]
  unfold red
  refine ⟨?_, ?_, ?_⟩
  · simp only [R.ok_bind, R.pure_eq]
    congr 1
    split
    · rfl
    · rw [if_neg (by omega)]
  · split <;> omega
  · split <;> omega

theorem mem_irange {a b i : ℤ} : i ∈ irange a b ↔ a ≤ i ∧ i < b := by
  unfold irange
  simp only [List.mem_map, List.mem_range]
  constructor
  · rintro ⟨k, hk, rfl⟩; omega
  · rintro ⟨h1, h2⟩; exact ⟨(i - a).toNat, by omega, by omega⟩

theorem computeISumFwd_spec (hB : 0 < S.B) (T : Tabs wt crt mip N m q md qd ph) {jmin jmax : ℤ}
    (h0 : 0 ≤ jmin) (h1 : jmin < N) (h2 : 0 ≤ jmax) (h3 : jmax < N) {d : K} (hd : d ≠ 0) (x : K)
    (a : ℕ → C) :
    Ok (S.computeISumFwd wt crt mip jmin jmax d x a) fun a' => ∀ k < S.n,
      a' k = (irange jmin (bornSup jmin jmax N)).foldl (fun old i => S.cornF d
        (S.env.fl (x + ofBool (decide (red i N > jmax)))) (ph.getD (red i N + 1).toNat 0)
        (md.getD (red i N).toNat 0) (qd.getD (red i N).toNat 0) k old) (a k) := by
  unfold computeISumFwd
  rw [T.len, R.ok_bind, T.emd, R.ok_bind, T.eqd, R.ok_bind, T.eph, R.ok_bind]
  refine foldlM_pt (g := fun k i old => S.cornF d
        (S.env.fl (x + ofBool (decide (red i N > jmax)))) (ph.getD (red i N + 1).toNat 0)
        (md.getD (red i N).toNat 0) (qd.getD (red i N).toNat 0) k old) _ ?_ a
  intro a i hi
  obtain ⟨hi1, hi2⟩ := mem_irange.1 hi
  have hb : i < 2 * N := by
    unfold bornSup at hi2; split at hi2 <;> omega
  obtain ⟨hr, hr0, hr1⟩ := reduceI_red (dbg := S.env.dbg) (i := i) (N := N) (by omega) hb
  unfold iSumFwdStep
  dsimp only
  rw [hr, R.ok_bind, rd_getD' (by omega) (by rw [T.lph]; omega), R.ok_bind]
  unfold fdiv
  rw [if_neg hd, R.ok_bind, rd_getD' hr0 (by rw [T.lmd]; exact hr1), R.ok_bind,
    rd_getD' hr0 (by rw [T.lqd]; exact hr1), R.ok_bind]
  exact overCoeffs_spec hB _ _ a

theorem computeISumBwd_spec (hB : 0 < S.B) (T : Tabs wt crt mip N m q md qd ph)
    {jm jmin jmax : ℤ} (h0 : 0 ≤ jmin) (h1 : jmin < N) (h2 : 0 ≤ jmax) (h3 : jmax < N) {d : K}
    (hd : d < 0) (x : K) (a : ℕ → C) :
    Ok (S.computeISumBwd wt crt mip jm jmin jmax d x a) fun a' => ∀ k < S.n,
      a' k = (irange jmin (bornSup jmin jmax N)).foldl (fun old i => S.cornB d
        (S.env.fl (S.env.fl (x + cycleOffset jm jmin jmax) + ofBool (decide (red i N > jmax))))
        (ph.getD (red i N + 1).toNat 0)
        (md.getD (red i N).toNat 0) (qd.getD (red i N).toNat 0) k old) (a k) := by
  unfold computeISumBwd
  rw [chk_true hd, R.ok_bind, T.len, R.ok_bind, T.emd, R.ok_bind, T.eqd, R.ok_bind, T.eph, R.ok_bind]
  refine foldlM_pt (g := fun k i old => S.cornB d
        (S.env.fl (S.env.fl (x + cycleOffset jm jmin jmax) + ofBool (decide (red i N > jmax))))
        (ph.getD (red i N + 1).toNat 0)
        (md.getD (red i N).toNat 0) (qd.getD (red i N).toNat 0) k old) _ ?_ a
  intro a i hi
  obtain ⟨hi1, hi2⟩ := mem_irange.1 hi
  have hb : i < 2 * N := by
    unfold bornSup at hi2; split at hi2 <;> omega
  obtain ⟨hr, hr0, hr1⟩ := reduceI_red (dbg := S.env.dbg) (i := i) (N := N) (by omega) hb
  unfold iSumBwdStep
  dsimp only
  rw [hr, R.ok_bind, rd_getD' (by omega) (by rw [T.lph]; omega), R.ok_bind]
  unfold fdiv
  rw [if_neg hd.ne, R.ok_bind, rd_getD' hr0 (by rw [T.lmd]; exact hr1), R.ok_bind,
    rd_getD' hr0 (by rw [T.lqd]; exact hr1), R.ok_bind]
  exact overCoeffs_spec hB _ _ a

/-- value of coefficient `k` after `computeFwdI` -/
def fwdVal (S : Sys K C) (m q md qd ph : List K) (N : ℤ) (prev : K) (jmin jmax : ℤ) (d x : K)
    (k : ℕ) : C :=
  (irange jmin (bornSup jmin jmax N)).foldl (fun old i => S.cornF d
      (S.env.fl (x + ofBool (decide (red i N > jmax)))) (ph.getD (red i N + 1).toNat 0)
      (md.getD (red i N).toNat 0) (qd.getD (red i N).toNat 0) k old)
    (S.i0Val (m.getD jmin.toNat 0) (q.getD jmin.toNat 0) (m.getD jmax.toNat 0)
      (q.getD jmax.toNat 0) d (S.env.fl (prev + ofBool (decide (prev = 0)))) x k)

/-- value of coefficient `k` after `computeBwdI` -/
def bwdVal (S : Sys K C) (m q md qd ph : List K) (N : ℤ) (prev : K) (jm jmin jmax : ℤ) (d x : K)
    (k : ℕ) : C :=
  (irange jmin (bornSup jmin jmax N)).foldl (fun old i => S.cornB d
      (S.env.fl (S.env.fl (x + cycleOffset jm jmin jmax) + ofBool (decide (red i N > jmax))))
      (ph.getD (red i N + 1).toNat 0)
      (md.getD (red i N).toNat 0) (qd.getD (red i N).toNat 0) k old)
    (S.i0Val (m.getD jmax.toNat 0) (q.getD jmax.toNat 0) (m.getD jmin.toNat 0)
      (q.getD jmin.toNat 0) d prev (S.env.fl (x + ofBool (decide (x = 0)))) k)

theorem computeFwdI_spec (hB : 0 < S.B) (T : Tabs wt crt mip N m q md qd ph) {jmin jmax : ℤ}
    (h0 : 0 ≤ jmin) (h1 : jmin < N) (h2 : 0 ≤ jmax) (h3 : jmax < N) {d : K} (hd : d ≠ 0)
    (prev x : K) (a : ℕ → C) :
    Ok (S.computeFwdI wt crt prev mip jmin jmax d x a) fun a' => ∀ k < S.n,
      a' k = S.fwdVal m q md qd ph N prev jmin jmax d x k := by
  unfold computeFwdI
  dsimp only
  refine Ok.bind (computeI0_spec hB T h0 h1 h2 h3 _ _ _ a) fun a1 e1 => ?_
  refine (computeISumFwd_spec hB T h0 h1 h2 h3 hd x a1).mono fun a2 e2 k hk => ?_
  rw [e2 k hk, e1 k hk]; rfl

theorem computeBwdI_spec (hB : 0 < S.B) (T : Tabs wt crt mip N m q md qd ph) {jm jmin jmax : ℤ}
    (h0 : 0 ≤ jmin) (h1 : jmin < N) (h2 : 0 ≤ jmax) (h3 : jmax < N) {d : K} (hd : d < 0)
    (prev x : K) (a : ℕ → C) :
    Ok (S.computeBwdI wt crt prev mip jm jmin jmax d x a) fun a' => ∀ k < S.n,
      a' k = S.bwdVal m q md qd ph N prev jm jmin jmax d x k := by
  unfold computeBwdI
  rw [chk_true hd, R.ok_bind]
  dsimp only
  refine Ok.bind (computeI0_spec hB T h2 h3 h0 h1 _ _ _ a) fun a1 e1 => ?_
  refine (computeISumBwd_spec hB T h0 h1 h2 h3 hd x a1).mono fun a2 e2 k hk => ?_
  rw [e2 k hk, e1 k hk]; rfl

end Sys
end Adwt
