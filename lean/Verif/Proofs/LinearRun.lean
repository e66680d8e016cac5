import Verif.Proofs.Linear

/-!
# Linearity of whole histories
-/

set_option linter.unusedSectionVars false

namespace Adwt

/-! ### tables -/

theorem waveformOf_zip (f : ℝ → ℝ → ℝ) (v w : List ℝ) (n k : ℕ) :
    waveformOf (List.zipWith f v w) n k = List.zipWith f (waveformOf v n k) (waveformOf w n k) := by
  unfold waveformOf
  rw [List.drop_zipWith, List.take_zipWith]

theorem decimate_length (E : Env ℝ) (w : List ℝ) (r : ℕ) :
    (decimate E w r).length = w.length / r := by unfold decimate; simp

theorem mip_length_eq {E : Env ℝ} {v w : List ℝ} (hl : v.length = w.length) (i : ℕ) :
    (mipSamples E v i).length = (mipSamples E w i).length := by
  induction i using Nat.strong_induction_on with
  | _ i ih =>
    unfold mipSamples
    split_ifs with h0 h1
    · exact hl
    · rw [decimate_length, decimate_length, hl]
    · rw [decimate_length, decimate_length, ih (i - 8) (by omega)]

theorem mip_zip {E : Env ℝ} (h : LinearResampler E) (a b : ℝ) {v w : List ℝ}
    (hl : v.length = w.length) (i : ℕ) :
    mipSamples E (List.zipWith (fun x y => a * x + b * y) v w) i =
      List.zipWith (fun x y => a * x + b * y) (mipSamples E v i) (mipSamples E w i) := by
  induction i using Nat.strong_induction_on with
  | _ i ih =>
    rw [mipSamples, mipSamples.eq_1 E v, mipSamples.eq_1 E w]
    split_ifs with h0 h1
    · rfl
    · exact h a b v w _ hl
    · rw [ih (i - 8) (by omega)]
      exact h a b _ _ _ (mip_length_eq hl _)

theorem cyc_zip (a b : ℝ) {v w : List ℝ} (hl : v.length = w.length) (hv : 0 < v.length) (j : ℤ) :
    cyc (List.zipWith (fun x y => a * x + b * y) v w) j = a * cyc v j + b * cyc w j := by
  unfold cyc
  rw [List.length_zipWith, ← hl, min_self]
  have h1 : (j % (v.length : ℤ)).toNat < v.length := by
    have := Int.emod_lt_of_pos j (b := v.length) (by omega)
    have := Int.emod_nonneg j (b := v.length) (by omega)
    omega
  generalize (j % (v.length : ℤ)).toNat = k at h1
  have h2 : k < w.length := by omega
  simp [List.getD_eq_getElem?_getD, List.getElem?_zipWith, h1, h2]

namespace Sys
variable {S : Sys ℝ ℂ} {nw L : ℕ} {ws1 ws2 ws3 : List ℝ} {a b : ℝ}

/-- third = `a` first + `b` second -/
structure Lin (S : Sys ℝ ℂ) (a b : ℝ) (o1 o2 o3 : Osc ℝ ℂ) : Prop where
  c2 : Ctl o1 o2
  c3 : Ctl o1 o3
  y : ∀ k < S.n, o3.prevY.getD k 0 = a * o1.prevY.getD k 0 + b * o2.prevY.getD k 0

/-- the tables are in that relation too -/
structure LinTabs (S : Sys ℝ ℂ) (nw L : ℕ) (ws1 ws2 ws3 : List ℝ) (a b : ℝ)
    (o1 o2 o3 : Osc ℝ ℂ) : Prop where
  w1 : ∃ wt, o1.wt = some wt ∧ HasLines S.env ws1 nw L wt
  w2 : ∃ wt, o2.wt = some wt ∧ HasLines S.env ws2 nw L wt
  w3 : ∃ wt, o3.wt = some wt ∧ HasLines S.env ws3 nw L wt

theorem output_lin {y1 y2 y3 : List ℂ} {n : ℕ} (h1 : y1.length = n) (h2 : y2.length = n)
    (h3 : y3.length = n) (h : ∀ k < n, y3.getD k 0 = a * y1.getD k 0 + b * y2.getD k 0) :
    output y3 = a * output y1 + b * output y2 := by
  have e : ∀ y : List ℂ, y.length = n → y.sum = ∑ k ∈ Finset.range n, y.getD k 0 := by
    intro y h
    subst h
    rw [Finset.sum_range, ← List.sum_ofFn]
    congr 1
    apply List.ext_getElem
    · simp
    · intro i h1 h2
      simp [List.getD_eq_getElem?_getD, h1]
  unfold output
  rw [e _ h1, e _ h2, e _ h3, Finset.sum_congr rfl fun k hk => h k (Finset.mem_range.1 hk),
    Finset.sum_add_distrib, ← Finset.mul_sum, ← Finset.mul_sum]
  simp

/-- One call. -/
theorem lin_atom (hS : ExactSys S)
    (hY : ∀ w i j : ℤ, 0 ≤ w → w < nw → 0 ≤ i → i < (L : ℤ) - 1 → tabY S.env ws3 L w i j =
      a * tabY S.env ws1 L w i j + b * tabY S.env ws2 L w i j)
    {o1 o2 o3 o1' : Osc ℝ ℂ} (p1 : OscPlay S nw L o1) (p2 : OscPlay S nw L o2)
    (p3 : OscPlay S nw L o3) (hl : Lin S a b o1 o2 o3)
    (ht : LinTabs S nw L ws1 ws2 ws3 a b o1 o2 o3) {x : Atom ℝ}
    (hx : AtomOk S.env.fl nw o1.prevPhase x) {ys1 : List ℝ} (h : S.atom o1 x = .ok (o1', ys1)) :
    ∃ o2' ys2 o3' ys3, S.atom o2 x = .ok (o2', ys2) ∧ S.atom o3 x = .ok (o3', ys3) ∧
      OscPlay S nw L o1' ∧ OscPlay S nw L o2' ∧ OscPlay S nw L o3' ∧ Lin S a b o1' o2' o3' ∧
      LinTabs S nw L ws1 ws2 ws3 a b o1' o2' o3' ∧ ys2.length = ys1.length ∧
      ys3 = List.zipWith (fun u v => a * u + b * v) ys1 ys2 := by
  have hf := exact_rounding hS
  obtain ⟨wt1, e1, l1⟩ := ht.w1
  obtain ⟨wt2, e2, l2⟩ := ht.w2
  obtain ⟨wt3, e3, l3⟩ := ht.w3
  cases x with
  | sample dir p =>
    unfold atom at h
    obtain ⟨⟨o, v⟩, e, h⟩ := bind_ok h
    cases h
    obtain ⟨c, t, o2', y2, g1, g2, g3, g4, g5, g6, g7, g8, g9, g10, g11, b0, b1, b2⟩ :=
      ctl_step hf hS.B p1 p2 hl.c2 e1 e2 hx.1 hx.2 e
    obtain ⟨c', t', o3', y3, k1, k2, k3, k4, k5, k6, k7, k8, k9, k10, k11, -⟩ :=
      ctl_step hf hS.B p1 p3 hl.c3 e1 e3 hx.1 hx.2 e
    rw [g11] at k11
    cases k11
    obtain ⟨r0, -⟩ := dirDiff_range hf p1.toOscOk hx.1 hx.2
    have hw : WtOk nw L wt1 := by
      obtain ⟨wt', e', h⟩ := p1.wt
      rw [e1] at e'; cases e'; exact h
    have hw1 := weight_one hS.fl hw.inv (abs_pos.2 r0) g11
    have hwu : t.weightUp = 0 → t.weight = 1 := fun h => by have := hw1.1; rw [h] at this; linarith
    set d := dirDiff S.env.fl dir p o1.prevPhase with hd
    have hacc : ∀ k < S.n, S.acc wt3 L o3 t p d k =
        a * S.acc wt1 L o1 t p d k + b * S.acc wt2 L o2 t p d k := by
      intro k hk
      rw [acc_lines hS p1 l1 hx.1 b0 b1 b2 hwu hk, acc_lines hS p2 l2 hx.1 b0 b1 b2 hwu hk,
        acc_lines hS p3 l3 hx.1 b0 b1 b2 hwu hk, ← accV_ctl hl.c2, ← accV_ctl hl.c3, ← accV_add,
        ← hl.c2.crt, ← hl.c3.crt]
      have f1 : tabY S.env ws3 L o1.crt t.idx = fun j => a * tabY S.env ws1 L o1.crt t.idx j +
          b * tabY S.env ws2 L o1.crt t.idx j := by
        funext j; exact hY _ _ _ p1.crt0 p1.crt1 b0 b1
      have f2 : t.weightUp ≠ 0 → tabY S.env ws3 L o1.crt t.idxUp =
          fun j => a * tabY S.env ws1 L o1.crt t.idxUp j +
          b * tabY S.env ws2 L o1.crt t.idxUp j := by
        intro h
        funext j; exact hY _ _ _ p1.crt0 p1.crt1 (by have := (b2 h).1; omega) (b2 h).2
      unfold accV mixV
      dsimp only
      rw [f1]
      by_cases h : t.weightUp ≠ 0
      · rw [f2 h]
      · simp only [if_neg h]
    have hmem : ∀ k < S.n, o3'.prevY.getD k 0 = a * o1'.prevY.getD k 0 + b * o2'.prevY.getD k 0 := by
      intro k hk
      rw [g7, g8, k8, cpxY_getD hS _ _ hk, cpxY_getD hS _ _ hk, cpxY_getD hS _ _ hk, hl.y k hk,
        hacc k hk]
      ring
    refine ⟨o2', [y2], o3', [y3], ?_, ?_, g3, g4, k4, ⟨g2, k2, hmem⟩,
      ⟨⟨_, g5, l1.with_cf c⟩, ⟨_, g6, l2.with_cf c⟩, ⟨_, k6, l3.with_cf c⟩⟩, rfl, ?_⟩
    · unfold atom; dsimp only; rw [g1]; rfl
    · unfold atom; dsimp only; rw [k1]; rfl
    · rw [g9, g10, k10, outReal_eq hS, outReal_eq hS, outReal_eq hS]
      have := output_lin (n := S.n) (by rw [g7, cpxY_length]) (by rw [g8, cpxY_length])
        (by rw [k8, cpxY_length]) hmem
      simp [this]
  | setWaveform i =>
    unfold atom at h
    obtain ⟨o, e, h⟩ := bind_ok h
    cases h
    obtain ⟨o2', g1, g2, g3, g4⟩ := ctl_set hl.c2 e
    obtain ⟨o3', k1, k2, k3, k4⟩ := ctl_set hl.c3 e
    have hp : ∀ o : Osc ℝ ℂ, OscPlay S nw L o → OscPlay S nw L { o with crt := i } := fun o ho =>
      ⟨⟨ho.wt, ho.mip0, ho.mip1, ho.j0, ho.j1, ho.jf, ho.jb, ho.p0, ho.p1, ho.red, ho.fl, ho.diff,
      ho.posF, ho.posB⟩, hx.1, hx.2⟩
    subst g3 g4 k4
    refine ⟨_, [], _, [], ?_, ?_, hp _ p1, hp _ p2, hp _ p3, ⟨g2, k2, hl.y⟩,
      ⟨⟨_, e1, l1⟩, ⟨_, e2, l2⟩, ⟨_, e3, l3⟩⟩, rfl, rfl⟩
    · unfold atom; dsimp only; rw [g1]; rfl
    · unfold atom; dsimp only; rw [k1]; rfl
  | reset p d =>
    unfold atom at h
    obtain ⟨o, e, h⟩ := bind_ok h
    cases h
    obtain ⟨c, o2', g1, g2, g3, g4, g5, g6, g7, g8⟩ := ctl_reset hf p1 p2 hl.c2 e1 e2 hx.1 hx.2 e
    obtain ⟨c', o3', k1, k2, k3, k4, k5, k6, k7, k8⟩ := ctl_reset hf p1 p3 hl.c3 e1 e3 hx.1 hx.2 e
    refine ⟨o2', [], o3', [], ?_, ?_, g3, g4, k4, ⟨g2, k2, ?_⟩,
      ⟨⟨_, g5, l1.with_cf c⟩, ⟨_, g6, l2.with_cf c⟩, ⟨_, k6, l3.with_cf c'⟩⟩, rfl, rfl⟩
    · unfold atom; dsimp only; rw [g1]; rfl
    · unfold atom; dsimp only; rw [k1]; rfl
    · intro k hk
      rw [g7, g8, k8]
      have : (List.replicate S.n (0 : ℂ)).getD k 0 = 0 := by
        rw [List.getD_eq_getElem?_getD, List.getElem?_replicate]; split <;> rfl
      rw [this]; simp

/-- Many calls. -/
theorem lin_atoms (hS : ExactSys S)
    (hY : ∀ w i j : ℤ, 0 ≤ w → w < nw → 0 ≤ i → i < (L : ℤ) - 1 → tabY S.env ws3 L w i j =
      a * tabY S.env ws1 L w i j + b * tabY S.env ws2 L w i j)
    {o1 o2 o3 o1' : Osc ℝ ℂ} (p1 : OscPlay S nw L o1) (p2 : OscPlay S nw L o2)
    (p3 : OscPlay S nw L o3) (hl : Lin S a b o1 o2 o3)
    (ht : LinTabs S nw L ws1 ws2 ws3 a b o1 o2 o3) {xs : List (Atom ℝ)}
    (hx : AtomsOk S.env.fl nw o1.prevPhase xs) {ys1 : List ℝ} (h : S.atoms o1 xs = .ok (o1', ys1)) :
    ∃ o2' ys2 o3' ys3, S.atoms o2 xs = .ok (o2', ys2) ∧ S.atoms o3 xs = .ok (o3', ys3) ∧
      ys2.length = ys1.length ∧ ys3 = List.zipWith (fun u v => a * u + b * v) ys1 ys2 := by
  induction xs generalizing o1 o2 o3 ys1 with
  | nil => cases h; exact ⟨o2, [], o3, [], rfl, rfl, rfl, rfl⟩
  | cons x xs ih =>
    unfold atoms at h
    obtain ⟨⟨q, u1⟩, e1, h⟩ := bind_ok h
    obtain ⟨⟨q', v1⟩, e2, h⟩ := bind_ok h
    cases h
    obtain ⟨o2', u2, o3', u3, f1, f2, f3, f4, f5, f6, f7, f8, f9⟩ :=
      lin_atom hS hY p1 p2 p3 hl ht hx.1 e1
    obtain ⟨-, hph⟩ := atom_play (exact_rounding hS) hS.B p1 hx.1 e1
    obtain ⟨o2'', v2, o3'', v3, g1, g2, g3, g4⟩ := ih f3 f4 f5 f6 f7 (by rw [hph]; exact hx.2) e2
    refine ⟨o2'', u2 ++ v2, o3'', u3 ++ v3, ?_, ?_, by simp [f8, g3], ?_⟩
    · unfold atoms; rw [f1, R.ok_bind]; dsimp only; rw [g1]; rfl
    · unfold atoms; rw [f2, R.ok_bind]; dsimp only; rw [g2]; rfl
    · rw [f9, g4, List.zipWith_append f8.symm]

end Sys
end Adwt
