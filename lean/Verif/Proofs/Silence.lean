import Verif.Proofs.Polarity
import Verif.Proofs.Plays
import Verif.Proofs.WtOf

/-!
# Playing a waveform of zeros
-/

set_option linter.unusedSectionVars false

namespace Adwt

variable {K C : Type} [Field K] [LinearOrder K] [IsStrictOrderedRing K] [FloorRing K]
variable [Zero C] [Add C] [Sub C] [Mul C] [Div C] [Neg C]

/-- all tables of waveform `w` are zero -/
def ZeroRow (wt : WavetableData K) (w : ℤ) : Prop :=
  ∀ tab ∈ [wt.m, wt.q, wt.mDiff, wt.qDiff], ∀ r, rd tab w = .ok r → ∀ t ∈ r, ∀ x ∈ t, x = 0

theorem rd_mem {α : Type} {l : List α} {i : ℤ} {a : α} (h : rd l i = .ok a) : a ∈ l := by
  unfold rd at h
  split at h
  · split at h
    · next e => cases h; exact List.mem_of_getElem? e
    · cases h
  · cases h

theorem span_zero {wt : WavetableData K} {w i : ℤ} (hr : ZeroRow wt w)
    {tab : List (List (List K))} (ht : tab ∈ [wt.m, wt.q, wt.mDiff, wt.qDiff]) {t : List K}
    (h : WavetableData.rd2 tab w i = .ok t) {j : ℤ} {x : K} (hx : rd t j = .ok x) : x = 0 := by
  obtain ⟨r, e, h⟩ := bind_ok h
  exact hr tab ht r e t (rd_mem h) x (rd_mem hx)

namespace Sys
variable {S : Sys K C}

/-- what zero operands give -/
structure ZeroLaws (S : Sys K C) : Prop where
  fl : S.env.fl 0 = 0
  mad : ∀ b, S.env.mad 0 b 0 = 0
  ofK : S.ops.ofK 0 = 0
  add : (0 : C) + 0 = 0
  sub : (0 : C) - 0 = 0
  zero_mul : ∀ a : C, 0 * a = 0
  mul_zero : ∀ a : C, a * 0 = 0
  zero_div : ∀ a : C, 0 / a = 0
  fma : ∀ a, S.ops.fma a 0 0 = 0
  fms : ∀ a, S.ops.fms a 0 0 = 0
  fnma : ∀ a, S.ops.fnma a 0 0 = 0

theorem zeroLaws (hE : OddEnv S.env) (hC : OddOps S.ops) (hz : ∀ c : C, c = -c → c = 0) :
    ZeroLaws S := by
  have z := hC.zero
  constructor
  · have := hE.fl 0; rw [neg_zero] at this; linarith
  · intro b; have := hE.mad 0 b 0; rw [neg_zero] at this; linarith
  · apply hz; have := hC.ofK 0; rw [neg_zero] at this; exact this
  · apply hz; have := hC.add 0 0; rw [z] at this; exact this
  · apply hz; have := hC.sub 0 0; rw [z] at this; exact this
  · intro a; apply hz; have := hC.mul_left 0 a; rw [z] at this; exact this
  · intro a; apply hz; have := hC.mul_right a 0; rw [z] at this; exact this
  · intro a; apply hz; have := hC.div 0 a; rw [z] at this; exact this
  · intro a; apply hz; have := hC.fma a 0 0; rw [z] at this; exact this
  · intro a; apply hz; have := hC.fms a 0 0; rw [z] at this; exact this
  · intro a; apply hz; have := hC.fnma a 0 0; rw [z] at this; exact this

section
variable {n B : ℕ}

theorem batch_zero {up i : ℕ} {f : ℕ → C → C} (hf : ∀ k, f k 0 = 0) {b : ℕ → C}
    (h : batch up B i f (fun _ => 0) = .ok b) : b = fun _ => 0 := by
  unfold batch at h
  split at h
  · cases h; funext k; split
    · exact hf k
    · rfl
  · cases h

theorem over_zero {f g : ℕ → C → C} (hf : ∀ k, f k 0 = 0) (hg : ∀ k, g k 0 = 0) {b : ℕ → C}
    (h : overCoeffs n B f g (fun _ => 0) = .ok b) : b = fun _ => 0 := by
  unfold overCoeffs at h
  dsimp only at h
  obtain ⟨a1, e1, h⟩ := bind_ok h
  have h1 : ∀ (l : List ℕ) (b : ℕ → C),
      l.foldlM (fun a b => batch (upperNumCoeffs n B) B (b * B) f a) (fun _ => 0) = .ok b →
        b = fun _ => 0 := by
    intro l
    induction l with
    | nil => intro b h; cases h; rfl
    | cons i l ih =>
      intro b h
      rw [List.foldlM_cons] at h
      obtain ⟨c, e, h⟩ := bind_ok h
      rw [batch_zero hf e] at h
      exact ih b h
  rw [h1 _ _ e1] at h
  split at h
  · exact batch_zero hf h
  · cases h
    have h2 : ∀ l : List ℕ, l.foldl (fun (a : ℕ → C) i => fun k => if k = i then g i (a i) else a k)
        (fun _ => 0) = fun _ => 0 := by
      intro l
      induction l with
      | nil => rfl
      | cons i l ih =>
        rw [List.foldl_cons]
        have e : (fun k => if k = i then g i 0 else (0 : C)) = fun _ => 0 := by
          funext k; split
          · exact hg i
          · rfl
        rw [e]; exact ih
    exact h2 _

end

variable (Z : ZeroLaws S) {wt : WavetableData K} {crt : ℤ} (hr : ZeroRow wt crt)
include Z hr

theorem i0_zero {mip i j : ℤ} {d pb nb : K} {b : ℕ → C}
    (h : S.computeI0 wt crt mip i j d pb nb (fun _ => 0) = .ok b) : b = fun _ => 0 := by
  unfold computeI0 at h
  dsimp only at h
  obtain ⟨m, em, h⟩ := bind_ok h
  obtain ⟨q, eq, h⟩ := bind_ok h
  obtain ⟨mp, e1, h⟩ := bind_ok h
  obtain ⟨qp, e2, h⟩ := bind_ok h
  obtain ⟨mn, e3, h⟩ := bind_ok h
  obtain ⟨qn, e4, h⟩ := bind_ok h
  have z1 := span_zero hr (tab := wt.m) (by simp) em e1
  have z2 := span_zero hr (tab := wt.q) (by simp) eq e2
  have z3 := span_zero hr (tab := wt.m) (by simp) em e3
  have z4 := span_zero hr (tab := wt.q) (by simp) eq e4
  subst z1 z2 z3 z4
  rw [MulZeroClass.zero_mul, Z.fl, Z.mad, Z.mad, Z.ofK] at h
  refine over_zero (fun k => ?_) (fun k => ?_) h
  · rw [Z.fma, Z.fms, Z.fnma]
  · rw [Z.mul_zero, Z.add, Z.mul_zero, Z.sub, Z.sub]

omit hr in
theorem cornS_zero (pa d ph : K) (k : ℕ) : S.cornerS pa d ph 0 0 k = 0 := by
  unfold cornerS
  rw [Z.ofK, Z.mul_zero, Z.zero_mul, Z.add, Z.mul_zero]

omit hr in
theorem cornV_zero (d ph : K) (k : ℕ) : S.cornerV d ph 0 0 k = 0 := by
  unfold cornerV
  rw [Z.ofK, Z.mul_zero, Z.fma]

theorem fold_zero {f : (ℕ → C) → ℤ → R (ℕ → C)}
    (hf : ∀ i b, f (fun _ => 0) i = .ok b → b = fun _ => 0) (l : List ℤ) {b : ℕ → C}
    (h : l.foldlM f (fun _ => 0) = .ok b) : b = fun _ => 0 := by
  induction l generalizing b with
  | nil => cases h; rfl
  | cons i l ih =>
    rw [List.foldlM_cons] at h
    obtain ⟨c, e, h⟩ := bind_ok h
    rw [hf i c e] at h
    exact ih h

theorem fwdI_zero {pr : K} {mip i j : ℤ} {d p : K} {b : ℕ → C}
    (h : S.computeFwdI wt crt pr mip i j d p (fun _ => 0) = .ok b) : b = fun _ => 0 := by
  unfold computeFwdI at h
  dsimp only at h
  obtain ⟨a, e, h⟩ := bind_ok h
  rw [i0_zero Z hr e] at h
  unfold computeISumFwd at h
  obtain ⟨len, -, h⟩ := bind_ok h
  obtain ⟨md, em, h⟩ := bind_ok h
  obtain ⟨qd, eq, h⟩ := bind_ok h
  obtain ⟨phs, -, h⟩ := bind_ok h
  refine fold_zero Z hr (fun i b h => ?_) _ h
  unfold iSumFwdStep at h
  dsimp only at h
  obtain ⟨ir, -, h⟩ := bind_ok h
  obtain ⟨ph, -, h⟩ := bind_ok h
  obtain ⟨pa, -, h⟩ := bind_ok h
  obtain ⟨m, e1, h⟩ := bind_ok h
  obtain ⟨q, e2, h⟩ := bind_ok h
  have z1 := span_zero hr (tab := wt.mDiff) (by simp) em e1
  have z2 := span_zero hr (tab := wt.qDiff) (by simp) eq e2
  subst z1 z2
  refine over_zero (fun k => ?_) (fun k => ?_) h
  · rw [cornV_zero Z, Z.fma]
  · rw [cornS_zero Z, Z.add]

theorem bwdI_zero {pr : K} {mip jm i j : ℤ} {d p : K} {b : ℕ → C}
    (h : S.computeBwdI wt crt pr mip jm i j d p (fun _ => 0) = .ok b) : b = fun _ => 0 := by
  unfold computeBwdI at h
  dsimp only at h
  obtain ⟨_, -, h⟩ := bind_ok h
  obtain ⟨a, e, h⟩ := bind_ok h
  rw [i0_zero Z hr e] at h
  unfold computeISumBwd at h
  obtain ⟨_, -, h⟩ := bind_ok h
  obtain ⟨len, -, h⟩ := bind_ok h
  obtain ⟨md, em, h⟩ := bind_ok h
  obtain ⟨qd, eq, h⟩ := bind_ok h
  obtain ⟨phs, -, h⟩ := bind_ok h
  refine fold_zero Z hr (fun i b h => ?_) _ h
  unfold iSumBwdStep at h
  dsimp only at h
  obtain ⟨ir, -, h⟩ := bind_ok h
  obtain ⟨ph, -, h⟩ := bind_ok h
  obtain ⟨pa, -, h⟩ := bind_ok h
  obtain ⟨m, e1, h⟩ := bind_ok h
  obtain ⟨q, e2, h⟩ := bind_ok h
  have z1 := span_zero hr (tab := wt.mDiff) (by simp) em e1
  have z2 := span_zero hr (tab := wt.qDiff) (by simp) eq e2
  subst z1 z2
  refine over_zero (fun k => ?_) (fun k => ?_) h
  · rw [cornV_zero Z, Z.fnma]
  · rw [cornS_zero Z, Z.sub]

omit hr in
theorem upper_zero {t : MipMapIndices K} {u : R (ℕ → C)}
    (hu : ∀ b, u = .ok b → b = fun _ => 0) {b : ℕ → C}
    (h : S.withUpper t (fun _ => 0) u = .ok b) : b = fun _ => 0 := by
  unfold withUpper at h
  split at h
  · obtain ⟨c, e, h⟩ := bind_ok h
    cases h
    rw [hu c e]
    funext k
    unfold crossfade
    dsimp only
    generalize (if S.n % S.B > 1 then S.upper else S.n) = m
    split
    · rw [Z.zero_mul, Z.zero_mul, Z.add]
    · rfl
  · cases h; rfl

omit Z hr

theorem ZeroRow_cf {wt : WavetableData K} {crt : ℤ} (h : ZeroRow wt crt) (c : CrossFader K) :
    ZeroRow { wt with cf := c } crt := h

/-- a silent sample: the memory only decays -/
theorem silent_step (Z : ZeroLaws S) {o o' : Osc K C} {y : K} {dir : Direction} {p : K}
    {wt : WavetableData K} (hw : o.wt = some wt) (hr : ZeroRow wt o.crt)
    (h : S.stepDir dir o p = .ok (o', y)) :
    o'.prevY = S.cpxY o.prevY (fun _ => 0) ∧ y = S.outReal o'.prevY ∧ o'.crt = o.crt ∧
      ∃ wt', o'.wt = some wt' ∧ ZeroRow wt' o'.crt := by
  have fwd : ∀ d, S.processSampleFwd o p d = .ok (o', y) →
      o'.prevY = S.cpxY o.prevY (fun _ => 0) ∧ y = S.outReal o'.prevY ∧ o'.crt = o.crt ∧
      ∃ wt', o'.wt = some wt' ∧ ZeroRow wt' o'.crt := by
    intro d h
    unfold processSampleFwd at h
    dsimp only at h
    obtain ⟨_, -, h⟩ := bind_ok h
    rw [hw] at h
    dsimp only at h
    obtain ⟨⟨wt2, t⟩, ef, h⟩ := bind_ok h
    obtain ⟨phs, -, h⟩ := bind_ok h
    obtain ⟨pr, -, h⟩ := bind_ok h
    obtain ⟨len, -, h⟩ := bind_ok h
    obtain ⟨j0, -, h⟩ := bind_ok h
    obtain ⟨pj, -, h⟩ := bind_ok h
    obtain ⟨j, -, h⟩ := bind_ok h
    obtain ⟨j1, -, h⟩ := bind_ok h
    obtain ⟨j2, -, h⟩ := bind_ok h
    obtain ⟨a, ea, h⟩ := bind_ok h
    obtain ⟨b, eb, h⟩ := bind_ok h
    obtain ⟨⟨c, t'⟩, -, ef⟩ := bind_ok ef
    cases ef
    have hr2 : ZeroRow { wt with cf := c } o.crt := hr
    rw [fwdI_zero Z hr2 ea] at eb
    have := upper_zero Z (fun b hb => fwdI_zero Z hr2 hb) eb
    subst this
    cases h
    exact ⟨rfl, rfl, rfl, _, rfl, hr2⟩
  have bwd : ∀ d, S.processSampleBwd o p d = .ok (o', y) →
      o'.prevY = S.cpxY o.prevY (fun _ => 0) ∧ y = S.outReal o'.prevY ∧ o'.crt = o.crt ∧
      ∃ wt', o'.wt = some wt' ∧ ZeroRow wt' o'.crt := by
    intro d h
    unfold processSampleBwd at h
    dsimp only at h
    obtain ⟨_, -, h⟩ := bind_ok h
    rw [hw] at h
    dsimp only at h
    obtain ⟨⟨wt2, t⟩, ef, h⟩ := bind_ok h
    obtain ⟨phs, -, h⟩ := bind_ok h
    obtain ⟨pr, -, h⟩ := bind_ok h
    obtain ⟨len, -, h⟩ := bind_ok h
    obtain ⟨j0, -, h⟩ := bind_ok h
    obtain ⟨pj, -, h⟩ := bind_ok h
    obtain ⟨j, -, h⟩ := bind_ok h
    obtain ⟨j1, -, h⟩ := bind_ok h
    obtain ⟨j2, -, h⟩ := bind_ok h
    obtain ⟨a, ea, h⟩ := bind_ok h
    obtain ⟨b, eb, h⟩ := bind_ok h
    obtain ⟨⟨c, t'⟩, -, ef⟩ := bind_ok ef
    cases ef
    have hr2 : ZeroRow { wt with cf := c } o.crt := hr
    rw [bwdI_zero Z hr2 ea] at eb
    have := upper_zero Z (fun b hb => bwdI_zero Z hr2 hb) eb
    subst this
    cases h
    exact ⟨rfl, rfl, rfl, _, rfl, hr2⟩
  cases dir with
  | kForward =>
    unfold stepDir stepFwd at h
    dsimp only at h
    obtain ⟨_, -, h⟩ := bind_ok h
    exact fwd _ h
  | kBidirectionnal =>
    unfold stepDir stepBi at h
    dsimp only at h
    split at h
    · exact fwd _ h
    · exact bwd _ h

/-- the memory after `n` silent samples -/
def decayed (S : Sys K C) (y : List C) : ℕ → List C
  | 0 => y
  | n + 1 => S.cpxY (decayed S y n) (fun _ => 0)

theorem decayed_shift (y : List C) (n : ℕ) :
    decayed S (S.cpxY y (fun _ => 0)) n = decayed S y (n + 1) := by
  induction n with
  | zero => rfl
  | succ n ih => unfold decayed; rw [ih]

theorem silent_run (Z : ZeroLaws S) {dir : Direction} {ps : List K} {o o' : Osc K C} {ys : List K}
    {wt : WavetableData K} (hw : o.wt = some wt) (hr : ZeroRow wt o.crt)
    (h : S.runDir dir o ps = .ok (o', ys)) :
    o'.prevY = decayed S o.prevY ps.length ∧ o'.crt = o.crt ∧
      (∃ wt', o'.wt = some wt' ∧ ZeroRow wt' o'.crt) ∧
      ys = (List.range ps.length).map fun i => S.outReal (decayed S o.prevY (i + 1)) := by
  induction ps generalizing o ys wt with
  | nil => cases h; exact ⟨rfl, rfl, ⟨wt, hw, hr⟩, rfl⟩
  | cons p ps ih =>
    unfold runDir at h
    obtain ⟨⟨o1, y⟩, e1, h⟩ := bind_ok h
    obtain ⟨⟨o2, zs⟩, e2, h⟩ := bind_ok h
    cases h
    obtain ⟨a1, a2, a3, wt1, a4, a5⟩ := silent_step Z hw hr e1
    obtain ⟨b1, b2, b3, b4⟩ := ih a4 a5 e2
    refine ⟨?_, b2.trans a3, b3, ?_⟩
    · rw [b1, a1, decayed_shift]; rfl
    · rw [List.length_cons, List.range_succ_eq_map, List.map_cons, List.map_map, b4, a2, a1]
      congr 1
      apply List.map_congr_left
      intro i _
      dsimp only [Function.comp]
      rw [decayed_shift]

end Sys

/-! ### which tables are zero -/

theorem mip_zero {E : Env K} (hsrc : ∀ w r, (∀ x ∈ w, x = 0) → ∀ x ∈ decimate E w r, x = 0)
    {w : List K} (hw : ∀ x ∈ w, x = 0) (i : ℕ) : ∀ x ∈ mipSamples E w i, x = 0 := by
  induction i using Nat.strong_induction_on with
  | _ i ih =>
    unfold mipSamples
    split_ifs with h0 h1
    · exact hw
    · exact hsrc _ _ hw
    · exact hsrc _ _ (ih (i - 8) (by omega))

theorem getD_zero {w : List K} (hw : ∀ x ∈ w, x = 0) (k : ℕ) : w.getD k 0 = 0 := by
  rw [List.getD_eq_getElem?_getD]
  cases h : w[k]? with
  | none => rfl
  | some x => exact hw x (List.mem_of_getElem? h)

theorem tab_zero {E : Env K} (hE : OddEnv E) {y : ℕ → K} (hy : ∀ k, y k = 0) (x : ℕ → K) (N : ℕ) :
    ∀ l ∈ [(WavetableData.mqOf E x y N).m, (WavetableData.mqOf E x y N).q,
      (WavetableData.mqOf E x y N).mDiff, (WavetableData.mqOf E x y N).qDiff], ∀ v ∈ l, v = 0 := by
  have fl0 : E.fl 0 = 0 := by have := hE.fl 0; rw [neg_zero] at this; linarith
  have dbl0 : E.dbl 0 = 0 := E.dbl_fl 0 fl0
  have dmm0 : ∀ b c, E.dmm 0 b c 0 = 0 := by
    intro b c; have := hE.dmm 0 b c 0; rw [neg_zero] at this; linarith
  have hm : ∀ k, WavetableData.mF E x y N k = 0 := by
    intro k; unfold WavetableData.mF
    rw [hy, hy, sub_zero, dbl0, zero_div, dbl0, fl0]
  have hq : ∀ k, WavetableData.qF E x y N k = 0 := by
    intro k; unfold WavetableData.qF
    rw [hy, hy, sub_zero, dbl0, dmm0, zero_div, dbl0, fl0]
  have hmd : ∀ k, WavetableData.mdF E x y N k = 0 := by
    intro k; unfold WavetableData.mdF
    rw [hm, hm, sub_zero, fl0]
  have hqd : ∀ k, WavetableData.qdF E x y N k = 0 := by
    intro k; unfold WavetableData.qdF
    simp only [hm, hq, sub_zero, fl0, ite_self]
  intro l hl v hv
  simp only [List.mem_cons, List.not_mem_nil, or_false] at hl
  unfold WavetableData.mqOf at hl
  rcases hl with rfl | rfl | rfl | rfl <;> obtain ⟨k, -, rfl⟩ := List.mem_map.1 hv
  · exact hm k
  · exact hq k
  · exact hmd k
  · exact hqd k

theorem wtOf_zero {E : Env K} (hE : OddEnv E)
    (hsrc : ∀ w r, (∀ x ∈ w, x = 0) → ∀ x ∈ decimate E w r, x = 0) {ws : List K} {nw L : ℕ} {xf : ℤ}
    {w : ℤ} (hw : ∀ x ∈ waveformOf ws (2 ^ L) w.toNat, x = 0) :
    ZeroRow (WavetableData.wtOf E ws nw L xf) w := by
  have key : ∀ g : WavetableData.MQ K → List K,
      (∀ i, ∀ v ∈ g (WavetableData.tabOf E L (waveformOf ws (2 ^ L) w.toNat) i), v = 0) →
      ∀ r, rd (((List.range nw).map fun w => (List.range (L - 1)).map
        (WavetableData.tabOf E L (waveformOf ws (2 ^ L) w))).map (·.map g)) w = .ok r →
        ∀ t ∈ r, ∀ x ∈ t, x = 0 := by
    intro g hg r hr t ht x hx
    unfold rd at hr
    split at hr
    · rw [List.getElem?_map, List.getElem?_map] at hr
      cases hk : (List.range nw)[w.toNat]? with
      | none => rw [hk] at hr; cases hr
      | some k =>
        have : k = w.toNat := by
          obtain ⟨h1, h2⟩ := List.getElem?_eq_some_iff.1 hk
          simpa using h2.symm
        subst this
        rw [hk] at hr
        cases hr
        dsimp only at ht
        rw [List.map_map] at ht
        obtain ⟨i, -, rfl⟩ := List.mem_map.1 ht
        exact hg i x hx
    · cases hr
  have ht : ∀ i, ∀ l ∈ [(WavetableData.tabOf E L (waveformOf ws (2 ^ L) w.toNat) i).m,
      (WavetableData.tabOf E L (waveformOf ws (2 ^ L) w.toNat) i).q,
      (WavetableData.tabOf E L (waveformOf ws (2 ^ L) w.toNat) i).mDiff,
      (WavetableData.tabOf E L (waveformOf ws (2 ^ L) w.toNat) i).qDiff], ∀ v ∈ l, v = 0 :=
    fun i => tab_zero hE (fun k => getD_zero (mip_zero hsrc hw i) k) _ _
  intro tab htab
  simp only [List.mem_cons, List.not_mem_nil, or_false] at htab
  rcases htab with rfl | rfl | rfl | rfl
  · exact key WavetableData.MQ.m fun i => ht i _ (by simp)
  · exact key WavetableData.MQ.q fun i => ht i _ (by simp)
  · exact key WavetableData.MQ.mDiff fun i => ht i _ (by simp)
  · exact key WavetableData.MQ.qDiff fun i => ht i _ (by simp)

end Adwt
