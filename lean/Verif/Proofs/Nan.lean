import Verif.Spec.Nan
import Verif.Props.HoldExact

/-!
# Poisoned filter memory and held phases
-/

set_option linter.unusedSectionVars false

namespace Adwt
open CrossFader
variable {K C : Type} [Field K] [LinearOrder K] [IsStrictOrderedRing K] [FloorRing K]
variable [Zero C] [Add C] [Sub C] [Mul C] [Div C]

/-- some section of the memory is bad -/
def Poisoned (S : Sys K C) (Bad : C → Prop) (o : Osc K C) : Prop :=
  ∃ k < S.n, Bad (o.prevY.getD k 0)

namespace Sys
variable {S : Sys K C} {nw L : ℕ} {o : Osc K C} {Bad : C → Prop} {divz : K → ℕ → C → C}

theorem foldl_bad (h : Poison Bad) {l : List C} : ∀ {x : C}, (Bad x ∨ ∃ b ∈ l, Bad b) → Bad (l.foldl (· + ·) x) := by
  induction l with
  | nil => intro x hx; simpa using hx
  | cons a l ih =>
    intro x hx
    rw [List.foldl_cons]
    apply ih
    rcases hx with hx | ⟨b, hb, hx⟩
    · exact Or.inl (h.add_left _ _ hx)
    · rcases List.mem_cons.1 hb with rfl | hb
      · exact Or.inl (h.add_right _ _ hx)
      · exact Or.inr ⟨b, hb, hx⟩

theorem cpxY_get (S : Sys K C) (y : List C) (a : ℕ → C) {k : ℕ} (hk : k < S.n) :
    (S.cpxY y a).getD k 0 = S.expZA k * y.getD k 0 + S.ops.ofK 2 * S.rA k * (a k / S.zPow2A k) := by
  unfold cpxY
  rw [List.getD_eq_getElem _ _ (by simpa using hk)]
  simp

theorem memory_length (S : Sys K C) (y : List C) (a : ℕ → C) : (S.cpxY y a).length = S.n := by
  simp [cpxY]

/-- a bad memory or bad sums give a bad memory and a bad output -/
theorem cpxY_bad (h : Poison Bad) {y : List C} {a : ℕ → C} {k : ℕ} (hk : k < S.n)
    (hb : Bad (y.getD k 0) ∨ Bad (a k)) :
    Bad ((S.cpxY y a).getD k 0) ∧ ∃ b, Bad b ∧ S.outReal (S.cpxY y a) = S.ops.re b := by
  have e : Bad ((S.cpxY y a).getD k 0) := by
    rw [cpxY_get S y a hk]
    rcases hb with hb | hb
    · exact h.add_left _ _ (h.mul_right _ _ hb)
    · exact h.add_right _ _ (h.mul_right _ _ (h.div _ _ hb))
  refine ⟨e, _, foldl_bad h (Or.inr ⟨_, ?_, e⟩), rfl⟩
  have hl : k < (S.cpxY y a).length := by rw [memory_length]; exact hk
  rw [List.getD_eq_getElem _ _ hl]
  exact List.getElem_mem hl

/-- what every sample does to the memory -/
theorem fwd_memory {p d : K} {r : Osc K C × K} (h : S.processSampleFwd o p d = .ok r) :
    ∃ a, r.1.prevY = S.cpxY o.prevY a ∧ r.2 = S.outReal (S.cpxY o.prevY a) := by
  unfold processSampleFwd at h
  dsimp only at h
  obtain ⟨_, -, h⟩ := bind_ok h
  split at h
  · cases h
  obtain ⟨⟨wt, t⟩, -, h⟩ := bind_ok h
  dsimp only at h
  obtain ⟨_, -, h⟩ := bind_ok h
  obtain ⟨_, -, h⟩ := bind_ok h
  obtain ⟨_, -, h⟩ := bind_ok h
  obtain ⟨_, -, h⟩ := bind_ok h
  obtain ⟨_, -, h⟩ := bind_ok h
  obtain ⟨_, -, h⟩ := bind_ok h
  obtain ⟨_, -, h⟩ := bind_ok h
  obtain ⟨_, -, h⟩ := bind_ok h
  obtain ⟨_, -, h⟩ := bind_ok h
  obtain ⟨a, -, h⟩ := bind_ok h
  cases h
  exact ⟨a, rfl, rfl⟩

theorem bwd_memory {p d : K} {r : Osc K C × K} (h : S.processSampleBwd o p d = .ok r) :
    ∃ a, r.1.prevY = S.cpxY o.prevY a ∧ r.2 = S.outReal (S.cpxY o.prevY a) := by
  unfold processSampleBwd at h
  dsimp only at h
  obtain ⟨_, -, h⟩ := bind_ok h
  split at h
  · cases h
  obtain ⟨⟨wt, t⟩, -, h⟩ := bind_ok h
  dsimp only at h
  obtain ⟨_, -, h⟩ := bind_ok h
  obtain ⟨_, -, h⟩ := bind_ok h
  obtain ⟨_, -, h⟩ := bind_ok h
  obtain ⟨_, -, h⟩ := bind_ok h
  obtain ⟨_, -, h⟩ := bind_ok h
  obtain ⟨_, -, h⟩ := bind_ok h
  obtain ⟨_, -, h⟩ := bind_ok h
  obtain ⟨_, -, h⟩ := bind_ok h
  obtain ⟨_, -, h⟩ := bind_ok h
  obtain ⟨a, -, h⟩ := bind_ok h
  cases h
  exact ⟨a, rfl, rfl⟩

theorem held_memory {p : K} {r : Osc K C × K} (h : S.heldSample divz o p = .ok r) :
    ∃ a, r.1.prevY = S.cpxY o.prevY a ∧ r.2 = S.outReal (S.cpxY o.prevY a) := by
  unfold heldSample at h
  dsimp only at h
  obtain ⟨_, -, h⟩ := bind_ok h
  split at h
  · cases h
  obtain ⟨⟨wt, t⟩, -, h⟩ := bind_ok h
  dsimp only at h
  obtain ⟨_, -, h⟩ := bind_ok h
  obtain ⟨_, -, h⟩ := bind_ok h
  obtain ⟨_, -, h⟩ := bind_ok h
  obtain ⟨_, -, h⟩ := bind_ok h
  obtain ⟨_, -, h⟩ := bind_ok h
  obtain ⟨_, -, h⟩ := bind_ok h
  obtain ⟨_, -, h⟩ := bind_ok h
  obtain ⟨_, -, h⟩ := bind_ok h
  obtain ⟨_, -, h⟩ := bind_ok h
  obtain ⟨a, -, h⟩ := bind_ok h
  cases h
  exact ⟨a, rfl, rfl⟩

theorem stepZ_fwd (p : K) : S.stepZ divz .kForward o p =
    if fwdDiff S.env.fl p o.prevPhase = 0 then S.heldSample divz o p else S.stepFwd o p := rfl

theorem stepZ_bi (p : K) : S.stepZ divz .kBidirectionnal o p =
    if biDiff S.env.fl p o.prevPhase = 0 then S.heldSample divz o p else S.stepBi o p := rfl

theorem stepZ_memory {dir : Direction} {p : K} {r : Osc K C × K}
    (h : S.stepZ divz dir o p = .ok r) :
    ∃ a, r.1.prevY = S.cpxY o.prevY a ∧ r.2 = S.outReal (S.cpxY o.prevY a) := by
  cases dir with
  | kForward =>
    rw [stepZ_fwd] at h
    by_cases hz : fwdDiff S.env.fl p o.prevPhase = 0
    · rw [if_pos hz] at h; exact held_memory h
    · rw [if_neg hz] at h
      unfold stepFwd at h
      dsimp only at h
      obtain ⟨_, -, h⟩ := bind_ok h
      exact fwd_memory h
  | kBidirectionnal =>
    rw [stepZ_bi] at h
    by_cases hz : biDiff S.env.fl p o.prevPhase = 0
    · rw [if_pos hz] at h; exact held_memory h
    · rw [if_neg hz] at h
      unfold stepBi at h
      dsimp only at h
      split at h
      · exact fwd_memory h
      · exact bwd_memory h

theorem runZ_bad (hP : Poison Bad) {dir : Direction} : ∀ {ps : List K} {o : Osc K C}
    {r : Osc K C × List K}, S.runZ divz dir o ps = .ok r → Poisoned S Bad o →
    Poisoned S Bad r.1 ∧ AllBad S Bad r.2 ∧ r.2.length = ps.length
  | [], o, r, h, hb => by
    unfold runZ at h; cases h
    exact ⟨hb, (fun y hy => absurd hy (by simp)), rfl⟩
  | p :: ps, o, r, h, hb => by
    unfold runZ at h
    obtain ⟨⟨o1, y⟩, h1, h⟩ := bind_ok h
    obtain ⟨⟨o2, ys⟩, h2, h⟩ := bind_ok h
    cases h
    obtain ⟨a, e1, e2⟩ := stepZ_memory h1
    obtain ⟨k, hk, hb⟩ := hb
    obtain ⟨c1, c2⟩ := cpxY_bad (S := S) hP (a := a) hk (Or.inl hb)
    obtain ⟨d1, d2, d3⟩ := runZ_bad hP h2 ⟨k, hk, by rw [e1]; exact c1⟩
    refine ⟨d1, ?_, by simp [d3]⟩
    intro z hz
    rcases List.mem_cons.1 hz with rfl | hz
    · obtain ⟨b, hb, e⟩ := c2
      exact ⟨b, hb, e2.trans e⟩
    · exact d2 z hz

theorem call_bad (hP : Poison Bad) {c : Call K} (hc : c.Keeps) {r : Osc K C × List K}
    (h : runCallZ S divz o c = .ok r) (hb : Poisoned S Bad o) :
    Poisoned S Bad r.1 ∧ AllBad S Bad r.2 := by
  have nil : AllBad S Bad ([] : List K) := fun y hy => absurd hy (by simp)
  cases c with
  | init => exact hc.elim
  | swap => exact hc.elim
  | reset => exact hc.elim
  | setWaveform i =>
    unfold runCallZ runCall setWaveform at h
    obtain ⟨o1, h1, h⟩ := bind_ok h
    obtain ⟨_, -, h1⟩ := bind_ok h1
    cases h1; cases h
    exact ⟨hb, nil⟩
  | updateSamplerate sr =>
    unfold runCallZ runCall updateSamplerate at h
    obtain ⟨o1, h1, h⟩ := bind_ok h
    cases h
    split at h1
    · obtain ⟨_, -, h1⟩ := bind_ok h1
      cases h1
    · obtain ⟨_, -, h1⟩ := bind_ok h1
      cases h1
      exact ⟨hb, nil⟩
  | process dir ps =>
    unfold runCallZ processZ at h
    dsimp only at h
    replace h : ∃ u, chk S.env.dbg (ps.length = (List.replicate ps.length (0 : K)).length) = .ok u ∧
        (S.runZ divz dir o (ps.take (List.replicate ps.length (0 : K)).length) >>= fun x =>
          pure (x.1, x.2 ++ (List.replicate ps.length (0 : K)).drop x.2.length)) = Except.ok r := by
      split at h
      · obtain ⟨_, -, h⟩ := bind_ok h
        exact bind_ok h
      · exact bind_ok h
    obtain ⟨_, -, h⟩ := h
    obtain ⟨⟨o1, ys⟩, h1, h⟩ := bind_ok h
    rw [List.length_replicate, List.take_length] at h1
    obtain ⟨a, b, c⟩ := runZ_bad hP h1 hb
    cases h
    dsimp only at a b c ⊢
    refine ⟨a, ?_⟩
    rw [c, List.drop_eq_nil_of_le (by simp), List.append_nil]
    exact b

theorem calls_bad (hP : Poison Bad) : ∀ {cs : List (Call K)} {o : Osc K C}
    {r : Osc K C × List K}, (∀ c ∈ cs, c.Keeps) → runCallsZ S divz o cs = .ok r →
    Poisoned S Bad o → Poisoned S Bad r.1 ∧ AllBad S Bad r.2
  | [], o, r, _, h, hb => by
    unfold runCallsZ at h; cases h
    exact ⟨hb, fun y hy => absurd hy (by simp)⟩
  | c :: cs, o, r, hc, h, hb => by
    unfold runCallsZ at h
    obtain ⟨⟨o1, y1⟩, h1, h⟩ := bind_ok h
    obtain ⟨⟨o2, y2⟩, h2, h⟩ := bind_ok h
    cases h
    obtain ⟨a1, b1⟩ := call_bad hP (hc c (by simp)) h1 hb
    obtain ⟨a2, b2⟩ := calls_bad hP (fun c h => hc c (by simp [h])) h2 a1
    refine ⟨a2, fun y hy => ?_⟩
    rcases List.mem_append.1 hy with h | h
    · exact b1 y h
    · exact b2 y h

/-! ### the extended model extends the model -/

theorem iSumFwdStep_zero {mds qds phs : List K} {len jm : ℤ} {x : K} {a : ℕ → C} {i : ℤ}
    {r : ℕ → C} : S.iSumFwdStep mds qds phs len jm 0 x a i ≠ .ok r := by
  intro h
  unfold iSumFwdStep at h
  dsimp only at h
  obtain ⟨_, -, h⟩ := bind_ok h
  obtain ⟨_, -, h⟩ := bind_ok h
  obtain ⟨_, h1, -⟩ := bind_ok h
  unfold fdiv at h1
  rw [if_pos rfl] at h1
  cases h1

theorem computeFwdIZ_ext {wt : WavetableData K} {crt : ℤ} {pr : K} {mip jmin jmax : ℤ} {x : K}
    {a r : ℕ → C} (h : S.computeFwdI wt crt pr mip jmin jmax 0 x a = .ok r) :
    S.computeFwdIZ divz wt crt pr mip jmin jmax x a = .ok r := by
  unfold computeFwdI at h
  unfold computeFwdIZ
  dsimp only at h ⊢
  obtain ⟨a1, h1, h⟩ := bind_ok h
  rw [h1, R.ok_bind]
  unfold computeISumFwd at h
  unfold computeISumFwdZ
  obtain ⟨len, e1, h⟩ := bind_ok h
  obtain ⟨md, e2, h⟩ := bind_ok h
  obtain ⟨qd, e3, h⟩ := bind_ok h
  obtain ⟨ph, e4, h⟩ := bind_ok h
  rw [e1, R.ok_bind, e2, R.ok_bind, e3, R.ok_bind, e4, R.ok_bind]
  cases hl : irange jmin (bornSup jmin jmax len) with
  | nil => rw [hl] at h; exact h
  | cons i l =>
    rw [hl, List.foldlM_cons] at h
    obtain ⟨_, h1, -⟩ := bind_ok h
    exact absurd h1 iSumFwdStep_zero

theorem heldSample_ext {p : K} {r : Osc K C × K} (h : S.processSampleFwd o p 0 = .ok r) :
    S.heldSample divz o p = .ok r := by
  unfold processSampleFwd at h
  unfold heldSample
  dsimp only at h ⊢
  obtain ⟨_, e, h⟩ := bind_ok h
  rw [e, R.ok_bind]
  split at h
  · cases h
  rename_i hw
  rw [hw]
  dsimp only
  obtain ⟨⟨wt, t⟩, e, h⟩ := bind_ok h
  rw [e, R.ok_bind]
  dsimp only at h ⊢
  obtain ⟨_, e, h⟩ := bind_ok h
  rw [e, R.ok_bind]
  obtain ⟨x, e, h⟩ := bind_ok h
  rw [e, R.ok_bind]
  obtain ⟨_, e, h⟩ := bind_ok h
  rw [e, R.ok_bind]
  obtain ⟨_, e, h⟩ := bind_ok h
  rw [e, R.ok_bind]
  obtain ⟨_, e, h⟩ := bind_ok h
  rw [e, R.ok_bind]
  obtain ⟨_, e, h⟩ := bind_ok h
  rw [e, R.ok_bind]
  obtain ⟨j1, e, h⟩ := bind_ok h
  rw [e, R.ok_bind]
  obtain ⟨j2, e, h⟩ := bind_ok h
  rw [e, R.ok_bind]
  obtain ⟨a, e, h⟩ := bind_ok h
  rw [computeFwdIZ_ext e, R.ok_bind]
  obtain ⟨b, e, h⟩ := bind_ok h
  have : S.withUpper t a (S.computeFwdIZ divz wt o.crt o.prevPhaseRed t.idxUp
      (j1.tdiv 2) (j2.tdiv 2) x (fun _ => 0)) = .ok b := by
    unfold withUpper at e ⊢
    split at e
    · rename_i hu
      rw [if_pos hu]
      obtain ⟨b', e1, e⟩ := bind_ok e
      rw [computeFwdIZ_ext e1, R.ok_bind]
      exact e
    · rename_i hu
      rw [if_neg hu]
      exact e
  rw [this, R.ok_bind]
  exact h

theorem stepZ_ext {dir : Direction} {p : K} {r : Osc K C × K}
    (h : S.stepDir dir o p = .ok r) : S.stepZ divz dir o p = .ok r := by
  cases dir with
  | kForward =>
    rw [stepZ_fwd]
    split
    · rename_i hz
      change S.stepFwd o p = _ at h
      unfold stepFwd at h
      dsimp only at h
      obtain ⟨_, -, h⟩ := bind_ok h
      unfold fwdDiff at hz
      dsimp only at hz
      rw [hz] at h
      exact heldSample_ext h
    · exact h
  | kBidirectionnal =>
    rw [stepZ_bi]
    split
    · rename_i hz
      change S.stepBi o p = _ at h
      unfold stepBi at h
      dsimp only at h
      rw [hz, if_pos (le_refl (0 : K))] at h
      exact heldSample_ext h
    · exact h

theorem runZ_ext {dir : Direction} : ∀ {ps : List K} {o : Osc K C} {r : Osc K C × List K},
    S.runDir dir o ps = .ok r → S.runZ divz dir o ps = .ok r
  | [], o, r, h => h
  | p :: ps, o, r, h => by
    unfold runDir at h
    unfold runZ
    obtain ⟨⟨o1, y⟩, h1, h⟩ := bind_ok h
    obtain ⟨⟨o2, ys⟩, h2, h⟩ := bind_ok h
    rw [stepZ_ext h1, R.ok_bind]
    dsimp only
    rw [runZ_ext h2, R.ok_bind]
    exact h

theorem processZ_ext {dir : Direction} {ps out : List K} {r : Osc K C × List K}
    (h : S.process dir o ps out = .ok r) : S.processZ divz dir o ps out = .ok r := by
  unfold process at h
  unfold processZ
  dsimp only at h ⊢
  split at h
  · rename_i hn
    obtain ⟨_, e, h⟩ := bind_ok h
    rw [if_pos hn, e, R.ok_bind]
    obtain ⟨_, e, h⟩ := bind_ok h
    rw [e, R.ok_bind]
    obtain ⟨⟨o1, ys⟩, h1, h⟩ := bind_ok h
    rw [runZ_ext h1, R.ok_bind]
    exact h
  · rename_i hn
    obtain ⟨_, e, h⟩ := bind_ok h
    rw [if_neg hn, e, R.ok_bind]
    obtain ⟨⟨o1, ys⟩, h1, h⟩ := bind_ok h
    rw [runZ_ext h1, R.ok_bind]
    exact h

/-! ### a held sample on the grid -/

/-- sums of a table at step 0 always succeed -/
theorem computeFwdIZ_ok (hB : 0 < S.B) {wt : WavetableData K} {crt mip N : ℤ}
    {m q md qd ph : List K} (T : Tabs wt crt mip N m q md qd ph) {jmin jmax : ℤ}
    (h0 : 0 ≤ jmin) (h1 : jmin < N) (h2 : 0 ≤ jmax) (h3 : jmax < N) (prev x : K) (a : ℕ → C) :
    Ok (S.computeFwdIZ divz wt crt prev mip jmin jmax x a) fun a' => ∀ k < S.n,
      ∃ c, a' k = (irange jmin (bornSup jmin jmax N)).foldl (fun old i =>
        divz (S.env.fl (S.env.fl (x + ofBool (decide (red i N > jmax))) -
          ph.getD (red i N + 1).toNat 0)) k old) c := by
  unfold computeFwdIZ
  dsimp only
  refine Ok.bind (computeI0_spec hB T h0 h1 h2 h3 _ _ _ a) fun a1 e1 => ?_
  unfold computeISumFwdZ
  rw [T.len, R.ok_bind, T.emd, R.ok_bind, T.eqd, R.ok_bind, T.eph, R.ok_bind]
  refine (foldlM_pt (n := S.n) (g := fun k i old =>
    divz (S.env.fl (S.env.fl (x + ofBool (decide (red i N > jmax))) -
      ph.getD (red i N + 1).toNat 0)) k old) _ ?_ a1).mono fun a2 h k hk => ⟨_, h k hk⟩
  intro a i hi
  have hi' : jmin ≤ i ∧ i < bornSup jmin jmax N := by
    unfold irange at hi
    simp only [List.mem_map, List.mem_range] at hi
    obtain ⟨k, hk, rfl⟩ := hi
    omega
  have hb : bornSup jmin jmax N < 2 * N := by
    unfold bornSup; split <;> omega
  obtain ⟨hr, hr0, hr1⟩ := reduceI_red (dbg := S.env.dbg) (i := i) (N := N) (by omega) (by omega)
  unfold iSumFwdStepZ
  dsimp only
  rw [hr, R.ok_bind, rd_getD' (by omega) (by rw [T.lph]; omega), R.ok_bind,
    rd_getD' (by omega) (by rw [T.lmd]; omega), R.ok_bind,
    rd_getD' (by omega) (by rw [T.lqd]; omega), R.ok_bind]
  refine (overCoeffs_spec hB _ _ a).mono fun a' h k hk => ?_
  rw [h k hk]
  unfold eff
  split <;> rfl

/-- the position of a quarter phase in a table -/
theorem quarter_pos {m : ℤ} {x : K} (hm : x * 4 = m) {n : ℕ} (hn : 2 ≤ n) :
    x * 2 ^ n = ((m * 2 ^ (n - 2) : ℤ) : K) := by
  have hpow : (2 : K) ^ n = 2 ^ (n - 2) * 4 := by
    conv_lhs => rw [show n = n - 2 + 2 by omega, pow_add]
    norm_num
  rw [hpow]; push_cast; rw [← hm]; ring

/-- one corner, with numerator 0 -/
theorem held_corner (hB : 0 < S.B) (hf : Rounding S.env.fl) {wt : WavetableData K} {crt mip : ℤ} {n : ℕ} (hn : 2 ≤ n)
    {m q md qd : List K} (T : Tabs wt crt mip (2 ^ n) m q md qd (WavetableData.grid K n))
    (hz : ∀ k old, Bad (divz 0 k old)) {g : ℤ} (h2 : 0 ≤ g) (h3 : g < 2 ^ n) (prev : K) {x : K}
    (hx : x * 2 ^ n = (g : K)) (hxf : S.env.fl x = x) (a : ℕ → C) :
    Ok (S.computeFwdIZ divz wt crt prev mip ((g - 1) % 2 ^ n) g x a) fun a' => ∀ k < S.n,
      Bad (a' k) := by
  have hp : (0 : K) < 2 ^ n := by positivity
  have hxe : x = (g : K) / 2 ^ n := by rw [← hx]; field_simp
  have hN : (4 : ℤ) ≤ 2 ^ n := by
    calc (4 : ℤ) = 2 ^ 2 := by norm_num
      _ ≤ 2 ^ n := pow_le_pow_right₀ (by norm_num) hn
  have hj0 : 0 ≤ (g - 1) % 2 ^ n := Int.emod_nonneg _ (by omega)
  have hj1 : (g - 1) % 2 ^ n < 2 ^ n := Int.emod_lt_of_pos _ (by omega)
  refine (computeFwdIZ_ok (divz := divz) hB T hj0 hj1 h2 h3 prev x a).mono fun a' h k hk => ?_
  obtain ⟨c, h⟩ := h k hk
  rw [h]
  have hgrid : ∀ j : ℤ, 0 ≤ j → j ≤ 2 ^ n →
      (WavetableData.grid K n).getD j.toNat 0 = (j : K) / 2 ^ n := by
    intro j a b
    have e1 := rd_grid (K := K) a b
    rw [rd_getD' a (by rw [WavetableData.grid_length]; push_cast; omega)] at e1
    exact Except.ok.inj e1
  have key : ∃ j, irange ((g - 1) % 2 ^ n) (bornSup ((g - 1) % 2 ^ n) g (2 ^ n)) = [j] ∧
      S.env.fl (S.env.fl (x + ofBool (decide (red j (2 ^ n) > g))) -
        (WavetableData.grid K n).getD (red j (2 ^ n) + 1).toNat 0) = 0 := by
    have one : ∀ a : ℤ, irange a (a + 1) = [a] := by intro a; simp [irange]
    rcases lt_or_ge g 1 with h | h
    · have hg : g = 0 := by omega
      subst hg
      have e : ((0 : ℤ) - 1) % 2 ^ n = 2 ^ n - 1 := by
        rw [show (0 : ℤ) - 1 = (2 ^ n - 1) + 2 ^ n * (-1) by ring, Int.add_mul_emod_self_left,
          Int.emod_eq_of_lt (by omega) (by omega)]
      refine ⟨2 ^ n - 1, ?_, ?_⟩
      · rw [e]
        unfold bornSup
        rw [if_pos (by omega), zero_add]
        have := one (2 ^ n - 1)
        rwa [sub_add_cancel] at this
      · have er : red ((2 : ℤ) ^ n - 1) (2 ^ n) = 2 ^ n - 1 := by
          unfold red; rw [if_neg (by omega)]
        rw [er, decide_eq_true (by omega), hgrid _ (by omega) (by omega)]
        have hx0 : x = 0 := by rw [hxe]; simp
        have e1 : (((2 : ℤ) ^ n - 1 + 1 : ℤ) : K) / 2 ^ n = 1 := by
          rw [sub_add_cancel]; push_cast; exact div_self hp.ne'
        rw [e1, hx0]
        unfold ofBool
        rw [if_pos rfl, zero_add, hf.one, sub_self, hf.zero]
    · have e : (g - 1) % 2 ^ n = g - 1 := Int.emod_eq_of_lt (by omega) (by omega)
      refine ⟨g - 1, ?_, ?_⟩
      · rw [e]
        unfold bornSup
        rw [if_neg (by omega), add_zero]
        have := one (g - 1)
        rwa [sub_add_cancel] at this
      · have er : red (g - 1) (2 ^ n) = g - 1 := by
          unfold red; rw [if_neg (by omega)]
        rw [er, decide_eq_false (by omega), hgrid _ (by omega) (by omega), sub_add_cancel, ← hxe]
        unfold ofBool
        rw [if_neg (by simp), add_zero, hxf, sub_self, hf.zero]
  obtain ⟨j, e1, e2⟩ := key
  rw [e1, List.foldl_cons, List.foldl_nil, e2]
  exact hz _ _

/-- A held sample at a multiple of 1/4, from a regular state, release build: every section of the
memory becomes bad. -/
theorem held_quarter (hf : Rounding S.env.fl) (hB : 0 < S.B) (hdbg : S.env.dbg = false)
    (hP : Poison Bad) (hz : ∀ k old, Bad (divz 0 k old))
    {wt : WavetableData K} (hwt : o.wt = some wt) (hw : WtOk nw L wt)
    (ho : OscPlay S nw L o) {m : ℤ} (hm : o.prevPhase * 4 = m) {c : CrossFader K}
    {t : MipMapIndices K}
    (hfind : wt.findMipMapIndices S.env 0 = .ok ({ wt with cf := c }, t))
    (hw' : WtOk nw L { wt with cf := c }) (ht0 : 0 ≤ t.idx) (ht1 : t.idx < (L : ℤ) - 1)
    (htu : t.weightUp ≠ 0 → t.idxUp = t.idx + 1 ∧ t.idxUp < (L : ℤ) - 1)
    (hsafe : o.prevPhaseDiff < 0 → t.idx < o.prevMip → 1 ≤ o.jRed) :
    ∃ y jp, S.heldSample divz o o.prevPhase = .ok
      ({ wt := some { wt with cf := c }, prevY := y, prevPhase := o.prevPhase,
         prevPhaseRed := o.prevPhase, prevPhaseDiff := 0, prevMip := t.idx,
         jRed := ⌊o.prevPhase * 2 ^ (L - t.idx.toNat)⌋,
         prevJRed := jp, crt := o.crt }, S.outReal y) ∧ ∃ a, y = S.cpxY o.prevY a ∧
      ∀ k < S.n, Bad (a k) := by
  have hchk : ∀ p : Prop, ∀ [Decidable p], chk S.env.dbg p = .ok () := by
    intro p _; unfold chk; rw [hdbg]; simp
  have hL := hw.L18
  set n := L - t.idx.toNat with hnn
  have hn18 : n ≤ 18 := by omega
  have hn2 : 2 ≤ n := by omega
  obtain ⟨hj0, hj1⟩ := floor_range hn18 ho.p0 ho.p1
  obtain ⟨hr0, hr1, hr2⟩ := pos_range hn18 ho.p0 ho.p1
  obtain ⟨hlen4, -⟩ := hw'.len_pos ht0 ht1
  rw [← hnn] at hlen4
  have hpos := quarter_pos hm hn2
  have hfl : ⌊o.prevPhase * 2 ^ n⌋ = m * 2 ^ (n - 2) := by rw [hpos, Int.floor_intCast]
  obtain ⟨hadj, hadj0, hadj1, -⟩ := adjustJ_spec (K := K) (pd := o.prevPhaseDiff)
    (pr := o.prevPhaseRed) ht0 ht1 ho.mip0 ho.mip1 ho.j0 ho.j1 ho.jf
    (fun h => hsafe (lt_of_le_of_ne h ho.diff))
  rw [adj_quarter ho.toOscOk hm ht0 ht1, ← hnn] at hadj hadj0 hadj1
  have hpj : prevJFwd S.env.fl (WavetableData.grid K n) (m * 2 ^ (n - 2)) o.prevPhaseDiff
      o.prevPhaseRed = .ok (m * 2 ^ (n - 2)) := by
    unfold prevJFwd
    split
    · rw [rd_grid hadj0 hadj1, R.ok_bind]
      have : o.prevPhaseRed - ((m * 2 ^ (n - 2) : ℤ) : K) / 2 ^ n = 0 := by
        rw [← hpos, ho.red]; field_simp; ring
      rw [this, hf.zero]
      have : Maths.sign (0 : K) = 0 := by
        unfold Maths.sign Maths.kMin
        rw [if_pos (by rw [abs_zero]; positivity)]
      rw [this, add_zero]
      rfl
    · rfl
  rw [hfl] at hj0 hj1
  obtain ⟨m', q, md, qd, T⟩ := hw'.tabs o.crt t.idx ho.crt0 ho.crt1 ht0 ht1
  rw [← hnn] at T
  obtain ⟨a, ea, ha⟩ := held_corner (Bad := Bad) (divz := divz) hB hf hn2 T hz hj0 hj1 o.prevPhaseRed
    hpos ho.fl.1 (fun _ => (0 : C))
  have pre : S.heldSample divz o o.prevPhase = (do
      let a ← S.withUpper t a (S.computeFwdIZ divz { wt with cf := c } o.crt o.prevPhaseRed t.idxUp
        (((m * 2 ^ (n - 2) - 1) % 2 ^ n).tdiv 2) ((m * 2 ^ (n - 2)).tdiv 2) o.prevPhase (fun _ => 0))
      let y := S.cpxY o.prevY a
      return ({ wt := some { wt with cf := c }, prevY := y, prevPhase := o.prevPhase,
                prevPhaseRed := o.prevPhase, prevPhaseDiff := 0, prevMip := t.idx,
                jRed := ⌊o.prevPhase * 2 ^ n⌋,
                prevJRed := m * 2 ^ (n - 2), crt := o.crt }, S.outReal y)) := by
    unfold heldSample
    dsimp only
    rw [hchk, R.ok_bind, hwt]
    dsimp only
    rw [hfind, R.ok_bind]
    dsimp only
    rw [hw'.phaseSpan ht0 ht1, R.ok_bind, Maths.reduceF_unit hf ho.p0 ho.p1, R.ok_bind,
      hw'.waveformLen ht0 ht1, R.ok_bind, ← hnn, hadj, R.ok_bind, hpj, R.ok_bind,
      pos_exact hf hn18 ho.fl.1 ho.p0 ho.p1.le,
      Maths.floor_small hf (by linarith) (by linarith), R.ok_bind,
      Maths.reduceI_eq (by positivity) (by omega) (by omega), R.ok_bind, hfl,
      Maths.reduceI_eq (by positivity) (by omega) (by omega), R.ok_bind,
      Int.emod_eq_of_lt hj0 hj1, ea, R.ok_bind]
  rw [pre]
  by_cases hup : t.weightUp ≠ 0
  · unfold withUpper
    rw [if_pos hup]
    obtain ⟨hu1, hu2⟩ := htu hup
    have hN : (0 : ℤ) < 2 ^ n := by positivity
    obtain ⟨e1, e2, e3⟩ := half_range (n := n) (by omega)
      (Int.emod_nonneg (m * 2 ^ (n - 2) - 1) hN.ne') (Int.emod_lt_of_pos _ hN)
    obtain ⟨e4, e5, e6⟩ := half_range (by omega) hj0 hj1
    obtain ⟨m', q', md', qd', T'⟩ := hw'.tabs o.crt t.idxUp ho.crt0 ho.crt1 (by omega) hu2
    have hnu : L - t.idxUp.toNat = n - 1 := by omega
    rw [hnu] at T'
    obtain ⟨b, eb, -⟩ := computeFwdIZ_ok (S := S) (divz := divz) hB T' e2 e3 e5 e6 o.prevPhaseRed
      o.prevPhase (fun _ => (0 : C))
    rw [e1, e4, eb, R.ok_bind]
    simp only [R.pure_eq, R.ok_bind]
    refine ⟨_, _, rfl, _, rfl, fun k hk => ?_⟩
    unfold crossfade
    have hupper := (upper_ge S.n S.B hB).2.2
    rw [if_pos (by split <;> [exact lt_of_lt_of_le hk hupper; exact hk])]
    exact hP.add_left _ _ (hP.mul_left _ _ (ha k hk))
  · unfold withUpper
    rw [if_neg hup]
    simp only [R.pure_eq, R.ok_bind]
    exact ⟨_, _, rfl, _, rfl, ha⟩

/-- a state that was held, seen as a regular state -/
def asPlaying (o : Osc K C) : Osc K C := { o with prevPhaseDiff := 1 / 4 }

/-- After a held sample the next forward sample is that of a regular state, unless it uses a lower
table. -/
theorem fwd_asPlaying (h0 : o.prevPhaseDiff = 0) {wt : WavetableData K} (hwt : o.wt = some wt)
    {p d : K} (hidx : ∀ r, wt.findMipMapIndices S.env d = .ok r → o.prevMip ≤ r.2.idx) :
    S.processSampleFwd o p d = S.processSampleFwd (asPlaying o) p d := by
  have hj : ∀ phs (mip : ℤ), o.prevMip ≤ mip → adjustJ phs mip o.prevMip o.jRed 0 o.prevPhaseRed =
      adjustJ phs mip o.prevMip o.jRed (1 / 4) o.prevPhaseRed := by
    intro phs mip hm
    unfold adjustJ
    rw [if_neg (c := mip < o.prevMip) (by omega), if_neg (c := mip < o.prevMip) (by omega)]
  have hp : ∀ phs j, prevJFwd S.env.fl phs j 0 o.prevPhaseRed =
      prevJFwd S.env.fl phs j (1 / 4) o.prevPhaseRed := by
    intro phs j
    unfold prevJFwd
    rw [if_pos (le_refl (0 : K)), if_pos (show (1 / 4 : K) ≥ 0 by norm_num)]
  unfold processSampleFwd asPlaying
  dsimp only
  rw [h0, hwt]
  dsimp only
  congr 1
  funext _
  cases hfi : wt.findMipMapIndices S.env d with
  | error e => rfl
  | ok r =>
    obtain ⟨w, t⟩ := r
    simp only [R.ok_bind]
    simp only [hj _ _ (hidx _ hfi), hp]

theorem held_asPlaying (h0 : o.prevPhaseDiff = 0) {wt : WavetableData K} (hwt : o.wt = some wt)
    {p : K} (hidx : ∀ r, wt.findMipMapIndices S.env 0 = .ok r → o.prevMip ≤ r.2.idx) :
    S.heldSample divz o p = S.heldSample divz (asPlaying o) p := by
  have hj : ∀ phs (mip : ℤ), o.prevMip ≤ mip → adjustJ phs mip o.prevMip o.jRed 0 o.prevPhaseRed =
      adjustJ phs mip o.prevMip o.jRed (1 / 4) o.prevPhaseRed := by
    intro phs mip hm
    unfold adjustJ
    rw [if_neg (c := mip < o.prevMip) (by omega), if_neg (c := mip < o.prevMip) (by omega)]
  have hp : ∀ phs j, prevJFwd S.env.fl phs j 0 o.prevPhaseRed =
      prevJFwd S.env.fl phs j (1 / 4) o.prevPhaseRed := by
    intro phs j
    unfold prevJFwd
    rw [if_pos (le_refl (0 : K)), if_pos (show (1 / 4 : K) ≥ 0 by norm_num)]
  unfold heldSample asPlaying
  dsimp only
  rw [h0, hwt]
  dsimp only
  congr 1
  funext _
  cases hfi : wt.findMipMapIndices S.env 0 with
  | error e => rfl
  | ok r =>
    obtain ⟨w, t⟩ := r
    simp only [R.ok_bind]
    simp only [hj _ _ (hidx _ hfi), hp]

/-- step 0 in both modes -/
theorem stepZ_hold (hf : Rounding S.env.fl) (dir : Direction) :
    S.stepZ divz dir o o.prevPhase = S.heldSample divz o o.prevPhase := by
  cases dir with
  | kForward =>
    rw [stepZ_fwd, if_pos]
    unfold fwdDiff
    dsimp only
    rw [sub_self, hf.zero, if_neg (lt_irrefl _)]
  | kBidirectionnal =>
    rw [stepZ_bi, if_pos]
    unfold biDiff
    dsimp only
    rw [sub_self, hf.zero, if_neg (by norm_num), if_neg (by norm_num)]

/-- the crossfader is on its way to octave 0, or there -/
def Down (c : CrossFader K) : Prop := c.nextIdx = 0 ∧ (c.prevIdx = 0 ∨ c.prevIdx = 1)

theorem find_zero_eq (hf : Rounding S.env.fl) (hdbg : S.env.dbg = false) {wt : WavetableData K}
    (hw : WtOk nw L wt) :
    ∃ t, wt.findMipMapIndices S.env 0 = .ok ({ wt with cf := wt.cf.nextState 0 }, t) ∧
      WtOk nw L { wt with cf := wt.cf.nextState 0 } ∧ 0 ≤ t.idx ∧ t.idx < (L : ℤ) - 1 ∧
      (t.weightUp ≠ 0 → t.idxUp = t.idx + 1 ∧ t.idxUp < (L : ℤ) - 1) ∧
      (Down (wt.cf.nextState 0) → t.idx = 0) := by
  have hpos : (0 : K) < 1 / 2 ^ L := by positivity
  obtain ⟨c, t, h1, h2, h3, h4, h5, h6⟩ := find_zero' (S := S) hf hdbg hw
  have e2 : CrossFader.findLoop ((1 : K) / 2 ^ L) wt.cf.scale = 0 := by
    have : (CrossFader.findLoop ((1 : K) / 2 ^ L) wt.cf.scale : ℤ) = 0 := by
      rw [hw.scale]
      apply CrossFader.findLoop_of_octave hw.L2
      have := hw.L2
      refine ⟨le_rfl, by omega, Or.inl rfl, Or.inr ?_⟩
      exact div_lt_div_of_pos_right (by norm_num) (by positivity)
    exact_mod_cast this
  obtain ⟨t', e, hc⟩ := newIndices_eq (E := S.env) hf hw.inv hpos
  rw [e2] at e hc
  rw [h2] at e
  have he := Except.ok.inj e
  have hc' : c = wt.cf.nextState 0 := congrArg Prod.fst he
  have ht' : t = t' := congrArg Prod.snd he
  subst hc' ht'
  refine ⟨t, h1, h3, h4, h5, h6, ?_⟩
  rintro ⟨d1, d2⟩
  rcases hc with ⟨s0, s1, s2⟩ | ⟨-, f, -, s2⟩
  · rw [s2]; exact s1.symm
  · rw [Nat.cast_zero, if_neg (by omega)] at s2
    rw [s2]; exact d1

theorem down_next {c : CrossFader K} (h : c.Inv) (hc : Down c ∨ 1 ≤ c.prevIdx) : Down (c.nextState 0) := by
  have := h.fading
  have := h.idle
  have := h.next0
  unfold Down at *
  unfold nextState continueFade updateIndices
  dsimp only
  split_ifs <;> (try dsimp only at *) <;> omega

/-- the state while a quarter phase is held -/
structure Held (S : Sys K C) (nw L : ℕ) (o : Osc K C) : Prop where
  diff : o.prevPhaseDiff = 0
  mip : o.prevMip = 0
  play : OscPlay S nw L (asPlaying o)
  down : ∀ wt, o.wt = some wt → Down wt.cf

/-- the state after a held sample that used table 0 -/
theorem held_state {wt : WavetableData K} (hw' : WtOk nw L wt) (hd : Down wt.cf)
    (ho : OscPlay S nw L o) {y : List C} {jp : ℤ} :
    Held S nw L
       { wt := some wt, prevY := y, prevPhase := o.prevPhase,
         prevPhaseRed := o.prevPhase, prevPhaseDiff := 0, prevMip := 0,
         jRed := ⌊o.prevPhase * 2 ^ (L - Int.toNat 0)⌋,
         prevJRed := jp, crt := o.crt } := by
  have hL := hw'.L18
  have hL2 := hw'.L2
  obtain ⟨f0, f1⟩ := floor_range (n := L - Int.toNat 0) (by omega) ho.p0 ho.p1
  have h4 : (0 : K) < 1 / 4 := by norm_num
  refine ⟨rfl, rfl, ⟨⟨⟨_, rfl, hw'⟩, le_rfl, ?_, f0, f1.le, fun _ => f1, ?_, ho.p0, ho.p1, rfl,
    ho.fl, ?_, fun _ => rfl, ?_⟩, ho.crt0, ho.crt1⟩, ?_⟩
  · show (0 : ℤ) < _; omega
  · intro h; exact absurd h (not_lt.2 h4.le)
  · exact h4.ne'
  · intro h; exact absurd h (not_lt.2 h4.le)
  · intro wt' h; cases h; exact hd

/-- the first held sample -/
theorem held_first (hf : Rounding S.env.fl) (hB : 0 < S.B) (hdbg : S.env.dbg = false)
    (hP : Poison Bad) (hz : ∀ k old, Bad (divz 0 k old)) (ho : OscPlay S nw L o) {m : ℤ}
    (hm : o.prevPhase * 4 = m) (hd : 0 < o.prevPhaseDiff)
    (hdown : ∀ wt, o.wt = some wt → Down wt.cf ∨ 1 ≤ wt.cf.prevIdx) (dir : Direction) :
    ∃ o' a, S.stepZ divz dir o o.prevPhase = .ok (o', S.outReal o'.prevY) ∧ Held S nw L o' ∧
      o'.prevPhase = o.prevPhase ∧ o'.prevY = S.cpxY o.prevY a ∧ ∀ k < S.n, Bad (a k) := by
  obtain ⟨wt, hwt, hw⟩ := ho.wt
  obtain ⟨t, h1, h2, h3, h4, h5, h6⟩ := find_zero_eq (S := S) hf hdbg hw
  have hdn := down_next hw.inv (hdown wt hwt)
  obtain ⟨y, jp, e, a, ha, hb⟩ := held_quarter (Bad := Bad) (divz := divz) hf hB hdbg hP hz hwt hw ho hm h1 h2 h3 h4 h5
    (fun h => absurd h (not_lt.2 hd.le))
  have hst := held_state (S := S) (y := y) (jp := jp) h2 hdn ho
  rw [h6 hdn] at e
  exact ⟨_, a, (stepZ_hold hf dir).trans e, hst, rfl, ha, hb⟩

/-- the following ones -/
theorem held_next (hf : Rounding S.env.fl) (hB : 0 < S.B) (hdbg : S.env.dbg = false)
    (hP : Poison Bad) (hz : ∀ k old, Bad (divz 0 k old)) (ho : Held S nw L o) {m : ℤ}
    (hm : o.prevPhase * 4 = m) (dir : Direction) :
    ∃ o' a, S.stepZ divz dir o o.prevPhase = .ok (o', S.outReal o'.prevY) ∧ Held S nw L o' ∧
      o'.prevPhase = o.prevPhase ∧ o'.prevY = S.cpxY o.prevY a ∧ ∀ k < S.n, Bad (a k) := by
  obtain ⟨wt, hwt, hw⟩ := ho.play.wt
  obtain ⟨t, h1, h2, h3, h4, h5, h6⟩ := find_zero_eq (S := S) hf hdbg hw
  have hwt' : o.wt = some wt := hwt
  have e := held_asPlaying (S := S) (divz := divz) ho.diff hwt' (p := o.prevPhase) (by
    intro r hr
    rw [h1] at hr
    cases hr
    rw [ho.mip]; exact h3)
  obtain ⟨o', a, e1, e2, e3, e4, e5⟩ := held_first (Bad := Bad) (divz := divz) hf hB hdbg hP hz ho.play hm
    (by show (0 : K) < 1 / 4; norm_num) (fun w h => Or.inl (ho.down w h)) dir
  rw [stepZ_hold hf dir] at e1
  exact ⟨o', a, (stepZ_hold hf dir).trans (e.trans e1), e2, e3, e4, e5⟩

theorem held_run (hf : Rounding S.env.fl) (hB : 0 < S.B) (hdbg : S.env.dbg = false)
    (hP : Poison Bad) (hz : ∀ k old, Bad (divz 0 k old)) (dir : Direction) (n : ℕ) :
    ∀ {o : Osc K C}, Held S nw L o → ∀ {m : ℤ}, o.prevPhase * 4 = m →
    ∃ o' ys, S.runZ divz dir o (List.replicate n o.prevPhase) = .ok (o', ys) ∧ Held S nw L o' ∧
      o'.prevPhase = o.prevPhase ∧ ys.length = n := by
  induction n with
  | zero => intro o ho m hm; exact ⟨o, [], rfl, ho, rfl, rfl⟩
  | succ n ih =>
    intro o ho m hm
    obtain ⟨o1, a, e1, h1, p1, -⟩ := held_next (Bad := Bad) (divz := divz) hf hB hdbg hP hz ho hm dir
    obtain ⟨o2, ys, e2, h2, p2, l2⟩ := ih h1 (m := m) (by rw [p1]; exact hm)
    refine ⟨o2, S.outReal o1.prevY :: ys, ?_, h2, p2.trans p1, by simp [l2]⟩
    rw [List.replicate_succ]
    unfold runZ
    rw [e1, R.ok_bind]
    dsimp only
    rw [← p1, e2, R.ok_bind]
    rfl

/-- playing on forward from a held state -/
theorem held_forward (hf : Rounding S.env.fl) (hB : 0 < S.B) (ho : Held S nw L o) {ps : List K}
    (h : BlockOk S.env.fl .kForward o.prevPhase ps) :
    ∃ r, S.runZ divz .kForward o ps = .ok r ∧ r.2.length = ps.length := by
  cases ps with
  | nil => exact ⟨_, rfl, rfl⟩
  | cons p ps =>
    have hs : OscSafe S nw L (asPlaying o) := ⟨ho.play, fun h => absurd h (by
      show ¬ (1 / 4 : K) < 0; norm_num)⟩
    obtain ⟨r, e, -, -, -, l⟩ := run_ok hf hB hs (dir := .kForward) (ps := p :: ps) (blockOk_safe h)
    refine ⟨r, runZ_ext ?_, l⟩
    rw [← e]
    obtain ⟨hp, hst, -⟩ := h
    obtain ⟨wt, hwt, hw⟩ := ho.play.wt
    unfold runDir
    have : S.stepDir .kForward o p = S.stepDir .kForward (asPlaying o) p := by
      show S.stepFwd o p = S.stepFwd (asPlaying o) p
      rw [stepFwd_eq hf ho.play.toOscOk hp hst]
      obtain ⟨d0, d1⟩ := fwdDiff_range hf ho.play.toOscOk.phase hp hst
      rw [← fwd_asPlaying (S := S) ho.diff (show o.wt = some wt from hwt)]
      · unfold stepFwd
        dsimp only
        rw [chk_true]
        · rfl
        · exact ⟨d0, d1⟩
      · intro r hr
        obtain ⟨c, t, -, h1, -, -, h3, -⟩ := find_spec hf hw d0
        rw [h1] at hr
        cases hr
        rw [ho.mip]; exact h3
    rw [this]

end Sys
end Adwt
