import Verif.Props.Reset
import Verif.Spec.Tests
import Verif.Model.Tests

/-!
# C78, C80: changing the samplerate, then resetting, is a fresh start
-/

set_option linter.unusedSectionVars false

namespace Adwt.Props
open WavetableData
variable {K C : Type} [Field K] [LinearOrder K] [IsStrictOrderedRing K] [FloorRing K]
variable [Zero C] [Add C] [Sub C] [Mul C] [Div C]

theorem reset_crt (S : Sys K C) (o : Osc K C) (c : ℤ) (p d : K) :
    S.resetInternals { o with crt := c } p d =
      (S.resetInternals o p d >>= fun o' => .ok { o' with crt := c }) := by
  unfold Sys.resetInternals
  dsimp only
  cases hw : o.wt with
  | none =>
    dsimp only
    unfold chk
    split <;> rfl
  | some wt =>
    dsimp only
    cases h1 : Maths.reduceF S.env p 1 with
    | error e => rfl
    | ok pr =>
      rw [R.ok_bind, R.ok_bind]
      cases h2 : wt.findMipMapIndices S.env |d| with
      | error e => rfl
      | ok a =>
        obtain ⟨wt', t⟩ := a
        rw [R.ok_bind, R.ok_bind]
        dsimp only
        cases h3 : wt'.waveformLen t.idx with
        | error e => rfl
        | ok len =>
          rw [R.ok_bind, R.ok_bind]
          cases h4 : Sys.segIndex S.env.fl (d ≥ 0) (S.env.fl (pr * S.env.fl (len : K))) <;> rfl

theorem reset_some {S : Sys K C} {o o' : Osc K C} {p d : K} (h : S.resetInternals o p d = .ok o') :
    o'.wt.isSome = true := by
  obtain ⟨⟨w, w', -, e, -⟩, -⟩ := Sys.reset_tables h
  rw [e]; rfl

theorem runOps_nil {o : Osc K C} (x : R (Osc K C × List K)) :
    (do let (_, y1) ← (.ok (o, []) : R (Osc K C × List K))
        let (o2, y2) ← x
        return (o2, y1 ++ y2)) = x := by
  cases x <;> rfl

theorem runOps_reset (S : Sys K C) (f : Osc K C) (p d : K) (ops : List (Op K)) :
    runOps S f (.reset p d :: ops) = (S.resetInternals f p d >>= fun o1 => runOps S o1 ops) := by
  conv_lhs => unfold runOps
  unfold runOp
  dsimp only
  cases S.resetInternals f p d with
  | error e => rfl
  | ok o1 => exact runOps_nil (o := o1) _

theorem reset_set (S : Sys K C) (f : Osc K C) (c : ℤ) (p d : K) (ops : List (Op K)) :
    outputs (runOps S { f with crt := c } (.reset p d :: ops)) =
      (S.resetInternals f p d >>= fun o1 =>
        outputs (runOps S { o1 with crt := 0 } (.setWaveform c :: ops))) := by
  rw [runOps_reset, reset_crt]
  cases h : S.resetInternals f p d with
  | error e => rfl
  | ok o1 =>
    have hs := reset_some h
    rw [R.ok_bind, R.ok_bind, R.ok_bind]
    conv_rhs => unfold runOps
    unfold runOp Sys.setWaveform
    dsimp only
    rw [chk_true hs, R.ok_bind]
    congr 1
    exact (runOps_nil (o := { o1 with crt := c }) _).symm

/-- after `resetInternals`, an oscillator with the wavetable `w` and one that is new -/
theorem reset_fresh (S : Sys K C) (o : Osc K C) (w : WavetableData K) (p d : K) (ops : List (Op K)) :
    outputs (runOps S { o with wt := some w } (.reset p d :: ops)) = freshRun S w p d o.crt ops := by
  rw [Sys.reset_congr (S := S) (o := { o with wt := some w })
    (o' := { wt := some w, prevY := S.fresh.prevY, prevPhase := S.fresh.prevPhase,
             prevPhaseRed := S.fresh.prevPhaseRed, prevPhaseDiff := S.fresh.prevPhaseDiff,
             prevMip := S.fresh.prevMip, jRed := S.fresh.jRed, prevJRed := S.fresh.prevJRed,
             crt := o.crt }) rfl rfl p d ops]
  have := reset_set S { S.fresh with wt := some w } o.crt p d ops
  refine this.trans ?_
  unfold freshRun Sys.init
  dsimp only
  cases h : S.resetInternals { S.fresh with wt := some w } p d with
  | error e => rfl
  | ok o1 => rfl

/-- the wavetable after the change of the samplerate -/
theorem update_wt {S : Sys K C} {o o1 : Osc K C} {sr : K} (h : S.updateSamplerate o sr = .ok o1) :
    ∃ wt wt', o.wt = some wt ∧ WavetableData.updateSamplerate S.env wt sr (defaultDuration S.env) = .ok wt' ∧
      o1 = { o with wt := some wt' } := by
  unfold Sys.updateSamplerate at h
  cases hw : o.wt with
  | none =>
    rw [hw] at h
    obtain ⟨_, _, h⟩ := bind_ok h
    cases h
  | some wt =>
    rw [hw] at h
    obtain ⟨wt', e', h⟩ := bind_ok h
    cases h
    exact ⟨wt, wt', rfl, e', rfl⟩

/-- C78: after `updateSamplerate(sr)` and `resetInternals(p, d)` an oscillator in any state, whatever it
played before, cannot be told from a new one: there is a wavetable that `build` makes at that samplerate
with the default crossfade duration, and everything that is played from then on is what a new oscillator
initialised with that wavetable, with the same waveform selected, plays. Any arithmetic, any later calls. -/
theorem C78_fresh (S : Sys K C) (o o1 : Osc K C) (sr : K) (h : S.updateSamplerate o sr = .ok o1) :
    ∃ ws nw wt, build S.env ws nw sr (defaultDuration S.env) = .ok (some wt) ∧
      ∀ p d ops, outputs (runOps S o1 (.reset p d :: ops)) = freshRun S wt p d o.crt ops := by
  obtain ⟨wt, wt', -, e, rfl⟩ := update_wt h
  unfold WavetableData.updateSamplerate at e
  obtain ⟨ws, -, e⟩ := bind_ok e
  obtain ⟨nd, e2, e⟩ := bind_ok e
  cases nd with
  | none => cases e
  | some d =>
    cases e
    exact ⟨ws, _, _, e2, fun p d ops => reset_fresh S o _ p d ops⟩

/-- C78, exact arithmetic: the new oscillator is one built from the same samples. -/
theorem C78_exact (S : Sys K C) (he : S.env.fl = id) (hl : Log2Spec S.env.log2f) (ws : List K) (nw L : ℕ)
    (o o1 : Osc K C) (ho : HeldTables S ws nw L o) (sr : K) (h : S.updateSamplerate o sr = .ok o1) :
    ∃ wt, build S.env ws nw sr (defaultDuration S.env) = .ok (some wt) ∧
      ∀ p d ops, outputs (runOps S o1 (.reset p d :: ops)) = freshRun S wt p d o.crt ops := by
  obtain ⟨sr0, dur, wt0, w, hs0, hlen, hb, hw, ht⟩ := ho
  obtain ⟨wt, wt', hw', e, rfl⟩ := update_wt h
  rw [hw] at hw'; cases hw'
  rw [tables_eq ht, (C09_update S.env he hl ws nw sr0 dur wt0 hb _ sr _).2] at e
  exact ⟨wt', e, fun p d ops => reset_fresh S o _ p d ops⟩

/-- C78, IEEE arithmetic: it is one built from samples that differ by at most `(6*len + 5) * A / 2^24`. -/
theorem C78_ieee (S : Sys K C) (he : S.env.fl = ieee32) (hdbl : ∀ x, |S.env.dbl x - x| ≤ |x| / 2 ^ 53)
    (hl : Log2Spec S.env.log2f) (ws : List K) (nw L : ℕ)
    (o o1 : Osc K C) (ho : HeldTables S ws nw L o) (A : K) (hA0 : 1 / 2 ^ 126 ≤ A) (hA1 : A ≤ 2 ^ 100)
    (hA : ∀ y ∈ ws, |y| ≤ A) (sr : K) (h : S.updateSamplerate o sr = .ok o1) :
    ∃ ws' wt, List.Forall₂ (fun y y' => |y' - y| ≤ (6 * 2 ^ L + 5) * A / 2 ^ 24) ws ws' ∧
      build S.env ws' nw sr (defaultDuration S.env) = .ok (some wt) ∧
      ∀ p d ops, outputs (runOps S o1 (.reset p d :: ops)) = freshRun S wt p d o.crt ops := by
  obtain ⟨sr0, dur, wt0, w, hs0, hlen, hb, hw, ht⟩ := ho
  obtain ⟨wt, wt', hw', e, rfl⟩ := update_wt h
  rw [hw] at hw'; cases hw'
  rw [tables_eq ht] at e
  obtain ⟨ws', e1, e2⟩ := C12_accuracy S.env he hdbl hl ws nw L hlen sr0 dur hs0 wt0 hb _ A hA0 hA1
    hA sr _ wt' e
  exact ⟨ws', wt', e2, e1, fun p d ops => reset_fresh S o _ p d ops⟩

/-! ### C80 -/

theorem forall₂_right {R : K → K → Prop} {l l' : List K} (h : List.Forall₂ R l l') {y : K} (hy : y ∈ l') :
    ∃ x ∈ l, R x y := by
  induction h with
  | nil => cases hy
  | @cons a b l l' hab h ih =>
    rcases List.mem_cons.1 hy with rfl | hy
    · exact ⟨a, List.mem_cons_self, hab⟩
    · obtain ⟨x, hx, hr⟩ := ih hy
      exact ⟨x, List.mem_cons_of_mem _ hx, hr⟩

theorem forall₂_trans {R Q T : K → K → Prop} {l l' l'' : List K} (h : List.Forall₂ R l l')
    (h' : List.Forall₂ Q l' l'') (ht : ∀ x y z, R x y → Q y z → T x z) : List.Forall₂ T l l'' := by
  induction h generalizing l'' with
  | nil => cases h'; exact .nil
  | cons hab h ih =>
    cases h' with
    | cons hbc h' => exact .cons (ht _ _ _ hab hbc) (ih h')

theorem held_same {S : Sys K C} {ws : List K} {nw L : ℕ} {o o' : Osc K C} (h : HeldTables S ws nw L o)
    (hs : SameTables o o') : HeldTables S ws nw L o' := by
  obtain ⟨sr, dur, wt0, wt, hs0, hlen, hb, hw, ht⟩ := h
  obtain ⟨w1, w2, e1, e2, e3⟩ := hs
  rw [hw] at e1; cases e1
  exact ⟨sr, dur, wt0, w2, hs0, hlen, hb, e2, e3.trans ht⟩

theorem held_some {S : Sys K C} {ws : List K} {nw L : ℕ} {o : Osc K C} (h : HeldTables S ws nw L o) :
    o.wt.isSome = true := by
  obtain ⟨sr, dur, wt0, wt, hs0, hlen, hb, hw, ht⟩ := h
  rw [hw]; rfl

theorem set_same {S : Sys K C} {ws : List K} {nw L : ℕ} {o o' : Osc K C} (h : HeldTables S ws nw L o)
    {i : ℤ} (hs : S.setWaveform o i = .ok o') : HeldTables S ws nw L o' := by
  unfold Sys.setWaveform at hs
  obtain ⟨_, _, hs⟩ := bind_ok hs
  cases hs
  exact h

/-- the histories of C80 are histories of legal calls -/
theorem Since.reached {S : Sys K C} {ws : List K} {nw L k : ℕ} {o : Osc K C} (h : Since S ws nw L k o) :
    Reached S nw L o := by
  induction h with
  | init hb hi h => exact .init hb hi h
  | process ho hp hl h ih => exact .process ih hp hl h
  | setWaveform ho h0 h1 h ih => exact .setWaveform ih h0 h1 h
  | reset ho hi h ih => exact .reset ih hi h
  | updateSamplerate ho hs hx h ih => exact .updateSamplerate ih hs hx h

/-- C80, exact arithmetic: however often the samplerate is changed, the tables remain those of the
original samples. -/
theorem C80_exact (S : Sys K C) (he : S.env.fl = id) (hl : Log2Spec S.env.log2f) (ws : List K) (nw L k : ℕ)
    (o : Osc K C) (h : Since S ws nw L k o) : HeldTables S ws nw L o := by
  induction h with
  | init hb hi h =>
    obtain ⟨wt', e1, e2⟩ := Sys.init_tables h
    exact ⟨_, _, _, _, hb.1, hb.2.2.1, hb.2.2.2, e1, e2⟩
  | process ho hp hl h ih => exact held_same ih (Sys.process_tables (held_some ih) h).1
  | setWaveform ho h0 h1 h ih => exact set_same ih h
  | reset ho hi h ih => exact held_same ih (Sys.reset_tables h).1
  | updateSamplerate ho hs hx h ih =>
    obtain ⟨sr0, dur, wt0, w, hs0, hlen, hb, hw, ht⟩ := ih
    obtain ⟨wt, wt', hw', e, rfl⟩ := update_wt h
    rw [hw] at hw'; cases hw'
    rw [tables_eq ht, (C09_update S.env he hl ws nw sr0 dur wt0 hb _ _ _).2] at e
    exact ⟨_, _, wt', wt', hs, hlen, e, rfl, rfl⟩

/-- C80, IEEE arithmetic: after `k` changes of the samplerate, with anything played in between, the tables
are those which `build` makes from samples that differ from the original ones by at most
`((1 + c)^k - 1) * A`, `c = (6*len + 5) / 2^24`. -/
theorem C80_drift (S : Sys K C) (he : S.env.fl = ieee32) (hdbl : ∀ x, |S.env.dbl x - x| ≤ |x| / 2 ^ 53)
    (hl : Log2Spec S.env.log2f) (ws : List K) (nw L k : ℕ) (A : K) (hA0 : 1 / 2 ^ 126 ≤ A)
    (hA1 : (1 + (6 * 2 ^ L + 5) / 2 ^ 24) ^ k * A ≤ 2 ^ 100) (hA : ∀ y ∈ ws, |y| ≤ A) (o : Osc K C)
    (h : Since S ws nw L k o) :
    ∃ ws', HeldTables S ws' nw L o ∧ List.Forall₂ (fun y y' =>
      |y' - y| ≤ ((1 + (6 * 2 ^ L + 5) / 2 ^ 24) ^ k - 1) * A) ws ws' := by
  obtain ⟨c, hc⟩ : ∃ c : K, c = (6 * 2 ^ L + 5) / 2 ^ 24 := ⟨_, rfl⟩
  have hc0 : 0 ≤ c := by rw [hc]; positivity
  have hApos : 0 ≤ A := le_trans (by positivity) hA0
  rw [← hc] at hA1 ⊢
  induction h with
  | init hb hi h =>
    obtain ⟨wt', e1, e2⟩ := Sys.init_tables h
    refine ⟨ws, ⟨_, _, _, _, hb.1, hb.2.2.1, hb.2.2.2, e1, e2⟩, List.forall₂_same.2 fun y _ => by simp⟩
  | process ho hp hl h ih =>
    obtain ⟨ws', ih, hr⟩ := ih hA1
    exact ⟨ws', held_same ih (Sys.process_tables (held_some ih) h).1, hr⟩
  | setWaveform ho h0 h1 h ih =>
    obtain ⟨ws', ih, hr⟩ := ih hA1
    exact ⟨ws', set_same ih h, hr⟩
  | reset ho hi h ih =>
    obtain ⟨ws', ih, hr⟩ := ih hA1
    exact ⟨ws', held_same ih (Sys.reset_tables h).1, hr⟩
  | @updateSamplerate k o sr o' ho hs hx h ih =>
    have hk : (1 : K) ≤ (1 + c) ^ k := one_le_pow₀ (by linarith)
    have hle : (1 + c) ^ k * A ≤ (1 + c) ^ (k + 1) * A :=
      mul_le_mul_of_nonneg_right (pow_le_pow_right₀ (by linarith) (by omega)) hApos
    obtain ⟨ws', ih, hr⟩ := ih (hle.trans hA1)
    obtain ⟨sr0, dur, wt0, w, hs0, hlen, hb, hw, ht⟩ := ih
    obtain ⟨wt, wt', hw', e, rfl⟩ := update_wt h
    rw [hw] at hw'; cases hw'
    rw [tables_eq ht] at e
    have hA' : ∀ y ∈ ws', |y| ≤ (1 + c) ^ k * A := by
      intro y hy
      obtain ⟨x, hx, hxy⟩ := forall₂_right hr hy
      have h1 := hA x hx
      have h2 : |y| ≤ |y - x| + |x| := by
        have := abs_add_le (y - x) x
        rwa [sub_add_cancel] at this
      have : ((1 + c) ^ k - 1) * A = (1 + c) ^ k * A - A := by ring
      linarith
    obtain ⟨ws2, e1, e2⟩ := C12_accuracy S.env he hdbl hl ws' nw L hlen sr0 dur hs0 wt0 hb _
      ((1 + c) ^ k * A) (hA0.trans (le_mul_of_one_le_left hApos hk)) (hle.trans hA1) hA' sr _ wt' e
    have hl2 : ws2.length = nw * 2 ^ L := by rw [← e2.length_eq, hlen]
    refine ⟨ws2, ⟨_, _, wt', wt', hs, hl2, e1, rfl, rfl⟩, ?_⟩
    refine forall₂_trans hr e2 ?_
    intro x y z h1 h2
    have h3 : |z - x| ≤ |z - y| + |y - x| := abs_sub_le z y x
    have h4 : (6 * 2 ^ L + 5) * ((1 + c) ^ k * A) / 2 ^ 24 = c * ((1 + c) ^ k * A) := by rw [hc]; ring
    rw [h4] at h2
    have h5 : ((1 + c) ^ (k + 1) - 1) * A = c * ((1 + c) ^ k * A) + ((1 + c) ^ k - 1) * A := by
      rw [pow_succ]; ring
    linarith

/-- C80, IEEE arithmetic: after such a history, a further change of the samplerate and `resetInternals` start
an oscillator that cannot be told from a new one, built from samples that differ from the original ones by at
most `((1 + c)^(k+1) - 1) * A`. -/
theorem C80_fresh (S : Sys K C) (he : S.env.fl = ieee32) (hdbl : ∀ x, |S.env.dbl x - x| ≤ |x| / 2 ^ 53)
    (hl : Log2Spec S.env.log2f) (ws : List K) (nw L k : ℕ) (A : K) (hA0 : 1 / 2 ^ 126 ≤ A)
    (hA1 : (1 + (6 * 2 ^ L + 5) / 2 ^ 24) ^ k * A ≤ 2 ^ 100) (hA : ∀ y ∈ ws, |y| ≤ A) (o o1 : Osc K C)
    (h : Since S ws nw L k o) (sr : K) (hu : S.updateSamplerate o sr = .ok o1) :
    ∃ ws' wt, List.Forall₂ (fun y y' =>
        |y' - y| ≤ ((1 + (6 * 2 ^ L + 5) / 2 ^ 24) ^ (k + 1) - 1) * A) ws ws' ∧
      build S.env ws' nw sr (defaultDuration S.env) = .ok (some wt) ∧
      ∀ p d ops, outputs (runOps S o1 (.reset p d :: ops)) = freshRun S wt p d o.crt ops := by
  have hApos : 0 ≤ A := le_trans (by positivity) hA0
  obtain ⟨ws', hh, hr⟩ := C80_drift S he hdbl hl ws nw L k A hA0 hA1 hA o h
  obtain ⟨c, hc⟩ : ∃ c : K, c = (6 * 2 ^ L + 5) / 2 ^ 24 := ⟨_, rfl⟩
  have hc0 : 0 ≤ c := by rw [hc]; positivity
  rw [← hc] at hA1 hr ⊢
  have hk : (1 : K) ≤ (1 + c) ^ k := one_le_pow₀ (by linarith)
  have hA' : ∀ y ∈ ws', |y| ≤ (1 + c) ^ k * A := by
    intro y hy
    obtain ⟨x, hx, hxy⟩ := forall₂_right hr hy
    have h1 := hA x hx
    have h2 : |y| ≤ |y - x| + |x| := by
      have := abs_add_le (y - x) x
      rwa [sub_add_cancel] at this
    have : ((1 + c) ^ k - 1) * A = (1 + c) ^ k * A - A := by ring
    linarith
  obtain ⟨ws2, wt, e1, e2, e3⟩ := C78_ieee S he hdbl hl ws' nw L o o1 hh ((1 + c) ^ k * A)
    (hA0.trans (le_mul_of_one_le_left hApos hk)) hA1 hA' sr hu
  refine ⟨ws2, wt, forall₂_trans hr e1 ?_, e2, e3⟩
  intro x y z h1 h2
  have h3 : |z - x| ≤ |z - y| + |y - x| := abs_sub_le z y x
  have h4 : (6 * 2 ^ L + 5) * ((1 + c) ^ k * A) / 2 ^ 24 = c * ((1 + c) ^ k * A) := by rw [hc]; ring
  rw [h4] at h2
  have h5 : ((1 + c) ^ (k + 1) - 1) * A = c * ((1 + c) ^ k * A) + ((1 + c) ^ k - 1) * A := by
    rw [pow_succ]; ring
  linarith

/-- C80: for `len ≤ 2048` and samples in `[-1, 1]`, five changes of the samplerate stay within the documented
`4e-3`. -/
theorem C80_documented (S : Sys K C) (he : S.env.fl = ieee32)
    (hdbl : ∀ x, |S.env.dbl x - x| ≤ |x| / 2 ^ 53)
    (hl : Log2Spec S.env.log2f) (ws : List K) (nw L k : ℕ) (hL : 2 ^ L ≤ 2048) (hk : k ≤ 5)
    (hA : ∀ y ∈ ws, |y| ≤ 1) (o : Osc K C) (h : Since S ws nw L k o) :
    ∃ ws', HeldTables S ws' nw L o ∧ List.Forall₂ (fun y y' => |y' - y| < 4 / 1000) ws ws' := by
  have h2 : (2 : K) ^ L ≤ 2048 := by exact_mod_cast hL
  have h3 : (1 + (6 * 2 ^ L + 5) / 2 ^ 24 : K) ≤ 1 + (6 * 2048 + 5) / 2 ^ 24 := by gcongr
  have h0 : (0 : K) ≤ (6 * 2 ^ L + 5) / 2 ^ 24 := by positivity
  have h4 : (1 + (6 * 2 ^ L + 5) / 2 ^ 24 : K) ^ k ≤ (1 + (6 * 2048 + 5) / 2 ^ 24) ^ 5 :=
    (pow_le_pow_left₀ (by linarith) h3 k).trans (pow_le_pow_right₀ (by norm_num) hk)
  have h5 : (1 + (6 * 2048 + 5) / 2 ^ 24 : K) ^ 5 < 1 + 4 / 1000 := by norm_num
  obtain ⟨ws', a, b⟩ := C80_drift S he hdbl hl ws nw L k 1 (by norm_num)
    (by rw [mul_one]; linarith [show (1 + 4 / 1000 : K) ≤ 2 ^ 100 by norm_num]) hA o h
  refine ⟨ws', a, b.imp fun x y hxy => ?_⟩
  rw [mul_one] at hxy
  linarith

/-! ### the unit test "Update samplerate" -/

theorem rerun_eq {S : Sys K C} {o o' : Osc K C} {sr p d : K} {ps ys : List K}
    (h : Tests.rerun S o sr p d ps = .ok (o', ys)) :
    ∃ o1, S.updateSamplerate o sr = .ok o1 ∧
      outputs (runOps S o1 [.reset p d, .process .kBidirectionnal ps]) = .ok ys ∧ SameTables o1 o' ∧
      o'.crt = o.crt := by
  unfold Tests.rerun at h
  obtain ⟨o1, e1, h⟩ := bind_ok h
  obtain ⟨o2, e2, h⟩ := bind_ok h
  have hs := reset_some e2
  obtain ⟨t1, c1⟩ := Sys.reset_tables e2
  obtain ⟨t2, c2⟩ := Sys.process_tables hs h
  have c0 : o1.crt = o.crt := by
    obtain ⟨_, _, _, _, rfl⟩ := update_wt e1; rfl
  refine ⟨o1, e1, ?_, t1.trans t2, by rw [c2, c1, c0]⟩
  rw [runOps_reset, e2, R.ok_bind]
  unfold runOps runOp
  dsimp only
  rw [h, R.ok_bind]
  unfold runOps
  show Except.ok (ys ++ []) = _
  rw [List.append_nil]

/-- what `init` and one `process` play -/
theorem first_eq {S : Sys K C} {wt : WavetableData K} {p d : K} {o o' : Osc K C} {r : ℤ} {ps ys : List K}
    (h1 : S.init S.fresh (some wt) p d = .ok (o, r))
    (h2 : S.process .kBidirectionnal o ps (List.replicate ps.length 0) = .ok (o', ys)) :
    freshRun S wt p d 0 [.process .kBidirectionnal ps] = .ok ys ∧
      (∃ wt', o'.wt = some wt' ∧ tablesOf wt' = tablesOf wt) ∧ o'.crt = 0 := by
  obtain ⟨wt1, e1, e2⟩ := Sys.init_tables h1
  have hs : o.wt.isSome = true := by rw [e1]; rfl
  obtain ⟨⟨w, w', f1, f2, f3⟩, c2⟩ := Sys.process_tables hs h2
  have c0 : o.crt = 0 := by
    unfold Sys.init at h1
    obtain ⟨x, _, h1⟩ := bind_ok h1
    cases h1; rfl
  refine ⟨?_, ⟨w', f2, ?_⟩, by rw [c2, c0]⟩
  · unfold freshRun
    rw [h1, R.ok_bind]
    dsimp only
    have e : ({ o with crt := 0 } : Osc K C) = o := by rw [← c0]
    have hr : runOps S o [.process .kBidirectionnal ps] = .ok (o', ys ++ []) := by
      unfold runOps runOp
      dsimp only
      rw [h2, R.ok_bind]
      rfl
    unfold runOps
    rw [show runOp S o (.setWaveform 0) = .ok (o, []) from ?_, R.ok_bind]
    · dsimp only
      rw [hr, List.append_nil]; rfl
    · unfold runOp Sys.setWaveform
      dsimp only
      rw [chk_true hs, R.ok_bind, e]; rfl
  · rw [e1] at f1; cases f1; exact f3.trans e2

theorem test_parts {S : Sys K C} {ws : List K} {nw : ℤ} {srA srB p d : K} {ps a1 b1 a2 b2 : List K}
    (h : Tests.updateSamplerate S ws nw srA srB p d ps = .ok (some (a1, b1, a2, b2))) :
    ∃ wt o1 o2 o3 o4 o5 r, build S.env ws nw srA (defaultDuration S.env) = .ok (some wt) ∧
      S.init S.fresh (some wt) p d = .ok (o1, r) ∧
      S.process .kBidirectionnal o1 ps (List.replicate ps.length 0) = .ok (o2, a1) ∧
      Tests.rerun S o2 srB p d ps = .ok (o3, b1) ∧ Tests.rerun S o3 srA p d ps = .ok (o4, a2) ∧
      Tests.rerun S o4 srB p d ps = .ok (o5, b2) := by
  unfold Tests.updateSamplerate at h
  obtain ⟨w, h1, h⟩ := bind_ok h
  obtain ⟨⟨o1, r⟩, h2, h⟩ := bind_ok h
  dsimp only at h
  split at h
  · cases h
  · rename_i hn
    obtain ⟨⟨o2, y1⟩, h3, h⟩ := bind_ok h
    obtain ⟨⟨o3, y2⟩, h4, h⟩ := bind_ok h
    obtain ⟨⟨o4, y3⟩, h5, h⟩ := bind_ok h
    obtain ⟨⟨o5, y4⟩, h6, h⟩ := bind_ok h
    cases h
    cases w with
    | none => exact absurd (Or.inl rfl) hn
    | some wt => exact ⟨wt, o1, o2, o3, o4, o5, r, h1, h2, h3, h4, h5, h6⟩

/-- C78: the unit test "Update samplerate" in exact arithmetic, for all waveforms, samplerates, initial
states and phases: whenever it runs to its end, the outputs that it compares are equal, and they are what
new oscillators built from the same samples at the two samplerates play. -/
theorem C78_unit_test (S : Sys K C) (he : S.env.fl = id) (hl : Log2Spec S.env.log2f) (ws : List K)
    (nw L : ℕ) (hws : ws.length = nw * 2 ^ L) (srA srB p d : K) (ps a1 b1 a2 b2 : List K)
    (h : Tests.updateSamplerate S ws nw srA srB p d ps = .ok (some (a1, b1, a2, b2))) :
    ∃ wtA wtB, build S.env ws nw srA (defaultDuration S.env) = .ok (some wtA) ∧
      build S.env ws nw srB (defaultDuration S.env) = .ok (some wtB) ∧
      freshRun S wtA p d 0 [.process .kBidirectionnal ps] = .ok a1 ∧ a2 = a1 ∧
      freshRun S wtB p d 0 [.process .kBidirectionnal ps] = .ok b1 ∧ b2 = b1 := by
  obtain ⟨wt, o1, o2, o3, o4, o5, r, h1, h2, h3, h4, h5, h6⟩ := test_parts h
  obtain ⟨f1, ⟨wt', f2, f3⟩, f4⟩ := first_eq h2 h3
  have hr : ∀ sr : K, IsRate S.env.fl sr := fun sr => by rw [he]; exact isRate_id sr
  have step : ∀ {o o' : Osc K C} {sr : K} {ys : List K}, HeldTables S ws nw L o → o.crt = 0 →
      Tests.rerun S o sr p d ps = .ok (o', ys) → HeldTables S ws nw L o' ∧ o'.crt = 0 ∧
        ∃ w, build S.env ws nw sr (defaultDuration S.env) = .ok (some w) ∧
          freshRun S w p d 0 [.process .kBidirectionnal ps] = .ok ys := by
    intro o o' sr ys ho hc hrun
    obtain ⟨x, x1, x2, x3, x4⟩ := rerun_eq hrun
    obtain ⟨w, y1, y2⟩ := C78_exact S he hl ws nw L o x ho sr x1
    refine ⟨held_same (o := x) ?_ x3, x4.trans hc, w, y1, ?_⟩
    · obtain ⟨sr0, dur, wt0, w0, hs0, hlen, hb, hw, ht⟩ := ho
      obtain ⟨v, v', hv, e, rfl⟩ := update_wt x1
      rw [hw] at hv; cases hv
      rw [tables_eq ht, (C09_update S.env he hl ws nw sr0 dur wt0 hb _ sr _).2] at e
      exact ⟨_, _, v', v', hr _, hlen, e, rfl, rfl⟩
    · rw [← hc, ← y2]; exact x2
  obtain ⟨k1, c1, wB, bB, pB⟩ := step (o := o2) ⟨srA, _, wt, wt', hr _, hws, h1, f2, f3⟩ f4 h4
  obtain ⟨k2, c2, wA, bA, pA⟩ := step k1 c1 h5
  obtain ⟨-, -, wB', bB', pB'⟩ := step k2 c2 h6
  rw [h1] at bA; cases bA
  rw [bB] at bB'; cases bB'
  rw [f1] at pA; cases pA
  rw [pB] at pB'; cases pB'
  exact ⟨wt, wB, h1, bB, f1, rfl, pB, rfl⟩

/-- C78, IEEE arithmetic: the unit test "Update samplerate" for `len ≤ 2048`, samples in `[-1, 1]`, all
samplerates, initial states and phases on which it runs: A.1 is what a new oscillator plays from the samples,
B.1, A.2 and B.2 what new oscillators play whose samples differ by less than the documented `4e-3`. -/
theorem C78_unit_test_ieee (S : Sys K C) (he : S.env.fl = ieee32)
    (hdbl : ∀ x, |S.env.dbl x - x| ≤ |x| / 2 ^ 53) (hl : Log2Spec S.env.log2f) (ws : List K) (nw L : ℕ)
    (hws : ws.length = nw * 2 ^ L) (hL : 2 ^ L ≤ 2048) (hA : ∀ y ∈ ws, |y| ≤ 1) (srA srB : K)
    (hsA : RateOk S.env srA) (hsB : RateOk S.env srB) (p d : K) (hi : InitOk S.env.fl p d)
    (ps a1 b1 a2 b2 : List K) (hps : BlockOk S.env.fl .kBidirectionnal p ps)
    (h : Tests.updateSamplerate S ws nw srA srB p d ps = .ok (some (a1, b1, a2, b2))) :
    (∃ wt, build S.env ws nw srA (defaultDuration S.env) = .ok (some wt) ∧
      freshRun S wt p d 0 [.process .kBidirectionnal ps] = .ok a1) ∧
    ∀ x ∈ [(srB, b1), (srA, a2), (srB, b2)], ∃ ws' wt,
      List.Forall₂ (fun y y' => |y' - y| < 4 / 1000) ws ws' ∧
      build S.env ws' nw x.1 (defaultDuration S.env) = .ok (some wt) ∧
      freshRun S wt p d 0 [.process .kBidirectionnal ps] = .ok x.2 := by
  obtain ⟨wt, o1, o2, o3, o4, o5, r, h1, h2, h3, h4, h5, h6⟩ := test_parts h
  obtain ⟨f1, -, f4⟩ := first_eq h2 h3
  have hp0 : ∀ {o o' : Osc K C}, S.resetInternals o p d = .ok o' → o'.prevPhase = p := by
    intro o o' h
    unfold Sys.resetInternals at h
    cases hw : o.wt with
    | none => rw [hw] at h; obtain ⟨_, _, h⟩ := bind_ok h; cases h
    | some wt =>
      rw [hw] at h
      dsimp only at h
      obtain ⟨_, _, h⟩ := bind_ok h
      obtain ⟨_, _, h⟩ := bind_ok h
      obtain ⟨_, _, h⟩ := bind_ok h
      obtain ⟨_, _, h⟩ := bind_ok h
      cases h
      rfl
  have hlen : ps.length = (List.replicate ps.length (0 : K)).length := by simp
  have s1 : Since S ws nw L 0 o1 := .init ⟨hsA.2.1, hsA.2.2.1, hws, h1⟩ hi h2
  have p1 : o1.prevPhase = p := by
    unfold Sys.init at h2
    obtain ⟨x, hx, h2⟩ := bind_ok h2
    cases h2
    have := hp0 hx
    exact this
  have s2 : Since S ws nw L 0 o2 :=
    .process s1 (dir := .kBidirectionnal) (ps := ps) (out := List.replicate ps.length 0)
      (by rw [p1]; exact hps) hlen h3
  have h24 : (2 : K) ^ L ≤ 2048 := by exact_mod_cast hL
  have hc : (1 + (6 * 2 ^ L + 5) / 2 ^ 24 : K) ≤ 1 + (6 * 2048 + 5) / 2 ^ 24 := by gcongr
  have hc0 : (0 : K) ≤ (6 * 2 ^ L + 5) / 2 ^ 24 := by positivity
  have hk : ∀ k ≤ 3, (1 + (6 * 2 ^ L + 5) / 2 ^ 24 : K) ^ k < 1 + 4 / 1000 := by
    intro k hk
    refine lt_of_le_of_lt ((pow_le_pow_left₀ (by linarith) hc k).trans
      (pow_le_pow_right₀ (by norm_num) hk)) ?_
    norm_num
  have step : ∀ {k : ℕ} {o o' : Osc K C} {sr : K} {ys : List K}, k ≤ 2 → RateOk S.env sr →
      Since S ws nw L k o → o.crt = 0 → Tests.rerun S o sr p d ps = .ok (o', ys) →
      Since S ws nw L (k + 1) o' ∧ o'.crt = 0 ∧ ∃ ws' w,
        List.Forall₂ (fun y y' => |y' - y| < 4 / 1000) ws ws' ∧
        build S.env ws' nw sr (defaultDuration S.env) = .ok (some w) ∧
          freshRun S w p d 0 [.process .kBidirectionnal ps] = .ok ys := by
    intro k o o' sr ys hk2 hsr ho hc' hrun
    obtain ⟨x, x1, x2, x3, x4⟩ := rerun_eq hrun
    obtain ⟨ws', w, y1, y2, y3⟩ := C80_fresh S he hdbl hl ws nw L k 1 (by norm_num)
      (by rw [mul_one]; linarith [hk k (by omega), show (1 + 4 / 1000 : K) ≤ 2 ^ 100 by norm_num]) hA o x ho
      sr x1
    refine ⟨?_, x4.trans hc', ws', w, y1.imp fun a b hab => ?_, y2, ?_⟩
    · unfold Tests.rerun at hrun
      obtain ⟨z1, e1, hrun⟩ := bind_ok hrun
      obtain ⟨z2, e2, hrun⟩ := bind_ok hrun
      refine .process (.reset (.updateSamplerate ho hsr.2.1 hsr.2.2.1 e1) hi e2) (dir := .kBidirectionnal)
        (ps := ps) (out := List.replicate ps.length 0) ?_ hlen hrun
      rw [hp0 e2]; exact hps
    · rw [mul_one] at hab
      linarith [hk (k + 1) (by omega)]
    · rw [← hc', ← y3]; exact x2
  obtain ⟨k1, c1, q1⟩ := step (by norm_num) hsB s2 f4 h4
  obtain ⟨k2, c2, q2⟩ := step (by norm_num) hsA k1 c1 h5
  obtain ⟨-, -, q3⟩ := step (by norm_num) hsB k2 c2 h6
  refine ⟨⟨wt, h1, f1⟩, ?_⟩
  intro x hx
  simp only [List.mem_cons, List.not_mem_nil, or_false] at hx
  rcases hx with rfl | rfl | rfl
  · exact q1
  · exact q2
  · exact q3

end Adwt.Props
