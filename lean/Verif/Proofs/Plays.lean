import Verif.Proofs.Sample
import Verif.Props.Wavetable

/-!
# Which tables are being played
-/

set_option linter.unusedSectionVars false

namespace Adwt

section generic
variable {K C : Type} [Field K] [LinearOrder K] [IsStrictOrderedRing K] [FloorRing K]
variable [Zero C] [Add C] [Sub C] [Mul C] [Div C]

/-- both states hold the same tables -/
def SameTables (o o' : Osc K C) : Prop :=
  ∃ wt wt', o.wt = some wt ∧ o'.wt = some wt' ∧ tablesOf wt' = tablesOf wt

theorem SameTables.trans {a b c : Osc K C} (h : SameTables a b) (h' : SameTables b c) :
    SameTables a c := by
  obtain ⟨w1, w2, e1, e2, e3⟩ := h
  obtain ⟨w3, w4, f1, f2, f3⟩ := h'
  rw [e2] at f1; cases f1
  exact ⟨w1, w4, e1, f2, f3.trans e3⟩

theorem find_tables {E : Env K} {wt wt' : WavetableData K} {d : K} {t : MipMapIndices K}
    (h : wt.findMipMapIndices E d = .ok (wt', t)) : tablesOf wt' = tablesOf wt := by
  unfold WavetableData.findMipMapIndices at h
  obtain ⟨⟨c, t⟩, -, h⟩ := bind_ok h
  cases h; rfl

namespace Sys
variable {S : Sys K C} {o o' : Osc K C} {p d y : K}

theorem sampleFwd_tables (h : S.processSampleFwd o p d = .ok (o', y)) :
    SameTables o o' ∧ o'.prevPhase = p ∧ o'.prevPhaseDiff = d ∧ o'.crt = o.crt := by
  unfold processSampleFwd at h
  dsimp only at h
  obtain ⟨_, _, h⟩ := bind_ok h
  cases hw : o.wt with
  | none => rw [hw] at h; cases h
  | some wt =>
    rw [hw] at h
    dsimp only at h
    obtain ⟨⟨wt', t⟩, hf, h⟩ := bind_ok h
    obtain ⟨_, _, h⟩ := bind_ok h
    obtain ⟨_, _, h⟩ := bind_ok h
    obtain ⟨_, _, h⟩ := bind_ok h
    obtain ⟨_, _, h⟩ := bind_ok h
    obtain ⟨_, _, h⟩ := bind_ok h
    obtain ⟨_, _, h⟩ := bind_ok h
    obtain ⟨_, _, h⟩ := bind_ok h
    obtain ⟨_, _, h⟩ := bind_ok h
    obtain ⟨_, _, h⟩ := bind_ok h
    obtain ⟨_, _, h⟩ := bind_ok h
    cases h
    exact ⟨⟨wt, wt', hw, rfl, find_tables hf⟩, rfl, rfl, rfl⟩

theorem sampleBwd_tables (h : S.processSampleBwd o p d = .ok (o', y)) :
    SameTables o o' ∧ o'.prevPhase = p ∧ o'.prevPhaseDiff = d ∧ o'.crt = o.crt := by
  unfold processSampleBwd at h
  dsimp only at h
  obtain ⟨_, _, h⟩ := bind_ok h
  cases hw : o.wt with
  | none => rw [hw] at h; cases h
  | some wt =>
    rw [hw] at h
    dsimp only at h
    obtain ⟨⟨wt', t⟩, hf, h⟩ := bind_ok h
    obtain ⟨_, _, h⟩ := bind_ok h
    obtain ⟨_, _, h⟩ := bind_ok h
    obtain ⟨_, _, h⟩ := bind_ok h
    obtain ⟨_, _, h⟩ := bind_ok h
    obtain ⟨_, _, h⟩ := bind_ok h
    obtain ⟨_, _, h⟩ := bind_ok h
    obtain ⟨_, _, h⟩ := bind_ok h
    obtain ⟨_, _, h⟩ := bind_ok h
    obtain ⟨_, _, h⟩ := bind_ok h
    obtain ⟨_, _, h⟩ := bind_ok h
    cases h
    exact ⟨⟨wt, wt', hw, rfl, find_tables hf⟩, rfl, rfl, rfl⟩

theorem stepDir_tables {dir : Direction} (h : S.stepDir dir o p = .ok (o', y)) :
    SameTables o o' ∧ o'.prevPhase = p ∧
      o'.prevPhaseDiff = dirDiff S.env.fl dir p o.prevPhase ∧ o'.crt = o.crt := by
  cases dir with
  | kForward =>
    change S.stepFwd o p = _ at h
    unfold stepFwd at h
    dsimp only at h
    obtain ⟨_, _, h⟩ := bind_ok h
    exact sampleFwd_tables h
  | kBidirectionnal =>
    change S.stepBi o p = _ at h
    unfold stepBi at h
    dsimp only at h
    split at h
    · exact sampleFwd_tables h
    · exact sampleBwd_tables h

theorem runDir_tables {dir : Direction} {ps : List K} {ys : List K}
    (hw : o.wt.isSome = true) (h : S.runDir dir o ps = .ok (o', ys)) :
    SameTables o o' ∧ o'.crt = o.crt := by
  induction ps generalizing o o' ys with
  | nil =>
    cases h
    obtain ⟨wt, hw⟩ := Option.isSome_iff_exists.1 hw
    exact ⟨⟨wt, wt, hw, hw, rfl⟩, rfl⟩
  | cons p ps ih =>
    unfold runDir at h
    obtain ⟨⟨o1, y⟩, h1, h⟩ := bind_ok h
    obtain ⟨⟨o2, ys'⟩, h2, h⟩ := bind_ok h
    cases h
    obtain ⟨a, -, -, b⟩ := stepDir_tables h1
    obtain ⟨_, wt, _, e, _⟩ := id a
    obtain ⟨c, d⟩ := ih (by rw [e]; rfl) h2
    exact ⟨a.trans c, d.trans b⟩

theorem process_tables {dir : Direction} {ps out : List K} {ys : List K}
    (hw : o.wt.isSome = true) (h : S.process dir o ps out = .ok (o', ys)) :
    SameTables o o' ∧ o'.crt = o.crt := by
  unfold process at h
  have : o.wt.isNone = false := by
    rw [← Option.not_isSome, hw]; rfl
  rw [this] at h
  simp only [Bool.false_eq_true, if_false, R.pure_eq, R.ok_bind] at h
  obtain ⟨_, _, h⟩ := bind_ok h
  obtain ⟨⟨o1, ys1⟩, h1, h⟩ := bind_ok h
  cases h
  exact runDir_tables hw h1

theorem reset_tables (h : S.resetInternals o p d = .ok o') :
    SameTables o o' ∧ o'.crt = o.crt := by
  unfold resetInternals at h
  dsimp only at h
  cases hw : o.wt with
  | none =>
    rw [hw] at h
    obtain ⟨_, _, h⟩ := bind_ok h
    cases h
  | some wt =>
    rw [hw] at h
    dsimp only at h
    obtain ⟨_, _, h⟩ := bind_ok h
    obtain ⟨⟨wt', t⟩, hf, h⟩ := bind_ok h
    obtain ⟨_, _, h⟩ := bind_ok h
    obtain ⟨_, _, h⟩ := bind_ok h
    cases h
    exact ⟨⟨wt, wt', hw, rfl, find_tables hf⟩, rfl⟩

theorem init_tables {wt : WavetableData K} {r : ℤ} (h : S.init o (some wt) p d = .ok (o', r)) :
    ∃ wt', o'.wt = some wt' ∧ tablesOf wt' = tablesOf wt := by
  unfold init at h
  dsimp only at h
  obtain ⟨o1, h1, h⟩ := bind_ok h
  cases h
  obtain ⟨⟨w, w', e1, e2, e3⟩, -⟩ := reset_tables h1
  cases e1
  exact ⟨w', e2, e3⟩

theorem swap_tables {wt : WavetableData K} {old : Option (WavetableData K)}
    (h : S.swapWavetable o (some wt) p d = .ok (o', old)) :
    ∃ wt', o'.wt = some wt' ∧ tablesOf wt' = tablesOf wt := by
  unfold swapWavetable at h
  dsimp only at h
  obtain ⟨o1, h1, h⟩ := bind_ok h
  cases h
  obtain ⟨⟨w, w', e1, e2, e3⟩, -⟩ := reset_tables h1
  cases e1
  exact ⟨w', e2, e3⟩

end Sys
end generic

/-! ### every reached state plays some samples -/

variable {C : Type} [Zero C] [Add C] [Sub C] [Mul C] [Div C]
variable {S : Sys ℝ C} {nw L : ℕ} {o o' : Osc ℝ C} {ws : List ℝ}

/-- tables of the wavetable held -/
def HoldsTables (S : Sys ℝ C) (ws : List ℝ) (nw L : ℕ) (o : Osc ℝ C) : Prop :=
  ∃ sr dur wt0 wt, Built S.env ws nw L sr dur wt0 ∧ o.wt = some wt ∧ tablesOf wt = tablesOf wt0

theorem HoldsTables.same (h : HoldsTables S ws nw L o) (hs : SameTables o o') :
    HoldsTables S ws nw L o' := by
  obtain ⟨sr, dur, wt0, wt, hb, hw, ht⟩ := h
  obtain ⟨w1, w2, e1, e2, e3⟩ := hs
  rw [hw] at e1; cases e1
  exact ⟨sr, dur, wt0, w2, hb, e2, e3.trans ht⟩

theorem HoldsTables.isSome (h : HoldsTables S ws nw L o) : o.wt.isSome = true := by
  obtain ⟨sr, dur, wt0, wt, hb, hw, ht⟩ := h
  rw [hw]; rfl

theorem HoldsTables.update (hf : S.env.fl = id) (hl : Log2Spec S.env.log2f)
    (h : HoldsTables S ws nw L o) {sr : ℝ}
    (hx : 1 ≤ S.env.fl (WavetableData.defaultDuration S.env * sr))
    (e : S.updateSamplerate o sr = .ok o') : HoldsTables S ws nw L o' := by
  obtain ⟨sr0, dur, wt0, wt, hb, hw, ht⟩ := h
  unfold Sys.updateSamplerate at e
  rw [hw] at e
  dsimp only at e
  obtain ⟨wt', e', h⟩ := bind_ok e
  cases h
  rw [tables_eq ht] at e'
  rw [(Props.C09_update S.env hf hl ws nw sr0 dur wt0 hb.2.2.2 wt.cf sr _).2] at e'
  exact ⟨sr, _, wt', wt', ⟨by rw [hf]; exact fun _ _ => rfl, hx, hb.2.2.1, e'⟩, rfl, rfl⟩

theorem reached_holds (hf : S.env.fl = id) (hl : Log2Spec S.env.log2f) (h : Reached S nw L o) :
    ∃ ws, HoldsTables S ws nw L o := by
  induction h with
  | init hb hi h =>
    obtain ⟨wt', e1, e2⟩ := Sys.init_tables h
    exact ⟨_, _, _, _, _, hb, e1, e2⟩
  | swap ho hb hi h ih =>
    obtain ⟨wt', e1, e2⟩ := Sys.swap_tables h
    exact ⟨_, _, _, _, _, hb, e1, e2⟩
  | swapUsed ho h2 hw hi h ih ih2 =>
    obtain ⟨ws, sr, dur, wt0, wt, hb, hw', ht⟩ := ih2
    rw [hw] at hw'; cases hw'
    obtain ⟨wt', e1, e2⟩ := Sys.swap_tables h
    exact ⟨ws, sr, dur, wt0, wt', hb, e1, e2.trans ht⟩
  | process ho hp hl h ih =>
    obtain ⟨ws, ih⟩ := ih
    exact ⟨ws, ih.same (Sys.process_tables ih.isSome h).1⟩
  | setWaveform ho h0 h1 h ih =>
    obtain ⟨ws, sr, dur, wt0, wt, hb, hw, ht⟩ := ih
    unfold Sys.setWaveform at h
    obtain ⟨_, _, h⟩ := bind_ok h
    cases h
    exact ⟨ws, sr, dur, wt0, wt, hb, hw, ht⟩
  | reset ho hi h ih =>
    obtain ⟨ws, ih⟩ := ih
    exact ⟨ws, ih.same (Sys.reset_tables h).1⟩
  | updateSamplerate ho hs hx h ih =>
    obtain ⟨ws, ih⟩ := ih
    exact ⟨ws, ih.update hf hl hx h⟩

theorem Plays.lines (hf : S.env.fl = id) (hl : Log2Spec S.env.log2f) (h : Plays S ws nw L o) :
    ∃ wt, o.wt = some wt ∧ HasLines S.env ws nw L wt := by
  obtain ⟨-, sr, dur, wt0, wt, hb, hw, ht⟩ := h
  exact ⟨wt, hw, built_lines hf hl hb ht⟩

end Adwt
