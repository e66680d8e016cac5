import Verif.Proofs.Renumber

/-!
# Renumbering the waveforms of a wavetable, with changes of the samplerate
-/

set_option linter.unusedSectionVars false

namespace Adwt
variable {K C : Type} [Field K] [LinearOrder K] [IsStrictOrderedRing K] [FloorRing K]
variable [Zero C] [Add C] [Sub C] [Mul C] [Div C]
open WavetableData

theorem waveformOf_flatten {l : ℕ → List K} {n len : ℕ} (h : ∀ w, (l w).length = len) {w : ℕ} (hw : w < n) :
    waveformOf ((List.range n).map l).flatten len w = l w := by
  unfold waveformOf
  have key : ∀ m, ((List.range m).map l).flatten.length = m * len := by
    intro m
    induction m with
    | zero => simp
    | succ m ih =>
      rw [List.range_succ, List.map_append, List.flatten_append, List.length_append, ih]
      simp [h, Nat.add_mul]
  have split : ∀ n, w < n → ∃ t, ((List.range n).map l).flatten = ((List.range w).map l).flatten ++ (l w ++ t) := by
    intro n hn
    induction n with
    | zero => omega
    | succ n ih =>
      rw [List.range_succ, List.map_append, List.flatten_append]
      rcases Nat.lt_succ_iff_lt_or_eq.1 hn with h' | rfl
      · obtain ⟨t, ht⟩ := ih h'
        exact ⟨t ++ l n, by rw [ht]; simp⟩
      · exact ⟨[], by simp⟩
  obtain ⟨t, ht⟩ := split n hw
  rw [ht, ← key w, List.drop_left, ← h w, List.take_left]

theorem rebuilt_len (E : Env K) (L : ℕ) (w : List K) : (rebuilt E L w).length = 2 ^ L := by
  unfold rebuilt; simp

theorem flatten_len (E : Env K) (ws : List K) (L n : ℕ) :
    ((List.range n).map fun w => rebuilt E L (waveformOf ws (2 ^ L) w)).flatten.length = n * 2 ^ L := by
  induction n with
  | zero => simp
  | succ m ih =>
    rw [List.range_succ, List.map_append, List.flatten_append, List.length_append, ih]
    simp [rebuilt_len, Nat.add_mul]

/-- the outcome of `build` for a usable length: the same error or the same kind of result for all spans -/
theorem build_ren {E : Env K} (hf : Rounding E.fl) (hl : Log2Spec E.log2f) (hc : SrcContract E.src) {sr dur : K}
    (hs : 0 < sr → IsRate E.fl sr) (L : ℕ) (h2 : 2 ≤ L) (h18 : L ≤ 18) :
    (∀ (ws : List K) (nw : ℕ), 0 < nw → ws.length = nw * 2 ^ L → build E ws (nw : ℤ) sr dur = .ok none) ∨
    (∃ e, ∀ (ws : List K) (nw : ℕ), 0 < nw → ws.length = nw * 2 ^ L → build E ws (nw : ℤ) sr dur = .error e) ∨
    ∃ xf, ∀ (ws : List K) (nw : ℕ), 0 < nw → ws.length = nw * 2 ^ L →
      build E ws (nw : ℤ) sr dur = .ok (some (wtOf E ws nw L xf)) := by
  by_cases h0 : 0 < sr
  · cases hxf : toInt (E.fl (dur * sr)) with
    | error e =>
      refine Or.inr (Or.inl ⟨e, fun ws nw hn hlen => ?_⟩)
      rw [build_guards hn (by positivity) hlen h0, isPowerOfTwo_pow hf hl (by omega), R.ok_bind, if_neg (by simp), hxf]
      rfl
    | ok xf =>
      refine Or.inr (Or.inr ⟨xf, fun ws nw hn hlen => ?_⟩)
      rcases build_spec hf hl h2 h18 hn hlen h0 (hs h0) hxf with h | ⟨h, -⟩
      · exact h
      · exact absurd hc h
  · refine Or.inl fun ws nw hn hlen => ?_
    unfold build
    split
    · rfl
    · rw [if_neg (by omega), if_pos (not_lt.1 h0)]

namespace Sys
variable {S : Sys K C} {W : ℤ → ℤ → Prop} {o1 o2 : Osc K C}

theorem updateSr_ren (hf : Rounding S.env.fl) (hl : Log2Spec S.env.log2f) (hc : SrcContract S.env.src) {sr : K}
    (hs : 0 < sr → IsRate S.env.fl sr) (ho : OscRen S.env W o1 o2) :
    Sim (OscRen S.env W) (S.updateSamplerate o1 sr) (S.updateSamplerate o2 sr) := by
  obtain ⟨x, y, e1, e2, hw⟩ := ho.wt
  obtain ⟨ws, ws', nw, nw', L, xf, c, hn, hn', h2, h18, hlen, hlen', rfl, rfl, hW⟩ := hw.shape
  unfold Sys.updateSamplerate
  rw [e1, e2]
  unfold WavetableData.updateSamplerate
  dsimp only
  rw [rebuild_wtOf hn h2, rebuild_wtOf hn' h2, R.ok_bind, R.ok_bind]
  have n1 : ({ wtOf S.env ws nw L xf with cf := c } : WavetableData K).numWaveforms = nw := wtOf_numWaveforms (xf := xf)
  have n2 : ({ wtOf S.env ws' nw' L xf with cf := c } : WavetableData K).numWaveforms = nw' := wtOf_numWaveforms (xf := xf)
  rw [n1, n2]
  have l1 := flatten_len S.env ws L nw
  have l2 := flatten_len S.env ws' L nw'
  rcases build_ren hf hl hc (dur := defaultDuration S.env) hs L h2 h18 with h | ⟨e, h⟩ | ⟨xf', h⟩
  · rw [h _ _ hn l1, h _ _ hn' l2]; rfl
  · rw [h _ _ hn l1, h _ _ hn' l2]; rfl
  · rw [h _ _ hn l1, h _ _ hn' l2]
    have k : WtRen S.env W _ _ := wtRen_wtOf (E := S.env) (xf := xf') hn hn' h2 h18 l1 l2 (W := W) fun i i' hi => by
      obtain ⟨w, w', rfl, rfl, hw, hw', e⟩ := hW i i' hi
      refine ⟨w, w', rfl, rfl, hw, hw', ?_⟩
      rw [waveformOf_flatten (fun _ => rebuilt_len _ _ _) hw, waveformOf_flatten (fun _ => rebuilt_len _ _ _) hw', e]
    exact ⟨⟨_, _, rfl, rfl, k⟩, ho.prevY, ho.prevPhase, ho.prevPhaseRed, ho.prevPhaseDiff, ho.prevMip, ho.jRed,
      ho.prevJRed, ho.w⟩

theorem runCalls_ren (hf : Rounding S.env.fl) (hl : Log2Spec S.env.log2f) (hc : SrcContract S.env.src)
    {cs cs' : List (Call K)} (h : List.Forall₂ (Call.Renumbered S.env.fl W) cs cs') (ho : OscRen S.env W o1 o2) :
    Sim (BlockRen S.env W) (runCalls S o1 cs) (runCalls S o2 cs') := by
  induction h generalizing o1 o2 with
  | nil => exact ⟨ho, rfl⟩
  | @cons c c' cs cs' hop _ ih =>
    unfold runCalls
    refine Sim.bind (P := BlockRen S.env W) ?_ fun ⟨a, ys⟩ ⟨b, ys'⟩ hab => ?_
    · cases c <;> cases c' <;> first | exact hop.elim | skip
      · obtain ⟨rfl, rfl⟩ := hop
        exact process_ren _ _ _ ho
      · unfold runCall setWaveform
        obtain ⟨x, y, e1, e2, hw⟩ := ho.wt
        rw [e1, e2]
        refine Sim.bind (P := OscRen S.env W) ?_ fun a b hab => ⟨hab, rfl⟩
        refine Sim.bind_same _ fun _ => ?_
        exact ⟨⟨x, y, rfl, rfl, hw⟩, ho.prevY, ho.prevPhase, ho.prevPhaseRed, ho.prevPhaseDiff, ho.prevMip, ho.jRed,
          ho.prevJRed, hop⟩
      · obtain ⟨rfl, rfl⟩ := hop
        unfold runCall
        obtain ⟨x, y, e1, e2, hw⟩ := ho.wt
        refine Sim.bind (reset_ren e1 e2 hw ho.prevJRed _ _) fun a b hab => ⟨?_, rfl⟩
        have := hab.2.2 _ _ ho.w
        rw [← hab.1, ← hab.2.1] at this
        exact this
      · obtain ⟨rfl, hs⟩ := hop
        unfold runCall
        exact Sim.bind (updateSr_ren hf hl hc hs ho) fun a b hab => ⟨hab, rfl⟩
    · refine Sim.bind (ih hab.1) fun ⟨a', zs⟩ ⟨b', zs'⟩ hab' => ⟨hab'.1, ?_⟩
      show ys ++ zs = ys' ++ zs'
      rw [show ys = ys' from hab.2, show zs = zs' from hab'.2]

theorem playCalls_ren (hf : Rounding S.env.fl) (hl : Log2Spec S.env.log2f) (hc : SrcContract S.env.src)
    {wt1 wt2 : WavetableData K} (hw : WtRen S.env W wt1 wt2) (o : Osc K C) (p d : K) {i i' : ℤ} (hi : W i i')
    {cs cs' : List (Call K)} (h : List.Forall₂ (Call.Renumbered S.env.fl W) cs cs') :
    (do let (o, _) ← S.init o (some wt1) p d
        let (_, ys) ← runCalls S o (.setWaveform i :: cs)
        return ys : R (List K)) =
    (do let (o, _) ← S.init o (some wt2) p d
        let (_, ys) ← runCalls S o (.setWaveform i' :: cs')
        return ys : R (List K)) := by
  apply Sim.eq_of
  refine Sim.bind (P := fun a b => a.1.wt.isSome ∧ b.1.wt.isSome ∧
    OscRen S.env W { a.1 with crt := i } { b.1 with crt := i' }) ?_ fun ⟨a, r⟩ ⟨b, r'⟩ ⟨ha, hb, hab⟩ => ?_
  · unfold init
    refine Sim.bind (reset_ren (o1 := { o with wt := some wt1 }) (o2 := { o with wt := some wt2 }) rfl rfl hw rfl p d)
      fun a b hab => ?_
    have k := hab.2.2 i i' hi
    obtain ⟨x, y, e1, e2, -⟩ := k.wt
    have e1 : a.wt = some x := e1
    have e2 : b.wt = some y := e2
    exact ⟨by show a.wt.isSome = true; rw [e1]; rfl, by show b.wt.isSome = true; rw [e2]; rfl, k⟩
  · dsimp only at ha hb hab ⊢
    have es : ∀ (o : Osc K C) (j : ℤ) (l : List (Call K)), o.wt.isSome →
        runCalls S o (.setWaveform j :: l) = runCalls S { o with crt := j } l := by
      intro o j l h
      have hc : chk S.env.dbg (o.wt.isSome = true) = .ok () := by
        unfold chk; rw [if_neg (by simp [h])]
      simp only [runCalls, runCall, setWaveform, hc, R.ok_bind, pure, Except.pure, List.nil_append]
      cases runCalls S { o with crt := j } l <;> rfl
    rw [es a i cs ha, es b i' cs' hb]
    exact Sim.bind (runCalls_ren hf hl hc h hab) fun a' b' hab' => hab'.2

end Sys

end Adwt
