import Verif.Proofs.RenumberRate
import Verif.Props.FloatExamples

/-!
# C108: the waveforms of a wavetable do not depend on their company
-/

set_option linter.unusedSectionVars false

namespace Adwt.Props
open WavetableData
variable {K C : Type} [Field K] [LinearOrder K] [IsStrictOrderedRing K] [FloorRing K]
variable [Zero C] [Add C] [Sub C] [Mul C] [Div C]

theorem wtRen_of_build {E : Env K} (hf : Rounding E.fl) (hl : Log2Spec E.log2f) {ws ws' : List K} {nw nw' L : ℕ}
    {sr dur : K} {wt wt' : WavetableData K} (h : Built E ws nw L sr dur wt) (h' : Built E ws' nw' L sr dur wt') :
    WtRen E (SameWaveform ws nw ws' nw' L) wt wt' := by
  obtain ⟨hs, hx, hlen, hb⟩ := h
  obtain ⟨hs', hx', hlen', hb'⟩ := h'
  obtain ⟨L1, xf, h2, h18, hn, hs0, hl1, hxf, rfl⟩ := build_some hf hl hs hb
  obtain ⟨L2, xf', h2', h18', hn', hs0', hl2, hxf', rfl⟩ := build_some hf hl hs' hb'
  have e : ((nw : ℤ)).toNat = nw := by simp
  have e' : ((nw' : ℤ)).toNat = nw' := by simp
  rw [e] at hl1 ⊢
  rw [e'] at hl2 ⊢
  have e1 : L1 = L := pow_inj_of_mul (by omega) (hl1.symm.trans hlen)
  have e2 : L2 = L := pow_inj_of_mul (by omega) (hl2.symm.trans hlen')
  subst e1; subst e2
  rw [hxf] at hxf'
  obtain rfl : xf = xf' := by simpa using hxf'
  exact wtRen_wtOf (by omega) (by omega) h2 h18 hl1 hl2 fun _ _ h => h

/-- C108: two wavetables of any numbers of waveforms of the same length, built alike; a history of calls, and the same
history with other numbers for the waveforms it selects, such that at each place the waveform selected in one wavetable
is the one selected in the other (`SameWaveform`). Both histories give the same outputs, bit for bit, or fail in the
same way. What else is in the wavetables, and the order, has no influence. -/
theorem C108_renumber (S : Sys K C) (hf : Rounding S.env.fl) (hl : Log2Spec S.env.log2f) (ws ws' : List K)
    (nw nw' L : ℕ) (sr dur : K) (wt wt' : WavetableData K) (h : Built S.env ws nw L sr dur wt)
    (h' : Built S.env ws' nw' L sr dur wt') (o : Osc K C) (p d : K) (i i' : ℤ)
    (hi : SameWaveform ws nw ws' nw' L i i') (ops ops' : List (Op K))
    (hops : List.Forall₂ (Op.Renumbered (SameWaveform ws nw ws' nw' L)) ops ops') :
    (do let (o, _) ← S.init o (some wt) p d
        let (_, ys) ← runOps S o (.setWaveform i :: ops)
        return ys : R (List K)) =
    (do let (o, _) ← S.init o (some wt') p d
        let (_, ys) ← runOps S o (.setWaveform i' :: ops')
        return ys : R (List K)) :=
  Sys.play_ren (wtRen_of_build hf hl h h') o p d hi hops

theorem forall2_refl {W : ℤ → ℤ → Prop} (ops : List (Op K)) (h : ∀ i, Op.setWaveform i ∈ ops → W i i) :
    List.Forall₂ (Op.Renumbered W) ops ops := by
  induction ops with
  | nil => exact .nil
  | cons op ops ih =>
    refine .cons ?_ (ih fun i hi => h i (List.mem_cons_of_mem _ hi))
    cases op with
    | process => exact ⟨rfl, rfl⟩
    | setWaveform i => exact h i (by simp)
    | reset => exact ⟨rfl, rfl⟩

/-- C108: in particular, waveform `w` of a wavetable plays like the only waveform of a wavetable built of it alone;
and that one can be built. -/
theorem C108_alone (S : Sys K C) (hf : Rounding S.env.fl) (hl : Log2Spec S.env.log2f) (hc : SrcContract S.env.src)
    (ws : List K) (nw L : ℕ) (sr dur : K) (wt : WavetableData K) (h : Built S.env ws nw L sr dur wt)
    (w : ℕ) (hw : w < nw) :
    ∃ wt', WavetableData.build S.env (waveformOf ws (2 ^ L) w) 1 sr dur = .ok (some wt') ∧
      ∀ (o : Osc K C) (p d : K) (ops : List (Op K)), (∀ i, Op.setWaveform i ∉ ops) →
        (do let (o, _) ← S.init o (some wt) p d
            let (_, ys) ← runOps S o (.setWaveform w :: ops)
            return ys : R (List K)) =
        (do let (o, _) ← S.init o (some wt') p d
            let (_, ys) ← runOps S o (.setWaveform 0 :: ops)
            return ys : R (List K)) := by
  have hb := h
  obtain ⟨hs, hx, hlen, hb1⟩ := hb
  obtain ⟨L1, xf, h2, h18, hn, hs0, hl1, hxf, -⟩ := build_some hf hl hs hb1
  rw [Int.toNat_natCast] at hl1
  have e1 : L1 = L := pow_inj_of_mul (by omega) (hl1.symm.trans hlen)
  subst e1
  have hle : (w + 1) * 2 ^ L1 ≤ nw * 2 ^ L1 := Nat.mul_le_mul_right _ hw
  have hl' : (waveformOf ws (2 ^ L1) w).length = 1 * 2 ^ L1 := by
    unfold waveformOf
    rw [List.length_take, List.length_drop, hlen]
    rw [Nat.add_mul] at hle
    omega
  rcases build_spec hf hl h2 h18 (nw := 1) one_pos hl' hs0 hs hxf with hb' | ⟨hc', -⟩
  swap
  · exact absurd hc hc'
  refine ⟨_, hb', fun o p d ops hops => ?_⟩
  refine C108_renumber S hf hl ws (waveformOf ws (2 ^ L1) w) nw 1 L1 sr dur wt _ h ⟨hs, hx, hl', hb'⟩ o p d w 0
    ⟨w, 0, rfl, rfl, hw, one_pos, ?_⟩ ops ops (forall2_refl ops fun i hi => absurd hi (hops i))
  have : waveformOf (waveformOf ws (2 ^ L1) w) (2 ^ L1) 0 = waveformOf ws (2 ^ L1) w := by
    conv_lhs => unfold waveformOf
    rw [Nat.zero_mul, List.drop_zero]
    exact List.take_of_length_le (le_of_eq (hl'.trans (one_mul _)))
  exact this.symm

/-- C108: and if a wavetable holds a waveform twice, at `i` and at `i'`, selecting one or the other makes no
difference. -/
theorem C108_twice (S : Sys K C) (hf : Rounding S.env.fl) (hl : Log2Spec S.env.log2f) (ws : List K) (nw L : ℕ)
    (sr dur : K) (wt : WavetableData K) (h : Built S.env ws nw L sr dur wt) (o : Osc K C) (p d : K) (i i' : ℤ)
    (hi : SameWaveform ws nw ws nw L i i') (ops : List (Op K)) (hops : ∀ i, Op.setWaveform i ∉ ops) :
    (do let (o, _) ← S.init o (some wt) p d
        let (_, ys) ← runOps S o (.setWaveform i :: ops)
        return ys : R (List K)) =
    (do let (o, _) ← S.init o (some wt) p d
        let (_, ys) ← runOps S o (.setWaveform i' :: ops)
        return ys : R (List K)) :=
  C108_renumber S hf hl ws ws nw nw L sr dur wt wt h h o p d i i' hi ops ops
    (forall2_refl ops fun i hi => absurd hi (hops i))

/-- C108: the same for histories that also change the samplerate. A change rebuilds every waveform of the wavetable, so
here the resampler must keep its contract (C02): otherwise another waveform could make the change fail. A samplerate
that is not positive is allowed: both fail (C10). -/
theorem C108_samplerates (S : Sys K C) (hf : Rounding S.env.fl) (hl : Log2Spec S.env.log2f)
    (hc : SrcContract S.env.src) (ws ws' : List K) (nw nw' L : ℕ) (sr dur : K) (wt wt' : WavetableData K)
    (h : Built S.env ws nw L sr dur wt) (h' : Built S.env ws' nw' L sr dur wt') (o : Osc K C) (p d : K) (i i' : ℤ)
    (hi : SameWaveform ws nw ws' nw' L i i') (cs cs' : List (Call K))
    (hcs : List.Forall₂ (Call.Renumbered S.env.fl (SameWaveform ws nw ws' nw' L)) cs cs') :
    (do let (o, _) ← S.init o (some wt) p d
        let (_, ys) ← runCalls S o (.setWaveform i :: cs)
        return ys : R (List K)) =
    (do let (o, _) ← S.init o (some wt') p d
        let (_, ys) ← runCalls S o (.setWaveform i' :: cs')
        return ys : R (List K)) :=
  Sys.playCalls_ren hf hl hc (wtRen_of_build hf hl h h') o p d hi hcs

/-- C108 applies, in IEEE floats: two waveforms in either order; a program that selects waveform 1, plays, selects
waveform 0, plays backwards, is the program with 0 and 1 exchanged on the other wavetable. -/
example (t : FilterType) (u v : List ℝ) (hu : u.length = 4) (hv : v.length = 4) :
    ∃ wt wt', Built (sysF t).env (u ++ v) 2 2 44100 (1 / 256) wt ∧ Built (sysF t).env (v ++ u) 2 2 44100 (1 / 256) wt' ∧
      ∀ p d : ℝ,
        (do let (o, _) ← (sysF t).init (sysF t).fresh (some wt) p d
            let (_, ys) ← runOps (sysF t) o (.setWaveform 1 ::
              [.process .kForward [1 / 8, 1 / 4], .setWaveform 0, .process .kBidirectionnal [1 / 8]])
            return ys : R (List ℝ)) =
        (do let (o, _) ← (sysF t).init (sysF t).fresh (some wt') p d
            let (_, ys) ← runOps (sysF t) o (.setWaveform 0 ::
              [.process .kForward [1 / 8, 1 / 4], .setWaveform 1, .process .kBidirectionnal [1 / 8]])
            return ys : R (List ℝ)) ∧
        (do let (o, _) ← (sysF t).init (sysF t).fresh (some wt) p d
            let (_, ys) ← runCalls (sysF t) o (.setWaveform 1 ::
              [.process .kForward [1 / 8, 1 / 4], .updateSamplerate 48000, .setWaveform 0, .process .kForward [3 / 8]])
            return ys : R (List ℝ)) =
        (do let (o, _) ← (sysF t).init (sysF t).fresh (some wt') p d
            let (_, ys) ← runCalls (sysF t) o (.setWaveform 0 ::
              [.process .kForward [1 / 8, 1 / 4], .updateSamplerate 48000, .setWaveform 1, .process .kForward [3 / 8]])
            return ys : R (List ℝ)) := by
  have hE : (sysF t).env = envI := by cases t <;> rfl
  have h44 : IsRate envI.fl 44100 := by simpa using envI_ok.1.isRate 44100 (by norm_num)
  have e : envI.fl (1 / 256 * 44100 : ℝ) = 44100 / 256 := by
    have e : (1 / 256 * 44100 : ℝ) = ((44100 : ℤ) : ℝ) / 2 ^ 8 := by norm_num
    rw [e, envI_ok.1.dyadic 44100 8 (by norm_num)]; norm_num
  have key : ∀ ws : List ℝ, ws.length = 8 → ∃ wt, Built (sysF t).env ws 2 2 44100 (1 / 256) wt := by
    intro ws hws
    rw [hE]
    obtain ⟨wt, h⟩ := C02_succeeds envI envI_ok.1 envI_ok.2.1 envI_ok.2.2 2 (by norm_num)
      (by norm_num) 2 (by norm_num) ws (by simpa using hws) 44100 (1 / 256) (by norm_num) h44
      (by rw [e]; norm_num)
    exact ⟨wt, h44, by rw [e]; norm_num, by simpa using hws, h⟩
  obtain ⟨wt, h⟩ := key (u ++ v) (by simp [hu, hv])
  obtain ⟨wt', h'⟩ := key (v ++ u) (by simp [hu, hv])
  have h0 : ∀ a b : List ℝ, a.length = 4 → waveformOf (a ++ b) (2 ^ 2) 0 = a := fun a b ha => by
    unfold waveformOf; simp [ha]
  have h1 : ∀ a b : List ℝ, a.length = 4 → b.length = 4 → waveformOf (a ++ b) (2 ^ 2) 1 = b := fun a b ha hb => by
    unfold waveformOf; simp [ha, hb]
  have s10 : SameWaveform (u ++ v) 2 (v ++ u) 2 2 1 0 :=
    ⟨1, 0, rfl, rfl, by norm_num, by norm_num, by rw [h1 u v hu hv, h0 v u hv]⟩
  have s01 : SameWaveform (u ++ v) 2 (v ++ u) 2 2 0 1 :=
    ⟨0, 1, rfl, rfl, by norm_num, by norm_num, by rw [h1 v u hv hu, h0 u v hu]⟩
  refine ⟨wt, wt', h, h', fun p d => ?_⟩
  constructor
  · refine C108_renumber (sysF t) (by rw [hE]; exact envI_ok.1) (by rw [hE]; exact envI_ok.2.1) _ _ 2 2 2 _ _ wt wt' h h'
      _ p d 1 0 s10 _ _ ?_
    exact .cons ⟨rfl, rfl⟩ (.cons s01 (.cons ⟨rfl, rfl⟩ .nil))
  · refine C108_samplerates (sysF t) (by rw [hE]; exact envI_ok.1) (by rw [hE]; exact envI_ok.2.1)
      (by rw [hE]; exact envI_ok.2.2) _ _ 2 2 2 _ _ wt wt' h h' _ p d 1 0 s10 _ _ ?_
    refine .cons ⟨rfl, rfl⟩ (.cons ⟨rfl, fun _ => ?_⟩ (.cons s01 (.cons ⟨rfl, rfl⟩ .nil)))
    rw [hE]
    simpa using envI_ok.1.isRate 48000 (by norm_num)

end Adwt.Props
