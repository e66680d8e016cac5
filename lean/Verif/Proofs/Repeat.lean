import Verif.Spec.Repeat
import Verif.Proofs.Reached
import Verif.Proofs.Sample
import Verif.Num.CFloat
import Mathlib.Data.Set.Finite.List
import Mathlib.Data.Set.Finite.Lattice

/-!
# With finitely many complex floats the oscillator has finitely many states
-/

set_option linter.unusedSectionVars false

namespace Adwt
variable {K C : Type} [Field K] [LinearOrder K] [IsStrictOrderedRing K] [FloorRing K]
variable [Zero C] [Add C] [Sub C] [Mul C] [Div C]

namespace Sys
variable {S : Sys K C} {nw L : ℕ} {o o' : Osc K C}

theorem stepDir_y {dir : Direction} {p y : K} (h : S.stepDir dir o p = .ok (o', y)) :
    ∃ a, o'.prevY = S.cpxY o.prevY a := by
  have fwd : ∀ d, S.processSampleFwd o p d = .ok (o', y) → ∃ a, o'.prevY = S.cpxY o.prevY a := by
    intro d h
    unfold processSampleFwd at h
    dsimp only at h
    obtain ⟨_, _, h⟩ := bind_ok h
    cases hw : o.wt with
    | none => rw [hw] at h; cases h
    | some wt =>
      rw [hw] at h
      dsimp only at h
      iterate 11 obtain ⟨_, _, h⟩ := bind_ok h
      cases h
      exact ⟨_, rfl⟩
  have bwd : ∀ d, S.processSampleBwd o p d = .ok (o', y) → ∃ a, o'.prevY = S.cpxY o.prevY a := by
    intro d h
    unfold processSampleBwd at h
    dsimp only at h
    obtain ⟨_, _, h⟩ := bind_ok h
    cases hw : o.wt with
    | none => rw [hw] at h; cases h
    | some wt =>
      rw [hw] at h
      dsimp only at h
      iterate 11 obtain ⟨_, _, h⟩ := bind_ok h
      cases h
      exact ⟨_, rfl⟩
  cases dir with
  | kForward =>
    change S.stepFwd o p = _ at h
    unfold stepFwd at h
    dsimp only at h
    obtain ⟨_, _, h⟩ := bind_ok h
    exact fwd _ h
  | kBidirectionnal =>
    change S.stepBi o p = _ at h
    unfold stepBi at h
    dsimp only at h
    split at h
    · exact fwd _ h
    · exact bwd _ h

/-- the states that can be met: phases in `Ph`, steps in `Df`, waveforms in `Cr`, filter memories in `Y` -/
structure Box (S : Sys K C) (nw L : ℕ) (wt0 : WavetableData K) (Ph Df : Set K) (Cr : Set ℤ) (Y : Set (List C))
    (B : ℤ) (o : Osc K C) : Prop where
  safe : OscSafe S nw L o
  wt : ∃ wt, o.wt = some wt ∧ tablesOf wt = tablesOf wt0 ∧ wt.cf.numSamples = wt0.cf.numSamples
  phase : o.prevPhase ∈ Ph
  diff : o.prevPhaseDiff ∈ Df
  crt : o.crt ∈ Cr
  mem : o.prevY ∈ Y
  pj : o.prevJRed ∈ Set.Icc (-B) B

/-- the integers of the crossfader -/
def cfKey (o : Osc K C) : ℤ × ℤ × ℤ :=
  match o.wt with
  | none => (0, 0, 0)
  | some wt => (wt.cf.samplesLeft, wt.cf.prevIdx, wt.cf.nextIdx)

theorem box_finite (S : Sys K C) (nw L : ℕ) (wt0 : WavetableData K) {Ph Df : Set K} {Cr : Set ℤ}
    {Y : Set (List C)} (B : ℤ) (hP : Ph.Finite) (hD : Df.Finite) (hC : Cr.Finite) (hY : Y.Finite) :
    {o | Box S nw L wt0 Ph Df Cr Y B o}.Finite := by
  let f : Osc K C → (List C × K × K) × (ℤ × ℤ) × (ℤ × ℤ) × (ℤ × ℤ × ℤ) := fun o =>
    ((o.prevY, o.prevPhase, o.prevPhaseDiff), (o.crt, o.prevJRed), (o.prevMip, o.jRed), cfKey o)
  have hi : ∀ a b : ℤ, (Set.Icc a b).Finite := Set.finite_Icc
  refine Set.Finite.of_injOn (f := f)
    (t := (Y ×ˢ Ph ×ˢ Df) ×ˢ (Cr ×ˢ Set.Icc (-B) B) ×ˢ (Set.Icc 0 (L : ℤ) ×ˢ Set.Icc 0 (2 ^ L)) ×ˢ
      (Set.Icc 0 wt0.cf.numSamples ×ˢ Set.Icc 0 (L : ℤ) ×ˢ Set.Icc 0 (L : ℤ))) ?_ ?_
    ((hY.prod (hP.prod hD)).prod ((hC.prod (hi _ _)).prod
      (((hi _ _).prod (hi _ _)).prod ((hi _ _).prod ((hi _ _).prod (hi _ _))))))
  · intro o ho
    have hs := ho.safe
    obtain ⟨wt, hw, -, hn⟩ := ho.wt
    obtain ⟨wt', hw', hok⟩ := hs.wt
    obtain rfl := Option.some.inj (hw.symm.trans hw')
    have hsl := hok.scale_len
    have h1 := hok.inv
    have hj : o.jRed ≤ 2 ^ L := hs.j1.trans (by
      exact_mod_cast Nat.pow_le_pow_right (by norm_num : 0 < 2) (Nat.sub_le _ _))
    refine ⟨⟨ho.mem, ho.phase, ho.diff⟩, ⟨ho.crt, ho.pj⟩, ⟨⟨hs.mip0, ?_⟩, ⟨hs.j0, hj⟩⟩, ?_⟩
    · have := hs.mip1; show o.prevMip ≤ (L : ℤ); omega
    · show cfKey o ∈ _
      unfold cfKey
      rw [hw]
      have a1 := h1.prev1
      have a2 := h1.next1
      exact ⟨⟨h1.left0, hn ▸ h1.left1⟩, ⟨h1.prev0, by show wt.cf.prevIdx ≤ (L : ℤ); omega⟩,
        ⟨h1.next0, by show wt.cf.nextIdx ≤ (L : ℤ); omega⟩⟩
  · intro a ha b hb hab
    obtain ⟨wa, ewa, ta, na⟩ := ha.wt
    obtain ⟨wb, ewb, tb, nb⟩ := hb.wt
    obtain ⟨wa', ewa', ka⟩ := ha.safe.wt
    obtain ⟨wb', ewb', kb⟩ := hb.safe.wt
    obtain rfl := Option.some.inj (ewa.symm.trans ewa')
    obtain rfl := Option.some.inj (ewb.symm.trans ewb')
    simp only [f, Prod.mk.injEq] at hab
    obtain ⟨⟨h1, h2, h3⟩, ⟨h4, h5⟩, ⟨h6, h7⟩, h8⟩ := hab
    have hr : a.prevPhaseRed = b.prevPhaseRed := by rw [ha.safe.red, hb.safe.red, h2]
    unfold cfKey at h8
    rw [ewa, ewb] at h8
    simp only [Prod.mk.injEq] at h8
    obtain ⟨k1, k2, k3⟩ := h8
    have hcf : wa.cf = wb.cf := by
      have s1 := ka.scale
      have s2 := kb.scale
      have n1 := na.trans nb.symm
      rcases wa with ⟨_, _, _, _, _, ⟨c1, c2, c3, c4, c5⟩⟩
      rcases wb with ⟨_, _, _, _, _, ⟨d1, d2, d3, d4, d5⟩⟩
      dsimp only at *
      subst k1 k2 k3 s1 s2 n1
      rfl
    have hwt : a.wt = b.wt := by
      rw [ewa, ewb, tables_eq (ta.trans tb.symm), hcf]
    rcases a with ⟨a1, a2, a3, a4, a5, a6, a7, a8, a9⟩
    rcases b with ⟨b1, b2, b3, b4, b5, b6, b7, b8, b9⟩
    dsimp only at *
    subst hwt h1 h2 h3 h4 h5 h6 h7 hr
    rfl

/-- lists of a given length over a finite set -/
theorem lists_finite {V : Set C} (hV : V.Finite) (n : ℕ) :
    {l : List C | l.length = n ∧ ∀ c ∈ l, c ∈ V}.Finite := by
  have := hV.to_subtype
  refine (Set.Finite.image (List.map (Subtype.val : V → C)) (List.finite_length_eq V n)).subset ?_
  rintro l ⟨hl, hm⟩
  exact ⟨l.attach.map fun c => ⟨c.1, hm c.1 c.2⟩, by simp [hl], by simp⟩

/-- the sets are closed under the calls of a program that uses these phases, steps and waveforms -/
structure Closed (S : Sys K C) (L : ℕ) (Ph Df : Set K) (Y : Set (List C)) (B : ℤ) : Prop where
  diff : ∀ dir p q, p ∈ Ph → q ∈ Ph → dirDiff S.env.fl dir p q ∈ Df
  zero : List.replicate S.n 0 ∈ Y
  next : ∀ y a, S.cpxY y a ∈ Y
  B : 2 ^ L + 1 ≤ B

/-- a call uses only these phases, steps and waveforms -/
def OpIn (Ph Df : Set K) (Cr : Set ℤ) : Op K → Prop
  | .process _ ps => ∀ p ∈ ps, p ∈ Ph
  | .setWaveform i => i ∈ Cr
  | .reset p d => p ∈ Ph ∧ d ∈ Df

variable {wt0 : WavetableData K} {Ph Df : Set K} {Cr : Set ℤ} {Y : Set (List C)} {B : ℤ}

theorem box_step (hf : Rounding S.env.fl) (hB : 0 < S.B) (hc : Closed S L Ph Df Y B)
    (ho : Box S nw L wt0 Ph Df Cr Y B o) {p : K} {dir : Direction} (hp : PhaseOk S.env.fl p)
    (hP : p ∈ Ph) (hs : StepSafe dir o.prevPhase p) :
    Ok (S.stepDir dir o p) fun r => Box S nw L wt0 Ph Df Cr Y B r.1 ∧ r.1.prevPhase = p := by
  obtain ⟨⟨o1, y⟩, e, hr⟩ := step_ok hf hB ho.safe hp (stepSafe_ok hs)
  dsimp only at hr
  refine ⟨_, e, ⟨hr.safe (dirDiff_safe hf ho.safe.phase hp hs), ?_, ?_, ?_, ?_, ?_, ?_⟩, hr.phase⟩
  · obtain ⟨wt, c, t, h1, h2, h3, h4, h5, h6⟩ := hr.find
    obtain ⟨wt', e', ht, hn⟩ := ho.wt
    obtain rfl := Option.some.inj (h1.symm.trans e')
    refine ⟨_, h5, ht, ?_⟩
    dsimp only
    rw [h4, (CrossFader.stepD_const _ _).2, hn]
  · rw [hr.phase]; exact hP
  · rw [hr.diff]; exact hc.diff _ _ _ hP ho.phase
  · dsimp only; rw [hr.crt]; exact ho.crt
  · obtain ⟨a, ha⟩ := stepDir_y e
    dsimp only; rw [ha]; exact hc.next _ _
  · have := hr.pj0
    have := hr.pj1
    have h2 : (2 : ℤ) ^ (L - o1.prevMip.toNat) ≤ 2 ^ L :=
      pow_le_pow_right₀ (by norm_num) (Nat.sub_le _ _)
    have hb := hc.B
    have : (0 : ℤ) < 2 ^ L := by positivity
    constructor <;> dsimp only <;> linarith

theorem box_run (hf : Rounding S.env.fl) (hB : 0 < S.B) (hc : Closed S L Ph Df Y B) {dir : Direction}
    {ps : List K} (ho : Box S nw L wt0 Ph Df Cr Y B o) (hP : ∀ p ∈ ps, p ∈ Ph)
    (h : BlockSafe S.env.fl dir o.prevPhase ps) :
    Ok (S.runDir dir o ps) fun r => Box S nw L wt0 Ph Df Cr Y B r.1 ∧
      r.1.prevPhase = ps.getLastD o.prevPhase ∧ r.2.length = ps.length := by
  induction ps generalizing o with
  | nil => exact Ok.ok ⟨ho, rfl, rfl⟩
  | cons p ps ih =>
    obtain ⟨hp, hs, hr⟩ := h
    unfold runDir
    refine Ok.bind (box_step hf hB hc ho hp (hP p (by simp)) hs) fun r hr1 => ?_
    obtain ⟨o1, y⟩ := r
    dsimp only at hr1 ⊢
    refine Ok.bind (ih hr1.1 (fun q hq => hP q (by simp [hq])) (by rw [hr1.2]; exact hr)) fun r2 hr2 => ?_
    obtain ⟨o2, ys⟩ := r2
    obtain ⟨c1, c2, c3⟩ := hr2
    dsimp only at c1 c2 c3
    refine Ok.pure ⟨c1, ?_, by simp [c3]⟩
    dsimp only
    rw [c2, hr1.2, List.getLastD_cons]

theorem box_ops (hf : Rounding S.env.fl) (hB : 0 < S.B) (hc : Closed S L Ph Df Y B) {ops : List (Op K)}
    (ho : Box S nw L wt0 Ph Df Cr Y B o) (hin : ∀ op ∈ ops, OpIn Ph Df Cr op)
    (h : HistorySafe S.env.fl nw o.prevPhase ops) :
    Ok (runOps S o ops) fun r => Box S nw L wt0 Ph Df Cr Y B r.1 ∧
      r.1.prevPhase = endPhase o.prevPhase ops := by
  induction ops generalizing o with
  | nil => exact Ok.ok ⟨ho, rfl⟩
  | cons op ops ih =>
    unfold runOps
    refine Ok.bind (P := fun r => Box S nw L wt0 Ph Df Cr Y B r.1 ∧
      HistorySafe S.env.fl nw r.1.prevPhase ops ∧
        endPhase r.1.prevPhase ops = endPhase o.prevPhase (op :: ops)) ?_ fun r hr => ?_
    · have hop := hin op (by simp)
      have hs := ho.safe
      obtain ⟨wt, hwt, hw⟩ := hs.wt
      obtain ⟨wt', hwt', ht, hn⟩ := ho.wt
      obtain rfl := Option.some.inj (hwt.symm.trans hwt')
      cases op with
      | process dir ps =>
        obtain ⟨h1, h2⟩ := h
        obtain ⟨⟨o', ys⟩, e, a, b, d⟩ := box_run hf hB hc ho hop h1
        dsimp only at a b d
        exact ⟨_, process_eq hwt _ (by simp) e d, a, by rw [b]; exact h2, by dsimp only; rw [b]; rfl⟩
      | setWaveform i =>
        obtain ⟨h0, h1, h2⟩ := h
        unfold runOp setWaveform
        rw [chk_true (by rw [hwt]; rfl)]
        simp only [R.pure_eq, R.ok_bind]
        refine Ok.ok ⟨⟨⟨⟨⟨hs.wt, hs.mip0, hs.mip1, hs.j0, hs.j1, hs.jf, hs.jb, hs.p0, hs.p1, hs.red,
          hs.fl, hs.diff, hs.posF, hs.posB⟩, h0, h1⟩, hs.back⟩, ho.wt, ho.phase, ho.diff, hop, ho.mem,
          ho.pj⟩, h2, rfl⟩
      | reset p d =>
        obtain ⟨h1, h2, h3, h4⟩ := h
        obtain ⟨o1, e1, hp1⟩ := reset_play hf hwt hw h1 h2 hs.crt0 hs.crt1
        obtain ⟨c, t, hnx, -, hw', -⟩ := find_spec (S := S) hf hw (abs_pos.2 h2)
        have e := reset_ok (S := S) hf hwt hw h1 h2 hnx
        have heq := Except.ok.inj (e1.symm.trans e)
        have hcn : c.numSamples = wt.cf.numSamples := by
          rw [CrossFader.newIndices_stepD hf hw.inv (abs_pos.2 h2) hnx, (CrossFader.stepD_const _ _).2]
        unfold runOp
        refine ⟨(o1, []), by dsimp only; rw [e1]; rfl, ⟨⟨hp1.1, by rw [hp1.2.1, hp1.2.2.1]; exact h3⟩, ?_, ?_, ?_, ?_, ?_, ?_⟩, ?_, ?_⟩
        · rw [heq]; exact ⟨_, rfl, ht, hcn.trans hn⟩
        · rw [heq]; exact hop.1
        · rw [heq]; exact hop.2
        · rw [heq]; exact ho.crt
        · rw [heq]; exact hc.zero
        · rw [heq]; exact ho.pj
        · dsimp only; rw [hp1.2.1]; exact h4
        · dsimp only; rw [hp1.2.1]; rfl
    · obtain ⟨o1, y1⟩ := r
      dsimp only at hr ⊢
      refine Ok.bind (ih hr.1 (fun op hop => hin op (by simp [hop])) hr.2.1) fun r2 h2 => ?_
      exact Ok.pure ⟨h2.1, by rw [← hr.2.2]; exact h2.2⟩

/-- what a call mentions -/
def opPhases : Op K → List K
  | .process _ ps => ps
  | .setWaveform _ => []
  | .reset p _ => [p]

/-- what a call mentions -/
def opSteps : Op K → List K
  | .reset _ d => [d]
  | _ => []

/-- what a call mentions -/
def opWaves : Op K → List ℤ
  | .setWaveform i => [i]
  | _ => []

/-- a deterministic program on finitely many states -/
theorem iterate_periodic {X α : Type} [Finite X] (g : X → X) (y : X → α) (x : X) :
    EventuallyPeriodic fun n => y (g^[n] x) := by
  obtain ⟨i, j, hne, e⟩ := Finite.exists_ne_map_eq_of_infinite fun n => g^[n] x
  have key : ∀ i j, i < j → g^[i] x = g^[j] x → EventuallyPeriodic fun n => y (g^[n] x) := by
    intro i j hij e
    refine ⟨i, j - i, by omega, fun n hn => ?_⟩
    dsimp only
    rw [show n + (j - i) = (n - i) + j by omega, Function.iterate_add_apply, ← e,
      ← Function.iterate_add_apply, show n - i + i = n by omega]
  rcases lt_or_gt_of_ne hne with h | h
  · exact key i j h e
  · exact key j i h e.symm

theorem repeats (hf : Rounding S.env.fl) (hB : 0 < S.B)
    (hfin : (Set.range fun x : C × C => x.1 + x.2).Finite) (ho : OscSafe S nw L o) {ops : List (Op K)}
    (h : HistorySafe S.env.fl nw o.prevPhase ops) (he : endPhase o.prevPhase ops = o.prevPhase) :
    ∃ (st : ℕ → Osc K C) (ys : ℕ → List K), st 0 = o ∧
      (∀ k, runOps S (st k) ops = .ok (st (k + 1), ys k)) ∧ EventuallyPeriodic fun k => (st k, ys k) := by
  obtain ⟨wt0, hwt0, -⟩ := ho.wt
  let Ph : Set K := {p | p ∈ o.prevPhase :: ops.flatMap opPhases}
  have hPh : Ph.Finite := List.finite_toSet _
  let Df : Set K := {d | d ∈ o.prevPhaseDiff :: ops.flatMap opSteps} ∪
    ((fun x : K × K => dirDiff S.env.fl .kForward x.1 x.2) '' (Ph ×ˢ Ph) ∪
      (fun x : K × K => dirDiff S.env.fl .kBidirectionnal x.1 x.2) '' (Ph ×ˢ Ph))
  have hDf : Df.Finite := (List.finite_toSet _).union
    (((hPh.prod hPh).image _).union ((hPh.prod hPh).image _))
  let Cr : Set ℤ := {i | i ∈ o.crt :: ops.flatMap opWaves}
  have hCr : Cr.Finite := List.finite_toSet _
  let V : Set C := insert 0 (Set.range fun x : C × C => x.1 + x.2)
  have hV : V.Finite := hfin.insert 0
  let Y : Set (List C) := insert o.prevY {l | l.length = S.n ∧ ∀ c ∈ l, c ∈ V}
  have hY : Y.Finite := (lists_finite hV _).insert _
  let B : ℤ := 2 ^ L + 1 + |o.prevJRed|
  have hc : Closed S L Ph Df Y B := by
    refine ⟨fun dir p q hp hq => ?_, ?_, fun y a => ?_, ?_⟩
    · right
      cases dir with
      | kForward => exact Or.inl ⟨(p, q), ⟨hp, hq⟩, rfl⟩
      | kBidirectionnal => exact Or.inr ⟨(p, q), ⟨hp, hq⟩, rfl⟩
    · right
      exact ⟨List.length_replicate, fun c hc => Or.inl (List.eq_of_mem_replicate hc)⟩
    · right
      refine ⟨by simp [cpxY], fun c hc => Or.inr ?_⟩
      unfold cpxY at hc
      obtain ⟨k, -, rfl⟩ := List.mem_map.1 hc
      exact ⟨(_, _), rfl⟩
    · have := abs_nonneg o.prevJRed
      show (2 : ℤ) ^ L + 1 ≤ 2 ^ L + 1 + |o.prevJRed|
      omega
  have hbox : Box S nw L wt0 Ph Df Cr Y B o := by
    refine ⟨ho, ⟨wt0, hwt0, rfl, rfl⟩, by simp [Ph], Or.inl (by simp), by simp [Cr], Or.inl rfl, ?_, ?_⟩
    · have := neg_abs_le o.prevJRed
      have : (0 : ℤ) < 2 ^ L := by positivity
      show -(2 ^ L + 1 + |o.prevJRed|) ≤ o.prevJRed
      omega
    · have := le_abs_self o.prevJRed
      have : (0 : ℤ) < 2 ^ L := by positivity
      show o.prevJRed ≤ 2 ^ L + 1 + |o.prevJRed|
      omega
  have hin : ∀ op ∈ ops, OpIn Ph Df Cr op := by
    intro op hop
    have mem : ∀ {β : Type} (f : Op K → List β) (a b : β), a ∈ f op → a ∈ b :: ops.flatMap f :=
      fun f a b ha => List.mem_cons_of_mem _ (List.mem_flatMap.2 ⟨op, hop, ha⟩)
    cases op with
    | process dir ps => exact fun p hp => mem opPhases p _ hp
    | setWaveform i => exact mem opWaves i _ (by simp [opWaves])
    | reset p d =>
      exact ⟨mem opPhases p _ (by simp [opPhases]), Or.inl (mem opSteps d _ (by simp [opSteps]))⟩
  let X : Set (Osc K C) := {x | Box S nw L wt0 Ph Df Cr Y B x ∧ x.prevPhase = o.prevPhase}
  have hX : Finite X := ((box_finite S nw L wt0 B hPh hDf hCr hY).subset fun x hx => hx.1).to_subtype
  have hnext : ∀ x : X, ∃ r : X × List K, runOps S x.1 ops = .ok (r.1.1, r.2) := by
    rintro ⟨x, hx, hxp⟩
    obtain ⟨⟨x', ys⟩, e, h1, h2⟩ := box_ops hf hB hc hx hin (by rw [hxp]; exact h)
    exact ⟨(⟨x', h1, by rw [hxp] at h2; exact h2.trans he⟩, ys), e⟩
  choose g hg using hnext
  refine ⟨fun n => ((fun x => (g x).1)^[n] ⟨o, hbox, rfl⟩).1,
    fun n => (g ((fun x => (g x).1)^[n] ⟨o, hbox, rfl⟩)).2, rfl, fun k => ?_,
    iterate_periodic (fun x => (g x).1) (fun x => (x.1, (g x).2)) _⟩
  dsimp only
  rw [hg, Function.iterate_succ_apply']

end Sys

set_option exponentiation.threshold 400 in
/-- a multiple of `2^-149` in a bounded range: finitely many -/
theorem grid_finite : (Set.range (ieee32 : ℝ → ℝ)).Finite := by
  have hg : ((fun n : ℤ => (n : ℝ) / 2 ^ 149) '' Set.Icc (-2 ^ 277) (2 ^ 277)).Finite :=
    (Set.finite_Icc _ _).image _
  refine (hg.union ((Set.finite_singleton (2 ^ 128 : ℝ)).union (Set.finite_singleton (-2 ^ 128 : ℝ)))).subset ?_
  rintro _ ⟨x, rfl⟩
  rcases ieee32_cases x with ⟨h, e⟩ | ⟨-, e⟩ | ⟨-, e⟩
  · left
    rw [e]
    obtain ⟨k, hk⟩ : ∃ k : ℕ, max (ulpExp x) (-149) = (k : ℤ) - 149 :=
      ⟨(max (ulpExp x) (-149) + 149).toNat, by have := le_max_right (ulpExp x) (-149); omega⟩
    have e2 : rneSub x = ((roundEven (x / 2 ^ max (ulpExp x) (-149)) * 2 ^ k : ℤ) : ℝ) / 2 ^ 149 := by
      unfold rneSub
      rw [hk]
      generalize roundEven (x / 2 ^ ((k : ℤ) - 149)) = m
      rw [Int.cast_mul, Int.cast_pow, Int.cast_ofNat, mul_div_assoc, zpow_sub₀ (by norm_num), zpow_natCast]
      congr 1
    generalize roundEven (x / 2 ^ max (ulpExp x) (-149)) * 2 ^ k = n at e2
    refine ⟨n, ?_, e2.symm⟩
    rw [e2, abs_div, div_le_iff₀ (by positivity), abs_of_pos (by positivity : (0 : ℝ) < 2 ^ 149), ← pow_add] at h
    have h2 : |n| ≤ 2 ^ 277 := by exact_mod_cast h
    exact abs_le.1 h2
  · exact Or.inr (Or.inl e)
  · exact Or.inr (Or.inr e)

theorem grid_finite_ftz : (Set.range (ftz32 : ℝ → ℝ)).Finite := by
  have : Set.range (ftz32 : ℝ → ℝ) = flush '' Set.range (ieee32 : ℝ → ℝ) := by
    ext y; constructor
    · rintro ⟨x, rfl⟩; exact ⟨_, ⟨x, rfl⟩, rfl⟩
    · rintro ⟨_, ⟨x, rfl⟩, rfl⟩; exact ⟨x, rfl⟩
  rw [this]
  exact grid_finite.image _

/-- sums of complex floats are pairs of floats -/
theorem sums_finite {rnd : ℝ → ℝ} (h : (Set.range rnd).Finite) :
    (Set.range fun x : CFl rnd × CFl rnd => x.1 + x.2).Finite := by
  refine ((h.prod h).image fun x : ℝ × ℝ => (⟨x.1, x.2⟩ : CFl rnd)).subset ?_
  rintro _ ⟨x, rfl⟩
  exact ⟨(_, _), ⟨⟨_, rfl⟩, ⟨_, rfl⟩⟩, rfl⟩

end Adwt
