import Verif.Proofs.ToneDrive
import Verif.Props.Hold

/-!
# Sweeps, blocks and steps too small to accumulate
-/

set_option linter.unusedSectionVars false

namespace Adwt.Drivers
variable {K C : Type} [Field K] [LinearOrder K] [IsStrictOrderedRing K] [FloorRing K]
variable [Zero C] [Add C] [Sub C] [Mul C] [Div C]
variable {S : Sys K C} {nw L : ℕ}

theorem ramp_length (fl : K → K) (step x : K) (n : ℕ) : (ramp fl step x n).length = n := by
  induction n generalizing x with
  | zero => rfl
  | succ n ih => simp [ramp, ih]

/-- a rising ramp of floats stays between its first and its last value -/
theorem ramp_between {fl : K → K} (hf : Rounding fl) {step : K} (hs : 0 ≤ step) (n : ℕ) :
    ∀ x : K, fl x = x → ∀ y ∈ ramp fl step x n, x ≤ y ∧ ∀ z ∈ (ramp fl step x n).getLast?, y ≤ z := by
  induction n with
  | zero => intro x _ y hy; simp [ramp] at hy
  | succ n ih =>
    intro x hx y hy
    have hx2 : x ≤ fl (x + step) := hf.ge_of_ge hx (by linarith)
    unfold ramp at hy ⊢
    rcases List.mem_cons.1 hy with rfl | hy
    · refine ⟨le_rfl, fun z hz => ?_⟩
      rw [List.getLast?_cons] at hz
      cases hl : (ramp fl step (fl (y + step)) n).getLast? with
      | none => rw [hl] at hz; simp at hz; exact hz.le
      | some w =>
        rw [hl] at hz
        simp at hz
        have hw : w ∈ ramp fl step (fl (y + step)) n := List.mem_of_getLast? hl
        have := (ih _ (hf.idem _) w hw).1
        rw [← hz]; linarith
    · obtain ⟨a, b⟩ := ih _ (hf.idem _) y hy
      refine ⟨hx2.trans a, fun z hz => ?_⟩
      rw [List.getLast?_cons] at hz
      cases hl : (ramp fl step (fl (x + step)) n).getLast? with
      | none =>
        have := List.getLast?_eq_none_iff.1 hl
        rw [this] at hy; simp at hy
      | some w =>
        rw [hl] at hz
        simp at hz
        rw [← hz]; exact b w (by rw [hl]; rfl)

theorem blockSafe_append {fl : K → K} {dir : Sys.Direction} {x : K} {a b : List K} :
    BlockSafe fl dir x (a ++ b) ↔ BlockSafe fl dir x a ∧ BlockSafe fl dir (a.getLastD x) b := by
  induction a generalizing x with
  | nil => simp [BlockSafe]
  | cons p a ih =>
    rw [List.cons_append, List.getLastD_cons]
    simp only [BlockSafe, ih]
    tauto

theorem accumulate_append (fl : K → K) (x : K) (a b : List K) :
    accumulate fl x (a ++ b) = accumulate fl x a ++ accumulate fl ((accumulate fl x a).getLastD x) b := by
  induction a generalizing x with
  | nil => rfl
  | cons s a ih =>
    simp only [List.cons_append, accumulate, List.getLastD_cons]
    rw [ih]

/-- a sweep after a state with a positive step at a phase above 1/2 -/
theorem sweep_safe {x : K} (hx : 1 / 2 < x) (hx1 : PhaseOk ieee32 x) {ss : List K}
    (h : ∀ s ∈ ss, StepRange s) (dir : Sys.Direction) :
    BlockSafe ieee32 dir x (0 :: accumulate ieee32 0 ss) := by
  have hf := rounding_ieee32 (K := K)
  have h0 : PhaseOk ieee32 (0 : K) := ⟨le_rfl, by norm_num, hf.zero_ph⟩
  refine ⟨h0, ?_, accumulate_safe h0 h dir⟩
  cases dir with
  | kForward => right; constructor <;> linarith
  | kBidirectionnal => exact ⟨by linarith, fun _ => hx⟩

/-- one pass over a phase list in blocks -/
theorem benchLoop_ok (hf : Rounding S.env.fl) (hB : 0 < S.B) {o : Osc K C} (ho : OscSafe S nw L o)
    {phases : List K} (hp : BlockSafe S.env.fl .kForward o.prevPhase phases) {bs : ℕ} (k : ℕ)
    (hk : k * bs ≤ phases.length) :
    Ok (benchLoop S o phases bs k) fun r => OscSafe S nw L r.1 ∧
      r.1.prevPhase = (phases.take (k * bs)).getLastD o.prevPhase ∧ r.2.length = k * bs := by
  induction k with
  | zero => refine Ok.ok ⟨ho, by simp, by simp⟩
  | succ k ih =>
    have hk' : k * bs + bs ≤ phases.length := by rw [← Nat.succ_mul]; exact hk
    unfold benchLoop
    refine Ok.bind (ih (by omega)) fun r hr => ?_
    obtain ⟨o1, ys⟩ := r
    obtain ⟨a1, a2, a3⟩ := hr
    dsimp only at a1 a2 a3 ⊢
    have hsplit : phases = phases.take (k * bs) ++ ((phases.drop (k * bs)).take bs ++
        phases.drop (k * bs + bs)) := by
      conv_lhs => rw [← List.take_append_drop (k * bs) phases,
        ← List.take_append_drop bs (phases.drop (k * bs)), List.drop_drop]
    have hb : BlockSafe S.env.fl .kForward o1.prevPhase ((phases.drop (k * bs)).take bs) := by
      rw [hsplit, blockSafe_append, blockSafe_append] at hp
      rw [a2]; exact hp.2.1
    obtain ⟨⟨o2, zs⟩, e, b1, b2, -, b4⟩ := Sys.run_ok hf hB a1 hb
    dsimp only at b1 b2 b4
    obtain ⟨wt, hw, -⟩ := a1.wt
    have hlen : ((phases.drop (k * bs)).take bs).length = bs := by
      rw [List.length_take, List.length_drop]; omega
    rw [Sys.process_eq hw _ (by rw [hlen]; simp) e b4, R.ok_bind]
    refine Ok.pure ⟨b1, ?_, by simp [a3, b4, hlen]; ring⟩
    dsimp only
    rw [b2, a2, Nat.succ_mul, List.take_add]
    generalize (phases.drop (k * bs)).take bs = b
    generalize phases.take (k * bs) = a
    cases b with
    | nil => simp
    | cons q b =>
      simp [List.getLastD_eq_getLast?]

/-! ### steps too small to accumulate -/

/-- the phase of a slow tone gets stuck -/
theorem stuck (s : K) (h0 : 0 ≤ s) (h1 : s ≤ 1 / 2 ^ 25) :
    ∃ (n : ℕ) (p : K), (∀ dir, BlockSafe ieee32 dir 0 (accumulate ieee32 0 (List.replicate n s))) ∧
      (accumulate ieee32 0 (List.replicate n s)).getLastD 0 = p ∧ PhaseOk ieee32 p ∧ p ≤ 1 / 2 ∧
      fmod1 (ieee32 (p + s)) = p := by
  have hf := rounding_ieee32 (K := K)
  obtain ⟨n, a, b, c, d⟩ := stall s h0 h1 (2 ^ 148) 0 ⟨le_rfl, by norm_num, hf.zero_ph⟩ (by norm_num)
    (by norm_num)
  exact ⟨n, _, a, rfl, c, b, d⟩

theorem accumulate_stuck {s p : K} (h : fmod1 (ieee32 (p + s)) = p) (m : ℕ) :
    accumulate ieee32 p (List.replicate m s) = List.replicate m p := by
  induction m with
  | zero => rfl
  | succ m ih => rw [List.replicate_succ, accumulate, h, ih, List.replicate_succ]

end Adwt.Drivers
