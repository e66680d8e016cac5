import Verif.Proofs.Negative

/-!
# C63, C64: phases outside `[0, 1)`

The documentation asks for phases in `[0, 1)`; the code reduces phases in `[-1, 2]`, and the tones
generator plays negative ones.
-/

set_option linter.unusedSectionVars false

namespace Adwt.Props
variable {K C : Type} [Field K] [LinearOrder K] [IsStrictOrderedRing K] [FloorRing K]
variable [Zero C] [Add C] [Sub C] [Mul C] [Div C]

/-! ### C63 -/

theorem sameRun_fract {E : Env K} {G : K → Prop} (h : ExactOn E.fl G) (dir : Sys.Direction) (x : K)
    (qs : List K) (hx : G x) (hG : ∀ q ∈ qs, G q) (hq : RawSteps dir x qs) :
    Sys.SameRun E dir x (Int.fract x) qs (qs.map Int.fract) := by
  induction qs generalizing x with
  | nil => trivial
  | cons q qs ih =>
    obtain ⟨a, b, c, d, e⟩ := hq
    have hq1 := hG q List.mem_cons_self
    refine ⟨⟨Int.fract q, ?_, reduce_fract h hq1 a b⟩, ?_,
      ih q hq1 (fun y hy => hG y (List.mem_cons_of_mem _ hy)) e⟩
    · have := reduce_fract h (h.fract hq1) (by linarith [Int.fract_nonneg q])
        (by linarith [Int.fract_lt_one q])
      rwa [Int.fract_fract] at this
    · exact (dirDiff_fract h hq1 hx c dir d).symm

theorem cycles {S : Sys K C} {G : K → Prop} (h : ExactOn S.env.fl G) (o : Osc K C)
    (dir : Sys.Direction) (x d : K) (qs : List K) (hx0 : -1 ≤ x) (hx1 : x < 2) (hx : G x)
    (hG : ∀ q ∈ qs, G q) (hq : RawSteps dir x qs) :
    Except.map (fun r => r.2) (runOps S o [.reset x d, .process dir qs]) =
      Except.map (fun r => r.2) (runOps S o [.reset (Int.fract x) d, .process dir (qs.map Int.fract)]) := by
  have hr : Maths.reduceF S.env (Int.fract x) 1 = .ok (Int.fract x) := by
    have := reduce_fract h (h.fract hx) (by linarith [Int.fract_nonneg x])
      (by linarith [Int.fract_lt_one x])
    rwa [Int.fract_fract] at this
  have e := Sys.reset_at (S := S) o (d := d) hr (reduce_fract h hx hx0 hx1)
  unfold runOps runOp
  dsimp only
  rw [e]
  cases hres : S.resetInternals o (Int.fract x) d with
  | error => rfl
  | ok o1 =>
    have hw : o1.wt.isSome = true ∧ o1.prevPhase = Int.fract x := by
      unfold Sys.resetInternals at hres
      cases how : o.wt with
      | none =>
        rw [how] at hres
        dsimp only at hres
        cases hc : chk S.env.dbg False <;> rw [hc] at hres <;> cases hres
      | some wt =>
        rw [how] at hres
        dsimp only at hres
        obtain ⟨p, -, hres⟩ := bind_ok hres
        obtain ⟨⟨w, t⟩, -, hres⟩ := bind_ok hres
        obtain ⟨l, -, hres⟩ := bind_ok hres
        obtain ⟨j, -, hres⟩ := bind_ok hres
        cases hres
        exact ⟨rfl, rfl⟩
    simp only [Except.map, R.ok_bind, R.pure_eq]
    unfold runOps runOp
    dsimp only
    have hs := sameRun_fract h dir x qs hx hG hq
    rw [← hw.2] at hs
    have hp := Sys.process_at (S := S) dir o1 (out := List.replicate (qs.map Int.fract).length 0) hw.1
      (by simp) hs
    rw [List.length_map] at hp
    rw [hp, List.length_map]
    cases S.process dir o1 (qs.map Int.fract) (List.replicate qs.length 0) with
    | error => rfl
    | ok u => rfl

/-- C63: in exact arithmetic whole cycles do not matter. A reset to a phase in `[-1, 2)` and a block
of phases in `[-1, 2)`, with steps of less than a cycle (and, in bidirectional mode, not of exactly
half a cycle), give the outputs (or the failure) of the same phases reduced to `[0, 1)`, whatever
the state, in both modes, in debug and release builds. -/
theorem C63_exact (S : Sys K C) (he : S.env.fl = id) (o : Osc K C) (dir : Sys.Direction) (x d : K)
    (qs : List K) (hx0 : -1 ≤ x) (hx1 : x < 2) (hq : RawSteps dir x qs) :
    Except.map (fun r => r.2) (runOps S o [.reset x d, .process dir qs]) =
      Except.map (fun r => r.2) (runOps S o [.reset (Int.fract x) d, .process dir (qs.map Int.fract)]) :=
  cycles (by rw [he]; exact exactOn_id) o dir x d qs hx0 hx1 trivial (fun _ _ => trivial) hq

/-- C63: so it is in floats for phases that are multiples of `2^-23`. -/
theorem C63_grid (S : Sys K C) (hf : Rounding S.env.fl) (o : Osc K C) (dir : Sys.Direction) (x d : K)
    (qs : List K) (hx0 : -1 ≤ x) (hx1 : x < 2) (hx : ∃ k : ℤ, x = k / 2 ^ 23)
    (hG : ∀ q ∈ qs, ∃ k : ℤ, q = k / 2 ^ 23) (hq : RawSteps dir x qs) :
    Except.map (fun r => r.2) (runOps S o [.reset x d, .process dir qs]) =
      Except.map (fun r => r.2) (runOps S o [.reset (Int.fract x) d, .process dir (qs.map Int.fract)]) :=
  cycles (exactOn_grid hf) o dir x d qs hx0 hx1 hx hG hq

/-- Backward through zero into negative phases, and forward again. -/
example : RawSteps .kBidirectionnal (1 / 8 : ℝ) [-1 / 8, -1 / 2, -7 / 8, -1 / 2, -1 / 8, 1 / 4] := by
  unfold RawSteps RawSteps RawSteps RawSteps RawSteps RawSteps RawSteps
  norm_num [abs_lt, abs_eq]

/-! ### C64 -/

/-- C64: in floats, a phase in `[-2^-25, 0)` is reduced to 1, which is not a phase in `[0, 1)`. -/
theorem C64_reduces (E : Env K) (he : E.fl = ieee32) (q : K) (h0 : -(1 / 2 ^ 25) ≤ q) (h1 : q < 0) :
    Maths.reduceF E q 1 = .ok 1 := reduce_tiny he h0 h1

theorem runOps_append (S : Sys K C) (o : Osc K C) (a b : List (Op K)) :
    runOps S o (a ++ b) = runOps S o a >>= fun r => runOps S r.1 b >>= fun r2 =>
      .ok (r2.1, r.2 ++ r2.2) := by
  induction a generalizing o with
  | nil =>
    show _ = runOps S o b >>= _
    rw [List.nil_append]
    cases runOps S o b <;> rfl
  | cons op a ih =>
    have hc : ∀ ops : List (Op K), runOps S o (op :: ops) = runOp S o op >>= fun r =>
      runOps S r.1 ops >>= fun r2 => .ok (r2.1, r.2 ++ r2.2) := fun _ => rfl
    rw [List.cons_append, hc, hc]
    cases runOp S o op with
    | error => rfl
    | ok r =>
      obtain ⟨o1, y1⟩ := r
      simp only [R.ok_bind]
      rw [ih]
      cases runOps S o1 a with
      | error => rfl
      | ok r2 =>
        obtain ⟨o2, y2⟩ := r2
        simp only [R.ok_bind]
        cases runOps S o2 b with
        | error => rfl
        | ok r3 => simp only [R.ok_bind, List.append_assoc]

/-- C64: negative phases are not safe in floats. Whatever was played before, whatever the wavetable
(of at least 8 samples per waveform), in both modes and builds: after enough resets for the crossfader
to settle on the last table, a reset to any float in `[-2^-25, 0)` followed by a single forward step
accesses a table out of bounds, while the same calls with phase 0 succeed. -/
theorem C64_false (S : Sys K C) (he : S.env.fl = ieee32) (hl : Log2Spec S.env.log2f) (hB : 0 < S.B)
    (nw L : ℕ) (hL : 3 ≤ L) (o : Osc K C) (ho : Reached S nw L o) :
    ∃ N, ∀ (q : K) (dir : Sys.Direction), -(1 / 2 ^ 25) ≤ q → q < 0 → ieee32 q = q →
      runOps S o (List.replicate N (.reset 0 (3 / 8)) ++ [.reset q (3 / 8), .process dir [1 / 2 ^ L]]) =
        .error .outOfBounds ∧
      ∃ o' ys, runOps S o (List.replicate N (.reset 0 (3 / 8)) ++
        [.reset 0 (3 / 8), .process dir [1 / 2 ^ L]]) = .ok (o', ys) := by
  have hf : Rounding S.env.fl := by rw [he]; exact rounding_ieee32
  have hs := Sys.reached_play hf hl hB ho
  obtain ⟨wt, hw, hok⟩ := hs.wt
  have hL18 := hok.L18
  refine ⟨(settleOf L o).toNat, fun q dir h0 h1 hq => ?_⟩
  obtain ⟨⟨o1, ys⟩, e, p1, p2, p3⟩ := settle_resets (S := S) hf (settleOf L o).toNat hs
    (Int.self_le_toNat _)
  dsimp only at p1 p2 p3
  rw [runOps_append, runOps_append, e, R.ok_bind, R.ok_bind]
  dsimp only
  refine ⟨by rw [tiny_fails he hL p1 p2 h0 h1 hq dir]; rfl, ?_⟩
  have hz : PhaseOk S.env.fl (0 : K) := ⟨le_rfl, by norm_num, hf.zero_ph⟩
  obtain ⟨wt1, hw1, hok1⟩ := p1.wt
  obtain ⟨o2, e2, r1, r2, r3, -, -⟩ := Sys.reset_play hf hw1 hok1 hz
    (by norm_num : (3 / 8 : K) ≠ 0) p1.crt0 p1.crt1
  have hp0 : (0 : K) < 1 / 2 ^ L := by positivity
  have hp1 : (1 : K) / 2 ^ L ≤ 1 / 8 := by
    have : (2 : K) ^ 3 ≤ 2 ^ L := pow_le_pow_right₀ (by norm_num) hL
    have := one_div_le_one_div_of_le (by positivity) this
    norm_num at this ⊢; exact this
  have hpok : PhaseOk S.env.fl ((1 : K) / 2 ^ L) := by
    refine ⟨hp0.le, by linarith, ?_⟩
    have := hf.dyadic_ph 1 L (by norm_num); simpa using this
  have hblock : BlockSafe S.env.fl dir o2.prevPhase [1 / 2 ^ L] := by
    rw [r2]
    refine ⟨hpok, ?_, trivial⟩
    cases dir with
    | kForward => left; constructor <;> linarith
    | kBidirectionnal => exact ⟨hp0.ne', fun h => absurd h hp0.ne'⟩
  obtain ⟨⟨o3, ys3⟩, e3, -⟩ := Sys.history_ok (S := S) hf hB (o := o2) (nw := nw) (L := L)
    (ops := [.process dir [1 / 2 ^ L]])
    ⟨r1, fun h => absurd h (by rw [r3]; norm_num)⟩ ⟨hblock, trivial⟩
  refine ⟨o3, ys ++ ys3, ?_⟩
  have e4 : runOps S o1 [.reset 0 (3 / 8), .process dir [1 / 2 ^ L]] = .ok (o3, ys3) := by
    conv_lhs => unfold runOps
    unfold runOp
    dsimp only
    rw [e2]
    simp only [R.ok_bind, R.pure_eq]
    rw [e3]
    rfl
  rw [e4]; rfl

/-- There are such floats, and such oscillators. -/
example : -(1 / 2 ^ 25) ≤ (-(1 / 2 ^ 30) : ℝ) ∧ (-(1 / 2 ^ 30) : ℝ) < 0 ∧
    ieee32 (-(1 / 2 ^ 30) : ℝ) = -(1 / 2 ^ 30) := by
  refine ⟨by norm_num, by norm_num, ?_⟩
  have := (rounding_ieee32 (K := ℝ)).dyadic (-1) 30 (by norm_num)
  norm_num at this ⊢; exact this

example (t : FilterType) (ws : List ℝ) (h : ws.length = 8) : ∃ o N, Reached (sysOf envI t) 1 3 o ∧
    runOps (sysOf envI t) o (List.replicate N (.reset 0 (3 / 8)) ++
      [.reset (-(1 / 2 ^ 30)) (3 / 8), .process .kForward [1 / 2 ^ 3]]) = .error .outOfBounds := by
  obtain ⟨o, ho, -⟩ := exampleReached envI envI_ok t ws h
  obtain ⟨N, hN⟩ := C64_false (sysOf envI t) rfl envI_ok.2.1 (by norm_num [sysOf]) 1 3 le_rfl o ho
  refine ⟨o, N, ho, (hN _ .kForward (by norm_num) (by norm_num) ?_).1⟩
  have := (rounding_ieee32 (K := ℝ)).dyadic (-1) 30 (by norm_num)
  norm_num at this ⊢; exact this

end Adwt.Props
