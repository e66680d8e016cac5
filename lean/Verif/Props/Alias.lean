import Verif.Model.Alias
import Verif.Props.Bounded
import Verif.Props.Hold
import Verif.Proofs.Sweep

/-!
# C74: processing in place
-/

set_option linter.unusedSectionVars false

namespace Adwt

/-- The content of `n` consecutive addresses. -/
def readSpan {K : Type} (mem : ℕ → K) (a n : ℕ) : List K := (List.range n).map fun i => mem (a + i)

/-- The memory with `ys` written from address `a` on. -/
def writeSpan {K : Type} (mem : ℕ → K) (a : ℕ) (ys : List K) : ℕ → K :=
  fun x => if a ≤ x then ys.getD (x - a) (mem x) else mem x

namespace Props
variable {K C : Type} [Field K] [LinearOrder K] [IsStrictOrderedRing K] [FloorRing K]
variable [Zero C] [Add C] [Sub C] [Mul C] [Div C]

theorem readSpan_succ (mem : ℕ → K) (a n : ℕ) : readSpan mem a (n + 1) = mem a :: readSpan mem (a + 1) n := by
  unfold readSpan
  rw [List.range_succ_eq_map, List.map_cons, List.map_map, Nat.add_zero]
  congr 1
  apply List.map_congr_left
  intro i _
  show mem (a + (i + 1)) = mem (a + 1 + i)
  congr 1; omega

theorem readSpan_length (mem : ℕ → K) (a n : ℕ) : (readSpan mem a n).length = n := by
  simp [readSpan]

theorem readSpan_congr {m m' : ℕ → K} {a n : ℕ} (h : ∀ x, a ≤ x → x < a + n → m x = m' x) :
    readSpan m a n = readSpan m' a n := by
  unfold readSpan
  apply List.map_congr_left
  intro i hi
  have := List.mem_range.1 hi
  exact h _ (by omega) (by omega)

theorem writeSpan_cons (mem : ℕ → K) (a : ℕ) (y : K) (ys : List K) :
    writeSpan (Function.update mem a y) (a + 1) ys = writeSpan mem a (y :: ys) := by
  funext x
  unfold writeSpan
  by_cases h1 : a + 1 ≤ x
  · rw [if_pos h1, if_pos (by omega), Function.update_of_ne (by omega)]
    rw [show x - a = x - (a + 1) + 1 by omega, List.getD_cons_succ]
  · rw [if_neg h1]
    by_cases h2 : x = a
    · subst h2
      rw [Function.update_self, if_pos le_rfl, Nat.sub_self, List.getD_cons_zero]
    · rw [Function.update_of_ne h2, if_neg (by omega)]

theorem writeSpan_nil (mem : ℕ → K) (a : ℕ) : writeSpan mem a [] = mem := by
  funext x; unfold writeSpan; split_ifs <;> simp

/-- reading what was written -/
theorem readSpan_write (mem : ℕ → K) (a : ℕ) (ys : List K) : readSpan (writeSpan mem a ys) a ys.length = ys := by
  induction ys generalizing mem a with
  | nil => rfl
  | cons y ys ih =>
    rw [List.length_cons, readSpan_succ, ← writeSpan_cons, ih]
    congr 1
    unfold writeSpan
    rw [if_neg (by omega), Function.update_self]

/-- the loop when no output is written on a phase still to be read -/
theorem memLoop_behind (S : Sys K C) (dir : Sys.Direction) (n : ℕ) : ∀ (o : Osc K C) (mem : ℕ → K) (pa oa : ℕ),
    (oa ≤ pa ∨ pa + n ≤ oa) → S.memLoop dir o mem pa oa n =
      (S.runDir dir o (readSpan mem pa n) >>= fun r => .ok (r.1, writeSpan mem oa r.2)) := by
  induction n with
  | zero => intro o mem pa oa _; simp [Sys.memLoop, readSpan, Sys.runDir, R.ok_bind, writeSpan_nil]
  | succ n ih =>
    intro o mem pa oa h
    rw [readSpan_succ]
    unfold Sys.memLoop Sys.runDir
    cases e : S.stepDir dir o (mem pa) with
    | error e => rfl
    | ok r =>
      obtain ⟨o1, y⟩ := r
      rw [R.ok_bind, R.ok_bind]
      dsimp only
      rw [ih o1 _ (pa + 1) (oa + 1) (by omega), readSpan_congr (m' := mem) (by
        intro x h1 h2
        rw [Function.update_of_ne (by omega)])]
      cases e2 : S.runDir dir o1 (readSpan mem (pa + 1) n) with
      | error e => rfl
      | ok r => exact congrArg (fun m => Except.ok (r.1, m)) (writeSpan_cons mem oa y r.2)

/-- C74: spans of one memory. As long as the output does not start strictly inside the phases (in
particular when it *is* the phases: processing in place), `process` computes the same samples and the
same state, or fails in the same way, as with the phases and the output in separate buffers; nothing
else in the memory changes. -/
theorem C74_in_place (S : Sys K C) (dir : Sys.Direction) (o : Osc K C) (mem : ℕ → K) (pa oa n : ℕ)
    (h : oa ≤ pa ∨ pa + n ≤ oa) : S.processMem dir o mem pa n oa n =
      (S.process dir o (readSpan mem pa n) (readSpan mem oa n) >>= fun r =>
        .ok (r.1, writeSpan mem oa r.2)) := by
  unfold Sys.processMem Sys.process
  rw [Nat.min_self, memLoop_behind S dir n o mem pa oa h, readSpan_length, readSpan_length,
    List.take_of_length_le (by rw [readSpan_length])]
  have hc : ∀ b : Bool, chk b (n = n) = .ok () := fun b => by unfold chk; rw [if_neg]; simp
  rw [hc]
  simp only [R.ok_bind]
  cases o.wt with
  | none =>
    simp only [Option.isNone_none, if_true]
    cases chk S.env.dbg False with
    | error e => rfl
    | ok u =>
      rw [R.ok_bind, R.ok_bind]
      cases hr : S.runDir dir o (readSpan mem pa n) with
      | error e => rfl
      | ok r =>
        have hl := Sys.runDir_length hr
        rw [readSpan_length] at hl
        rw [R.ok_bind, R.ok_bind]
        show _ = (Except.ok (r.1, r.2 ++ _) >>= _)
        rw [R.ok_bind, List.drop_of_length_le (by rw [readSpan_length, hl]), List.append_nil]
  | some wt =>
    simp only [Option.isNone_some, Bool.false_eq_true, if_false]
    cases hr : S.runDir dir o (readSpan mem pa n) with
    | error e => rfl
    | ok r =>
      have hl := Sys.runDir_length hr
      rw [readSpan_length] at hl
      show (Except.ok r >>= _) = ((Except.ok r >>= _) >>= _)
      rw [R.ok_bind, R.ok_bind]
      show _ = (Except.ok (r.1, r.2 ++ _) >>= _)
      rw [R.ok_bind, List.drop_of_length_le (by rw [readSpan_length, hl]), List.append_nil]

/-- the loop when the output starts inside the phases -/
theorem memLoop_ahead (S : Sys K C) (dir : Sys.Direction) (k n : ℕ) : ∀ (o : Osc K C) (mem : ℕ → K) (pa : ℕ)
    (o' : Osc K C) (mem' : ℕ → K), S.memLoop dir o mem pa (pa + (k + 1)) n = .ok (o', mem') →
    ∃ ys, ys.length = n ∧ mem' = writeSpan mem (pa + (k + 1)) ys ∧
      S.runDir dir o ((readSpan mem pa (k + 1) ++ ys).take n) = .ok (o', ys) := by
  induction n with
  | zero =>
    intro o mem pa o' mem' h
    unfold Sys.memLoop at h
    cases h
    exact ⟨[], rfl, (writeSpan_nil _ _).symm, by simp [Sys.runDir]⟩
  | succ n ih =>
    intro o mem pa o' mem' h
    unfold Sys.memLoop at h
    obtain ⟨⟨o1, y⟩, e1, h⟩ := bind_ok h
    dsimp only at h
    rw [show pa + (k + 1) + 1 = pa + 1 + (k + 1) by omega] at h
    obtain ⟨ys, hl, hm, hr⟩ := ih _ _ _ _ _ h
    refine ⟨y :: ys, by simp [hl], ?_, ?_⟩
    · rw [hm, ← writeSpan_cons, show pa + (k + 1) + 1 = pa + 1 + (k + 1) by omega]
    · rw [readSpan_succ, List.cons_append, List.take_succ_cons]
      have e : readSpan (Function.update mem (pa + (k + 1)) y) (pa + 1) (k + 1) =
          readSpan mem (pa + 1) k ++ [y] := by
        unfold readSpan
        rw [List.range_succ, List.map_append, List.map_singleton,
          show pa + 1 + k = pa + (k + 1) by omega, Function.update_self]
        congr 1
        apply List.map_congr_left
        intro i hi
        have := List.mem_range.1 hi
        rw [Function.update_of_ne (by omega)]
      rw [e, List.append_assoc, List.singleton_append] at hr
      unfold Sys.runDir
      rw [e1, R.ok_bind]
      dsimp only
      rw [hr, R.ok_bind]
      rfl

/-- C74: if the output starts `k` addresses after the phases, `0 < k < n`, then from the `k`-th sample on
the phases are the samples output before: the call does what a call with separate buffers does with those
phases. -/
theorem C74_feedback (S : Sys K C) (dir : Sys.Direction) (o : Osc K C) (hw : o.wt.isSome = true)
    (mem : ℕ → K) (pa k n : ℕ) (hk : 0 < k) (o' : Osc K C) (mem' : ℕ → K)
    (h : S.processMem dir o mem pa n (pa + k) n = .ok (o', mem')) (out : List K) (hout : out.length = n) :
    ∃ ys, ys.length = n ∧ mem' = writeSpan mem (pa + k) ys ∧
      S.process dir o ((readSpan mem pa k ++ ys).take n) out = .ok (o', ys) := by
  obtain ⟨k, rfl⟩ := Nat.exists_eq_succ_of_ne_zero hk.ne'
  unfold Sys.processMem at h
  have hn : o.wt.isNone = false := by rw [← Option.not_isSome, hw]; rfl
  rw [hn] at h
  simp only [Bool.false_eq_true, if_false, chk_true, R.ok_bind, Nat.min_self] at h
  obtain ⟨ys, hl, hm, hr⟩ := memLoop_ahead S dir k n o mem pa o' mem' h
  refine ⟨ys, hl, hm, ?_⟩
  rw [Sys.process_runDir S dir hw (by simp [hl, hout, readSpan_length])]
  exact hr

theorem runDir_split (S : Sys K C) (dir : Sys.Direction) (b : List K) : ∀ (a : List K) {o o' : Osc K C} {ys : List K},
    S.runDir dir o (a ++ b) = .ok (o', ys) → ∃ o1 y1 y2, S.runDir dir o a = .ok (o1, y1) ∧
      S.runDir dir o1 b = .ok (o', y2) ∧ ys = y1 ++ y2 := by
  intro a
  induction a with
  | nil => intro o o' ys h; exact ⟨o, [], ys, rfl, h, rfl⟩
  | cons p a ih =>
    intro o o' ys h
    rw [List.cons_append] at h
    unfold Sys.runDir at h
    obtain ⟨⟨o1, y⟩, e1, h⟩ := bind_ok h
    dsimp only at h
    obtain ⟨⟨o2, zs⟩, e2, h⟩ := bind_ok h
    cases h
    obtain ⟨o3, y1, y2, f1, f2, rfl⟩ := ih e2
    refine ⟨o3, y :: y1, y2, ?_, f2, rfl⟩
    unfold Sys.runDir
    rw [e1, R.ok_bind]
    dsimp only
    rw [f1]; rfl

/-- a held phase in a debug build -/
theorem step_held (S : Sys K C) (hf : Rounding S.env.fl) (hdbg : S.env.dbg = true) (dir : Sys.Direction)
    (o : Osc K C) : S.stepDir dir o o.prevPhase = .error .assertFail := by
  have hc : ∀ p : Prop, ∀ [Decidable p], ¬ p → chk S.env.dbg p = .error .assertFail := by
    intro p _ hp; unfold chk; rw [if_pos ⟨hdbg, hp⟩]
  cases dir with
  | kForward =>
    show S.stepFwd o o.prevPhase = _
    unfold Sys.stepFwd
    dsimp only
    rw [sub_self, hf.zero, if_neg (lt_irrefl _), hc _ (by simp)]
    rfl
  | kBidirectionnal =>
    show S.stepBi o o.prevPhase = _
    have : Sys.biDiff S.env.fl o.prevPhase o.prevPhase = 0 := by
      unfold Sys.biDiff
      dsimp only
      rw [sub_self, hf.zero, if_neg (by norm_num), if_neg (by norm_num)]
    unfold Sys.stepBi
    dsimp only
    rw [this, if_pos (le_refl (0 : K))]
    unfold Sys.processSampleFwd
    dsimp only
    rw [hc _ (by simp)]
    rfl

/-- silence with separate buffers -/
theorem silence (S : Sys ℝ ℂ) (hS : ExactSys S) (hl : Log2Spec S.env.log2f) (σ : ℝ)
    (h0 : 0 < σ) (hσ : PolesLeft S.flt σ) (ws : List ℝ) (nw L : ℕ) (hA : TablesWithin S.env ws nw L 0)
    (o : Osc ℝ ℂ) (ho : Plays S ws nw L o) (hz : ¬ AtZeroBackward o) (hy : ∀ y ∈ o.prevY, y = 0)
    (dir : Sys.Direction) (ps : List ℝ) (hp : BlockSafe S.env.fl dir o.prevPhase ps) :
    ∃ o', S.runDir dir o ps = .ok (o', List.replicate ps.length 0) := by
  have hf := Sys.exact_rounding hS
  have hw : o.wt.isSome = true := by
    obtain ⟨-, _, _, _, wt, -, h, -⟩ := ho; rw [h]; rfl
  obtain ⟨o', ys, e⟩ := C27_safe_histories S hf hl hS.B nw L o ho.1 hz [.process dir ps] ⟨hp, trivial⟩
  have hb := C38_bounded S hS hl σ h0 hσ ws nw L 0 le_rfl hA o ho hy [.process dir ps]
    ⟨Sys.blockSafe_ok hp, trivial⟩ o' ys e
  unfold runOps runOp at e
  obtain ⟨⟨o1, y1⟩, e1, e⟩ := bind_ok e
  unfold runOps at e
  cases e
  have e1 : S.process dir o ps (List.replicate ps.length 0) = .ok (o', y1) := e1
  rw [Sys.process_runDir S dir hw (by simp)] at e1
  refine ⟨o', ?_⟩
  rw [e1]
  have hlen := Sys.runDir_length e1
  rw [List.append_nil] at hb
  congr 2
  rw [List.eq_replicate_iff]
  exact ⟨hlen, fun y hy => by
    have := hb y hy
    rw [mul_zero] at this
    exact abs_eq_zero.1 (le_antisymm this (abs_nonneg y))⟩

/-- a step that a debug build takes (exact arithmetic) is a legal one -/
theorem stepOk_of_ok (S : Sys ℝ ℂ) (hS : ExactSys S) (hdbg : S.env.dbg = true) (dir : Sys.Direction)
    (o o' : Osc ℝ ℂ) (p y : ℝ) (h : S.stepDir dir o p = .ok (o', y)) : StepOk dir o.prevPhase p := by
  have hf := Sys.exact_rounding hS
  cases dir with
  | kBidirectionnal =>
    intro e
    rw [e, step_held S hf hdbg] at h
    cases h
  | kForward =>
    have h : S.stepFwd o p = .ok (o', y) := h
    unfold Sys.stepFwd at h
    dsimp only at h
    by_cases hc : (if S.env.fl (p - o.prevPhase) < 0 then S.env.fl (S.env.fl (p - o.prevPhase) + 1)
        else S.env.fl (p - o.prevPhase)) > 0 ∧
      (if S.env.fl (p - o.prevPhase) < 0 then S.env.fl (S.env.fl (p - o.prevPhase) + 1)
        else S.env.fl (p - o.prevPhase)) ≤ 1 / 2
    · rw [hS.fl] at hc
      simp only [id] at hc
      obtain ⟨c1, c2⟩ := hc
      show Forward o.prevPhase p
      unfold Forward
      by_cases hlt : p - o.prevPhase < 0
      · rw [if_pos hlt] at c2
        exact Or.inr ⟨by linarith, c2⟩
      · rw [if_neg hlt] at c1 c2
        exact Or.inl ⟨by linarith, c2⟩
    · rw [show chk S.env.dbg _ = .error .assertFail from if_pos ⟨hdbg, hc⟩] at h
      cases h

theorem blockOk_append {fl : ℝ → ℝ} {dir : Sys.Direction} {x : ℝ} {a b : List ℝ}
    (ha : BlockOk fl dir x a) (hb : BlockOk fl dir (a.getLastD x) b) : BlockOk fl dir x (a ++ b) := by
  induction a generalizing x with
  | nil => exact hb
  | cons p a ih =>
    rw [List.getLastD_cons] at hb
    exact ⟨ha.1, ha.2.1, ih ha.2.2 hb⟩

theorem runDir_last (S : Sys K C) (dir : Sys.Direction) (o o' : Osc K C) (a ys : List K)
    (h : S.runDir dir o a = .ok (o', ys)) : o'.prevPhase = a.getLastD o.prevPhase := by
  induction a generalizing o ys with
  | nil => cases h; rfl
  | cons p a ih =>
    unfold Sys.runDir at h
    obtain ⟨⟨o1, y⟩, e1, h⟩ := bind_ok h
    dsimp only at h
    obtain ⟨⟨o2, zs⟩, e2, h⟩ := bind_ok h
    cases h
    rw [List.getLastD_cons, ih o1 zs e2, Sys.stepDir_phase e1]

/-- C74: an output that overlaps the phases ahead of them does not work: for every silent wavetable,
every filter with poles in the left half plane and every legal block of phases, a debug build aborts (or
leaves the tables) although the same call with separate buffers succeeds with silence. -/
theorem C74_false (S : Sys ℝ ℂ) (hS : ExactSys S) (hdbg : S.env.dbg = true) (hl : Log2Spec S.env.log2f) (σ : ℝ)
    (h0 : 0 < σ) (hσ : PolesLeft S.flt σ) (ws : List ℝ) (nw L : ℕ) (hA : TablesWithin S.env ws nw L 0)
    (o : Osc ℝ ℂ) (ho : Plays S ws nw L o) (hz : ¬ AtZeroBackward o) (hy : ∀ y ∈ o.prevY, y = 0)
    (dir : Sys.Direction) (mem : ℕ → ℝ) (pa k n : ℕ) (hk : 1 ≤ k) (hn : k + 2 ≤ n)
    (hps : BlockSafe S.env.fl dir o.prevPhase (readSpan mem pa n)) :
    (∃ e, S.processMem dir o mem pa n (pa + k) n = .error e) ∧
    ∃ o', S.process dir o (readSpan mem pa n) (List.replicate n 0) = .ok (o', List.replicate n 0) := by
  have hf := Sys.exact_rounding hS
  have hw : o.wt.isSome = true := by
    obtain ⟨-, _, _, _, wt, -, h, -⟩ := ho; rw [h]; rfl
  have sil := silence S hS hl σ h0 hσ ws nw L hA o ho hz hy dir
  refine ⟨?_, ?_⟩
  · cases hr : S.processMem dir o mem pa n (pa + k) n with
    | error e => exact ⟨e, rfl⟩
    | ok r =>
      exfalso
      obtain ⟨o', mem'⟩ := r
      obtain ⟨ys, hlen, -, hp⟩ := C74_feedback S dir o hw mem pa k n (by omega) o' mem' hr
        (List.replicate n 0) (by simp)
      rw [Sys.process_runDir S dir hw (by simp [hlen, readSpan_length])] at hp
      -- the first `k` phases are the given ones
      obtain ⟨m, rfl⟩ := Nat.exists_eq_add_of_le hn
      have hsplit : readSpan mem pa (k + 2 + m) = readSpan mem pa k ++ readSpan mem (pa + k) (2 + m) := by
        unfold readSpan
        rw [show k + 2 + m = k + (2 + m) by omega, List.range_add, List.map_append, List.map_map]
        congr 1
        apply List.map_congr_left
        intro i _
        show mem (pa + (k + i)) = mem (pa + k + i)
        rw [Nat.add_assoc]
      rw [hsplit] at hps
      have hps1 := (Drivers.blockSafe_append.1 hps).1
      obtain ⟨o1, s1⟩ := sil _ hps1
      rw [readSpan_length] at s1
      have ht : (readSpan mem pa k ++ ys).take (k + 2 + m) = readSpan mem pa k ++ ys.take (2 + m) := by
        rw [List.take_append, readSpan_length, List.take_of_length_le (by rw [readSpan_length]; omega)]
        congr 2; omega
      rw [ht] at hp
      obtain ⟨o2, y1, y2, f1, f2, hyy⟩ := runDir_split S dir _ _ hp
      have hq := runDir_last S dir _ _ _ _ s1
      rw [s1] at f1
      cases f1
      obtain ⟨j, rfl⟩ := Nat.exists_eq_add_of_le' hk
      have hzz : ys = 0 :: (List.replicate j 0 ++ y2) := by rw [hyy]; rfl
      rw [hzz, show 2 + m = m + 1 + 1 by omega, List.take_succ_cons] at f2
      unfold Sys.runDir at f2
      obtain ⟨⟨o3, y3⟩, g1, f2⟩ := bind_ok f2
      dsimp only at f2
      obtain ⟨⟨o4, y4⟩, g2, f2⟩ := bind_ok f2
      have hph := Sys.stepDir_phase g1
      cases f2
      -- the sample at phase 0 is silent as well
      have h3 : y3 = 0 := by
        have hrun : S.runDir dir o (readSpan mem pa (j + 1) ++ [0]) =
            .ok (o3, List.replicate (j + 1) 0 ++ [y3]) := by
          rw [runDir_append, s1, R.ok_bind]
          dsimp only
          unfold Sys.runDir
          rw [g1, R.ok_bind]
          rfl
        have hops : runOps S o [.process dir (readSpan mem pa (j + 1) ++ [0])] =
            .ok (o3, List.replicate (j + 1) 0 ++ [y3]) := by
          unfold runOps runOp
          dsimp only
          rw [Sys.process_runDir S dir hw (by simp), hrun, R.ok_bind]
          unfold runOps
          rw [R.ok_bind, List.append_nil]
          rfl
        have hb := C38_bounded S hS hl σ h0 hσ ws nw L 0 le_rfl hA o ho hy
          [.process dir (readSpan mem pa (j + 1) ++ [0])] ⟨blockOk_append (Sys.blockSafe_ok hps1)
            (by
              rw [← hq]
              exact ⟨⟨le_rfl, by norm_num, hf.zero, Or.inr (Or.inl rfl)⟩, stepOk_of_ok S hS hdbg dir _ _ _ _ g1, trivial⟩),
            trivial⟩ o3 _ hops y3 (by simp)
        rw [mul_zero] at hb
        exact abs_eq_zero.1 (le_antisymm hb (abs_nonneg y3))
      have hnext : ∃ l, (List.replicate j 0 ++ (y3 :: y4)).take (m + 1) = (0 : ℝ) :: l := by
        cases j with
        | zero => rw [h3]; exact ⟨_, rfl⟩
        | succ j => exact ⟨_, rfl⟩
      obtain ⟨l, hl'⟩ := hnext
      rw [hl', show (0 : ℝ) = o3.prevPhase from hph.symm] at g2
      unfold Sys.runDir at g2
      rw [step_held S hf hdbg dir o3] at g2
      cases g2
  · obtain ⟨o', e⟩ := sil _ hps
    refine ⟨o', ?_⟩
    rw [Sys.process_runDir S dir hw (by simp [readSpan_length]), e, readSpan_length]

/-! ### concrete cases -/

/-- phases in steps of 1/16 -/
noncomputable def rampMem : ℕ → ℝ := fun x => (((x + 1) % 16 : ℕ) : ℝ) / 16

theorem ramp_span (n : ℕ) : readSpan rampMem 0 n = (List.range n).map fun i => (((0 + 1 + i) % 16 : ℕ) : ℝ) / 16 := by
  unfold readSpan rampMem
  apply List.map_congr_left
  intro i _
  congr 3; omega

theorem ramp_safe (n : ℕ) : BlockSafe id .kForward 0 (readSpan rampMem 0 n) := by
  rw [ramp_span]
  have := (steady_ok n 0).1
  rw [show (((0 % 16 : ℕ) : ℝ)) / 16 = 0 by norm_num] at this
  revert this
  generalize (List.range n).map (fun i => (((0 + 1 + i) % 16 : ℕ) : ℝ) / 16) = ps
  generalize (0 : ℝ) = q
  intro this
  induction ps generalizing q with
  | nil => trivial
  | cons p ps ih => exact ⟨this.1, this.2.1, ih _ this.2.2⟩

/-- an oscillator at a given phase with a step of 1/16 -/
theorem ramp_osc (ft : FilterType) (ws : List ℝ) (hws : ws.length = 2 ^ 3) (p : ℝ) (h0 : 0 ≤ p) (h1 : p < 1) :
    ∃ o, Plays (sysOf envX ft) ws 1 3 o ∧ ¬ AtZeroBackward o ∧ (∀ y ∈ o.prevY, y = 0) ∧ o.prevPhase = p := by
  obtain ⟨o, h1, hy⟩ := at_init ft ws 3 (by norm_num) (by norm_num) hws 1
    le_rfl (by norm_num) (p := p) (d := 1 / 16) ⟨h0, h1⟩ (by norm_num) (i := 0)
    (oct0 (by norm_num))
    (cf_idle (by norm_num) (by norm_num) (oct0 (by norm_num [abs_of_pos])))
  exact ⟨o, h1.plays, fun hz => by have := hz.2; rw [h1.diff] at this; norm_num at this,
    fun y h => List.eq_of_mem_replicate (by rw [← hy]; exact h), h1.phase⟩

/-- Any filter, any eight samples: `n` samples processed in place succeed, and the memory then holds the
samples which separate buffers give. -/
example (ft : FilterType) (ws : List ℝ) (hws : ws.length = 2 ^ 3) (n : ℕ) : ∃ o o' ys,
    (sysOf envX ft).process .kForward o (readSpan rampMem 0 n) (List.replicate n 0) = .ok (o', ys) ∧
    ys.length = n ∧
    (sysOf envX ft).processMem .kForward o rampMem 0 n 0 n = .ok (o', writeSpan rampMem 0 ys) := by
  obtain ⟨o, h1, h2, -, h4⟩ := ramp_osc ft ws hws 0 le_rfl (by norm_num)
  have hS := exactSys ft
  have hw : o.wt.isSome = true := by
    obtain ⟨-, _, _, _, wt, -, h, -⟩ := h1; rw [h]; rfl
  obtain ⟨⟨o', ys⟩, e, -⟩ := Sys.history_ok (Sys.exact_rounding hS) hS.B
    (Sys.reached_safe (Sys.exact_rounding hS) log2X hS.B h1.1 h2)
    (ops := [.process .kForward (readSpan rampMem 0 n)]) ⟨by rw [h4]; exact ramp_safe n, trivial⟩
  unfold runOps at e
  obtain ⟨⟨o1, y1⟩, e1, e⟩ := bind_ok e
  unfold runOps at e
  cases e
  have e1 : (sysOf envX ft).process .kForward o (readSpan rampMem 0 n)
    (List.replicate (readSpan rampMem 0 n).length 0) = .ok (o', y1) := e1
  rw [Sys.process_runDir _ _ hw (by simp)] at e1
  refine ⟨o, o', y1, ?_, ?_, ?_⟩
  · rw [Sys.process_runDir _ _ hw (by simp [readSpan_length]), e1]
  · rw [Sys.runDir_length e1, readSpan_length]
  · rw [C74_in_place _ _ _ _ _ _ _ (Or.inl le_rfl), Sys.process_runDir _ _ hw (by simp [readSpan_length]), e1]
    rfl

/-- the silent waveform -/
theorem silentX : TablesWithin envX (List.replicate (2 ^ 3) 0) 1 3 0 :=
  tablesWithinX le_rfl (by intro x hx; rw [List.eq_of_mem_replicate hx, abs_zero]) 1 3

/-- `C74_false` applies: the silent waveform, any filter, an output that starts 2 addresses after 4 phases. -/
example (ft : FilterType) : ∃ o e,
    (sysOf envX ft).processMem .kForward o rampMem 0 4 (0 + 2) 4 = .error e := by
  obtain ⟨o, h1, h2, h3, h4⟩ := ramp_osc ft (List.replicate (2 ^ 3) 0) (by simp) 0 le_rfl (by norm_num)
  obtain ⟨⟨e, he⟩, -⟩ := C74_false (sysOf envX ft) (exactSys ft) rfl log2X 0.29 (by norm_num) (C39_poles _)
    _ 1 3 silentX o h1 h2 h3 .kForward rampMem 0 2 4 (by norm_num) le_rfl (by rw [h4]; exact ramp_safe 4)
  exact ⟨o, e, he⟩

/-- `C74_feedback` applies: the phase 15/16 and one address more; the second phase is the first sample
of the silent waveform, 0. -/
example (ft : FilterType) : ∃ o o' mem',
    (sysOf envX ft).processMem .kForward o (fun _ => 15 / 16) 0 2 (0 + 1) 2 = .ok (o', mem') := by
  obtain ⟨o, h1, h2, h3, h4⟩ := ramp_osc ft (List.replicate (2 ^ 3) 0) (by simp) (14 / 16) (by norm_num) (by norm_num)
  have hS := exactSys ft
  have hw : o.wt.isSome = true := by
    obtain ⟨-, _, _, _, wt, -, h, -⟩ := h1; rw [h]; rfl
  obtain ⟨o', e⟩ := silence _ hS log2X 0.29 (by norm_num) (C39_poles _) _ 1 3 silentX o h1 h2 h3 .kForward
    [15 / 16, 0] (by
      rw [h4]
      refine ⟨⟨by norm_num, by norm_num, isPhase_id _⟩, Or.inl (by norm_num), ⟨le_rfl, by norm_num, isPhase_id _⟩, Or.inr (by norm_num), trivial⟩)
  unfold Sys.runDir at e
  obtain ⟨⟨o1, y1⟩, e1, e⟩ := bind_ok e
  dsimp only at e
  obtain ⟨⟨o2, y2⟩, e2, e⟩ := bind_ok e
  have hy : y1 = 0 := by injection e with e; injection e with _ e; simpa using congrArg List.head? e
  unfold Sys.runDir at e2
  obtain ⟨⟨o3, y3⟩, e3, -⟩ := bind_ok e2
  refine ⟨o, o3, Function.update (Function.update (fun _ => 15 / 16) 1 0) 2 y3, ?_⟩
  unfold Sys.processMem
  have hn : o.wt.isNone = false := by rw [← Option.not_isSome, hw]; rfl
  rw [hn]
  simp only [Bool.false_eq_true, if_false, chk_true, R.ok_bind, Nat.min_self]
  unfold Sys.memLoop
  rw [e1, R.ok_bind]
  dsimp only
  unfold Sys.memLoop
  rw [hy, Function.update_self, e3, R.ok_bind]
  rfl

end Props
end Adwt
