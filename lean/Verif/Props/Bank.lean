import Verif.Proofs.Bank
import Verif.Props.Polarity
import Verif.Props.FloatExamples

/-!
# C92: oscillators are independent of each other
-/

set_option linter.unusedSectionVars false

namespace Adwt.Props
variable {K C : Type} [Field K] [LinearOrder K] [FloorRing K]
variable [Zero C] [Add C] [Sub C] [Mul C] [Div C]
open Bank

/-- **C92**: let any number of threads use oscillators and wavetables of their own, and let their calls be
executed in any order. Then the schedule runs to its end if and only if every thread alone would, and every
thread finds in its oscillators, wavetable variables and output buffers what it would find there if it had
run alone. -/
theorem C92_schedule (S : ℕ → Sys K C) (oo so : ℕ → ℕ) (cs : Schedule K) (hs : cs.Separate oo so)
    (b : Bank K C) :
    ((∃ b', b.run S (cs.map (·.2)) = .ok b') ↔
      ∀ t, ∃ bt, b.run S (Schedule.program t cs) = .ok bt) ∧
    ∀ b', b.run S (cs.map (·.2)) = .ok b' → ∀ t bt, b.run S (Schedule.program t cs) = .ok bt →
      b'.Same oo so t bt := by
  refine ⟨⟨fun ⟨b', h⟩ t => ?_, fun h => run_exists cs hs b (fun _ => b) (fun t => .refl b) h⟩,
    fun b' h t bt ht => ?_⟩
  · obtain ⟨bt, e, -⟩ := run_thread cs hs t (.refl b) h
    exact ⟨bt, e⟩
  · obtain ⟨bt', e, hb⟩ := run_thread cs hs t (.refl b) h
    obtain rfl := Except.ok.inj (ht.symm.trans e)
    exact hb

/-- **C92**: two schedules of the same threads have the same outcome, down to the last bit of every
oscillator, wavetable and output. -/
theorem C92_order (S : ℕ → Sys K C) (oo so : ℕ → ℕ) (cs cs' : Schedule K) (hs : cs.Separate oo so)
    (hs' : cs'.Separate oo so) (h : ∀ t, Schedule.program t cs = Schedule.program t cs')
    (b b' : Bank K C) :
    b.run S (cs.map (·.2)) = .ok b' ↔ b.run S (cs'.map (·.2)) = .ok b' := by
  have key : ∀ cs cs' : Schedule K, cs.Separate oo so → cs'.Separate oo so →
      (∀ t, Schedule.program t cs = Schedule.program t cs') →
      b.run S (cs.map (·.2)) = .ok b' → b.run S (cs'.map (·.2)) = .ok b' := by
    intro cs cs' hs hs' h hb
    have h1 := C92_schedule S oo so cs hs b
    have h2 := C92_schedule S oo so cs' hs' b
    have h3 := h1.1.1 ⟨b', hb⟩
    obtain ⟨b'', e⟩ := h2.1.2 (fun t => by rw [← h t]; exact h3 t)
    have same : ∀ t, b'.Same oo so t b'' := fun t => by
      obtain ⟨bt, et⟩ := h3 t
      exact (h1.2 b' hb t bt et).trans (h2.2 b'' e t bt (by rw [← h t]; exact et)).symm
    rw [e]
    congr 1
    symm
    ext1
    · exact funext fun i => (same (oo i)).oscs i rfl
    · exact funext fun s => (same (so s)).slots s rfl
    · exact funext fun i => (same (oo i)).logs i rfl
  exact ⟨key cs cs' hs hs' h, key cs' cs hs' hs fun t => (h t).symm⟩

theorem exec_call (S : ℕ → Sys K C) (i s : ℕ) (hi : (S i).env = (S 0).env) (c : Call K)
    (b : Bank K C) :
    (∀ o ys, runCall (S i) (b.oscs i) c = .ok (o, ys) →
      ∃ b', b.run S (c.instrs i s) = .ok b' ∧ b'.oscs i = o ∧ b'.logs i = b.logs i ++ ys) ∧
    ∀ b', b.run S (c.instrs i s) = .ok b' → ∃ o ys, runCall (S i) (b.oscs i) c = .ok (o, ys) := by
  cases c with
  | init ws n sr dur p d =>
    refine ⟨fun o ys h => ?_, fun b' h => ?_⟩
    · obtain ⟨w, e1, h⟩ := bind_split h
      obtain ⟨⟨o', r⟩, e2, h⟩ := bind_split h
      obtain ⟨rfl, rfl⟩ := Prod.mk.inj (Except.ok.inj h)
      rw [hi] at e1
      refine ⟨⟨Function.update b.oscs i o', Function.update (Function.update b.slots s w) s none, b.logs⟩,
        ?_, by simp, by simp⟩
      have e2' : (S i).init (b.oscs i) (Function.update b.slots s w s) p d = .ok (o', r) := by
        rw [Function.update_self]; exact e2
      show (b.exec S (.build s ws n sr dur) >>= fun b => b.run S [.init i s p d]) = _
      have x1 : b.exec S (.build s ws n sr dur) =
          .ok ⟨b.oscs, Function.update b.slots s w, b.logs⟩ := by simp only [exec, e1]; rfl
      rw [x1]
      show ((Bank.mk b.oscs (Function.update b.slots s w) b.logs).exec S (.init i s p d) >>= fun b =>
        b.run S []) = _
      simp only [exec, e2']
      rfl
    · obtain ⟨b1, e1, h⟩ := bind_split h
      obtain ⟨b2, e2, h⟩ := bind_split h
      obtain ⟨w, f1, h1⟩ := bind_split e1
      obtain rfl := Except.ok.inj h1
      obtain ⟨⟨o', r⟩, f2, h2⟩ := bind_split e2
      dsimp only at f2
      rw [Function.update_self] at f2
      rw [← hi] at f1
      exact ⟨o', [], by simp only [runCall, f1]; show ((S i).init _ w p d >>= _) = _; rw [f2]; rfl⟩
  | swap ws n sr dur p d =>
    refine ⟨fun o ys h => ?_, fun b' h => ?_⟩
    · obtain ⟨w, e1, h⟩ := bind_split h
      obtain ⟨⟨o', r⟩, e2, h⟩ := bind_split h
      obtain ⟨rfl, rfl⟩ := Prod.mk.inj (Except.ok.inj h)
      rw [hi] at e1
      refine ⟨⟨Function.update b.oscs i o',
        Function.update (Function.update (Function.update b.slots s w) s none) s r, b.logs⟩,
        ?_, by simp, by simp⟩
      have e2' : (S i).swapWavetable (b.oscs i) (Function.update b.slots s w s) p d = .ok (o', r) := by
        rw [Function.update_self]; exact e2
      show (b.exec S (.build s ws n sr dur) >>= fun b => b.run S [.swap i s s p d]) = _
      have x1 : b.exec S (.build s ws n sr dur) =
          .ok ⟨b.oscs, Function.update b.slots s w, b.logs⟩ := by simp only [exec, e1]; rfl
      rw [x1]
      show ((Bank.mk b.oscs (Function.update b.slots s w) b.logs).exec S (.swap i s s p d) >>= fun b =>
        b.run S []) = _
      simp only [exec, e2']
      rfl
    · obtain ⟨b1, e1, h⟩ := bind_split h
      obtain ⟨b2, e2, h⟩ := bind_split h
      obtain ⟨w, f1, h1⟩ := bind_split e1
      obtain rfl := Except.ok.inj h1
      obtain ⟨⟨o', r⟩, f2, h2⟩ := bind_split e2
      dsimp only at f2
      rw [Function.update_self] at f2
      rw [← hi] at f1
      exact ⟨o', [], by
        simp only [runCall, f1]; show ((S i).swapWavetable _ w p d >>= _) = _; rw [f2]; rfl⟩
  | process dir ps =>
    refine ⟨fun o ys h => ?_, fun b' h => ?_⟩
    · refine ⟨⟨Function.update b.oscs i o, b.slots, Function.update b.logs i (b.logs i ++ ys)⟩,
        ?_, by simp, by simp⟩
      have h : (S i).process dir (b.oscs i) ps (List.replicate ps.length 0) = .ok (o, ys) := h
      show (b.exec S (.process i dir ps) >>= fun b => b.run S []) = _
      simp only [exec, h]; rfl
    · obtain ⟨b1, e1, h⟩ := bind_split h
      obtain ⟨⟨o', r⟩, e2, h2⟩ := bind_split e1
      exact ⟨o', r, e2⟩
  | setWaveform w =>
    refine ⟨fun o ys h => ?_, fun b' h => ?_⟩
    · obtain ⟨o', e1, h⟩ := bind_split h
      obtain ⟨rfl, rfl⟩ := Prod.mk.inj (Except.ok.inj h)
      refine ⟨⟨Function.update b.oscs i o', b.slots, b.logs⟩, ?_, by simp, by simp⟩
      show (b.exec S (.setWaveform i w) >>= fun b => b.run S []) = _
      simp only [exec, e1]; rfl
    · obtain ⟨b1, e1, h⟩ := bind_split h
      obtain ⟨o', e2, h2⟩ := bind_split e1
      exact ⟨o', [], by simp only [runCall, e2]; rfl⟩
  | reset p d =>
    refine ⟨fun o ys h => ?_, fun b' h => ?_⟩
    · obtain ⟨o', e1, h⟩ := bind_split h
      obtain ⟨rfl, rfl⟩ := Prod.mk.inj (Except.ok.inj h)
      refine ⟨⟨Function.update b.oscs i o', b.slots, b.logs⟩, ?_, by simp, by simp⟩
      show (b.exec S (.reset i p d) >>= fun b => b.run S []) = _
      simp only [exec, e1]; rfl
    · obtain ⟨b1, e1, h⟩ := bind_split h
      obtain ⟨o', e2, h2⟩ := bind_split e1
      exact ⟨o', [], by simp only [runCall, e2]; rfl⟩
  | updateSamplerate sr =>
    refine ⟨fun o ys h => ?_, fun b' h => ?_⟩
    · obtain ⟨o', e1, h⟩ := bind_split h
      obtain ⟨rfl, rfl⟩ := Prod.mk.inj (Except.ok.inj h)
      refine ⟨⟨Function.update b.oscs i o', b.slots, b.logs⟩, ?_, by simp, by simp⟩
      show (b.exec S (.updateSamplerate i sr) >>= fun b => b.run S []) = _
      simp only [exec, e1]; rfl
    · obtain ⟨b1, e1, h⟩ := bind_split h
      obtain ⟨o', e2, h2⟩ := bind_split e1
      exact ⟨o', [], by simp only [runCall, e2]; rfl⟩

/-- One oscillator among others behaves as in a program that has only this one. -/
theorem run_alone (S : ℕ → Sys K C) (i s : ℕ) (hi : (S i).env = (S 0).env) (p : List (Call K))
    (b : Bank K C) :
    (∀ o ys, runCalls (S i) (b.oscs i) p = .ok (o, ys) →
      ∃ b', b.run S (p.flatMap (Call.instrs i s)) = .ok b' ∧ b'.oscs i = o ∧
        b'.logs i = b.logs i ++ ys) ∧
    ∀ b', b.run S (p.flatMap (Call.instrs i s)) = .ok b' →
      ∃ o ys, runCalls (S i) (b.oscs i) p = .ok (o, ys) := by
  induction p generalizing b with
  | nil =>
    refine ⟨fun o ys h => ?_, fun b' h => ⟨b.oscs i, [], rfl⟩⟩
    obtain ⟨rfl, rfl⟩ := Prod.mk.inj (Except.ok.inj h)
    exact ⟨b, rfl, rfl, by simp⟩
  | cons c p ih =>
    rw [List.flatMap_cons, run_append]
    refine ⟨fun o ys h => ?_, fun b' h => ?_⟩
    · obtain ⟨⟨o1, y1⟩, e1, h⟩ := bind_split h
      obtain ⟨⟨o2, y2⟩, e2, h⟩ := bind_split h
      obtain ⟨rfl, rfl⟩ := Prod.mk.inj (Except.ok.inj h)
      obtain ⟨b1, f1, g1, l1⟩ := (exec_call S i s hi c b).1 o1 y1 e1
      obtain ⟨b2, f2, g2, l2⟩ := (ih b1).1 o2 y2 (by rw [g1]; exact e2)
      refine ⟨b2, ?_, g2, by rw [l2, l1, List.append_assoc]⟩
      rw [f1]; exact f2
    · obtain ⟨b1, f1, h⟩ := bind_split h
      obtain ⟨o1, y1, e1⟩ := (exec_call S i s hi c b).2 b1 f1
      obtain ⟨b1', f1', g1, l1⟩ := (exec_call S i s hi c b).1 o1 y1 e1
      obtain rfl := Except.ok.inj (f1.symm.trans f1')
      obtain ⟨o2, y2, e2⟩ := (ih b1).2 b' h
      rw [g1] at e2
      exact ⟨o2, y1 ++ y2, by
        show (runCall (S i) (b.oscs i) c >>= _) = _
        rw [e1]; show (runCalls (S i) o1 p >>= _) = _; rw [e2]; rfl⟩

/-- **C92**: thread `t` runs any program `prog t` on oscillator `t`. Whatever the schedule, it runs to its
end if and only if each program alone does, and each oscillator then holds, and has written, what a process
that has only this one oscillator would have. -/
theorem C92_programs (S : ℕ → Sys K C) (hE : ∀ i, (S i).env = (S 0).env) (prog : ℕ → List (Call K))
    (cs : Schedule K) (hp : ∀ t, Schedule.program t cs = (prog t).flatMap (Call.instrs t t)) :
    ((∃ b', (Bank.fresh S).run S (cs.map (·.2)) = .ok b') ↔
      ∀ t, ∃ o ys, runCalls (S t) (S t).fresh (prog t) = .ok (o, ys)) ∧
    ∀ b', (Bank.fresh S).run S (cs.map (·.2)) = .ok b' →
      ∀ t, runCalls (S t) (S t).fresh (prog t) = .ok (b'.oscs t, b'.logs t) := by
  have hs : cs.Separate id id := by
    rintro ⟨t, c⟩ hc
    have hm : c ∈ Schedule.program t cs := by
      simp only [Schedule.program, List.mem_map, List.mem_filter]
      exact ⟨(t, c), ⟨hc, by simp⟩, rfl⟩
    rw [hp t, List.mem_flatMap] at hm
    obtain ⟨a, -, ha⟩ := hm
    cases a <;> simp only [Call.instrs, List.mem_cons, List.not_mem_nil, or_false] at ha
    case init | swap => rcases ha with rfl | rfl <;> simp [Instr.Names]
    all_goals subst ha; simp [Instr.Names]
  have key := C92_schedule S id id cs hs (Bank.fresh S)
  have al := fun t => run_alone S t t (hE t) (prog t) (Bank.fresh S)
  refine ⟨key.1.trans ⟨fun h t => ?_, fun h t => ?_⟩, fun b' hb t => ?_⟩
  · obtain ⟨bt, e⟩ := h t
    rw [hp t] at e
    exact (al t).2 bt e
  · obtain ⟨o, ys, e⟩ := h t
    obtain ⟨b', e', -⟩ := (al t).1 o ys e
    exact ⟨b', by rw [hp t]; exact e'⟩
  · obtain ⟨bt, e⟩ := key.1.1 ⟨b', hb⟩ t
    have hsame := key.2 b' hb t bt e
    rw [hp t] at e
    obtain ⟨o, ys, h⟩ := (al t).2 bt e
    obtain ⟨bt', e', g, l⟩ := (al t).1 o ys h
    obtain rfl := Except.ok.inj (e.symm.trans e')
    rw [hsame.oscs t rfl, hsame.logs t rfl, g, l]
    show _ = Except.ok (o, [] ++ ys)
    rw [List.nil_append]
    exact h

/-- Two threads with an oscillator each, of different types, that take turns: every one ends with the three
samples that it produces alone. -/
example (t0 t1 : FilterType) (ws0 ws1 : List ℝ) (h0 : ws0.length = 8) (h1 : ws1.length = 8) :
    let S : ℕ → Sys ℝ CFloat := fun i => if i = 0 then sysF t0 else sysF t1
    ∃ b', (Bank.fresh S).run S
        [.build 0 ws0 1 44100 (1 / 256), .build 1 ws1 1 44100 (1 / 256), .init 1 1 0 (1 / 16),
          .init 0 0 0 (1 / 16), .process 0 .kForward [1 / 16, 1 / 8], .process 1 .kForward [1 / 16, 1 / 8],
          .process 1 .kBidirectionnal [1 / 16], .process 0 .kBidirectionnal [1 / 16]] = .ok b' ∧
      (∀ o ys, runCalls (sysF t0) (sysF t0).fresh (exampleProg ws0) = .ok (o, ys) → b'.logs 0 = ys) ∧
      (∀ o ys, runCalls (sysF t1) (sysF t1).fresh (exampleProg ws1) = .ok (o, ys) → b'.logs 1 = ys) ∧
      (b'.logs 0).length = 3 ∧ (b'.logs 1).length = 3 := by
  intro S
  obtain ⟨o0, y0, e0, l0⟩ := exampleProg_ok (S := sysF t0) envI_ok (floatSys t0).B ws0 h0
  obtain ⟨o1, y1, e1, l1⟩ := exampleProg_ok (S := sysF t1) envI_ok (floatSys t1).B ws1 h1
  let prog : ℕ → List (Call ℝ) := fun t =>
    if t = 0 then exampleProg ws0 else if t = 1 then exampleProg ws1 else []
  let cs : Schedule ℝ := [(0, .build 0 ws0 1 44100 (1 / 256)), (1, .build 1 ws1 1 44100 (1 / 256)),
    (1, .init 1 1 0 (1 / 16)), (0, .init 0 0 0 (1 / 16)), (0, .process 0 .kForward [1 / 16, 1 / 8]),
    (1, .process 1 .kForward [1 / 16, 1 / 8]), (1, .process 1 .kBidirectionnal [1 / 16]),
    (0, .process 0 .kBidirectionnal [1 / 16])]
  have hp : ∀ t, Schedule.program t cs = (prog t).flatMap (Call.instrs t t) := by
    intro t
    rcases t with _ | _ | t
    · rfl
    · rfl
    · simp [Schedule.program, cs, prog]
  have key := C92_programs S (fun i => by by_cases hi : i = 0 <;> simp [S, hi] <;> rfl) prog cs hp
  obtain ⟨b', hb⟩ := key.1.2 (by
    intro t
    rcases t with _ | _ | t
    · exact ⟨o0, y0, e0⟩
    · exact ⟨o1, y1, e1⟩
    · exact ⟨_, _, rfl⟩)
  have k0 := (Prod.mk.inj (Except.ok.inj ((key.2 b' hb 0).symm.trans e0))).2
  have k1 := (Prod.mk.inj (Except.ok.inj ((key.2 b' hb 1).symm.trans e1))).2
  refine ⟨b', hb, fun o ys h => ?_, fun o ys h => ?_, by rw [k0]; exact l0, by rw [k1]; exact l1⟩
  · rw [k0]; exact (Prod.mk.inj (Except.ok.inj (e0.symm.trans h))).2
  · rw [k1]; exact (Prod.mk.inj (Except.ok.inj (e1.symm.trans h))).2

end Adwt.Props
