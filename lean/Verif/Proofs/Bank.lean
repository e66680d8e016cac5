import Verif.Spec.Bank

set_option linter.unusedSectionVars false

namespace Adwt
variable {K C : Type} [Field K] [LinearOrder K] [FloorRing K]
variable [Zero C] [Add C] [Sub C] [Mul C] [Div C]

namespace Bank
variable {oo so : ℕ → ℕ} {t : ℕ} {S : ℕ → Sys K C}

theorem Same.refl (a : Bank K C) : a.Same oo so t a := ⟨fun _ _ => rfl, fun _ _ => rfl, fun _ _ => rfl⟩

theorem Same.symm {a b : Bank K C} (h : a.Same oo so t b) : b.Same oo so t a :=
  ⟨fun i e => (h.oscs i e).symm, fun i e => (h.logs i e).symm, fun i e => (h.slots i e).symm⟩

theorem Same.trans {a b c : Bank K C} (h : a.Same oo so t b) (h' : b.Same oo so t c) :
    a.Same oo so t c :=
  ⟨fun i e => (h.oscs i e).trans (h'.oscs i e), fun i e => (h.logs i e).trans (h'.logs i e),
    fun i e => (h.slots i e).trans (h'.slots i e)⟩

theorem bind_split {α β : Type} {x : R α} {f : α → R β} {b : β} (h : (x >>= f) = .ok b) :
    ∃ a, x = .ok a ∧ f a = .ok b := by
  cases x with
  | error e => cases h
  | ok a => exact ⟨a, rfl, h⟩

theorem upd_other {α : Type} {f : ℕ → α} {ow : ℕ → ℕ} {u : ℕ} {i : ℕ} {x : α} (hi : ow i = u)
    (hu : t ≠ u) (j : ℕ) (hj : ow j = t) : f j = Function.update f i x j := by
  rw [Function.update_of_ne]; rintro rfl; exact hu (hj.symm.trans hi)

theorem upd_same {α : Type} {f g : ℕ → α} {ow : ℕ → ℕ} (i : ℕ) {x y : α} (hxy : x = y)
    (hfg : ∀ j, ow j = t → f j = g j) (j : ℕ) (hj : ow j = t) :
    Function.update f i x j = Function.update g i y j := by
  subst hxy
  by_cases e : j = i
  · subst e; simp
  · rw [Function.update_of_ne e, Function.update_of_ne e]; exact hfg j hj

/-- A statement of another thread leaves the objects of `t` alone. -/
theorem exec_other {b b' : Bank K C} {c : Instr K} {u : ℕ} (hu : t ≠ u)
    (hc : c.Names (fun i => oo i = u) (fun s => so s = u)) (h : b.exec S c = .ok b') :
    b.Same oo so t b' := by
  cases c with
  | build s ws n sr dur =>
    obtain ⟨w, -, h⟩ := bind_split h
    obtain rfl := Except.ok.inj h
    exact ⟨fun _ _ => rfl, fun _ _ => rfl, upd_other hc hu⟩
  | init i s p d =>
    obtain ⟨⟨o, r⟩, -, h⟩ := bind_split h
    obtain rfl := Except.ok.inj h
    exact ⟨upd_other hc.1 hu, fun _ _ => rfl, upd_other hc.2 hu⟩
  | swap i s v p d =>
    obtain ⟨⟨o, r⟩, -, h⟩ := bind_split h
    obtain rfl := Except.ok.inj h
    exact ⟨upd_other hc.1 hu, fun _ _ => rfl, fun j hj =>
      (upd_other hc.2.1 hu j hj).trans (upd_other hc.2.2 hu j hj)⟩
  | process i dir ps =>
    obtain ⟨⟨o, r⟩, -, h⟩ := bind_split h
    obtain rfl := Except.ok.inj h
    exact ⟨upd_other hc hu, upd_other hc hu, fun _ _ => rfl⟩
  | setWaveform i w =>
    obtain ⟨o, -, h⟩ := bind_split h
    obtain rfl := Except.ok.inj h
    exact ⟨upd_other hc hu, fun _ _ => rfl, fun _ _ => rfl⟩
  | reset i p d =>
    obtain ⟨o, -, h⟩ := bind_split h
    obtain rfl := Except.ok.inj h
    exact ⟨upd_other hc hu, fun _ _ => rfl, fun _ _ => rfl⟩
  | updateSamplerate i sr =>
    obtain ⟨o, -, h⟩ := bind_split h
    obtain rfl := Except.ok.inj h
    exact ⟨upd_other hc hu, fun _ _ => rfl, fun _ _ => rfl⟩

/-- A statement of `t` depends on the objects of `t` only. -/
theorem exec_same {a b a' : Bank K C} {c : Instr K} (hab : a.Same oo so t b)
    (hc : c.Names (fun i => oo i = t) (fun s => so s = t)) (h : a.exec S c = .ok a') :
    ∃ b', b.exec S c = .ok b' ∧ a'.Same oo so t b' := by
  cases c with
  | build s ws n sr dur =>
    obtain ⟨w, e, h⟩ := bind_split h
    obtain rfl := Except.ok.inj h
    exact ⟨{ b with slots := Function.update b.slots s w }, by simp only [exec, e]; rfl, hab.oscs,
      hab.logs, upd_same s rfl hab.slots⟩
  | init i s p d =>
    obtain ⟨⟨o, r⟩, e, h⟩ := bind_split h
    obtain rfl := Except.ok.inj h
    rw [hab.oscs i hc.1, hab.slots s hc.2] at e
    exact ⟨{ b with oscs := Function.update b.oscs i o, slots := Function.update b.slots s none },
      by simp only [exec, e]; rfl, upd_same i rfl hab.oscs, hab.logs, upd_same s rfl hab.slots⟩
  | swap i s v p d =>
    obtain ⟨⟨o, r⟩, e, h⟩ := bind_split h
    obtain rfl := Except.ok.inj h
    rw [hab.oscs i hc.1, hab.slots s hc.2.1] at e
    exact ⟨⟨Function.update b.oscs i o,
        Function.update (Function.update b.slots s none) v r, b.logs⟩,
      by simp only [exec, e]; rfl, upd_same i rfl hab.oscs, hab.logs,
      upd_same v rfl (upd_same s rfl hab.slots)⟩
  | process i dir ps =>
    obtain ⟨⟨o, r⟩, e, h⟩ := bind_split h
    obtain rfl := Except.ok.inj h
    rw [hab.oscs i hc] at e
    exact ⟨⟨Function.update b.oscs i o, b.slots,
        Function.update b.logs i (b.logs i ++ r)⟩,
      by simp only [exec, e]; rfl, upd_same i rfl hab.oscs,
      upd_same i (by rw [hab.logs i hc]) hab.logs, hab.slots⟩
  | setWaveform i w =>
    obtain ⟨o, e, h⟩ := bind_split h
    obtain rfl := Except.ok.inj h
    rw [hab.oscs i hc] at e
    exact ⟨{ b with oscs := Function.update b.oscs i o }, by simp only [exec, e]; rfl,
      upd_same i rfl hab.oscs, hab.logs, hab.slots⟩
  | reset i p d =>
    obtain ⟨o, e, h⟩ := bind_split h
    obtain rfl := Except.ok.inj h
    rw [hab.oscs i hc] at e
    exact ⟨{ b with oscs := Function.update b.oscs i o }, by simp only [exec, e]; rfl,
      upd_same i rfl hab.oscs, hab.logs, hab.slots⟩
  | updateSamplerate i sr =>
    obtain ⟨o, e, h⟩ := bind_split h
    obtain rfl := Except.ok.inj h
    rw [hab.oscs i hc] at e
    exact ⟨{ b with oscs := Function.update b.oscs i o }, by simp only [exec, e]; rfl,
      upd_same i rfl hab.oscs, hab.logs, hab.slots⟩

theorem program_cons_self (t : ℕ) (c : Instr K) (cs : Schedule K) :
    Schedule.program t ((t, c) :: cs) = c :: Schedule.program t cs := by
  simp [Schedule.program]

theorem program_cons_other {t u : ℕ} (h : t ≠ u) (c : Instr K) (cs : Schedule K) :
    Schedule.program t ((u, c) :: cs) = Schedule.program t cs := by
  simp [Schedule.program, h.symm]

/-- What a schedule does to the objects of `t` is what the program of `t` does. -/
theorem run_thread (cs : Schedule K) (hs : cs.Separate oo so) (t : ℕ) {a b a' : Bank K C}
    (hab : a.Same oo so t b) (h : a.run S (cs.map (·.2)) = .ok a') :
    ∃ b', b.run S (Schedule.program t cs) = .ok b' ∧ a'.Same oo so t b' := by
  induction cs generalizing a b with
  | nil =>
    obtain rfl := Except.ok.inj h
    exact ⟨b, rfl, hab⟩
  | cons c cs ih =>
    obtain ⟨u, c⟩ := c
    have hs' : Schedule.Separate oo so cs := fun x hx => hs x (List.mem_cons_of_mem _ hx)
    have hc := hs (u, c) List.mem_cons_self
    obtain ⟨a1, e1, h2⟩ := bind_split h
    by_cases hu : t = u
    · subst hu
      obtain ⟨b1, f1, h1⟩ := exec_same (S := S) hab hc e1
      obtain ⟨b', f, h'⟩ := ih hs' h1 h2
      refine ⟨b', ?_, h'⟩
      rw [program_cons_self]
      show (b.exec S c >>= fun b => b.run S _) = _
      rw [f1]; exact f
    · rw [program_cons_other hu]
      exact ih hs' ((exec_other hu hc e1).symm.trans hab) h2

/-- If no thread alone fails, the schedule does not fail. -/
theorem run_exists (cs : Schedule K) (hs : cs.Separate oo so) (a : Bank K C) (b : ℕ → Bank K C)
    (hab : ∀ t, (b t).Same oo so t a)
    (h : ∀ t, ∃ b', (b t).run S (Schedule.program t cs) = .ok b') :
    ∃ a', a.run S (cs.map (·.2)) = .ok a' := by
  induction cs generalizing a b with
  | nil => exact ⟨a, rfl⟩
  | cons c cs ih =>
    obtain ⟨u, c⟩ := c
    have hs' : Schedule.Separate oo so cs := fun x hx => hs x (List.mem_cons_of_mem _ hx)
    have hc := hs (u, c) List.mem_cons_self
    obtain ⟨b', hb'⟩ := h u
    rw [program_cons_self] at hb'
    obtain ⟨b1, e1, hb1⟩ := bind_split hb'
    obtain ⟨a1, f1, h1⟩ := exec_same (S := S) (hab u) hc e1
    obtain ⟨a', f⟩ := ih hs' a1 (Function.update b u b1) (fun t => by
      by_cases ht : t = u
      · subst ht; rw [Function.update_self]; exact h1
      · rw [Function.update_of_ne ht]; exact (hab t).trans (exec_other ht hc f1)) (fun t => by
      by_cases ht : t = u
      · subst ht; rw [Function.update_self]; exact ⟨b', hb1⟩
      · rw [Function.update_of_ne ht]
        have := h t
        rwa [program_cons_other ht] at this)
    refine ⟨a', ?_⟩
    show (a.exec S c >>= fun b => b.run S _) = _
    rw [f1]; exact f

theorem run_append (b : Bank K C) (cs ds : List (Instr K)) :
    b.run S (cs ++ ds) = (do let b ← b.run S cs; b.run S ds) := by
  induction cs generalizing b with
  | nil => rfl
  | cons c cs ih =>
    show (b.exec S c >>= fun b => b.run S (cs ++ ds)) = (b.exec S c >>= fun b => b.run S cs) >>= _
    cases h : b.exec S c with
    | error e => rfl
    | ok b1 => exact ih b1

end Bank
end Adwt
