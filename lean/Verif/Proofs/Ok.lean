import Verif.Model.Basic
import Mathlib.Tactic.Linarith
import Mathlib.Tactic.NormNum

/-!
# Reasoning about outcomes

`Ok x Q`: executing `x` succeeds and the result satisfies `Q`.
-/

set_option linter.unusedSectionVars false

namespace Adwt

/-- `x` succeeds with a result satisfying `Q`. -/
def Ok {α : Type} (x : R α) (Q : α → Prop) : Prop := ∃ a, x = .ok a ∧ Q a

namespace Ok
variable {α β : Type}

theorem pure {a : α} {Q : α → Prop} (h : Q a) : Ok (Pure.pure a : R α) Q := ⟨a, rfl, h⟩
theorem ok {a : α} {Q : α → Prop} (h : Q a) : Ok (Except.ok a : R α) Q := ⟨a, rfl, h⟩

theorem bind {x : R α} {f : α → R β} {P : α → Prop} {Q : β → Prop}
    (hx : Ok x P) (hf : ∀ a, P a → Ok (f a) Q) : Ok (x >>= f) Q := by
  obtain ⟨a, rfl, ha⟩ := hx
  exact hf a ha

theorem mono {x : R α} {P Q : α → Prop} (hx : Ok x P) (h : ∀ a, P a → Q a) : Ok x Q := by
  obtain ⟨a, e, ha⟩ := hx; exact ⟨a, e, h a ha⟩

theorem and {x : R α} {P Q : α → Prop} (h1 : Ok x P) (h2 : Ok x Q) : Ok x fun a => P a ∧ Q a := by
  obtain ⟨a, e, ha⟩ := h1
  obtain ⟨b, e', hb⟩ := h2
  rw [e] at e'; cases e'
  exact ⟨a, e, ha, hb⟩

/-- what is known of a successful result holds of the result -/
theorem elim {x : R α} {Q : α → Prop} {a : α} (h : Ok x Q) (e : x = .ok a) : Q a := by
  obtain ⟨b, e', hb⟩ := h
  rw [e] at e'; cases e'; exact hb

theorem chk {dbg : Bool} {c : Prop} [Decidable c] (h : c) : Ok (chk dbg c) fun _ => True :=
  ⟨(), by simp [Adwt.chk, h], trivial⟩

theorem rd {l : List α} {i : Int} (h0 : 0 ≤ i) (h1 : i < l.length) :
    Ok (rd l i) fun a => l[i.toNat]? = some a := by
  have hlt : i.toNat < l.length := by omega
  refine ⟨l[i.toNat], ?_, ?_⟩
  · simp [Adwt.rd, h0, List.getElem?_eq_getElem hlt]
  · exact List.getElem?_eq_getElem hlt

theorem foldlM {f : β → α → R β} {l : List α} (I : β → Prop) {b : β} (hb : I b)
    (hs : ∀ b a, a ∈ l → I b → Ok (f b a) I) : Ok (l.foldlM f b) I := by
  induction l generalizing b with
  | nil => exact Ok.pure hb
  | cons a l ih =>
    rw [List.foldlM_cons]
    refine Ok.bind (hs b a (by simp) hb) fun b' hb' => ih hb' fun b a ha => hs b a (by simp [ha])

theorem mapM {f : α → R β} {l : List α} {Q : α → β → Prop} (h : ∀ a ∈ l, Ok (f a) (Q a)) :
    Ok (l.mapM f) fun r => List.Forall₂ Q l r := by
  induction l with
  | nil => exact Ok.pure List.Forall₂.nil
  | cons a l ih =>
    rw [List.mapM_cons]
    refine Ok.bind (h a (by simp)) fun b hb => ?_
    refine Ok.bind (ih fun a ha => h a (by simp [ha])) fun bs hbs => ?_
    exact Ok.pure (List.Forall₂.cons hb hbs)

end Ok

section
variable {α β : Type}

@[simp] theorem R.ok_bind (a : α) (f : α → R β) : (Except.ok a >>= f : R β) = f a := rfl
@[simp] theorem R.pure_bind (a : α) (f : α → R β) : ((pure a : R α) >>= f) = f a := rfl
@[simp] theorem R.error_bind (e : Err) (f : α → R β) : (Except.error e >>= f : R β) = .error e := rfl
@[simp] theorem R.pure_eq (a : α) : (pure a : R α) = .ok a := rfl

theorem chk_true {dbg : Bool} {c : Prop} [Decidable c] (h : c) : chk dbg c = .ok () := by
  simp [chk, h]
@[simp] theorem chk_false_dbg {c : Prop} [Decidable c] : chk false c = .ok () := by simp [chk]

theorem chk_ok {dbg : Bool} {c : Prop} [Decidable c] {u : Unit} (h : chk dbg c = .ok u) :
    dbg = true → c := by
  intro hd; by_contra hc; simp [chk, hd, hc] at h

theorem rd_get {l : List α} {i : Int} {n : Nat} (hi : i = n) (h : n < l.length) :
    rd l i = .ok l[n] := by
  subst hi; simp [rd, List.getElem?_eq_getElem h]

theorem rd_ok {l : List α} {i : Int} {a : α} (h : rd l i = .ok a) :
    0 ≤ i ∧ l[i.toNat]? = some a := by
  unfold rd at h
  split at h
  · refine ⟨by assumption, ?_⟩
    split at h
    · cases h; assumption
    · cases h
  · cases h

theorem rd_neg {l : List α} {i : Int} (h : i < 0) : rd l i = .error .outOfBounds := by
  simp [rd, not_le.2 h]

theorem rd_big {l : List α} {i : Int} (h : (l.length : Int) ≤ i) : rd l i = .error .outOfBounds := by
  have h0 : 0 ≤ i := by omega
  have : l[i.toNat]? = none := List.getElem?_eq_none (by omega)
  simp [rd, h0, this]

theorem bind_ok {x : R α} {f : α → R β} {b : β} (h : (x >>= f) = .ok b) :
    ∃ a, x = .ok a ∧ f a = .ok b := by
  cases x with
  | error e => cases h
  | ok a => exact ⟨a, rfl, h⟩

theorem mapM_ok {f : α → R β} {l : List α} {r : List β} (h : l.mapM f = .ok r) :
    List.Forall₂ (fun a b => f a = .ok b) l r := by
  induction l generalizing r with
  | nil => cases h; exact List.Forall₂.nil
  | cons a l ih =>
    rw [List.mapM_cons] at h
    obtain ⟨b, hb, h⟩ := bind_ok h
    obtain ⟨bs, hbs, h⟩ := bind_ok h
    cases h
    exact List.Forall₂.cons hb (ih hbs)

theorem mapM_of_forall₂ {f : α → R β} {l : List α} {r : List β}
    (h : List.Forall₂ (fun a b => f a = .ok b) l r) : l.mapM f = .ok r := by
  induction h with
  | nil => rfl
  | cons hb _ ih => rw [List.mapM_cons, hb, R.ok_bind, ih]; rfl

/-- `mapM` of an always-successful function is `map`. -/
theorem mapM_eq_map {f : α → R β} {g : α → β} {l : List α} (h : ∀ a ∈ l, f a = .ok (g a)) :
    l.mapM f = .ok (l.map g) := by
  induction l with
  | nil => rfl
  | cons a l ih =>
    rw [List.mapM_cons, h a (by simp), R.ok_bind, ih fun a ha => h a (by simp [ha])]; rfl

theorem mapM_range_getElem {f : Nat → R β} {n : Nat} {r : List β}
    (h : (List.range n).mapM f = .ok r) :
    r.length = n ∧ ∀ i (hi : i < r.length), f i = .ok r[i] := by
  have h2 := mapM_ok h
  have hl : r.length = n := by rw [← h2.length_eq, List.length_range]
  refine ⟨hl, fun i hi => ?_⟩
  have := h2.get (i := i) (by simp; omega) hi
  simpa using this

end
end Adwt
