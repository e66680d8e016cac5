import Verif.Proofs.TurnOn
import Verif.Proofs.HeadroomStored

/-!
# The step responses of the built-in filters
-/

set_option linter.unusedSectionVars false

namespace Adwt.Fixed

/-- the sum of the real parts after `n` steps -/
noncomputable def iterK : ℕ → List Lane → ℤ → ℤ
  | 0, _, s => s
  | n + 1, ls, _ => nextK ls fun ls' s => iterK n ls' s

theorem iterK_sound (n : ℕ) {e : ℝ} {ls : List Lane} {ps : List (ℂ × ℂ)} (h : List.Forall₂ (Near e) ls ps)
    (he0 : 0 ≤ e) (he : e + n * (1 / 2 ^ 30) ≤ 1) {s : ℤ} (hs : s = sumX ls) :
    |(iterK n ls s : ℝ) / 2 ^ 40 - ((ps.map fun p : ℂ × ℂ => p.1 * p.2 ^ n).sum).re| ≤
      ls.length * (e + n * (1 / 2 ^ 30)) := by
  induction n generalizing e ls ps s with
  | zero =>
    subst hs
    simpa [iterK] using near_sum h
  | succ n ih =>
    have hn0 : (0 : ℝ) ≤ n * (1 / 2 ^ 30) := by positivity
    push_cast at he
    have hnx : List.Forall₂ (Near (e + 1 / 2 ^ 30)) (ls.map Lane.next) (ps.map fun p : ℂ × ℂ => (p.1 * p.2, p.2)) := by
      rw [List.forall₂_map_left_iff, List.forall₂_map_right_iff]
      exact h.imp fun _ _ h => h.next (by linarith)
    have ih := ih hnx (by positivity) (by linarith) rfl
    rw [iterK, nextK_eq]
    simp only [List.map_map, List.length_map, Function.comp_def] at ih
    have hpow : (ps.map fun p : ℂ × ℂ => p.1 * p.2 * p.2 ^ n) = ps.map fun p : ℂ × ℂ => p.1 * p.2 ^ (n + 1) := by
      congr 1
      funext p
      rw [pow_succ]; ring
    rw [hpow] at ih
    refine ih.trans (le_of_eq ?_)
    push_cast; ring

/-- the quotient of two complex numbers with rational parts -/
def qdiv (a b : ℚ × ℚ) : ℚ × ℚ :=
  ((a.1 * b.1 + a.2 * b.2) / (b.1 * b.1 + b.2 * b.2), (a.2 * b.1 - a.1 * b.2) / (b.1 * b.1 + b.2 * b.2))

theorem qc_div (a b : ℚ × ℚ) : qc (qdiv a b) = qc a / qc b := by
  apply Complex.ext
  · rw [Complex.div_re]
    simp only [qc, qdiv, Complex.normSq_mk]
    push_cast; ring
  · rw [Complex.div_im]
    simp only [qc, qdiv, Complex.normSq_mk]
    push_cast; ring

end Adwt.Fixed

namespace Adwt.Props
open Fixed MeasureTheory

/-- the starting values: `2 r / z` and `e^{z/64}` -/
def stepLanes : FilterType → List Lane
  | .kType1 => [⟨-1099511627776, 1099511627776, 1065174960957, 33285850905⟩]
  | .kType2 => [⟨-327612693714, -162803345918, 1093220869235, 50385981125⟩, ⟨189200944544, -1788089742745, 1081722110305, 50452597772⟩, ⟨4866924205974, -1155278175327, 1066383615820, 49154557097⟩, ⟨4827192189538, 8548537178174, 1045806789232, 41003753046⟩, ⟨-10654116752633, 9178040044751, 1026669526226, 17350618784⟩]
  | .kType3 => [⟨777472129013, 777472129079, 1080178684838, 44112799385⟩, ⟨-1876983751708, 1876983754751, 1055386909301, 17844531522⟩]
  | .kType4 => [⟨2369118300841, 2369118300842, 1065174960957, 33285850905⟩, ⟨634803335114, -634803332127, 1086021533683, 46372269674⟩, ⟨-4103433258841, 4103433256627, 1053509991101, 12046648126⟩]
  | .kType5 => [⟨-74989412007, -501283265031, 1092141173315, 43938257787⟩, ⟨2075636271843, -936733703612, 1077730396947, 41989575281⟩, ⟨3319066864531, 4486231233357, 1059992278378, 34546569819⟩, ⟨-6418125838502, 6021192735154, 1043923142468, 14534961706⟩]

theorem stepLanes_ok (t : FilterType) :
    List.Forall₂ LaneOk (stepLanes t) (((rLit t).zip (zLit t)).map fun c => (qdiv c.1 c.2, c.2)) := by
  cases t <;> (unfold stepLanes rLit zLit
               repeat' first | exact List.Forall₂.nil | refine List.Forall₂.cons (by decide +kernel) ?_)

/-- the sum of the real parts of `2 r / z` -/
def stepStart (t : FilterType) : ℚ := (((rLit t).zip (zLit t)).map fun c => 2 * (qdiv c.1 c.2).1).sum

set_option maxRecDepth 100000 in
theorem step_value (t : FilterType) : ∀ n < 4, |(iterK (64 * (n + 1)) (stepLanes t) (sumX (stepLanes t)) : ℚ) / 2 ^ 40 -
    stepStart t - (stepTable t).getD n 0| ≤ 7e-6 := by
  cases t <;> decide +kernel

theorem filterX_ne (t : FilterType) : ∀ k < (filterX t).r.length, (filterX t).z.getD k 0 ≠ 0 := by
  intro k hk
  have hlen : (filterX t).r.length = (rLit t).length := by simp [filterX]
  have hc : clit 0 = 0 := by unfold clit; apply Complex.ext <;> simp
  have e2 : (filterX t).z.getD k 0 = clit ((zLit t).getD k 0) := by
    rw [← hc]; unfold filterX; rw [List.getD_map]
  rw [hlen] at hk
  have hneg : ∀ k < (rLit t).length, ((zLit t).getD k 0).1 < 0 := by cases t <;> decide +kernel
  intro h
  rw [e2] at h
  have h1 : (clit ((zLit t).getD k 0)).re = 0 := by rw [h]; rfl
  have h2 : ((((zLit t).getD k 0).1 : ℚ) : ℝ) < 0 := by exact_mod_cast hneg k hk
  have h3 : ((((zLit t).getD k 0).1 : ℚ) : ℝ) = 0 := h1
  linarith

theorem step_builtin (t : FilterType) {n : ℕ} (hn : n < 4) :
    |stepResponse (filterX t) (n + 1 : ℕ) - (stepTable t).getD n 0| ≤ 1e-5 := by
  have h : List.Forall₂ (Near (1 / 2 ^ 30)) (stepLanes t) (((rLit t).zip (zLit t)).map fun c =>
      (2 * qc (qdiv c.1 c.2), Complex.exp (qc c.2 * ((1 / 64 : ℝ) : ℂ)))) := by
    have := (stepLanes_ok t).imp fun _ _ h => h.near
    rw [List.forall₂_map_right_iff] at this ⊢
    exact this
  have hs := iterK_sound (64 * (n + 1)) h (by positivity) (by
    have : ((64 * (n + 1) : ℕ) : ℝ) ≤ 256 := by exact_mod_cast (by omega : 64 * (n + 1) ≤ 256)
    norm_num at this ⊢
    linarith) rfl
  have hl : ((stepLanes t).length : ℝ) ≤ 5 := by
    have : (stepLanes t).length ≤ 5 := by cases t <;> decide
    exact_mod_cast this
  have hv := step_value t n hn
  have hv' : |(iterK (64 * (n + 1)) (stepLanes t) (sumX (stepLanes t)) : ℝ) / 2 ^ 40 -
      (stepStart t : ℝ) - (((stepTable t).getD n 0 : ℚ) : ℝ)| ≤ 7e-6 := by
    have := (Rat.cast_le (K := ℝ)).2 hv
    push_cast at this
    refine this.trans (le_of_eq (by norm_num))
  have hm : ((stepLanes t).length : ℝ) * (1 / 2 ^ 30 + ((64 * (n + 1) : ℕ) : ℝ) * (1 / 2 ^ 30)) ≤ 2e-6 := by
    have h1 : ((64 * (n + 1) : ℕ) : ℝ) ≤ 256 := by exact_mod_cast (by omega : 64 * (n + 1) ≤ 256)
    have h2 : (1 / 2 ^ 30 + ((64 * (n + 1) : ℕ) : ℝ) * (1 / 2 ^ 30) : ℝ) ≤ 257 / 2 ^ 30 := by
      rw [div_add' _ _ _ (by positivity)]
      gcongr
      have e : ((64 * (n + 1) : ℕ) : ℝ) * (1 / 2 ^ 30) * 2 ^ 30 = ((64 * (n + 1) : ℕ) : ℝ) := by field_simp
      rw [e]; linarith
    calc _ ≤ 5 * (257 / 2 ^ 30 : ℝ) := mul_le_mul hl h2 (by positivity) (by norm_num)
      _ ≤ _ := by norm_num
  have e : stepResponse (filterX t) (n + 1 : ℕ) = (((((rLit t).zip (zLit t)).map fun c =>
      (2 * qc (qdiv c.1 c.2), Complex.exp (qc c.2 * ((1 / 64 : ℝ) : ℂ)))).map
        fun p : ℂ × ℂ => p.1 * p.2 ^ (64 * (n + 1))).sum).re - (stepStart t : ℝ) := by
    rw [stepResponse_eq (filterX_ne t), sum_zip (fun r z => 2 * r / z * (Complex.exp (z * ((n + 1 : ℕ) : ℝ)) - 1)) _ _
      (by simp [filterX, lit_length])]
    show Complex.re (((((rLit t).map clit).zip ((zLit t).map clit)).map _).sum) = _
    rw [List.zip_map, List.map_map, List.map_map]
    have e3 : ∀ l : List (CLit × CLit), ((l.map ((fun p => 2 * p.1 / p.2 * (Complex.exp (p.2 * (((n + 1 : ℕ) : ℝ) : ℂ)) - 1)) ∘
        Prod.map clit clit)).sum).re = ((l.map ((fun p : ℂ × ℂ => p.1 * p.2 ^ (64 * (n + 1))) ∘ fun c =>
        (2 * qc (qdiv c.1 c.2), Complex.exp (qc c.2 * ((1 / 64 : ℝ) : ℂ))))).sum).re -
        (((l.map fun c => 2 * (qdiv c.1 c.2).1).sum : ℚ) : ℝ) := by
      intro l
      induction l with
      | nil => simp
      | cons c l ih =>
        simp only [List.map_cons, List.sum_cons, Complex.add_re, ih]
        have e4 : (Complex.exp (qc c.2 * ((1 / 64 : ℝ) : ℂ))) ^ (64 * (n + 1)) = Complex.exp (clit c.2 * (((n + 1 : ℕ) : ℝ) : ℂ)) := by
          rw [← Complex.exp_nat_mul]
          congr 1
          push_cast
          show _ * (clit c.2 * _) = _
          ring
        have e5 : 2 * clit c.1 / clit c.2 = 2 * qc (qdiv c.1 c.2) := by
          rw [qc_div, ← mul_div_assoc]; rfl
        have e6 : ((2 * (qdiv c.1 c.2).1 : ℚ) : ℝ) = (2 * qc (qdiv c.1 c.2)).re := by
          simp [qc]
        simp only [Function.comp_apply, Prod.map_fst, Prod.map_snd, e4, e5]
        rw [mul_sub, mul_one, Complex.sub_re]
        push_cast at e6 ⊢
        rw [e6]
        ring
    exact e3 _
  rw [e]
  have h1 := abs_sub_le ((((((rLit t).zip (zLit t)).map fun c =>
      (2 * qc (qdiv c.1 c.2), Complex.exp (qc c.2 * ((1 / 64 : ℝ) : ℂ)))).map
        fun p : ℂ × ℂ => p.1 * p.2 ^ (64 * (n + 1))).sum).re - (stepStart t : ℝ))
    ((iterK (64 * (n + 1)) (stepLanes t) (sumX (stepLanes t)) : ℝ) / 2 ^ 40 - (stepStart t : ℝ))
    (((stepTable t).getD n 0 : ℚ) : ℝ)
  rw [abs_sub_comm] at hs
  rw [sub_sub_sub_cancel_right] at h1
  have h2 := hs.trans hm
  refine h1.trans ((add_le_add h2 hv').trans (by norm_num))

end Adwt.Props
