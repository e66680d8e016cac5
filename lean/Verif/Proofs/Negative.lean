import Verif.Proofs.ToneDrive
import Verif.Props.Safety

/-!
# Phases outside `[0, 1)`: proofs
-/

set_option linter.unusedSectionVars false

namespace Adwt
variable {K C : Type} [Field K] [LinearOrder K] [IsStrictOrderedRing K] [FloorRing K]
variable [Zero C] [Add C] [Sub C] [Mul C] [Div C]

/-! ### the same up to whole cycles -/

/-- numbers on which the rounding is exact up to magnitude 2 -/
structure ExactOn (fl : K → K) (G : K → Prop) : Prop where
  sub : ∀ x y, G x → G y → G (x - y)
  one : G 1
  fl : ∀ x, G x → |x| ≤ 2 → fl x = x

theorem ExactOn.int {fl : K → K} {G : K → Prop} (h : ExactOn fl G) (n : ℤ) : G n := by
  have h0 : G 0 := by simpa using h.sub 1 1 h.one h.one
  have hneg : ∀ x, G x → G (-x) := fun x hx => by simpa using h.sub 0 x h0 hx
  have hadd : ∀ x y, G x → G y → G (x + y) := fun x y hx hy => by
    simpa using h.sub x (-y) hx (hneg y hy)
  induction n using Int.induction_on with
  | zero => simpa using h0
  | succ n ih => push_cast at ih ⊢; exact hadd _ _ ih h.one
  | pred n ih => push_cast at ih ⊢; exact h.sub _ _ ih h.one

theorem ExactOn.fract {fl : K → K} {G : K → Prop} (h : ExactOn fl G) {x : K} (hx : G x) :
    G (Int.fract x) := h.sub _ _ hx (h.int _)

theorem ExactOn.add1 {fl : K → K} {G : K → Prop} (h : ExactOn fl G) {x : K} (hx : G x) : G (x + 1) := by
  have := h.sub x ((-1 : ℤ) : K) hx (h.int _)
  simpa using this

theorem exactOn_id : ExactOn (id : K → K) fun _ => True :=
  ⟨fun _ _ _ _ => trivial, trivial, fun _ _ _ => rfl⟩

theorem exactOn_grid {fl : K → K} (hf : Rounding fl) :
    ExactOn fl fun x : K => ∃ k : ℤ, x = k / 2 ^ 23 := by
  refine ⟨?_, ⟨2 ^ 23, by norm_num⟩, ?_⟩
  · rintro _ _ ⟨k, rfl⟩ ⟨l, rfl⟩
    exact ⟨k - l, by push_cast; ring⟩
  · rintro _ ⟨k, rfl⟩ h
    refine hf.dyadic k 23 ?_
    rw [abs_div, abs_of_pos (by positivity : (0 : K) < 2 ^ 23), div_le_iff₀ (by positivity)] at h
    have : ((|k| : ℤ) : K) ≤ ((2 ^ 24 : ℤ) : K) := by
      rw [Int.cast_abs]; push_cast; linarith
    exact_mod_cast this

theorem reduce_fract {E : Env K} {G : K → Prop} (h : ExactOn E.fl G) {q : K} (hq : G q)
    (h0 : -1 ≤ q) (h1 : q < 2) : Maths.reduceF E q 1 = .ok (Int.fract q) := by
  have h2 : E.fl (2 * 1) = 2 := by
    rw [mul_one]
    exact h.fl 2 (by simpa using h.int 2) (by rw [abs_of_pos (by norm_num)])
  unfold Maths.reduceF
  rw [chk_true (by norm_num), R.ok_bind, chk_true ⟨by rw [h2]; exact h1.le, h0⟩, R.ok_bind]
  have key : (if q ≥ 1 then E.fl (q - 1) else if q < 0 then E.fl (q + 1) else q) = Int.fract q := by
    split_ifs with a b
    · rw [h.fl _ (h.sub _ _ hq h.one) (by rw [abs_le]; constructor <;> linarith)]
      symm; rw [Int.fract_eq_iff]
      exact ⟨by linarith, by linarith, 1, by push_cast; ring⟩
    · rw [h.fl _ (h.add1 hq) (by rw [abs_le]; constructor <;> linarith)]
      symm; rw [Int.fract_eq_iff]
      exact ⟨by linarith, by linarith, -1, by push_cast; ring⟩
    · symm; rw [Int.fract_eq_iff]
      exact ⟨not_lt.1 b, not_le.1 a, 0, by simp⟩
  rw [key]; rfl

theorem fwdDiff_exact {fl : K → K} {G : K → Prop} (h : ExactOn fl G) {q x : K} (hq : G q) (hx : G x)
    (hd : |q - x| < 1) : Sys.fwdDiff fl q x = Int.fract (q - x) := by
  rw [abs_lt] at hd
  have hg := h.sub q x hq hx
  unfold Sys.fwdDiff
  dsimp only
  rw [h.fl _ hg (by rw [abs_le]; constructor <;> linarith)]
  symm
  split_ifs with a
  · rw [h.fl _ (h.add1 hg) (by rw [abs_le]; constructor <;> linarith), Int.fract_eq_iff]
    exact ⟨by linarith, by linarith, -1, by push_cast; ring⟩
  · rw [Int.fract_eq_iff]
    exact ⟨not_lt.1 a, hd.2, 0, by simp⟩

theorem biDiff_exact {fl : K → K} {G : K → Prop} (h : ExactOn fl G) {q x : K} (hq : G q) (hx : G x)
    (hd : |q - x| < 1) (hh : |q - x| ≠ 1 / 2) :
    Sys.biDiff fl q x = if Int.fract (q - x) < 1 / 2 then Int.fract (q - x) else Int.fract (q - x) - 1 := by
  rw [abs_lt] at hd
  have hg := h.sub q x hq hx
  have hp : q - x ≠ 1 / 2 := fun e => hh (by rw [e, abs_of_pos (by norm_num)])
  have hm : q - x ≠ -(1 / 2) := fun e => hh (by rw [e, abs_neg, abs_of_pos (by norm_num)])
  unfold Sys.biDiff
  dsimp only
  rw [h.fl _ hg (by rw [abs_le]; constructor <;> linarith)]
  rcases lt_or_ge (q - x) 0 with hn | hn
  · have hfr : Int.fract (q - x) = q - x + 1 := by
      rw [Int.fract_eq_iff]; exact ⟨by linarith, by linarith, -1, by push_cast; ring⟩
    rw [hfr]
    rcases lt_or_ge (q - x) (-(1 / 2)) with h3 | h3
    · rw [if_pos h3, if_pos (by linarith), h.fl _ (h.add1 hg) (by rw [abs_le]; constructor <;> linarith)]
    · have h4 := lt_of_le_of_ne h3 (Ne.symm hm)
      rw [if_neg (by linarith), if_neg (by linarith), if_neg (by linarith)]; ring
  · have hfr : Int.fract (q - x) = q - x := by
      rw [Int.fract_eq_iff]; exact ⟨hn, hd.2, 0, by simp⟩
    rw [hfr]
    rcases le_or_gt (q - x) (1 / 2) with h3 | h3
    · have h4 := lt_of_le_of_ne h3 hp
      rw [if_neg (by linarith), if_neg (by linarith), if_pos h4]
    · rw [if_neg (by linarith), if_pos h3, if_neg (by linarith),
        h.fl _ (h.sub _ _ hg h.one) (by rw [abs_le]; constructor <;> linarith)]

theorem fract_sub_fract (q x : K) : Int.fract (Int.fract q - Int.fract x) = Int.fract (q - x) := by
  rw [Int.fract_eq_fract]
  refine ⟨⌊x⌋ - ⌊q⌋, ?_⟩
  unfold Int.fract
  push_cast; ring

theorem abs_fract_sub (q x : K) : |Int.fract q - Int.fract x| < 1 := by
  have := Int.fract_nonneg q; have := Int.fract_lt_one q
  have := Int.fract_nonneg x; have := Int.fract_lt_one x
  rw [abs_lt]; constructor <;> linarith

theorem half_fract {q x : K} (hd : |q - x| < 1) : |q - x| = 1 / 2 ↔ Int.fract (q - x) = 1 / 2 := by
  rw [abs_lt] at hd
  constructor
  · intro h
    rcases abs_choice (q - x) with e | e
    · rw [e] at h; rw [h, Int.fract_eq_iff]; exact ⟨by norm_num, by norm_num, 0, by simp⟩
    · rw [e] at h
      have : q - x = -(1 / 2) := by linarith
      rw [this, Int.fract_eq_iff]; exact ⟨by norm_num, by norm_num, -1, by push_cast; norm_num⟩
  · intro h
    rw [Int.fract_eq_iff] at h
    obtain ⟨-, -, k, hk⟩ := h
    have h1 : (-2 : K) < k := by linarith
    have h2 : (k : K) < 1 := by linarith
    have h1 : -2 < k := by exact_mod_cast h1
    have h2 : k < 1 := by exact_mod_cast h2
    have : k = 0 ∨ k = -1 := by omega
    rcases this with rfl | rfl
    · have : q - x = 1 / 2 := by push_cast at hk; linarith
      rw [this, abs_of_pos (by norm_num)]
    · have : q - x = -(1 / 2) := by push_cast at hk; linarith
      rw [this, abs_neg, abs_of_pos (by norm_num)]

theorem dirDiff_fract {fl : K → K} {G : K → Prop} (h : ExactOn fl G) {q x : K} (hq : G q) (hx : G x)
    (hd : |q - x| < 1) (dir : Sys.Direction) (hh : dir = .kBidirectionnal → |q - x| ≠ 1 / 2) :
    Sys.dirDiff fl dir (Int.fract q) (Int.fract x) = Sys.dirDiff fl dir q x := by
  have hd' := abs_fract_sub q x
  cases dir with
  | kForward =>
    show Sys.fwdDiff _ _ _ = Sys.fwdDiff _ _ _
    rw [fwdDiff_exact h (h.fract hq) (h.fract hx) hd', fwdDiff_exact h hq hx hd, fract_sub_fract]
  | kBidirectionnal =>
    show Sys.biDiff _ _ _ = Sys.biDiff _ _ _
    have hh := hh rfl
    have hh' : |Int.fract q - Int.fract x| ≠ 1 / 2 := by
      rw [Ne, half_fract hd', fract_sub_fract, ← half_fract hd]; exact hh
    rw [biDiff_exact h (h.fract hq) (h.fract hx) hd' hh', biDiff_exact h hq hx hd hh, fract_sub_fract]

/-! ### phases just below zero -/

theorem one_tie : ieee32 (1 - 1 / 2 ^ 25 : K) = 1 := by
  have hf := rounding_ieee32 (K := K)
  have hx : (0 : K) < 1 - 1 / 2 ^ 25 := by norm_num
  have hl : Int.log 2 (1 - 1 / 2 ^ 25 : K) = -1 := by
    have hb := log_bounds hx
    have h2 : (2 : K) ^ (Int.log 2 (1 - 1 / 2 ^ 25 : K)) < 2 ^ (0 : ℤ) :=
      lt_of_le_of_lt hb.1 (by norm_num)
    have h3 : (2 : K) ^ (-1 : ℤ) < 2 ^ (Int.log 2 (1 - 1 / 2 ^ 25 : K) + 1) :=
      lt_trans (by norm_num) hb.2
    have := (zpow_lt_zpow_iff_right₀ (by norm_num : (1 : K) < 2)).1 h2
    have := (zpow_lt_zpow_iff_right₀ (by norm_num : (1 : K) < 2)).1 h3
    omega
  rw [ieee32_normal (Or.inr (by rw [abs_of_pos hx]; norm_num)) (by rw [abs_of_pos hx]; norm_num)]
  have hu : ulpExp (1 - 1 / 2 ^ 25 : K) = -24 := by
    unfold ulpExp; rw [abs_of_pos hx, hl]; norm_num
  unfold rne24
  rw [hu, show (2 : K) ^ (-24 : ℤ) = 1 / 2 ^ 24 by rw [zpow_neg, one_div]; norm_cast]
  have e : (1 - 1 / 2 ^ 25 : K) / (1 / 2 ^ 24) = 16777215 + 1 / 2 := by norm_num
  have hfl : ⌊(16777215 + 1 / 2 : K)⌋ = 16777215 := by
    rw [Int.floor_eq_iff]; constructor <;> push_cast <;> norm_num
  have hr : roundEven (16777215 + 1 / 2 : K) = 16777216 := by
    unfold roundEven
    simp only [hfl]
    norm_num
    decide
  rw [e, hr]; norm_num

theorem reduce_tiny {E : Env K} (he : E.fl = ieee32) {q : K} (h0 : -(1 / 2 ^ 25) ≤ q) (h1 : q < 0) :
    Maths.reduceF E q 1 = .ok 1 := by
  have hf := rounding_ieee32 (K := K)
  have h2 : (0 : K) ≤ E.fl (2 * 1) := by rw [he]; exact hf.nonneg (by norm_num)
  have e : E.fl (q + 1) = 1 := by
    rw [he]
    apply le_antisymm
    · exact hf.le_of_le hf.one (by linarith)
    · have := hf.mono (show (1 - 1 / 2 ^ 25 : K) ≤ q + 1 by linarith)
      rwa [one_tie] at this
  unfold Maths.reduceF
  rw [chk_true (by norm_num), R.ok_bind, chk_true ⟨by linarith, by
    linarith [show (1 : K) / 2 ^ 25 ≤ 1 by norm_num]⟩, R.ok_bind, if_neg (by linarith), if_pos h1, e]
  rfl

namespace Props
variable {S : Sys K C} {nw L : ℕ}

/-- the crossfader is idle on the last table -/
def OnLast (L : ℕ) (o : Osc K C) : Prop :=
  ∃ wt, o.wt = some wt ∧ wt.cf.samplesLeft = 0 ∧ wt.cf.nextIdx = (L : ℤ) - 2

theorem oct_last (hL : 2 ≤ L) : IsOctave L ((L : ℤ) - 2) (3 / 8 : K) := by
  refine ⟨by omega, le_rfl, Or.inr ?_, Or.inl rfl⟩
  have e : (L : ℤ) - 2 = ((L - 2 : ℕ) : ℤ) := by omega
  rw [e, Int.toNat_natCast]
  have e2 : (2 : K) ^ L = 2 ^ (L - 2) * 4 := by
    conv_lhs => rw [show L = L - 2 + 2 by omega, pow_add]
    norm_num
  rw [e2, div_le_iff₀ (by positivity)]
  have : (0 : K) < 2 ^ (L - 2) := by positivity
  linarith

/-- resets at phase 0 with step 3/8 make the crossfader idle on the last table -/
theorem settle_resets (hf : Rounding S.env.fl) (n : ℕ) {o : Osc K C} (ho : OscPlay S nw L o)
    (hn : settleOf L o ≤ n) :
    Ok (runOps S o (List.replicate n (.reset 0 (3 / 8)))) fun r => OscPlay S nw L r.1 ∧
      OnLast L r.1 ∧ r.2 = [] := by
  have hz : PhaseOk S.env.fl (0 : K) := ⟨le_rfl, by norm_num, hf.zero_ph⟩
  induction n generalizing o with
  | zero =>
    refine Ok.ok ⟨ho, ?_, rfl⟩
    obtain ⟨wt, hw, hok⟩ := ho.wt
    refine ⟨wt, hw, ?_⟩
    unfold settleOf at hn
    rw [hw] at hn
    have := hok.inv.left0; have := hok.inv.num
    dsimp only at hn
    unfold settleTime at hn
    split_ifs at hn <;> constructor <;> push_cast at hn <;> omega
  | succ n ih =>
    rw [List.replicate_succ]
    unfold runOps runOp
    obtain ⟨wt, hw, hok⟩ := ho.wt
    have h38 : (3 / 8 : K) ≠ 0 := by norm_num
    have habs : |(3 / 8 : K)| = 3 / 8 := abs_of_pos (by norm_num)
    obtain ⟨c, t, hn1, -, -, hcs, -⟩ := Sys.find_spec (S := S) hf hok (abs_pos.2 h38)
    have e := Sys.reset_ok hf hw hok hz h38 hn1
    obtain ⟨o1, e1, r1, -⟩ := Sys.reset_play hf hw hok hz h38 ho.crt0 ho.crt1
    rw [e1] at e
    injection e with e
    have hset : settleOf L o1 ≤ n := by
      have := settle_one hok
      have e2 : settleOf L o1 = settleTime (wt.cf.stepD (3 / 8)) ((L : ℤ) - 2) := by
        unfold settleOf
        rw [e]
        dsimp only
        rw [hcs, habs]
      unfold settleOf at hn
      rw [hw] at hn
      dsimp only at hn
      rw [e2]
      push_cast at hn
      omega
    dsimp only
    rw [e1]
    simp only [R.ok_bind, R.pure_eq]
    refine Ok.bind (ih r1 hset) fun r hr => ?_
    obtain ⟨o2, ys⟩ := r
    obtain ⟨a, b, rfl⟩ := hr
    exact Ok.pure ⟨a, b, rfl⟩

/-- the failing sample -/
theorem tiny_fails (he : S.env.fl = ieee32) (hL : 3 ≤ L) {o : Osc K C} (ho : OscPlay S nw L o)
    (hlast : OnLast L o) {q : K} (h0 : -(1 / 2 ^ 25) ≤ q) (h1 : q < 0) (hq : ieee32 q = q)
    (dir : Sys.Direction) :
    runOps S o [.reset q (3 / 8), .process dir [1 / 2 ^ L]] = .error .outOfBounds := by
  have hf : Rounding S.env.fl := by rw [he]; exact rounding_ieee32
  have hg := rounding_ieee32 (K := K)
  obtain ⟨wt, hw, hl0, hnx⟩ := hlast
  obtain ⟨wt', hw', hok⟩ := ho.wt
  rw [hw] at hw'; cases hw'
  have habs : |(3 / 8 : K)| = 3 / 8 := abs_of_pos (by norm_num)
  have hL18 := hok.L18
  -- the reset
  obtain ⟨t', e', ht⟩ := CrossFader.newIndices_eq (E := S.env) hf hok.inv (d := 3 / 8) (by norm_num)
  have hoct : (CrossFader.findLoop (3 / 8 : K) wt.cf.scale : ℤ) = (L : ℤ) - 2 := by
    rw [hok.scale]; exact CrossFader.findLoop_of_octave hok.L2 (oct_last hok.L2)
  have hstate : wt.cf.stepD (3 / 8) = wt.cf := by
    unfold CrossFader.stepD CrossFader.nextState
    rw [if_neg (by simpa using hl0), if_pos (by rw [hoct, hnx])]
  have htidx : t'.idx = (L : ℤ) - 2 := by
    rcases ht with ⟨-, -, ht⟩ | ⟨hne, -⟩
    · rw [ht, ← hnx]
    · exact absurd ⟨hl0, by rw [hoct, hnx]⟩ hne
  change wt.cf.newIndices S.env (3 / 8) = .ok (wt.cf.stepD (3 / 8), t') at e'
  rw [hstate] at e'
  have hfind : wt.findMipMapIndices S.env (3 / 8) = .ok (wt, t') := by
    unfold WavetableData.findMipMapIndices; rw [e']; rfl
  have hwl : wt.waveformLen t'.idx = .ok 4 := by
    rw [hok.waveformLen (by omega) (by omega), htidx,
      show L - ((L : ℤ) - 2).toNat = 2 by omega]; norm_num
  have h4 : S.env.fl ((4 : ℤ) : K) = 4 := by have := hf.int 4 (by norm_num); exact_mod_cast this
  have h4' : S.env.fl (4 : K) = 4 := by have := hf.int 4 (by norm_num); exact_mod_cast this
  have hreset : S.resetInternals o q (3 / 8) = .ok { o with
      wt := some wt, prevY := List.replicate S.n 0, prevPhase := q, prevPhaseRed := 1,
      prevPhaseDiff := 3 / 8, prevMip := (L : ℤ) - 2, jRed := 4 } := by
    unfold Sys.resetInternals
    rw [hw]
    dsimp only
    rw [reduce_tiny he h0 h1, R.ok_bind, habs, hfind, R.ok_bind]
    dsimp only
    rw [hwl, R.ok_bind, h4, one_mul, h4']
    unfold Sys.segIndex
    rw [if_pos (by norm_num), Maths.floor_small hf (by norm_num) (by norm_num), R.ok_bind, htidx]
    have : ⌊(4 : K)⌋ = 4 := by have := Int.floor_intCast (R := K) 4; exact_mod_cast this
    rw [this]; rfl
  unfold runOps runOp
  dsimp only
  rw [hreset]
  unfold runOps runOp
  simp only [R.ok_bind, R.pure_eq]
  rw [Sys.process_runDir S dir rfl (by simp)]
  unfold Sys.runDir
  -- the sample
  have hp0 : (0 : K) < 1 / 2 ^ L := by positivity
  have hp1 : (1 : K) / 2 ^ L ≤ 1 / 8 := by
    have : (2 : K) ^ 3 ≤ 2 ^ L := pow_le_pow_right₀ (by norm_num) hL
    have := one_div_le_one_div_of_le (by positivity) this
    norm_num at this ⊢; exact this
  have hp2 : (1 : K) / 2 ^ 25 ≤ 1 / 2 * (1 / 2 ^ L) := by
    have e : (1 : K) / 2 * (1 / 2 ^ L) = 1 / 2 ^ (L + 1) := by rw [pow_succ]; field_simp
    rw [e]
    exact one_div_le_one_div_of_le (by positivity) (pow_le_pow_right₀ (by norm_num) (by omega))
  have hpf : ieee32 ((1 : K) / 2 ^ L) = 1 / 2 ^ L := by
    have := hg.dyadic 1 L (by norm_num); simpa using this
  have hpf32 : ieee32 ((3 : K) / 2 ^ (L + 1)) = 3 / 2 ^ (L + 1) := by
    have := hg.dyadic 3 (L + 1) (by norm_num); simpa using this
  have d0 : 1 / 2 ^ L ≤ ieee32 (1 / 2 ^ L - q) := hg.ge_of_ge hpf (by linarith)
  have d1 : ieee32 (1 / 2 ^ L - q) ≤ 3 / 2 ^ (L + 1) := hg.le_of_le hpf32 (by
    have : (3 : K) / 2 ^ (L + 1) = 1 / 2 ^ L + 1 / 2 * (1 / 2 ^ L) := by
      rw [pow_succ]; field_simp; norm_num
    rw [this]; linarith)
  have d2 : (3 : K) / 2 ^ (L + 1) < 2 / 2 ^ L := by
    rw [pow_succ, div_lt_div_iff₀ (by positivity) (by positivity)]
    have : (0 : K) < 2 ^ L := by positivity
    linarith
  have d3 : (2 : K) / 2 ^ L ≤ 1 / 2 := by
    have : (2 : K) / 2 ^ L = 2 * (1 / 2 ^ L) := by ring
    rw [this]; linarith
  generalize hdd : ieee32 (1 / 2 ^ L - q) = d at d0 d1
  have hd : 0 < d ∧ d ≤ 1 / 2 := ⟨by linarith, by linarith⟩
  suffices h : S.processSampleFwd { o with
      wt := some wt, prevY := List.replicate S.n 0, prevPhase := q, prevPhaseRed := 1,
      prevPhaseDiff := 3 / 8, prevMip := (L : ℤ) - 2, jRed := 4 } (1 / 2 ^ L) d =
        .error .outOfBounds by
    have hs : S.stepDir dir { o with
        wt := some wt, prevY := List.replicate S.n 0, prevPhase := q, prevPhaseRed := 1,
        prevPhaseDiff := 3 / 8, prevMip := (L : ℤ) - 2, jRed := 4 } (1 / 2 ^ L) = .error .outOfBounds := by
      cases dir with
      | kForward =>
        show S.stepFwd _ _ = _
        unfold Sys.stepFwd
        dsimp only
        rw [he, hdd, if_neg (by linarith [hd.1]), chk_true hd, R.ok_bind]
        exact h
      | kBidirectionnal =>
        show S.stepBi _ _ = _
        have hbi : Sys.biDiff S.env.fl (1 / 2 ^ L) q = d := by
          unfold Sys.biDiff
          dsimp only
          rw [he, hdd, if_neg (by linarith [hd.1]), if_neg (by linarith [hd.2])]
        unfold Sys.stepBi
        dsimp only
        rw [hbi, if_pos hd.1.le]
        exact h
    rw [hs]; rfl
  obtain ⟨c4, t4, hn4, hfind4, hw4, -, i0, i1, -⟩ := Sys.find_spec (S := S) hf hok hd.1
  have hidx : t4.idx = 0 := by
    obtain ⟨t2, e2, ht2⟩ := CrossFader.newIndices_eq (E := S.env) hf hok.inv hd.1
    rw [hn4] at e2
    have htt : t4 = t2 := congrArg (fun x => x.2) (Except.ok.inj e2)
    have hl0' : (CrossFader.findLoop d wt.cf.scale : ℤ) = 0 := by
      rw [hok.scale]
      apply CrossFader.findLoop_of_octave hok.L2
      refine ⟨le_rfl, by omega, Or.inl rfl, Or.inr ?_⟩
      simp only [Int.toNat_zero, zero_add, pow_one]
      linarith
    rw [htt]
    rcases ht2 with ⟨-, h', -⟩ | ⟨-, f, -, ht2⟩
    · exfalso; rw [hl0', hnx] at h'; omega
    · rw [hl0'] at ht2
      have hst : wt.cf.nextState 0 =
          { wt.cf with samplesLeft := wt.cf.numSamples, prevIdx := 1, nextIdx := 0 } := by
        have := hok.inv.idle hl0
        unfold CrossFader.nextState CrossFader.updateIndices
        rw [if_neg (fun h => h hl0), if_neg (by rw [hnx]; omega)]
        dsimp only
        rw [if_neg (by omega)]; rfl
      rw [hst] at ht2
      dsimp only at ht2
      rw [if_neg (by norm_num)] at ht2
      rw [ht2]
  have hpu : PhaseOk S.env.fl ((1 : K) / 2 ^ L) := by
    rw [he]; exact ⟨hp0.le, by linarith, isPhase_ieee32 hpf⟩
  unfold Sys.processSampleFwd
  dsimp only
  rw [chk_true hd, R.ok_bind, hfind4, R.ok_bind]
  dsimp only
  rw [hw4.phaseSpan i0 i1, R.ok_bind, Maths.reduceF_unit hf hpu.1 hpu.2.1, R.ok_bind,
    hw4.waveformLen i0 i1, R.ok_bind, hidx]
  have hadj : Sys.adjustJ (WavetableData.grid K (L - (0 : ℤ).toNat)) 0 ((L : ℤ) - 2) 4 (3 / 8) (1 : K) =
      .error .outOfBounds := by
    unfold Sys.adjustJ
    rw [if_neg (by omega), if_pos (by omega)]
    dsimp only
    rw [if_pos (by norm_num), rd_big]
    · rfl
    · rw [WavetableData.grid_length]
      obtain ⟨k, rfl⟩ := Nat.exists_eq_add_of_le hok.L2
      have : (((2 + k : ℕ) : ℤ) - 2 - 0).toNat = k := by push_cast; omega
      rw [this]
      simp only [Int.toNat_zero, Nat.sub_zero]
      push_cast
      rw [pow_add]; norm_num
  rw [hadj]; rfl

end Props
end Adwt
