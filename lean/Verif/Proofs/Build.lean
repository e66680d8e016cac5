import Verif.Proofs.Tables
import Verif.Props.Maths

set_option linter.unusedSectionVars false

namespace Adwt
variable {K : Type} [Field K] [LinearOrder K] [IsStrictOrderedRing K] [FloorRing K]

/-- `x` succeeds with `Q`, or throws `runtime_error`; the latter is excluded when `p` holds. -/
def OkOr (p : Prop) {α : Type} (x : R α) (Q : α → Prop) : Prop :=
  Ok x Q ∨ (¬ p ∧ x = .error .runtimeError)

namespace OkOr
variable {α β : Type} {p : Prop}

theorem bind {x : R α} {f : α → R β} {P : α → Prop} {Q : β → Prop}
    (hx : OkOr p x P) (hf : ∀ a, P a → OkOr p (f a) Q) : OkOr p (x >>= f) Q := by
  rcases hx with ⟨a, rfl, ha⟩ | ⟨hp, rfl⟩
  · exact hf a ha
  · exact Or.inr ⟨hp, rfl⟩

theorem foldlM_range' {f : β → ℕ → R β} (I : ℕ → β → Prop) (s n : ℕ) {b : β} (hb : I s b)
    (hs : ∀ j b, s ≤ j → j < s + n → I j b → OkOr p (f b j) (I (j + 1))) :
    OkOr p ((List.range' s n).foldlM f b) (I (s + n)) := by
  induction n generalizing s b with
  | zero => exact Or.inl ⟨b, rfl, hb⟩
  | succ n ih =>
    rw [List.range'_succ, List.foldlM_cons]
    refine bind (hs s b le_rfl (by omega) hb) fun b' hb' => ?_
    have := ih (s + 1) hb' fun j b h1 h2 => hs j b (by omega) (by omega)
    rwa [show s + (n + 1) = s + 1 + n by omega]

theorem mapM {f : α → R β} {l : List α} {Q : α → β → Prop} (h : ∀ a ∈ l, OkOr p (f a) (Q a)) :
    OkOr p (l.mapM f) fun r => List.Forall₂ Q l r := by
  induction l with
  | nil => exact Or.inl (Ok.pure List.Forall₂.nil)
  | cons a l ih =>
    rw [List.mapM_cons]
    refine bind (h a (by simp)) fun b hb => ?_
    refine bind (ih fun a ha => h a (by simp [ha])) fun bs hbs => ?_
    exact Or.inl (Ok.pure (List.Forall₂.cons hb hbs))

theorem map_eq {f : α → R β} {g : α → β} {l : List α} (h : ∀ a ∈ l, OkOr p (f a) (· = g a)) :
    OkOr p (l.mapM f) (· = l.map g) := by
  have := mapM (Q := fun a b => b = g a) h
  rcases this with ⟨r, e, hr⟩ | h
  · left
    refine ⟨r, e, ?_⟩
    clear e h
    induction hr with
    | nil => rfl
    | cons h _ ih => simp [h, ih]
  · exact Or.inr h

end OkOr

namespace WavetableData

/-! ### closed form of a built wavetable -/

/-- closed form of the tables of waveform `w` (of length `2^L`) at level `i` -/
def tabOf (E : Env K) (L : ℕ) (w : List K) (i : ℕ) : MQ K :=
  mqOf E (fun k => (k : K) / 2 ^ (L - i)) ((mipSamples E w i).getD · 0) (2 ^ (L - i))

/-- closed form of the wavetable made from `nw` waveforms of length `2^L` -/
def wtOf (E : Env K) (ws : List K) (nw L : ℕ) (xfade : ℤ) : WavetableData K :=
  let tabs := (List.range nw).map fun w =>
    (List.range (L - 1)).map (tabOf E L (waveformOf ws (2 ^ L) w))
  ⟨tabs.map (·.map MQ.m), tabs.map (·.map MQ.q), tabs.map (·.map MQ.mDiff),
    tabs.map (·.map MQ.qDiff), (List.range (L - 1)).map fun i => grid K (L - i),
    ⟨xfade, octaveScale K L, 0, CrossFader.findLoop (E.fl (1 / 10)) (octaveScale K L),
      CrossFader.findLoop (E.fl (1 / 10)) (octaveScale K L)⟩⟩

theorem mipSamples_zero (E : Env K) (w : List K) : mipSamples E w 0 = w := by
  rw [mipSamples]; simp

theorem mipSamples_low (E : Env K) (w : List K) {i : ℕ} (h0 : i ≠ 0) (h : i ≤ 8) :
    mipSamples E w i = decimate E w (2 ^ i) := by
  rw [mipSamples]; simp [h0, h]

theorem mipSamples_high (E : Env K) (w : List K) {i : ℕ} (h : 8 < i) :
    mipSamples E w i = decimate E (mipSamples E w (i - 8)) 256 := by
  rw [mipSamples]; rw [if_neg (by omega), if_neg (by omega)]

theorem decimate_length (E : Env K) (w : List K) (r : ℕ) : (decimate E w r).length = w.length / r := by
  simp [decimate]

theorem mipSamples_length (E : Env K) {w : List K} {L : ℕ} (hw : w.length = 2 ^ L) (i : ℕ) :
    i ≤ L → (mipSamples E w i).length = 2 ^ (L - i) := by
  induction i using Nat.strong_induction_on with
  | _ i ih =>
    intro hi
    rcases Nat.eq_zero_or_pos i with rfl | h0
    · rw [mipSamples_zero, hw]; simp
    · rcases Nat.lt_or_ge 8 i with h8 | h8
      · rw [mipSamples_high E w h8, decimate_length, ih (i - 8) (by omega) (by omega)]
        have : (256 : ℕ) = 2 ^ 8 := by norm_num
        rw [this, Nat.pow_div (by omega) (by norm_num)]
        congr 1; omega
      · rw [mipSamples_low E w (by omega) h8, decimate_length, hw,
          Nat.pow_div (by omega) (by norm_num)]

/-- the tables at one level, given the samples -/
theorem computeMQVector_grid {E : Env K} (hf : Rounding E.fl) {L i : ℕ} (hL : L ≤ 24)
    {y : List K} (hy : y.length = 2 ^ (L - i)) :
    computeMQVector E (grid K (L - i)) y =
      .ok (mqOf E (fun k => (k : K) / 2 ^ (L - i)) (y.getD · 0) (2 ^ (L - i))) := by
  have hp : 0 < 2 ^ (L - i) := by positivity
  have hget : ∀ k, k ≤ 2 ^ (L - i) → (grid K (L - i)).getD k 0 = (k : K) / 2 ^ (L - i) := by
    intro k hk
    rw [List.getD_eq_getElem?_getD, grid_get hk]; rfl
  rw [computeMQVector_eq (by intro h; rw [h] at hy; simp at hy; omega)
    (by rw [hy, grid_length]) (by
      intro k hk
      rw [hget _ (by omega), hget _ (by omega)]
      have hg : ((k + 1 : ℕ) : K) / 2 ^ (L - i) - (k : K) / 2 ^ (L - i) = 1 / 2 ^ (L - i) := by
        push_cast; ring
      have h1 := hf.dyadic 1 (L - i) (by norm_num)
      push_cast at h1
      rw [hg, E.dbl_fl _ h1]
      positivity)]
  rw [hy]
  congr 1
  exact mqOf_congr hp (fun k hk => hget k hk) (fun _ _ => rfl)

/-- the loop invariant: levels below `j` are done -/
structure LoopInv (E : Env K) (L : ℕ) (og : List K) (j : ℕ) (acc : List (List K) × List (MQ K)) :
    Prop where
  len : acc.1.length = L - 1 - 9
  filled : ∀ k, k < L - 1 - 9 → k + 1 < j → k + 1 ≤ 8 → acc.1[k]? = some (mipSamples E og (k + 1))
  tabs : acc.2 = (List.range j).map (tabOf E L og)

theorem phases_rd {L i : ℕ} (h : i < L - 1) :
    rd ((List.range (L - 1)).map fun i => grid K (L - i)) (i : ℤ) = .ok (grid K (L - i)) := by
  rw [rd_get rfl (by simpa using h)]; simp

theorem mipStep_spec {E : Env K} (hf : Rounding E.fl) {L : ℕ} (hL : L ≤ 18) {og : List K} (hog : og.length = 2 ^ L)
    {j : ℕ} (h1 : 1 ≤ j) (hj : j < L - 1) {acc} (hI : LoopInv E L og j acc) :
    OkOr (SrcContract E.src)
      (mipStep E ((List.range (L - 1)).map fun i => grid K (L - i)) og acc j)
      (LoopInv E L og (j + 1)) := by
  -- the source and ratio
  obtain ⟨src, ratio, hsrc, hds, hrat⟩ : ∃ src ratio, mipSource og acc.1 j = .ok (src, ratio) ∧
      decimate E src ratio = mipSamples E og j ∧
      (2 ≤ ratio ∧ ratio ≤ 256 ∧ ratio ∣ src.length) := by
    unfold mipSource
    rcases Nat.lt_or_ge 8 j with h8 | h8
    · rw [if_neg (by simp [kMaxLibSamplerate]; omega)]
      have hk := hI.filled (j - 9) (by omega) (by omega) (by omega)
      have hjj : j - 9 + 1 = j - 8 := by omega
      rw [hjj] at hk
      have hlt : j - 9 < acc.1.length := by rw [hI.len]; omega
      have hrd : rd acc.1 ((j : ℤ) - kMaxLibSamplerate - 1) = .ok (mipSamples E og (j - 8)) := by
        have e : ((j : ℤ) - kMaxLibSamplerate - 1) = ((j - 9 : ℕ) : ℤ) := by
          simp [kMaxLibSamplerate]; omega
        rw [e, rd_get rfl hlt]
        rw [List.getElem?_eq_getElem hlt] at hk
        rw [Option.some.inj hk]
      rw [hrd]
      refine ⟨_, _, rfl, (mipSamples_high E og h8).symm, by norm_num, by norm_num, ?_⟩
      rw [mipSamples_length E hog _ (by omega)]
      exact (pow_dvd_pow 2 (show 8 ≤ L - (j - 8) by omega))
    · rw [if_pos (by simpa [kMaxLibSamplerate] using h8)]
      have hr : 2 * 2 ^ (j - 1) = 2 ^ j := by
        rw [← pow_succ']; congr 1; omega
      refine ⟨_, _, rfl, ?_, ?_, ?_, ?_⟩
      · rw [hr, mipSamples_low E og (by omega) h8]
      · rw [hr]; calc 2 = 2 ^ 1 := rfl
          _ ≤ 2 ^ j := Nat.pow_le_pow_right (by norm_num) h1
      · rw [hr]; calc 2 ^ j ≤ 2 ^ 8 := Nat.pow_le_pow_right (by norm_num) h8
          _ = 256 := by norm_num
      · rw [hr, hog]; exact pow_dvd_pow 2 (by omega)
  unfold mipStep
  rw [hsrc, R.ok_bind]
  dsimp only
  have hlen := mipSamples_length E hog j (by omega)
  by_cases hem : downsampleWaveform E src ratio = []
  · right
    refine ⟨fun hc => ?_, by simp [hem]⟩
    rw [downsample_contract hc hrat.1 hrat.2.1 hrat.2.2, hds] at hem
    rw [hem] at hlen
    have : 0 < 2 ^ (L - j) := by positivity
    simp at hlen
    omega
  · left
    have hd : downsampleWaveform E src ratio = mipSamples E og j := by
      rw [(downsample_length hem).2, hds]
    rw [hd]
    have hne : (mipSamples E og j).isEmpty = false := by
      rw [← hd]; simpa using hem
    rw [if_neg (by simp [hne]), phases_rd hj, R.ok_bind, computeMQVector_grid hf (by omega) hlen, R.ok_bind]
    refine Ok.pure ⟨?_, ?_, ?_⟩
    · dsimp only; split <;> simp [hI.len]
    · intro k hk hkj hk8
      dsimp only
      rcases Nat.lt_or_ge (k + 1) j with hlt | hge
      · have := hI.filled k hk hlt hk8
        split
        · rw [List.getElem?_set_ne (by omega)]; exact this
        · exact this
      · have hkj' : k + 1 = j := by omega
        rw [if_pos (by rw [hI.len]; simp [kMaxLibSamplerate]; omega)]
        rw [List.getElem?_set]
        rw [if_pos (by omega), if_pos (by rw [hI.len]; omega), hkj']
    · dsimp only
      rw [hI.tabs, List.range_succ, List.map_append]; rfl

theorem waveformTables_spec {E : Env K} (hf : Rounding E.fl) {L : ℕ} (h2 : 2 ≤ L) (hL : L ≤ 18) {og : List K}
    (hog : og.length = 2 ^ L) :
    OkOr (SrcContract E.src)
      (waveformTables E (L - 1) ((List.range (L - 1)).map fun i => grid K (L - i)) og)
      (· = (List.range (L - 1)).map (tabOf E L og)) := by
  unfold waveformTables
  have hne : ((List.range (L - 1)).map fun i => grid K (L - i)) ≠ [] := by
    intro h; have := congrArg List.length h; simp at this; omega
  rw [chk_true hne, R.ok_bind]
  have := phases_rd (K := K) (L := L) (i := 0) (by omega)
  rw [show ((0 : ℕ) : ℤ) = 0 from rfl] at this
  rw [this, R.ok_bind, computeMQVector_grid hf (by omega) (by simpa using hog), R.ok_bind]
  dsimp only
  have h0 : LoopInv E L og 1 (List.replicate (L - 1 - kMaxLibSamplerate - 1) [],
      [mqOf E (fun k => (k : K) / 2 ^ (L - 0)) (og.getD · 0) (2 ^ (L - 0))]) := by
    refine ⟨by simp [kMaxLibSamplerate]; omega, fun k _ h => by omega, ?_⟩
    simp [tabOf, mipSamples_zero]
  refine OkOr.bind (OkOr.foldlM_range' (LoopInv E L og) 1 (L - 1 - 1) h0 ?_) ?_
  · intro j b h1 hj hb
    exact mipStep_spec hf hL hog h1 (by omega) hb
  · intro b hb
    refine Or.inl (Ok.pure ?_)
    rw [hb.tabs]; congr 2; omega

theorem waveformOf_length {ws : List K} {nw len w : ℕ} (h : ws.length = nw * len) (hw : w < nw) :
    (waveformOf ws len w).length = len := by
  unfold waveformOf
  rw [List.length_take, List.length_drop, h]
  have : w * len + len ≤ nw * len := by
    calc w * len + len = (w + 1) * len := by ring
      _ ≤ nw * len := Nat.mul_le_mul_right _ hw
  omega

theorem make_spec {E : Env K} (hf : Rounding E.fl) (hl : Log2Spec E.log2f) {L : ℕ} (h2 : 2 ≤ L)
    (hL : L ≤ 18) {ws : List K} {nw : ℕ} (hws : ws.length = nw * 2 ^ L) {sr : K} (hs0 : 0 < sr)
    (hs : IsRate E.fl sr) (xf : ℤ) :
    OkOr (SrcContract E.src) (make E ws nw sr xf (2 ^ L)) (· = wtOf E ws nw L xf) := by
  unfold make
  have e : ((2 ^ L : ℕ) : ℤ) = (2 : ℤ) ^ L := by push_cast; rfl
  rw [e, CrossFader.make_eq hf hl (by omega) (by omega) hs0 hs, R.ok_bind,
    chk_true (by rw [hws]; ring), R.ok_bind]
  dsimp only
  have hn : (CrossFader.numMipMapTables (⟨xf, octaveScale K L, 0,
      CrossFader.findLoop (E.fl (1 / 10)) (octaveScale K L),
      CrossFader.findLoop (E.fl (1 / 10)) (octaveScale K L)⟩ : CrossFader K)).toNat = L - 1 := by
    simp [CrossFader.numMipMapTables, octaveScale]
  rw [hn, computePhaseVectors_eq hf (by omega) (by omega), R.ok_bind]
  have hmap := OkOr.map_eq (p := SrcContract E.src) (l := List.range nw)
    (f := fun w => waveformTables E (L - 1) ((List.range (L - 1)).map fun i => grid K (L - i))
      (subspan ws (2 ^ L) w))
    (g := fun w => (List.range (L - 1)).map (tabOf E L (waveformOf ws (2 ^ L) w))) (by
      intro w hw
      exact waveformTables_spec hf h2 hL (waveformOf_length hws (List.mem_range.1 hw)))
  refine OkOr.bind hmap ?_
  rintro tabs rfl
  exact Or.inl (Ok.pure rfl)

/-! ### lengths for which the cascade fails -/

theorem mipStep_inter {E : Env K} {phases : List (List K)} {og : List K} {acc acc'} {i : ℕ}
    (h : mipStep E phases og acc i = .ok acc') (h8 : acc.1[8]? = some []) :
    acc'.1[8]? = some [] := by
  unfold mipStep at h
  obtain ⟨⟨src, ratio⟩, -, h⟩ := bind_ok h
  dsimp only at h
  split at h
  · cases h
  · obtain ⟨pv, -, h⟩ := bind_ok h
    obtain ⟨t, -, h⟩ := bind_ok h
    cases h
    dsimp only
    split
    · rename_i hi
      simp only [kMaxLibSamplerate] at hi
      by_cases h0 : i - 1 = 8
      · omega
      · rw [List.getElem?_set_ne h0]; exact h8
    · exact h8

theorem mipStep_17 {E : Env K} {phases : List (List K)} {og : List K} {acc}
    (h8 : acc.1[8]? = some []) : mipStep E phases og acc 17 = .error .runtimeError := by
  have hlt : 8 < acc.1.length := by
    by_contra hc; rw [List.getElem?_eq_none (by omega)] at h8; cases h8
  have hrd : rd acc.1 (((17 : ℕ) : ℤ) - (kMaxLibSamplerate : ℕ) - 1) = .ok [] := by
    have e : (((17 : ℕ) : ℤ) - (kMaxLibSamplerate : ℕ) - 1) = ((8 : ℕ) : ℤ) := by
      simp [kMaxLibSamplerate]
    rw [e, rd_get rfl hlt]
    rw [List.getElem?_eq_getElem hlt] at h8
    rw [Option.some.inj h8]
  unfold mipStep mipSource
  rw [if_neg (by simp [kMaxLibSamplerate]), hrd]
  simp [downsampleWaveform]

theorem foldl_inter {E : Env K} {phases : List (List K)} {og : List K} {acc acc'} (l : List ℕ)
    (h : l.foldlM (mipStep E phases og) acc = .ok acc') (h8 : acc.1[8]? = some []) :
    acc'.1[8]? = some [] := by
  induction l generalizing acc with
  | nil => cases h; exact h8
  | cons i l ih =>
    rw [List.foldlM_cons] at h
    obtain ⟨b, h1, h2⟩ := bind_ok h
    exact ih h2 (mipStep_inter h1 h8)

theorem range'_split {n : ℕ} (h : 17 ≤ n) :
    List.range' 1 n = List.range' 1 16 ++ 17 :: List.range' 18 (n - 17) := by
  have : n = 16 + (1 + (n - 17)) := by omega
  conv_lhs => rw [this]
  have h2 : List.range' 17 (n - 17 + 1) = 17 :: List.range' 18 (n - 17) := List.range'_succ ..
  rw [← List.range'_append_1, show 1 + (n - 17) = (n - 17) + 1 by omega, h2]

theorem inter_init {num : ℕ} (h : 18 ≤ num) :
    (List.replicate (num - kMaxLibSamplerate - 1) ([] : List K))[8]? = some [] := by
  rw [List.getElem?_replicate]; rw [if_pos (by simp [kMaxLibSamplerate]; omega)]

/-- with 18 or more tables the constructor never succeeds -/
theorem waveformTables_fails {E : Env K} {num : ℕ} (h : 18 ≤ num) (phases : List (List K))
    (og : List K) (r) : waveformTables E num phases og ≠ .ok r := by
  intro e
  unfold waveformTables at e
  obtain ⟨_, -, e⟩ := bind_ok e
  obtain ⟨pv, -, e⟩ := bind_ok e
  obtain ⟨t0, -, e⟩ := bind_ok e
  obtain ⟨res, e, -⟩ := bind_ok e
  rw [range'_split (by omega), List.foldlM_append] at e
  obtain ⟨b, e1, e2⟩ := bind_ok e
  have h8 := foldl_inter _ e1 (inter_init h)
  rw [List.foldlM_cons, mipStep_17 h8] at e2
  cases e2

/-- for a power of two, 18 or more tables throw `runtime_error` -/
theorem waveformTables_big {E : Env K} (hf : Rounding E.fl) {L : ℕ} (h : 19 ≤ L)
    (hL : L ≤ 24) {og : List K}
    (hog : og.length = 2 ^ L) :
    waveformTables E (L - 1) ((List.range (L - 1)).map fun i => grid K (L - i)) og =
      .error .runtimeError := by
  unfold waveformTables
  have hne : ((List.range (L - 1)).map fun i => grid K (L - i)) ≠ [] := by
    intro h; have := congrArg List.length h; simp at this; omega
  rw [chk_true hne, R.ok_bind]
  have := phases_rd (K := K) (L := L) (i := 0) (by omega)
  rw [show ((0 : ℕ) : ℤ) = 0 from rfl] at this
  rw [this, R.ok_bind, computeMQVector_grid hf (by omega) (by simpa using hog), R.ok_bind]
  dsimp only
  have hkk : L - 1 - kMaxLibSamplerate - 1 = L - 1 - 9 := by simp [kMaxLibSamplerate]; omega
  rw [range'_split (by omega), List.foldlM_append]
  -- the first 16 levels either succeed or throw
  have hpre : OkOr False (List.foldlM (mipStep E ((List.range (L - 1)).map fun i => grid K (L - i)) og)
      (List.replicate (L - 1 - kMaxLibSamplerate - 1) [],
        [mqOf E (fun k => (k : K) / 2 ^ (L - 0)) (og.getD · 0) (2 ^ (L - 0))])
      (List.range' 1 16)) (fun acc => acc.1[8]? = some [] ∧ acc.1.length = L - 1 - 9 ∧
        ∀ k, k < 8 → acc.1[k]? = some (mipSamples E og (k + 1))) := by
    have := OkOr.foldlM_range' (p := False)
      (f := mipStep E ((List.range (L - 1)).map fun i => grid K (L - i)) og)
      (fun j acc => acc.1[8]? = some [] ∧ acc.1.length = L - 1 - 9 ∧
        ∀ k, k < 8 → k + 1 < j → acc.1[k]? = some (mipSamples E og (k + 1))) 1 16
      (b := (List.replicate (L - 1 - kMaxLibSamplerate - 1) [],
        [mqOf E (fun k => (k : K) / 2 ^ (L - 0)) (og.getD · 0) (2 ^ (L - 0))]))
      ⟨inter_init (by omega), by simp [hkk], fun k _ h => by omega⟩ (by
        intro j acc h1 h2 ⟨h8, hlen, hfil⟩
        obtain ⟨src, ratio, hsrc, hds⟩ : ∃ src ratio, mipSource og acc.1 j = .ok (src, ratio) ∧
            decimate E src ratio = mipSamples E og j := by
          unfold mipSource
          rcases Nat.lt_or_ge 8 j with h8 | h8
          · rw [if_neg (by simp [kMaxLibSamplerate]; omega)]
            have hk := hfil (j - 9) (by omega) (by omega)
            have hjj : j - 9 + 1 = j - 8 := by omega
            rw [hjj] at hk
            have hlt : j - 9 < acc.1.length := by omega
            have hrd : rd acc.1 ((j : ℤ) - kMaxLibSamplerate - 1) = .ok (mipSamples E og (j - 8)) := by
              have e : ((j : ℤ) - kMaxLibSamplerate - 1) = ((j - 9 : ℕ) : ℤ) := by
                simp [kMaxLibSamplerate]; omega
              rw [e, rd_get rfl hlt]
              rw [List.getElem?_eq_getElem hlt] at hk
              rw [Option.some.inj hk]
            rw [hrd]
            exact ⟨_, _, rfl, (mipSamples_high E og h8).symm⟩
          · rw [if_pos (by simpa [kMaxLibSamplerate] using h8)]
            have hr : 2 * 2 ^ (j - 1) = 2 ^ j := by
              rw [← pow_succ']; congr 1; omega
            exact ⟨_, _, rfl, by rw [hr, mipSamples_low E og (by omega) h8]⟩
        have hlen' := mipSamples_length E hog j (by omega)
        unfold mipStep
        rw [hsrc, R.ok_bind]
        dsimp only
        by_cases hem : downsampleWaveform E src ratio = []
        · right; exact ⟨id, by simp [hem]⟩
        · left
          have hd : downsampleWaveform E src ratio = mipSamples E og j := by
            rw [(downsample_length hem).2, hds]
          rw [hd]
          have hne : (mipSamples E og j).isEmpty = false := by
            rw [← hd]; simpa using hem
          rw [if_neg (by simp [hne]), phases_rd (by omega), R.ok_bind, computeMQVector_grid hf (by omega) hlen',
            R.ok_bind]
          refine Ok.pure ⟨?_, ?_, ?_⟩
          · dsimp only
            split
            · rename_i hi
              simp only [kMaxLibSamplerate] at hi
              rw [List.getElem?_set_ne (by omega)]; exact h8
            · exact h8
          · dsimp only; split <;> simp [hlen]
          · intro k hk hkj
            dsimp only
            rcases Nat.lt_or_ge (k + 1) j with hlt | hge
            · have := hfil k hk hlt
              split
              · rw [List.getElem?_set_ne (by omega)]; exact this
              · exact this
            · have hkj' : k + 1 = j := by omega
              rw [if_pos (by rw [hlen]; simp [kMaxLibSamplerate]; omega)]
              rw [List.getElem?_set]
              rw [if_pos (by omega), if_pos (by omega), hkj'])
    rcases this with ⟨b, e, h1, h2, h3⟩ | h
    · exact Or.inl ⟨b, e, h1, h2, fun k hk => h3 k hk (by omega)⟩
    · exact Or.inr h
  rcases hpre with ⟨b, e, h8, -⟩ | ⟨-, e⟩
  · rw [e, R.ok_bind, List.foldlM_cons, mipStep_17 h8]; rfl
  · rw [e]; rfl

theorem make_big {E : Env K} (hf : Rounding E.fl) (hl : Log2Spec E.log2f) {L : ℕ} (h2 : 19 ≤ L)
    (hL : L ≤ 24) {ws : List K} {nw : ℕ} (hnw : 0 < nw) (hws : ws.length = nw * 2 ^ L) {sr : K}
    (hs0 : 0 < sr) (hs : IsRate E.fl sr) (xf : ℤ) :
    make E ws nw sr xf (2 ^ L) = .error .runtimeError := by
  unfold make
  have e : ((2 ^ L : ℕ) : ℤ) = (2 : ℤ) ^ L := by push_cast; rfl
  rw [e, CrossFader.make_eq hf hl (by omega) (by omega) hs0 hs, R.ok_bind,
    chk_true (by rw [hws]; ring), R.ok_bind]
  dsimp only
  have hn : (CrossFader.numMipMapTables (⟨xf, octaveScale K L, 0,
      CrossFader.findLoop (E.fl (1 / 10)) (octaveScale K L),
      CrossFader.findLoop (E.fl (1 / 10)) (octaveScale K L)⟩ : CrossFader K)).toNat = L - 1 := by
    simp [CrossFader.numMipMapTables, octaveScale]
  rw [hn, computePhaseVectors_eq hf (by omega) (by omega), R.ok_bind]
  obtain ⟨m, rfl⟩ : ∃ m, nw = m + 1 := ⟨nw - 1, by omega⟩
  rw [List.range_succ_eq_map, List.mapM_cons]
  have : subspan ws (2 ^ L) 0 = waveformOf ws (2 ^ L) 0 := rfl
  rw [this, waveformTables_big hf h2 hL (waveformOf_length hws hnw)]
  rfl

end WavetableData
end Adwt
