import Verif.Proofs.CrossFaderRun

/-!
# C11, C13-C19: octave selection and crossfading (`adwt/crossfading.hpp`)

The vocabulary (`IsOctave`, `octaveScale`, `MipMapIndices.weightOf`, `CrossFader.run`,
`CrossFader.Reachable`) is in `Verif/Spec/Octave.lean`.
-/

set_option linter.unusedSectionVars false

namespace Adwt.Props
open CrossFader
variable {K : Type} [Field K] [LinearOrder K] [IsStrictOrderedRing K] [FloorRing K]

/-! ### C11 -/

/-- C11: whatever the (float) samplerate, the transition points of a wavetable of length `2^L` are
`2^(i+1) / 2^L` cycles per sample, for `i < L-1`, exactly, under every binary rounding. -/
theorem C11_scale (E : Env K) (hf : Rounding E.fl) (hl : Log2Spec E.log2f) (L : ℕ) (hL1 : 1 ≤ L)
    (hL : L ≤ 24) (sr : K) (hs0 : 0 < sr) (hs : IsRate E.fl sr) :
    computeMipMapScale E ((2 : ℤ) ^ L) sr =
      .ok ((List.range (L - 1)).map fun i => 2 ^ (i + 1) / 2 ^ L) :=
  scale_eq hf hl hL1 hL hs0 hs

/-- C11: crossfaders for two samplerates are the same but for the crossfade length. -/
theorem C11_same_crossfader (E : Env K) (hf : Rounding E.fl) (hl : Log2Spec E.log2f) (L : ℕ)
    (hL1 : 1 ≤ L) (hL : L ≤ 24) (sr1 sr2 : K) (h1 : 0 < sr1 ∧ IsRate E.fl sr1)
    (h2 : 0 < sr2 ∧ IsRate E.fl sr2) (n1 n2 : ℤ) :
    ∃ c1 c2, make E n1 ((2 : ℤ) ^ L) sr1 = .ok c1 ∧ make E n2 ((2 : ℤ) ^ L) sr2 = .ok c2 ∧
      c2 = { c1 with numSamples := n2 } :=
  ⟨_, _, make_eq hf hl hL1 hL h1.1 h1.2 n1, make_eq hf hl hL1 hL h2.1 h2.2 n2, rfl⟩

omit [FloorRing K] in
/-- Without limits on the exponent every number is a samplerate that is a float. -/
theorem isRate_id (sr : K) : IsRate (id : K → K) sr := fun _ _ => rfl

theorem isRate_rne24 {sr : K} (h : rne24 sr = sr) : IsRate rne24 sr := fun k _ => by
  rw [rne24_zscale, h]

/-- IEEE floats between `2^-102` and `2^103` are samplerates. -/
theorem isRate_ieee32 {sr : K} (h : ieee32 sr = sr) (h0 : 1 / 2 ^ 102 ≤ |sr|)
    (h1 : |sr| ≤ 2 ^ 103) : IsRate ieee32 sr := by
  intro k hk
  rw [abs_le] at hk
  have e1 : (2 : K) ^ (-24 : ℤ) = 1 / 2 ^ 24 := by rw [zpow_neg, one_div]; norm_cast
  have e2 : (2 : K) ^ (24 : ℤ) = 2 ^ 24 := by norm_cast
  have b1 : (1 : K) / 2 ^ 24 ≤ 2 ^ k := by
    rw [← e1]; exact zpow_le_zpow_right₀ (by norm_num) (by omega)
  have b2 : (2 : K) ^ k ≤ 2 ^ 24 := by
    rw [← e2]; exact zpow_le_zpow_right₀ (by norm_num) (by omega)
  have p : (0 : K) < 2 ^ k := by positivity
  have e : |sr * 2 ^ k| = |sr| * 2 ^ k := by rw [abs_mul, abs_of_pos p]
  have g1 : 1 / 2 ^ 126 ≤ |sr * 2 ^ k| := by
    rw [e]
    calc (1 : K) / 2 ^ 126 = 1 / 2 ^ 102 * (1 / 2 ^ 24) := by norm_num
      _ ≤ _ := by gcongr
  have g2 : |sr * 2 ^ k| ≤ 2 ^ 127 := by
    rw [e]
    calc |sr| * 2 ^ k ≤ 2 ^ 103 * 2 ^ 24 := by gcongr
      _ = 2 ^ 127 := by norm_num
  rw [ieee32_normal (Or.inr g1) g2, rne24_zscale, rne24_of_ieee32 h]

-- 44100 is a float and a samplerate, also for IEEE rounding
example : (0 : ℚ) < 44100 ∧ IsRate ieee32 (44100 : ℚ) := by
  refine ⟨by norm_num, ?_⟩
  have := (rounding_ieee32 (K := ℚ)).isRate 44100 (by norm_num)
  simpa using this

/-! ### C13 -/

/-- C13: in every history of calls, the table found for a step `d > 0` is the octave of `d`, clamped
(`IsOctave`; at most one index satisfies it, `IsOctave.unique`). -/
theorem C13_octave (E : Env K) (hf : Rounding E.fl) (hl : Log2Spec E.log2f) (L : ℕ) (num : ℤ)
    (hn : 1 ≤ num) (c : CrossFader K) (hc : Reachable E L num c) (d : K) (hd : 0 < d) :
    ∃ i, findMipMapIndex E.dbg c.scale d = .ok i ∧ IsOctave L i d := by
  obtain ⟨-, hs, -⟩ := hc.inv hf hl hn
  rw [hs]
  exact ⟨_, findMipMapIndex_eq hd, findLoop_octave hc.1 d⟩

/-- C13: larger steps never select a lower table. -/
theorem C13_monotone (E : Env K) (c : CrossFader K) (d e : K) (hd : 0 < d) (h : d ≤ e) (i j : ℤ)
    (hi : findMipMapIndex E.dbg c.scale d = .ok i) (hj : findMipMapIndex E.dbg c.scale e = .ok j) :
    i ≤ j := by
  rw [findMipMapIndex_eq hd] at hi
  rw [findMipMapIndex_eq (lt_of_lt_of_le hd h)] at hj
  cases hi; cases hj
  exact_mod_cast findLoop_mono h

/-- C13: while no crossfade is running and the octave of the step is the current table, exactly
that table is used. (A different octave starts a crossfade, see C16.) -/
theorem C13_idle (E : Env K) (hf : Rounding E.fl) (hl : Log2Spec E.log2f) (L : ℕ) (num : ℤ)
    (hn : 1 ≤ num) (c : CrossFader K) (hc : Reachable E L num c) (hidle : c.samplesLeft = 0)
    (d : K) (hd : 0 < d) (hoct : IsOctave L c.nextIdx d) :
    c.newIndices E d = .ok (c, ⟨c.nextIdx, 1, c.nextIdx + 1, 0⟩) := by
  obtain ⟨hi, hs, -⟩ := hc.inv hf hl hn
  obtain ⟨t, e, ht⟩ := newIndices_eq hf hi hd
  have hloop : (findLoop d c.scale : ℤ) = c.nextIdx := by
    rw [hs]; exact findLoop_of_octave hc.1 hoct
  rcases ht with ⟨-, -, rfl⟩ | ⟨hne, -⟩
  · rw [e]
    have : c.nextState (findLoop d c.scale) = c := by
      unfold nextState; rw [if_neg (by simpa using hidle), if_pos hloop]
    rw [this]
  · exact absurd ⟨hidle, hloop⟩ hne

-- length 2048 = 2^11: step 1/100 lies in octave 4, [16/2048, 32/2048)
example : IsOctave 11 4 (1 / 100 : ℚ) := by
  refine ⟨by norm_num, by norm_num, Or.inr ?_, Or.inr ?_⟩ <;>
    norm_num [show Int.toNat 4 = 4 from rfl]

/-! ### C14 -/

/-- C14: in every history of calls, every returned lower index names an existing table (there are
`L-1`), and if the upper weight is nonzero the upper index is the next table, which exists too. -/
theorem C14_indices (E : Env K) (hf : Rounding E.fl) (hl : Log2Spec E.log2f) (L : ℕ) (hL : 2 ≤ L)
    (hL' : L ≤ 24) (sr : K) (hs0 : 0 < sr) (hs : IsRate E.fl sr) (num : ℤ) (hn : 1 ≤ num)
    (ds : List K) (hds : ∀ d ∈ ds, 0 < d) :
    ∃ c c' ts, make E num ((2 : ℤ) ^ L) sr = .ok c ∧ c.run E ds = .ok (c', ts) ∧
      ts.length = ds.length ∧
      ∀ t ∈ ts, 0 ≤ t.idx ∧ t.idx < L - 1 ∧
        (t.weightUp ≠ 0 → t.idxUp = t.idx + 1 ∧ t.idxUp < L - 1) := by
  have hi := make_inv (K := K) hL hn (E.fl (1 / 10))
  obtain ⟨ts, hr, hlen⟩ := run_ok hf hi hds
  refine ⟨_, _, ts, make_eq hf hl (by omega) hL' hs0 hs num, hr, hlen, ?_⟩
  apply run_forall hf hi hds hr
  intro c1 d c2 t h1 h2 _ hd e
  obtain ⟨a, b, c, -⟩ := tuple_facts hf h1 hd e
  rw [h2] at b c
  rw [octaveScale_length] at b c
  refine ⟨a, by omega, fun hw => ⟨(c hw).1, by have := (c hw).2; omega⟩⟩

/-! ### C15 -/

/-- C15: in every history all weights lie in `[0,1]`, under every rounding. -/
theorem C15_weights_range (E : Env K) (hf : Rounding E.fl) (hl : Log2Spec E.log2f) (L : ℕ)
    (num : ℤ) (hn : 1 ≤ num) (c : CrossFader K) (hc : Reachable E L num c)
    (ds : List K) (hds : ∀ d ∈ ds, 0 < d) :
    ∃ c' ts, c.run E ds = .ok (c', ts) ∧ ts.length = ds.length ∧
      ∀ t ∈ ts, 0 ≤ t.weight ∧ t.weight ≤ 1 ∧ 0 ≤ t.weightUp ∧ t.weightUp ≤ 1 := by
  obtain ⟨hi, -, -⟩ := hc.inv hf hl hn
  obtain ⟨ts, hr, hlen⟩ := run_ok hf hi hds
  refine ⟨_, ts, hr, hlen, run_forall hf hi hds hr _ ?_⟩
  intro c1 d c2 t h1 _ _ hd e
  obtain ⟨-, -, -, a, b, c, d, -⟩ := tuple_facts hf h1 hd e
  exact ⟨a, b, c, d⟩

/-- C15, IEEE round-to-nearest-even: the float sum of the two weights is exactly one. -/
theorem C15_sum_ieee (E : Env K) (he : E.fl = ieee32) (hl : Log2Spec E.log2f) (L : ℕ)
    (num : ℤ) (hn : 1 ≤ num) (c c' : CrossFader K) (hc : Reachable E L num c)
    (ds : List K) (hds : ∀ d ∈ ds, 0 < d) (ts) (hr : c.run E ds = .ok (c', ts)) :
    ∀ t ∈ ts, ieee32 (t.weight + t.weightUp) = 1 := by
  have hf : Rounding E.fl := by rw [he]; exact rounding_ieee32
  obtain ⟨hi, -, -⟩ := hc.inv hf hl hn
  apply run_forall hf hi hds hr
  intro c1 d c2 t h1 _ _ hd e
  obtain ⟨-, -, -, -, -, -, -, f, hfl, h0, h1', hw⟩ := tuple_facts hf h1 hd e
  rw [he] at hfl hw
  rcases hw with ⟨ha, hb⟩ | ⟨ha, hb⟩
  · rw [ha, hb]; exact ieee32_complement h0 h1' hfl
  · rw [ha, hb, add_comm]; exact ieee32_complement h0 h1' hfl

/-- C15, exact arithmetic: the two weights add up to one. -/
theorem C15_sum_exact (E : Env K) (he : E.fl = id) (hl : Log2Spec E.log2f) (L : ℕ)
    (num : ℤ) (hn : 1 ≤ num) (c c' : CrossFader K) (hc : Reachable E L num c)
    (ds : List K) (hds : ∀ d ∈ ds, 0 < d) (ts) (hr : c.run E ds = .ok (c', ts)) :
    ∀ t ∈ ts, t.weight + t.weightUp = 1 := by
  have hf : Rounding E.fl := by rw [he]; exact rounding_id
  obtain ⟨hi, -, -⟩ := hc.inv hf hl hn
  apply run_forall hf hi hds hr
  intro c1 d c2 t h1 _ _ hd e
  obtain ⟨-, -, -, -, -, -, -, f, hfl, h0, h1', hw⟩ := tuple_facts hf h1 hd e
  rw [he] at hw
  rcases hw with ⟨ha, hb⟩ | ⟨ha, hb⟩ <;> rw [ha, hb] <;> simp

/-! ### C16 -/

theorem left_step {c : CrossFader K} (h : c.samplesLeft ≠ 0) (i : ℤ) :
    (c.nextState i).samplesLeft = c.samplesLeft - 1 := by
  unfold nextState continueFade updateIndices
  dsimp only
  split_ifs <;> rfl

theorem left_foldl {c : CrossFader K} (h : c.Inv) (ds : List K)
    (hl : (ds.length : ℤ) ≤ c.samplesLeft) :
    (ds.foldl stepD c).samplesLeft = c.samplesLeft - ds.length := by
  induction ds generalizing c with
  | nil => simp
  | cons d ds ih =>
    have h0 : c.samplesLeft ≠ 0 := by simp at hl; omega
    have e := left_step h0 (findLoop d c.scale)
    have := ih (c := c.stepD d) (stepD_inv h d) (by
      show _ ≤ (c.nextState _).samplesLeft
      rw [e]; simp at hl; omega)
    rw [List.foldl_cons, this]
    show (c.nextState _).samplesLeft - _ = _
    rw [e]; simp; ring

/-- the fade fraction is strictly between 0 and 1 while the fade runs -/
theorem fading_strict {E : Env K} (hf : Rounding E.fl) {s n : ℤ} (hs : 0 < s) (hsn : s < n)
    (hn : n ≤ 2 ^ 24) : 0 < E.fl (E.fl (s : K) / E.fl (n : K)) ∧
      E.fl (E.fl (s : K) / E.fl (n : K)) < 1 := by
  have hsK : (0 : K) < s := by exact_mod_cast hs
  have hnK : (0 : K) < n := by exact_mod_cast (by omega : 0 < n)
  rw [hf.int s (by rw [abs_of_pos hs]; omega), hf.int n (by rw [abs_of_pos (by omega)]; omega)]
  refine ⟨hf.pos_of_ge 24 ?_, ?_⟩
  · rw [div_le_div_iff₀ (by positivity) hnK, one_mul]
    have h1 : (1 : K) ≤ s := by exact_mod_cast hs
    have h2 : (n : K) ≤ 2 ^ 24 := by exact_mod_cast hn
    nlinarith
  have hrep := hf.dyadic (2 ^ 24 - 1) 24 (by norm_num)
  have hle : (s : K) / n ≤ ((2 ^ 24 - 1 : ℤ) : K) / 2 ^ 24 := by
    rw [div_le_div_iff₀ hnK (by positivity)]
    have h1 : (s : K) ≤ n - 1 := by
      have : s ≤ n - 1 := by omega
      exact_mod_cast this
    have h2 : (n : K) ≤ 2 ^ 24 := by exact_mod_cast hn
    push_cast
    nlinarith
  refine lt_of_le_of_lt (hf.le_of_le hrep hle) ?_
  push_cast; norm_num

/-- C16: when no crossfade is running and a step in another octave arrives, a crossfade starts;
during the next `num` calls, whatever octaves they request, both tables have a nonzero weight in
all calls but the last, and at the last one a single table is left with weight exactly one and the
crossfader is idle again. -/
theorem C16_fade_on_time (E : Env K) (hf : Rounding E.fl) (hl : Log2Spec E.log2f) (L : ℕ)
    (num : ℤ) (hn : 1 ≤ num) (hn2 : num ≤ 2 ^ 24) (c : CrossFader K) (hc : Reachable E L num c)
    (hidle : c.samplesLeft = 0) (d : K) (hd : 0 < d) (hoct : ¬ IsOctave L c.nextIdx d)
    (ds : List K) (hds : ∀ d ∈ ds, 0 < d) (hlen : (ds.length : ℤ) = num) :
    ∃ c' t0 ts, c.run E (d :: ds) = .ok (c', t0 :: ts) ∧ (ts.length : ℤ) = num ∧
      (∀ i (hi : i < ts.length), i + 1 < ts.length → ts[i].weight ≠ 0 ∧ ts[i].weightUp ≠ 0) ∧
      (∀ i (hi : i < ts.length), i + 1 = ts.length → ts[i].weight = 1 ∧ ts[i].weightUp = 0) ∧
      c'.samplesLeft = 0 := by
  obtain ⟨hi, hs, hnum⟩ := hc.inv hf hl hn
  have hloop : (findLoop d c.scale : ℤ) ≠ c.nextIdx := by
    intro h; apply hoct; rw [← h, hs]; exact findLoop_octave hc.1 d
  have hall : ∀ x ∈ d :: ds, 0 < x := by
    intro x hx; rcases List.mem_cons.1 hx with rfl | hx
    · exact hd
    · exact hds x hx
  obtain ⟨ts0, hr, hlen0⟩ := run_ok hf hi hall
  obtain ⟨c1, t0, ts, e1, e2, rfl⟩ := run_cons_ok hr
  have ec1 := newIndices_stepD hf hi hd e1
  have hleft : c1.samplesLeft = num ∧ c1.numSamples = num := by
    subst ec1
    refine ⟨?_, (stepD_const c d).2.trans hnum⟩
    show (c.nextState _).samplesLeft = _
    unfold nextState updateIndices
    rw [if_neg (by simpa using hidle), if_neg hloop]
    dsimp only; split_ifs <;> exact hnum
  have hinv1 : c1.Inv := by subst ec1; exact stepD_inv hi d
  obtain ⟨hl2, hc2, hg⟩ := run_get hf hinv1 hds e2
  have key : ∀ i (hi : i < ts.length), ∃ f, (ts[i].weight = f ∧ ts[i].weightUp = E.fl (1 - f) ∨
      ts[i].weight = E.fl (1 - f) ∧ ts[i].weightUp = f) ∧
      f = E.fl (E.fl ((num - (i + 1) : ℤ) : K) / E.fl (num : K)) ∧
      (num = i + 1 → ts[i].weightUp = f) := by
    intro i hi'
    have e := hg i hi' (by omega)
    have hinvi := foldl_inv hinv1 (ds.take i)
    obtain ⟨t', e', ht⟩ := newIndices_eq hf hinvi (hds _ (List.getElem_mem (by omega : i < ds.length)))
    rw [e] at e'
    have hst := congrArg (fun x => x.1) (Except.ok.inj e')
    have htt := congrArg (fun x => x.2) (Except.ok.inj e')
    dsimp only at hst htt
    have hlt : ((ds.take i).length : ℤ) = i := by rw [List.length_take]; omega
    have hltS : ((ds.take (i + 1)).length : ℤ) = i + 1 := by rw [List.length_take]; omega
    have hleft_i := left_foldl hinv1 (ds.take i) (by rw [hlt, hleft.1]; omega)
    have hleft_i1 := left_foldl hinv1 (ds.take (i + 1)) (by rw [hltS, hleft.1]; omega)
    rw [hlt, hleft.1] at hleft_i
    rw [hltS, hleft.1] at hleft_i1
    rcases ht with ⟨h0, -, -⟩ | ⟨-, f, ef, ht⟩
    · rw [hleft_i] at h0; omega
    · rw [← hst] at ef ht
      have hinvS := foldl_inv hinv1 (ds.take (i + 1))
      obtain ⟨f', ef', -, -, -, -, -, hfe⟩ := computeFading_eq hf hinvS
      rw [ef] at ef'; cases ef'
      rw [hleft_i1, (foldl_const c1 _).2, hleft.2] at hfe
      refine ⟨f, ?_, hfe, ?_⟩
      · rw [htt, ht]; split
        · exact Or.inl ⟨rfl, rfl⟩
        · exact Or.inr ⟨rfl, rfl⟩
      · intro hlast
        have := hinvS.idle (by rw [hleft_i1]; omega)
        rw [htt, ht, if_neg (by omega)]
  refine ⟨_, t0, ts, hr, by omega, ?_, ?_, ?_⟩
  · intro i hi' hlt
    obtain ⟨f, hw, hfe, -⟩ := key i hi'
    have := fading_strict hf (s := num - (i + 1)) (n := num) (by omega) (by omega) hn2
    rw [← hfe] at this
    have h1f : E.fl (1 - f) ≠ 0 := (hf.one_sub_pos (by rw [hfe]; exact hf.idem _) this.2).ne'
    rcases hw with ⟨a, b⟩ | ⟨a, b⟩
    · rw [a, b]; exact ⟨this.1.ne', h1f⟩
    · rw [a, b]; exact ⟨h1f, this.1.ne'⟩
  · intro i hi' hlast
    obtain ⟨f, hw, hfe, hup⟩ := key i hi'
    have h0 : num - (i + 1) = 0 := by omega
    have hf0 : f = 0 := by rw [hfe, h0]; simp [hf.zero]
    have hu := hup (by omega)
    rcases hw with ⟨a, b⟩ | ⟨a, b⟩
    · rw [b, hf0] at hu; simp [hf.one] at hu
    · rw [a, b, hf0]; simp [hf.one]
  · have : (ds.foldl stepD c1).samplesLeft = c1.samplesLeft - ds.length :=
      left_foldl hinv1 ds (by rw [hleft.1]; omega)
    have hfin : (d :: ds).foldl stepD c = ds.foldl stepD c1 := by rw [ec1]; rfl
    rw [hfin, this, hleft.1]; omega

/-! ### C17 -/

/-- calls needed to settle on table `i` -/
def settleTime (c : CrossFader K) (i : ℤ) : ℤ :=
  if c.samplesLeft = 0 then (if c.nextIdx = i then 0 else c.numSamples + 1)
  else if c.prevIdx = i then c.samplesLeft + c.numSamples + 1 else c.samplesLeft

theorem settle_step {c : CrossFader K} (h : c.Inv) (i : ℤ) :
    0 ≤ settleTime (c.nextState i) i ∧
      settleTime (c.nextState i) i ≤ max 0 (settleTime c i - 1) := by
  obtain ⟨a1, a2, a3, a4, a5, a6, a7, a8, a9, a10⟩ := h
  unfold settleTime nextState continueFade updateIndices
  dsimp only
  split_ifs <;> (try dsimp only at *) <;> omega

theorem settle_foldl {L : ℕ} (hL : 2 ≤ L) {c : CrossFader K} (h : c.Inv)
    (hs : c.scale = octaveScale K L) {i : ℤ} {ds : List K} (hds : ∀ d ∈ ds, IsOctave L i d)
    (ht : settleTime c i ≤ ds.length) : settleTime (ds.foldl stepD c) i = 0 := by
  induction ds generalizing c with
  | nil =>
    have h0 : 0 ≤ settleTime c i := by
      have := h.left0; have := h.num; unfold settleTime; split_ifs <;> omega
    simp at ht ⊢; omega
  | cons d ds ih =>
    have hd := findLoop_of_octave hL (hds d (by simp))
    apply ih (stepD_inv h d) ((stepD_const c d).1.trans hs) fun d' h' => hds d' (by simp [h'])
    have := settle_step h i
    have e : c.stepD d = c.nextState i := by unfold stepD; rw [hs, hd]
    rw [e]; simp at ht; omega

/-- C17: from every reachable state, if all steps lie in octave `i`, every call from the
`2*num + 2`-nd on returns exactly table `i` alone. -/
theorem C17_settles (E : Env K) (hf : Rounding E.fl) (hl : Log2Spec E.log2f) (L : ℕ)
    (num : ℤ) (hn : 1 ≤ num) (c : CrossFader K) (hc : Reachable E L num c) (i : ℤ)
    (ds : List K) (hpos : ∀ d ∈ ds, 0 < d) (hds : ∀ d ∈ ds, IsOctave L i d) :
    ∃ c' ts, c.run E ds = .ok (c', ts) ∧ ts.length = ds.length ∧
      ∀ k (hk : k < ts.length), 2 * num + 1 ≤ k → ts[k] = ⟨i, 1, i + 1, 0⟩ := by
  obtain ⟨hi, hs, hnum⟩ := hc.inv hf hl hn
  obtain ⟨ts, hr, hlen⟩ := run_ok hf hi hpos
  refine ⟨_, ts, hr, hlen, ?_⟩
  intro k hk hk2
  obtain ⟨-, -, hg⟩ := run_get hf hi hpos hr
  have hkd : k < ds.length := by omega
  have e := hg k hk hkd
  have htk : ((ds.take k).length : ℤ) = k := by rw [List.length_take]; omega
  have hsettle := settle_foldl (c := c) hc.1 hi hs (i := i) (ds := ds.take k)
    (fun d hd => hds d (List.mem_of_mem_take hd)) (by
      rw [htk]
      have := hi.left1; have := hi.left0
      unfold settleTime; split_ifs <;> omega)
  have hinvk := foldl_inv hi (ds.take k)
  have hidle : ((ds.take k).foldl stepD c).samplesLeft = 0 ∧
      ((ds.take k).foldl stepD c).nextIdx = i := by
    have := hinvk.left0; have := hinvk.num
    unfold settleTime at hsettle
    split_ifs at hsettle <;> constructor <;> omega
  have hloop : (findLoop ds[k] ((ds.take k).foldl stepD c).scale : ℤ) = i := by
    rw [(foldl_const c _).1, hs]
    exact findLoop_of_octave hc.1 (hds _ (List.getElem_mem hkd))
  obtain ⟨t', e', ht⟩ := newIndices_eq hf hinvk (hpos _ (List.getElem_mem hkd))
  rw [e] at e'
  have htt := congrArg (fun x => x.2) (Except.ok.inj e')
  dsimp only at htt
  rcases ht with ⟨-, -, ht⟩ | ⟨hne, -⟩
  · rw [htt, ht, hidle.2]
  · exact absurd ⟨hidle.1, by rw [hloop, hidle.2]⟩ hne

/-! ### C18 -/

/-- the weight of table `k` as determined by a state -/
def stateWeight (c : CrossFader K) (k : ℤ) : K :=
  (if c.prevIdx = k then c.frac else 0) + (if c.nextIdx = k then 1 - c.frac else 0)

theorem frac_idle {c : CrossFader K} (h : c.samplesLeft = 0) : c.frac = 0 := by
  simp [frac, h]

theorem weight_eq {E : Env K} (he : E.fl = id) {c c' : CrossFader K} (h : c.Inv) {d : K}
    (hd : 0 < d) {t} (e : c.newIndices E d = .ok (c', t)) (k : ℤ) :
    t.weightOf k = stateWeight c' k := by
  have hf : Rounding E.fl := by rw [he]; exact rounding_id
  obtain ⟨t', e', ht⟩ := newIndices_eq hf h hd
  rw [e] at e'; cases e'
  rcases ht with ⟨h1, h2, rfl⟩ | ⟨hne, f, ef, rfl⟩
  · have : c.nextState (findLoop d c.scale) = c := by
      unfold nextState; rw [if_neg (by simpa using h1), if_pos h2]
    rw [this]
    unfold MipMapIndices.weightOf stateWeight
    rw [frac_idle h1, h.idle h1]; simp
  · have hinv := nextState_inv h (findLoop_range h d).1 (findLoop_range h d).2
    obtain ⟨f', ef', -, -, -, -, -, hfe⟩ := computeFading_eq hf hinv
    rw [ef] at ef'; cases ef'
    rw [he] at hfe ⊢
    have hfe' : f = (c.nextState (findLoop d c.scale)).frac := hfe
    rw [← hfe'.symm] at *
    unfold MipMapIndices.weightOf stateWeight
    split
    · simp only [id, hfe']
    · simp only [id, hfe']; rw [add_comm]

theorem frac_step {c : CrossFader K} (h : c.Inv) (hs : c.samplesLeft ≠ 0) (i : ℤ) :
    (c.nextState i).frac = c.frac - 1 / c.numSamples := by
  unfold frac
  rw [left_step hs, (nextState_const c i).2]
  have : (c.numSamples : K) ≠ 0 := by
    have := h.num; exact_mod_cast (by omega : c.numSamples ≠ 0)
  push_cast
  field_simp

/-- C18: for two consecutive calls, the weight of every single table changes by at most
`1/num`, provided the second call requests: one of the two tables being mixed if a crossfade is
running; the current octave or a neighbour of it otherwise. -/
theorem C18_click_free (E : Env K) (he : E.fl = id) (hl : Log2Spec E.log2f) (L : ℕ)
    (num : ℤ) (hn : 1 ≤ num) (c c1 c2 : CrossFader K) (hc : Reachable E L num c)
    (d1 d2 : K) (hd1 : 0 < d1) (hd2 : 0 < d2) (t1 t2)
    (e1 : c.newIndices E d1 = .ok (c1, t1)) (e2 : c1.newIndices E d2 = .ok (c2, t2))
    (i : ℤ) (hi : IsOctave L i d2)
    (hrun : c1.samplesLeft ≠ 0 → i = c1.prevIdx ∨ i = c1.nextIdx)
    (hidle : c1.samplesLeft = 0 → |i - c1.nextIdx| ≤ 1) (k : ℤ) :
    |t2.weightOf k - t1.weightOf k| ≤ 1 / num := by
  have hf : Rounding E.fl := by rw [he]; exact rounding_id
  obtain ⟨hinv, hs, hnum⟩ := hc.inv hf hl hn
  have ec1 := newIndices_stepD hf hinv hd1 e1
  have hinv1 : c1.Inv := by rw [ec1]; exact stepD_inv hinv d1
  have hcon1 : c1.scale = octaveScale K L ∧ c1.numSamples = num := by
    rw [ec1]; exact ⟨(stepD_const c d1).1.trans hs, (stepD_const c d1).2.trans hnum⟩
  have ec2 := newIndices_stepD hf hinv1 hd2 e2
  have hloop : (findLoop d2 c1.scale : ℤ) = i := by
    rw [hcon1.1]; exact findLoop_of_octave hc.1 hi
  have ec2' : c2 = c1.nextState i := by rw [ec2]; unfold stepD; rw [hloop]
  rw [weight_eq he hinv hd1 e1, weight_eq he hinv1 hd2 e2]
  have hnK : (0 : K) < num := by exact_mod_cast (by omega : 0 < num)
  have hn1 : (0 : K) ≤ 1 / num := by positivity
  by_cases h0 : c1.samplesLeft = 0
  · -- idle: nothing changes, or a fade starts with full weight on the current table
    have hid := hinv1.idle h0
    have habs := abs_le.1 (hidle h0)
    by_cases heq : i = c1.nextIdx
    · have : c2 = c1 := by
        rw [ec2']; unfold nextState; rw [if_neg (by simpa using h0), if_pos heq]
      rw [this]; simpa using hn1
    · have h2 : c2.frac = 1 := by
        rw [ec2']
        have hl2 : (c1.nextState i).samplesLeft = num ∧ (c1.nextState i).numSamples = num := by
          refine ⟨?_, (nextState_const c1 i).2.trans hcon1.2⟩
          unfold nextState updateIndices
          rw [if_neg (by simpa using h0), if_neg heq]
          dsimp only; split_ifs <;> exact hcon1.2
        unfold frac; rw [hl2.1, hl2.2, div_self hnK.ne']
      have hprev : c2.prevIdx = c1.nextIdx := by
        rw [ec2']
        unfold nextState updateIndices
        rw [if_neg (by simpa using h0), if_neg heq]
        dsimp only; split_ifs <;> dsimp only <;> omega
      unfold stateWeight
      rw [h2, hprev, frac_idle h0, hid]
      simpa using hn1
  · -- fading: same pair of tables, fraction moves by 1/num
    have hfs : c2.frac = c1.frac - 1 / num := by
      rw [ec2', frac_step hinv1 h0, hcon1.2]
    have hne := hinv1.fading h0
    have hnext : c2.nextIdx = c1.nextIdx := by
      have hr := hrun h0
      rw [ec2']
      unfold nextState continueFade updateIndices
      dsimp only; split_ifs <;> first | rfl | omega
    have hprev : c2.prevIdx = c1.prevIdx ∨ (c2.prevIdx = c1.nextIdx ∧ c2.frac = 0) := by
      by_cases hlast : c1.samplesLeft - 1 = 0
      · right
        have hz : c2.samplesLeft = 0 := by rw [ec2', left_step h0]; exact hlast
        refine ⟨?_, frac_idle hz⟩
        have : c2.Inv := by rw [ec2]; exact stepD_inv hinv1 d2
        rw [this.idle hz, hnext]
      · left
        have hr := hrun h0
        rw [ec2']
        unfold nextState continueFade updateIndices
        dsimp only; split_ifs <;> first | rfl | omega | contradiction
    have haux : ∀ a b : K, |a - 1 / num - a| ≤ 1 / num ∧ |(1 - (a - 1 / num)) - (1 - a)| ≤ 1 / (num : K) := by
      intro a _
      constructor
      · rw [show a - 1 / num - a = -(1 / (num : K)) by ring, abs_neg, abs_of_nonneg hn1]
      · rw [show (1 - (a - 1 / num)) - (1 - a) = 1 / (num : K) by ring, abs_of_nonneg hn1]
    have hx := haux c1.frac 0
    have hpn : c1.prevIdx ≠ c1.nextIdx := by omega
    unfold stateWeight
    rw [hnext]
    rcases hprev with hp | ⟨hp, hz⟩
    · rw [hp, hfs]
      by_cases hk1 : c1.prevIdx = k
      · have hk2 : c1.nextIdx ≠ k := fun h => hpn (hk1.trans h.symm)
        simp only [hk1, hk2, if_true, if_false, add_zero]; exact hx.1
      · by_cases hk2 : c1.nextIdx = k
        · simp only [hk1, hk2, if_true, if_false, zero_add]; exact hx.2
        · simp only [hk1, hk2, if_false]; simpa using hn1
    · rw [hz] at hfs
      have hf1 : c1.frac = 1 / num := by linarith
      rw [hp, hz, hf1]
      by_cases hk1 : c1.prevIdx = k
      · have hk2 : c1.nextIdx ≠ k := fun h => hpn (hk1.trans h.symm)
        simp only [hk1, hk2, if_true, if_false, add_zero]
        rw [zero_sub, abs_neg, abs_of_nonneg hn1]
      · by_cases hk2 : c1.nextIdx = k
        · simp only [hk1, hk2, if_true, if_false, zero_add]
          rw [show (1 - 0 - (1 - 1 / (num : K))) = 1 / num by ring, abs_of_nonneg hn1]
        · simp only [hk1, hk2, if_false]; simpa using hn1

/-! ### C19 (false) -/

/-- C19 is false: with a crossfade of 0 samples, the first step outside the initial octave divides
0 by 0, for every wavetable length, samplerate and rounding. -/
theorem C19_zero_length_nan (E : Env K) (hf : Rounding E.fl) (hl : Log2Spec E.log2f) (L : ℕ)
    (hL : 2 ≤ L) (hL' : L ≤ 24) (sr : K) (hs0 : 0 < sr) (hs : IsRate E.fl sr) (i0 : ℤ)
    (h0 : IsOctave L i0 (E.fl (1 / 10))) (d : K) (hd : 0 < d) (hne : ¬ IsOctave L i0 d) :
    ∃ c, make E 0 ((2 : ℤ) ^ L) sr = .ok c ∧ c.newIndices E d = .error .divByZero := by
  refine ⟨_, make_eq hf hl (by omega) hL' hs0 hs 0, ?_⟩
  have hi : (findLoop (E.fl (1 / 10)) (octaveScale K L) : ℤ) = i0 := findLoop_of_octave hL h0
  have hloop : (findLoop d (octaveScale K L) : ℤ) ≠ findLoop (E.fl (1 / 10)) (octaveScale K L) := by
    intro h; apply hne; rw [← hi, ← h]; exact findLoop_octave hL d
  unfold newIndices
  rw [findMipMapIndex_eq hd, R.ok_bind]
  dsimp only
  rw [if_neg (by simp), if_neg hloop]
  unfold fadeTuple computeFading updateIndices
  dsimp only
  split_ifs <;> simp [fdiv, hf.zero]

/-- C19 is false: with a negative crossfade length, once the octave has changed the fade never
ends, and from the second call on one weight exceeds 1 and the other is negative (exact
arithmetic). -/
theorem C19_negative_length_diverges (E : Env K) (he : E.fl = id) (hl : Log2Spec E.log2f) (L : ℕ)
    (hL : 2 ≤ L) (hL' : L ≤ 24) (sr : K) (hs0 : 0 < sr) (num : ℤ) (hn : num < 0) (i0 : ℤ)
    (h0 : IsOctave L i0 (1 / 10 : K)) (d : K) (hd : 0 < d) (hne : ¬ IsOctave L i0 d)
    (ds : List K) (hds : ∀ d ∈ ds, 0 < d) :
    ∃ c c' t0 ts, make E num ((2 : ℤ) ^ L) sr = .ok c ∧ c.run E (d :: ds) = .ok (c', t0 :: ts) ∧
      ts.length = ds.length ∧ c'.samplesLeft ≠ 0 ∧
      ∀ t ∈ ts, (1 < t.weight ∧ t.weightUp < 0) ∨ (t.weight < 0 ∧ 1 < t.weightUp) := by
  have hf : Rounding E.fl := by rw [he]; exact rounding_id
  have hnK : (num : K) < 0 := by exact_mod_cast hn
  -- the run after the first call, for every state of a fade with negative length
  have tail : ∀ (ds : List K) (c : CrossFader K), (∀ d ∈ ds, 0 < d) → c.numSamples = num →
      c.samplesLeft ≤ num → c.prevIdx ≠ c.nextIdx →
      ∃ c' ts, c.run E ds = .ok (c', ts) ∧ ts.length = ds.length ∧ c'.samplesLeft ≠ 0 ∧
        ∀ t ∈ ts, (1 < t.weight ∧ t.weightUp < 0) ∨ (t.weight < 0 ∧ 1 < t.weightUp) := by
    intro ds
    induction ds with
    | nil => intro c _ _ h2 _; exact ⟨c, [], rfl, rfl, by omega, by simp⟩
    | cons d ds ih =>
      intro c hds h1 h2 h3
      have hs : c.samplesLeft ≠ 0 := by omega
      set c1 := c.continueFade (findLoop d c.scale) with hc1
      have a1 : c1.numSamples = num := by
        rw [hc1]; unfold continueFade updateIndices; dsimp only; split_ifs <;> exact h1
      have a2 : c1.samplesLeft = c.samplesLeft - 1 := by
        rw [hc1]; unfold continueFade updateIndices; dsimp only; split_ifs <;> rfl
      have a3 : c1.prevIdx ≠ c1.nextIdx := by
        rw [hc1]; unfold continueFade updateIndices; dsimp only
        split_ifs <;> dsimp only at * <;> omega
      obtain ⟨c', ts, hr, hlen, hleft, hts⟩ := ih c1 (fun d' h' => hds d' (by simp [h'])) a1
        (by omega) a3
      have hfrac : (1 : K) < (c1.samplesLeft : K) / num := by
        rw [lt_div_iff_of_neg hnK, one_mul]
        have : c1.samplesLeft < num := by omega
        exact_mod_cast this
      have hnew : ∃ t, c.newIndices E d = .ok (c1, t) ∧
          ((1 < t.weight ∧ t.weightUp < 0) ∨ (t.weight < 0 ∧ 1 < t.weightUp)) := by
        unfold newIndices
        rw [findMipMapIndex_eq (hds d (by simp)), R.ok_bind, if_pos hs, chk_true h3, R.ok_bind,
          ← hc1]
        unfold fadeTuple computeFading fdiv
        rw [he, a1]
        simp only [id]
        rw [if_neg hnK.ne, R.ok_bind]
        split
        · exact ⟨_, rfl, Or.inl ⟨hfrac, by linarith⟩⟩
        · exact ⟨_, rfl, Or.inr ⟨by linarith, hfrac⟩⟩
      obtain ⟨t, et, ht⟩ := hnew
      refine ⟨c', t :: ts, ?_, by simp [hlen], hleft, ?_⟩
      · unfold run; rw [et, R.ok_bind]
        show (do let (c2, ts) ← c1.run E ds; _) = _
        rw [hr]; rfl
      · intro t' ht'
        rcases List.mem_cons.1 ht' with rfl | h
        · exact ht
        · exact hts t' h
  have hs : IsRate E.fl sr := by rw [he]; exact isRate_id sr
  have hmk := make_eq hf hl (by omega) hL' hs0 hs num
  have hfl : E.fl (1 / 10 : K) = 1 / 10 := by rw [he]; rfl
  rw [hfl] at hmk
  have hi : (findLoop (1 / 10 : K) (octaveScale K L) : ℤ) = i0 := findLoop_of_octave hL h0
  have hloop : (findLoop d (octaveScale K L) : ℤ) ≠ findLoop (1 / 10 : K) (octaveScale K L) := by
    intro h; apply hne; rw [← hi, ← h]; exact findLoop_octave hL d
  set c0 : CrossFader K := ⟨num, octaveScale K L, 0, findLoop (1 / 10 : K) (octaveScale K L),
    findLoop (1 / 10 : K) (octaveScale K L)⟩ with hc0
  set c1 : CrossFader K := updateIndices { c0 with samplesLeft := c0.numSamples }
    (findLoop d (octaveScale K L)) with hc1
  have b1 : c1.numSamples = num := by
    rw [hc1]; unfold updateIndices; dsimp only; split_ifs <;> rfl
  have b2 : c1.samplesLeft = num := by
    rw [hc1]; unfold updateIndices; dsimp only; split_ifs <;> rfl
  have b3 : c1.prevIdx ≠ c1.nextIdx := by
    rw [hc1]; unfold updateIndices; dsimp only; split_ifs <;> dsimp only <;> omega
  have hnew : ∃ t, c0.newIndices E d = .ok (c1, t) := by
    unfold newIndices
    rw [findMipMapIndex_eq hd, R.ok_bind, if_neg (by simp [hc0]), if_neg hloop]
    show ∃ t, fadeTuple E c1 = _
    unfold fadeTuple computeFading fdiv
    rw [he, b1]
    simp only [id]
    rw [if_neg hnK.ne, R.ok_bind]
    split <;> exact ⟨_, rfl⟩
  obtain ⟨t0, et0⟩ := hnew
  obtain ⟨c', ts, hr, hlen, hleft, hts⟩ := tail ds c1 hds b1 (by omega) b3
  refine ⟨c0, c', t0, ts, hmk, ?_, hlen, hleft, hts⟩
  unfold run; rw [et0, R.ok_bind]
  show (do let (c2, ts) ← c1.run E ds; _) = _
  rw [hr]; rfl

/-! ### Non-vacuity -/

/-- a concrete environment: IEEE floats, correctly rounded `log2f` -/
noncomputable def ieeeEnv : Env ℝ := ⟨true, ieee32, rne53, rne53_of_ieee32,
  fun a b c => ieee32 (ieee32 (a * b) + c), fun _ _ _ => .inr rfl,
  fun a b c d => rne53 (rne53 (a * b) - rne53 (c * d)), fun _ _ _ _ => .inl rfl,
  fun x => ieee32 (Real.logb 2 x), fun _ _ _ => ⟨1, fun _ => 0, 0, 0⟩⟩

/-- Reachable states exist, idle and with a crossfade running: length 8, two tables, 3 samples of
crossfade; the initial octave is 0 and step 1/2 is in octave 1. -/
theorem reachable_example : ∃ c c' : CrossFader ℝ, Reachable ieeeEnv 3 3 c ∧ c.samplesLeft = 0 ∧
    c.nextIdx = 0 ∧ Reachable ieeeEnv 3 3 c' ∧ c'.samplesLeft = 3 ∧ c'.nextIdx = 1 := by
  have hf : Rounding ieeeEnv.fl := rounding_ieee32
  have hl : Log2Spec ieeeEnv.log2f := log2Spec_ieee32
  have h48 : IsRate ieeeEnv.fl (48000 : ℝ) := by
    have := hf.isRate 48000 (by norm_num); simpa using this
  have hmk := make_eq (E := ieeeEnv) hf hl (L := 3) (by norm_num) (by norm_num) (sr := 48000)
    (by norm_num) h48 3
  have h10 : IsOctave 3 0 (ieeeEnv.fl (1 / 10)) := by
    refine ⟨by norm_num, by norm_num, Or.inl rfl, Or.inr ?_⟩
    have h1 : ieeeEnv.fl (1 / 10 : ℝ) ≤ 1 / 8 := by
      have := hf.dyadic 1 3 (by norm_num)
      apply hf.le_of_le _ (by norm_num)
      norm_num at this ⊢; exact this
    norm_num; norm_num at h1; linarith
  have hfl := findLoop_of_octave (by norm_num) h10
  have hi := make_inv (K := ℝ) (L := 3) (by norm_num) (num := 3) (by norm_num) (ieeeEnv.fl (1 / 10))
  rw [hfl] at hi hmk
  have h12 : IsOctave 3 1 (1 / 2 : ℝ) := by
    refine ⟨by norm_num, by norm_num, Or.inr (by norm_num), Or.inl (by norm_num)⟩
  have hfl2 := findLoop_of_octave (by norm_num) h12
  obtain ⟨ts, hr, -⟩ := run_ok hf hi (ds := [1 / 2]) (by simp)
  refine ⟨_, _, ⟨by norm_num, by norm_num, 48000, _, [], [], by norm_num, h48, hmk, by simp,
    rfl⟩, rfl, rfl, ⟨by norm_num, by norm_num, 48000, _, [1 / 2], ts, by norm_num, h48, hmk,
    by simp, hr⟩, ?_⟩
  simp only [List.foldl_cons, List.foldl_nil, stepD]
  unfold nextState updateIndices
  rw [hfl2]; simp

/-- The hypotheses of `C19_negative_length_diverges` and `C19_zero_length_nan` are met: a step of
1/2 is outside the initial octave 0 when the length is 8. -/
example : IsOctave 3 0 (1 / 10 : ℚ) ∧ ¬ IsOctave 3 0 (1 / 2 : ℚ) := by
  constructor
  · exact ⟨by norm_num, by norm_num, Or.inl rfl, Or.inr (by norm_num)⟩
  · rintro ⟨-, -, -, h | h⟩
    · norm_num at h
    · norm_num at h

end Adwt.Props
