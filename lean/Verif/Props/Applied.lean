import Verif.Props.Cascade
import Verif.Props.Calls
import Verif.Props.FadeFloat
import Verif.Props.Hold
import Verif.Props.Reset
import Verif.Props.FloatExamples
import Verif.Props.HoldExact

/-!
# The theorems of C01 to C29 applied to concrete objects

Beside each theorem the other files show that its hypotheses can be met; here the theorems are applied, all with the
same objects: a wavetable of two waveforms of sixteen samples (a saw and a square) at 44100 Hz with a crossfade of
1/256 s (172 samples), every built-in filter, with IEEE floats (`envI`), in exact arithmetic (`envX`), in a release
build (`envXR`), or in any of them (`E`).
-/

set_option linter.unusedSectionVars false

namespace Adwt.Props
open WavetableData CrossFader

namespace Applied

/-- what the theorems ask of the environment -/
abbrev Fine (E : Env ℝ) : Prop := Rounding E.fl ∧ Log2Spec E.log2f ∧ SrcContract E.src

/-- a saw and a square of sixteen samples -/
noncomputable def sawSquare : List ℝ :=
  (List.range 16).map (fun k : ℕ => (k : ℝ) / 8 - 1) ++ (List.range 16).map fun k : ℕ => if k < 8 then 1 else -1

theorem sawSquare_length : sawSquare.length = 2 * 2 ^ 4 := by simp [sawSquare]

theorem sawSquare_le : ∀ y ∈ sawSquare, |y| ≤ 1 := by
  intro y hy
  unfold sawSquare at hy
  rw [List.mem_append, List.mem_map, List.mem_map] at hy
  obtain ⟨k, hk, rfl⟩ | ⟨k, -, rfl⟩ := hy
  · have h : (k : ℝ) < 16 := by exact_mod_cast List.mem_range.1 hk
    have h0 : (0 : ℝ) ≤ k := Nat.cast_nonneg k
    rw [abs_le]; constructor <;> linarith
  · split <;> norm_num

theorem rate {fl : ℝ → ℝ} (hf : Rounding fl) : IsRate fl 44100 := by
  have := hf.isRate 44100 (by norm_num); simpa using this

theorem rate48 {fl : ℝ → ℝ} (hf : Rounding fl) : IsRate fl 48000 := by
  have := hf.isRate 48000 (by norm_num); simpa using this

theorem fade {fl : ℝ → ℝ} (hf : Rounding fl) : fl (1 / 256 * 44100) = 44100 / 256 := by
  rw [show (1 / 256 * 44100 : ℝ) = ((44100 : ℤ) : ℝ) / 2 ^ 8 by norm_num, hf.dyadic 44100 8 (by norm_num)]
  norm_num

theorem fade48 {fl : ℝ → ℝ} (hf : Rounding fl) : fl (1 / 256 * 48000) = 48000 / 256 := by
  rw [show (1 / 256 * 48000 : ℝ) = ((48000 : ℤ) : ℝ) / 2 ^ 8 by norm_num, hf.dyadic 48000 8 (by norm_num)]
  norm_num

theorem fade_range {fl : ℝ → ℝ} (hf : Rounding fl) :
    -2 ^ 31 ≤ fl (1 / 256 * 44100) ∧ fl (1 / 256 * 44100) < 2 ^ 31 := by
  rw [fade hf]; norm_num

theorem built (E : Env ℝ) (hE : Fine E) : ∃ wt, Built E sawSquare 2 4 44100 (1 / 256) wt := by
  obtain ⟨wt, h⟩ := C02_succeeds E hE.1 hE.2.1 hE.2.2 4 (by norm_num) (by norm_num) 2 (by norm_num) sawSquare
    sawSquare_length 44100 (1 / 256) (by norm_num) (rate hE.1) (fade_range hE.1)
  exact ⟨wt, rate hE.1, by rw [fade hE.1]; norm_num, sawSquare_length, h⟩

theorem built48 (E : Env ℝ) (hE : Fine E) : ∃ wt, Built E sawSquare 2 4 48000 (1 / 256) wt := by
  obtain ⟨wt, h⟩ := C02_succeeds E hE.1 hE.2.1 hE.2.2 4 (by norm_num) (by norm_num) 2 (by norm_num) sawSquare
    sawSquare_length 48000 (1 / 256) (by norm_num) (rate48 hE.1) (by rw [fade48 hE.1]; norm_num)
  exact ⟨wt, rate48 hE.1, by rw [fade48 hE.1]; norm_num, sawSquare_length, h⟩

theorem envXR_ok : Fine envXR := envX_ok

/-! ### build -/

example (E : Env ℝ) (hE : Fine E) : ∃ wt, build E sawSquare 2 44100 (1 / 256) = .ok (some wt) ∧
    ∃ L : ℕ, (sawSquare.length : ℤ) = 2 * 2 ^ L ∧ 2 ≤ L ∧ L ≤ 18 := by
  obtain ⟨wt, h⟩ := built E hE
  exact ⟨wt, h.2.2.2, (C01_accepts_only E hE.1 hE.2.1 _ _ _ _ h.1 wt h.2.2.2).2.2.2⟩

example (E : Env ℝ) (hE : Fine E) : build E (List.replicate (3 * 2 ^ 20) 0) 3 44100 (1 / 256) = .ok none :=
  C02_rejects_long E hE.1 hE.2.1 20 (by norm_num) (by norm_num) 3 (by norm_num) _ (by rw [List.length_replicate])
    44100 (1 / 256) (by norm_num) (rate hE.1) (fade_range hE.1)

/-- whatever the resampler does -/
example (E : Env ℝ) (hf : Rounding E.fl) (hl : Log2Spec E.log2f) :
    ∃ r, build E sawSquare 2 44100 (1 / 256) = .ok r :=
  C02_never_crashes E hf hl 4 (by norm_num) (by norm_num) 2 (by norm_num) _ sawSquare_length 44100 _ (by norm_num)
    (rate hf) (fade_range hf)

example (E : Env ℝ) (hE : Fine E) : build E [1 / 2, -1, 1] 3 44100 (1 / 256) = .error .lengthError :=
  C03_false_length_one E hE.1 hE.2.1 3 (by norm_num) _ rfl _ _ (by norm_num) (fade_range hE.1)

example : build envI [1 / 2, -1, 1, 0] 2 44100 (1 / 256) = .error .assertFail :=
  C03_false_length_two envI envI_ok.1 envI_ok.2.1 2 (by norm_num) _ rfl _ _ (by norm_num) (rate envI_ok.1)
    (fade_range envI_ok.1)

example : build envXR [1 / 2, -1, 1, 0] 2 44100 (1 / 256) = .error .outOfBounds :=
  C03_false_length_two envXR envXR_ok.1 envXR_ok.2.1 2 (by norm_num) _ rfl _ _ (by norm_num) (rate envXR_ok.1)
    (fade_range envXR_ok.1)

/-- C04, C05, C08: shape, grid and samples of the wavetable with IEEE floats -/
example : ∃ wt, build envI sawSquare 2 44100 (1 / 256) = .ok (some wt) ∧
    wt.numWaveforms = (2 : ℕ) ∧ wt.numMipMapTables = ((4 : ℕ) : ℤ) - 1 ∧
    (∃ m, wt.mSpan 1 2 = .ok m ∧ m.length = 2 ^ (4 - 2)) ∧
    (∃ ph, wt.phaseSpan 1 = .ok ph ∧ ph[3]? = some (3 / 2 ^ 3)) ∧
    ∃ y : ℕ → List ℝ, y 0 = (sawSquare.drop (1 * 2 ^ 4)).take (2 ^ 4) ∧ y 2 = decimate envI (y 0) (2 ^ 2) := by
  obtain ⟨wt, h⟩ := built envI envI_ok
  obtain ⟨a, b, c⟩ := C04_shape envI envI_ok.1 envI_ok.2.1 _ 2 4 h.2.2.1 _ _ h.1 wt h.2.2.2
  obtain ⟨m, -, -, -, -, e, -, -, -, -, e', -⟩ := c 1 2 (by norm_num) (by norm_num)
  obtain ⟨ph, g, -, g', -⟩ := C05_grid envI envI_ok.1 envI_ok.2.1 _ 2 4 h.2.2.1 _ _ h.1 wt h.2.2.2 1 (by norm_num)
  obtain ⟨y, y0, y1, -⟩ := C08_tables envI envI_ok.1 envI_ok.2.1 _ 2 4 h.2.2.1 _ _ h.1 wt h.2.2.2 1 (by norm_num)
  exact ⟨wt, h.2.2.2, a, b, ⟨m, by simpa using e, e'⟩, ⟨ph, by simpa using g, by simpa using g' 3 (by norm_num)⟩, y, y0,
    y1 2 (by norm_num) (by norm_num)⟩

/-- C06, C07, C08: the line and the corner between samples 15 and 0 of the square, in exact arithmetic -/
example : ∃ wt, build envX sawSquare 2 44100 (1 / 256) = .ok (some wt) ∧
    (∃ m q a b, wt.mSpan (1 : ℕ) (0 : ℕ) = .ok m ∧ wt.qSpan (1 : ℕ) (0 : ℕ) = .ok q ∧ m[15]? = some a ∧ q[15]? = some b ∧
      a * 1 + b = sampleAt (mipSamples envX (waveformOf sawSquare (2 ^ 4) 1) 0) 16) ∧
    (∃ md qd da db, wt.mDiffSpan (1 : ℕ) (0 : ℕ) = .ok md ∧ wt.qDiffSpan (1 : ℕ) (0 : ℕ) = .ok qd ∧
      md[15]? = some da ∧ qd[15]? = some db ∧ da * 1 + db = 0) ∧
    ∃ y : ℕ → List ℝ, y 1 = decimate envX (y 0) (2 ^ 1) ∧ ∃ m q, wt.mSpan (1 : ℕ) (1 : ℕ) = .ok m ∧
      wt.qSpan (1 : ℕ) (1 : ℕ) = .ok q := by
  obtain ⟨wt, h⟩ := built envX envX_ok
  obtain ⟨p, hp, -, hp', -⟩ := C05_grid envX envX_ok.1 envX_ok.2.1 _ 2 4 h.2.2.1 _ _ h.1 wt h.2.2.2 0 (by norm_num)
  have hone : p[15 + 1]? = some 1 := by
    have := hp' 16 (by norm_num)
    norm_num at this
    exact this
  obtain ⟨m, q, ph, a, b, x0, x1, e1, e2, e3, e4, e5, -, e7, -, e8⟩ :=
    C06_lines envX rfl envX_ok.2.1 _ 2 4 h.2.2.1 _ _ wt h.2.2.2 1 0 15 (by norm_num) (by norm_num) (by norm_num)
  rw [hp] at e3; cases e3; rw [hone] at e7; cases e7
  obtain ⟨-, -, md, qd, ph', -, -, -, -, da, db, x1', -, -, -, f3, f4, f5, -, -, -, -, f6, f7, f8, -, -, -, f9⟩ :=
    C07_corners envX rfl envX_ok.2.1 _ 2 4 h.2.2.1 _ _ wt h.2.2.2 1 0 15 (by norm_num) (by norm_num) (by norm_num)
  rw [hp] at f5; cases f5; rw [hone] at f8; cases f8
  obtain ⟨y, -, y1, -, y3⟩ := C08_lines envX rfl envX_ok.2.1 _ 2 4 h.2.2.1 _ _ wt h.2.2.2 1 (by norm_num)
  obtain ⟨m', q', g1, g2, -⟩ := y3 1 (by norm_num)
  exact ⟨wt, h.2.2.2, ⟨m, q, a, b, e1, e2, e4, e5, e8⟩, ⟨md, qd, da, db, f3, f4, f6, f7, f9⟩,
    y, y1 1 le_rfl (by norm_num), m', q', g1, g2⟩

example (E : Env ℝ) : mipSamples E (List.replicate (2 ^ 12) 1) 9 =
    decimate E (mipSamples E (List.replicate (2 ^ 12) 1) 1) 256 :=
  (C08_cascade E (List.replicate (2 ^ 12) 1) 12 (List.length_replicate ..) 9 (by norm_num)).2.2.2 (by norm_num)

/-- the resampler of `envI` with all ratios outside [2, 256] refused -/
noncomputable def picky (inp : List ℝ) (out ratio : ℕ) : SrcResult ℝ :=
  if 2 ≤ ratio ∧ ratio ≤ 256 then (envI.src inp out ratio) else ⟨1, 0, 0, 0⟩

example (ws : List ℝ) (nw : ℤ) (sr dur : ℝ) :
    build envI ws nw sr dur = build { envI with src := picky } ws nw sr dur :=
  C08_ratio_range envI { envI with src := picky } rfl rfl rfl rfl rfl rfl (fun _ _ _ h h' => (if_pos ⟨h, h'⟩).symm)
    ws nw sr dur

/-- C09, C10: the samples come back, the tables stay, and a samplerate of 0 is a null dereference -/
example : ∃ wt wt', build envX sawSquare 2 44100 (1 / 256) = .ok (some wt) ∧
    rebuildWaveforms envX wt = .ok sawSquare ∧ updateSamplerate envX wt 48000 (1 / 256) = .ok wt' ∧
    wt'.m = wt.m ∧ updateSamplerate envX wt 0 (1 / 256) = .error .nullDeref := by
  obtain ⟨wt, h⟩ := built envX envX_ok
  obtain ⟨wt', h'⟩ := built48 envX envX_ok
  have e := C09_update envX rfl envX_ok.2.1 _ _ _ _ wt h.2.2.2 wt.cf 48000 (1 / 256)
  have e' := (e.2 wt').2 h'.2.2.2
  exact ⟨wt, wt', h.2.2.2, e.1, e',
    (C09_same_tables envX rfl envX_ok.2.1 _ _ _ _ wt h.2.2.2 wt.cf _ _ wt' e').1,
    C10_false envX envX_ok.1 envX_ok.2.1 _ _ _ _ h.1 wt h.2.2.2 _ _ le_rfl⟩

/-- C11: the samplerate changes the length of the crossfades only -/
example (E : Env ℝ) (hE : Fine E) : ∃ wt1 wt2, build E sawSquare 2 44100 (1 / 256) = .ok (some wt1) ∧
    build E sawSquare 2 48000 (1 / 256) = .ok (some wt2) ∧
    wt2 = { wt1 with cf := { wt1.cf with numSamples := wt2.cf.numSamples } } ∧
    computeMipMapScale E ((2 : ℤ) ^ 4) 44100 = .ok ((List.range (4 - 1)).map fun i => 2 ^ (i + 1) / 2 ^ 4) ∧
    ∃ c1 c2, make E 172 ((2 : ℤ) ^ 4) 44100 = .ok c1 ∧ make E 187 ((2 : ℤ) ^ 4) 48000 = .ok c2 ∧
      c2 = { c1 with numSamples := 187 } := by
  obtain ⟨wt1, h1⟩ := built E hE
  obtain ⟨wt2, h2⟩ := built48 E hE
  exact ⟨wt1, wt2, h1.2.2.2, h2.2.2.2,
    C11_only_crossfade E hE.1 hE.2.1 _ _ _ _ _ _ h1.1 h2.1 wt1 wt2 h1.2.2.2 h2.2.2.2,
    C11_scale E hE.1 hE.2.1 4 (by norm_num) (by norm_num) _ (by norm_num) h1.1,
    C11_same_crossfader E hE.1 hE.2.1 4 (by norm_num) (by norm_num) _ _ ⟨by norm_num, h1.1⟩ ⟨by norm_num, h2.1⟩ _ _⟩

/-! ### the crossfader: 172 samples, tables of 16 samples, started at the octave of 0.1 (table 0) -/

theorem octave_tenth {fl : ℝ → ℝ} (hf : Rounding fl) : IsOctave 4 0 (fl (1 / 10)) := by
  refine ⟨by norm_num, by norm_num, Or.inl rfl, Or.inr ?_⟩
  have h1 : fl (1 / 10 : ℝ) ≤ 7 / 64 := by
    have := hf.dyadic 7 6 (by norm_num)
    apply hf.le_of_le _ (by norm_num)
    norm_num at this ⊢; exact this
  norm_num; norm_num at h1; linarith

theorem octave_fifth : IsOctave 4 1 (1 / 5 : ℝ) :=
  ⟨by norm_num, by norm_num, Or.inr (by norm_num), Or.inr (by norm_num)⟩

theorem not_octave_fifth : ¬ IsOctave 4 0 (1 / 5 : ℝ) := fun h => by
  have := h.unique octave_fifth; norm_num at this

/-- the crossfader of a wavetable just built -/
theorem start (E : Env ℝ) (hE : Fine E) : ∃ c, make E 172 ((2 : ℤ) ^ 4) 44100 = .ok c ∧ Reachable E 4 172 c ∧
    c.samplesLeft = 0 ∧ c.nextIdx = 0 := by
  have hmk := make_eq (E := E) hE.1 hE.2.1 (L := 4) (by norm_num) (by norm_num) (sr := 44100) (by norm_num)
    (rate hE.1) 172
  refine ⟨_, hmk, ⟨by norm_num, by norm_num, 44100, _, [], [], by norm_num, rate hE.1, hmk, by simp, rfl⟩, rfl, ?_⟩
  exact findLoop_of_octave (by norm_num) (octave_tenth hE.1)

/-- C13, C16, C17: the table of a step, an idle crossfader, a fade of 172 samples, and the end of all fades -/
example (E : Env ℝ) (hE : Fine E) : ∃ c, make E 172 ((2 : ℤ) ^ 4) 44100 = .ok c ∧
    (∃ i, findMipMapIndex E.dbg c.scale (1 / 5) = .ok i ∧ IsOctave 4 i (1 / 5 : ℝ)) ∧
    (∀ i j, findMipMapIndex E.dbg c.scale (1 / 20) = .ok i → findMipMapIndex E.dbg c.scale (1 / 5) = .ok j → i ≤ j) ∧
    c.newIndices E (1 / 16) = .ok (c, ⟨c.nextIdx, 1, c.nextIdx + 1, 0⟩) ∧
    (∃ c' t0 ts, c.run E (1 / 5 :: List.replicate 172 (1 / 5)) = .ok (c', t0 :: ts) ∧ c'.samplesLeft = 0) ∧
    ∃ c' ts, c.run E (List.replicate 1000 (1 / 5)) = .ok (c', ts) ∧ ts[500]? = some ⟨1, 1, 2, 0⟩ := by
  obtain ⟨c, hc, hr, h0, hn⟩ := start E hE
  have pos : ∀ n, ∀ d ∈ List.replicate n (1 / 5 : ℝ), 0 < d := fun n d hd => by
    rw [List.eq_of_mem_replicate hd]; norm_num
  refine ⟨c, hc, C13_octave E hE.1 hE.2.1 4 172 (by norm_num) c hr _ (by norm_num),
    fun i j hi hj => C13_monotone E c _ _ (by norm_num) (by norm_num) i j hi hj,
    C13_idle E hE.1 hE.2.1 4 172 (by norm_num) c hr h0 _ (by norm_num)
      (by rw [hn]; exact ⟨by norm_num, by norm_num, Or.inl rfl, Or.inr (by norm_num)⟩), ?_, ?_⟩
  · obtain ⟨c', t0, ts, e, -, -, -, e'⟩ := C16_fade_on_time E hE.1 hE.2.1 4 172 (by norm_num) (by norm_num) c hr h0
      (1 / 5) (by norm_num) (by rw [hn]; exact not_octave_fifth) (List.replicate 172 (1 / 5)) (pos _) (by rw [List.length_replicate]; rfl)
    exact ⟨c', t0, ts, e, e'⟩
  · obtain ⟨c', ts, e, l, h⟩ := C17_settles E hE.1 hE.2.1 4 172 (by norm_num) c hr 1 (List.replicate 1000 (1 / 5))
      (pos _) (fun d hd => by rw [List.eq_of_mem_replicate hd]; exact octave_fifth)
    have l' : ts.length = 1000 := by rw [l, List.length_replicate]
    exact ⟨c', ts, e, by rw [List.getElem?_eq_getElem (by omega), h 500 (by omega) (by norm_num)]; rfl⟩

/-- C14, C15: indices and weights while the step jumps -/
example (E : Env ℝ) (hE : Fine E) (ds : List ℝ) (hds : ∀ d ∈ ds, d = 1 / 5 ∨ d = 1 / 20 ∨ d = 1 / 2) :
    ∃ c c' ts, make E 172 ((2 : ℤ) ^ 4) 44100 = .ok c ∧ c.run E ds = .ok (c', ts) ∧
      (∀ t ∈ ts, 0 ≤ t.idx ∧ t.idx < 3) ∧ (∀ t ∈ ts, 0 ≤ t.weight ∧ t.weight ≤ 1) ∧
      (E.fl = ieee32 → ∀ t ∈ ts, ieee32 (t.weight + t.weightUp) = 1) ∧
      (E.fl = id → ∀ t ∈ ts, t.weight + t.weightUp = 1) := by
  have pos : ∀ d ∈ ds, 0 < d := fun d hd => by
    rcases hds d hd with h | h | h <;> rw [h] <;> norm_num
  obtain ⟨c, c', ts, e, r, -, h⟩ := C14_indices E hE.1 hE.2.1 4 (by norm_num) (by norm_num) 44100 (by norm_num)
    (rate hE.1) 172 (by norm_num) ds pos
  obtain ⟨c1, e1, hr, -⟩ := start E hE
  rw [e] at e1; cases e1
  obtain ⟨c2, ts2, r2, -, h2⟩ := C15_weights_range E hE.1 hE.2.1 4 172 (by norm_num) c hr ds pos
  rw [r] at r2; cases r2
  exact ⟨c, c', ts, e, r, fun t ht => ⟨(h t ht).1, by have := (h t ht).2.1; norm_num at this; exact this⟩,
    fun t ht => ⟨(h2 t ht).1, (h2 t ht).2.1⟩,
    fun he => C15_sum_ieee E he hE.2.1 4 172 (by norm_num) c c' hr ds pos ts r,
    fun he => C15_sum_exact E he hE.2.1 4 172 (by norm_num) c c' hr ds pos ts r⟩

/-- C18: the first two samples of a fade -/
example (E : Env ℝ) (hE : Fine E) : ∃ c c1 c2 t1 t2, make E 172 ((2 : ℤ) ^ 4) 44100 = .ok c ∧
    c.newIndices E (1 / 5) = .ok (c1, t1) ∧ c1.newIndices E (1 / 5) = .ok (c2, t2) ∧
    (E.fl = id → ∀ k, |t2.weightOf k - t1.weightOf k| ≤ 1 / (172 : ℤ)) ∧
    (E.fl = ieee32 → ∀ k, |t2.weightOf k - t1.weightOf k| ≤ 1 / (172 : ℤ) + 1 / 2 ^ 23) := by
  obtain ⟨c, hc, hr, h0, hn⟩ := start E hE
  obtain ⟨c2, t1, ts, e, hlen, -⟩ := C16_fade_on_time E hE.1 hE.2.1 4 172 (by norm_num) (by norm_num) c hr h0
    (1 / 5) (by norm_num) (by rw [hn]; exact not_octave_fifth) (List.replicate 172 (1 / 5))
    (fun d hd => by rw [List.eq_of_mem_replicate hd]; norm_num)
    (by rw [List.length_replicate]; rfl)
  obtain ⟨c1, t, ts', f1, f2, f3⟩ := run_cons_ok e
  cases f3
  rw [List.replicate_succ] at f2
  obtain ⟨c3, t2, ts'', g1, -, -⟩ := run_cons_ok f2
  have hinv : c.Inv := by
    have hmk := make_eq (E := E) hE.1 hE.2.1 (L := 4) (by norm_num) (by norm_num) (sr := 44100) (by norm_num)
      (rate hE.1) 172
    rw [hc] at hmk; cases hmk
    exact make_inv (by norm_num) (by norm_num) _
  have hs : c.scale = octaveScale ℝ 4 := by
    have hmk := make_eq (E := E) hE.1 hE.2.1 (L := 4) (by norm_num) (by norm_num) (sr := 44100) (by norm_num)
      (rate hE.1) 172
    rw [hc] at hmk; cases hmk; rfl
  have h1 : c1.nextIdx = 1 := by
    rw [newIndices_stepD hE.1 hinv (by norm_num) f1]
    unfold stepD nextState updateIndices
    rw [hs, findLoop_of_octave (by norm_num) octave_fifth, hn, h0]
    simp only [ne_eq, not_true_eq_false, if_false]
    split <;> (try split) <;> simp_all
  have hrun : c1.samplesLeft ≠ 0 → (1 : ℤ) = c1.prevIdx ∨ (1 : ℤ) = c1.nextIdx := fun _ => Or.inr h1.symm
  have hidle : c1.samplesLeft = 0 → |(1 : ℤ) - c1.nextIdx| ≤ 1 := fun _ => by rw [h1]; norm_num
  exact ⟨c, c1, c3, t1, t2, hc, f1, g1,
    fun he k => C18_click_free E he hE.2.1 4 172 (by norm_num) c c1 c3 hr _ _ (by norm_num) (by norm_num) t1 t2 f1 g1 1
      octave_fifth hrun hidle k,
    fun he k => C18_float E he hE.2.1 4 172 (by norm_num) (by norm_num) c c1 c3 hr _ _ (by norm_num) (by norm_num) t1 t2
      f1 g1 1 octave_fifth hrun hidle k⟩

/-- C19: crossfades of no sample and of -3 samples -/
example (E : Env ℝ) (hE : Fine E) :
    ∃ c, make E 0 ((2 : ℤ) ^ 4) 44100 = .ok c ∧ c.newIndices E (1 / 5) = .error .divByZero :=
  C19_zero_length_nan E hE.1 hE.2.1 4 (by norm_num) (by norm_num) _ (by norm_num) (rate hE.1) 0 (octave_tenth hE.1)
    _ (by norm_num) not_octave_fifth

example (n : ℕ) : ∃ c c' t0 ts, make envX (-3) ((2 : ℤ) ^ 4) 44100 = .ok c ∧
    c.run envX (1 / 5 :: List.replicate n (1 / 5)) = .ok (c', t0 :: ts) ∧ c'.samplesLeft ≠ 0 := by
  obtain ⟨c, c', t0, ts, e, r, -, h, -⟩ := C19_negative_length_diverges envX rfl envX_ok.2.1 4 (by norm_num)
    (by norm_num) 44100 (by norm_num) (-3) (by norm_num) 0 (octave_tenth envX_ok.1) (1 / 5) (by norm_num)
    not_octave_fifth (List.replicate n (1 / 5)) (fun d hd => by rw [List.eq_of_mem_replicate hd]; norm_num)
  exact ⟨c, c', t0, ts, e, r, h⟩


/-- C12: five bits of the documentation, `updateSamplerate` with IEEE floats -/
example : ∃ wt wt' ws', build envI sawSquare 2 44100 (1 / 256) = .ok (some wt) ∧
    updateSamplerate envI wt 48000 (1 / 256) = .ok wt' ∧ build envI ws' 2 48000 (1 / 256) = .ok (some wt') ∧
    List.Forall₂ (fun y y' => |y' - y| ≤ (6 * 2 ^ 4 + 5) * 1 / 2 ^ 24) sawSquare ws' ∧
    ∃ ws'', build envI ws'' 2 48000 (1 / 256) = .ok (some wt') ∧
      List.Forall₂ (fun y y' => |y' - y| < 4 / 1000) sawSquare ws'' := by
  obtain ⟨wt, h⟩ := built envI envI_ok
  obtain ⟨wt', h'⟩ := (h.ok envI_ok.1 envI_ok.2.1).update_ok envI_ok.1 envI_ok.2.1 envI_ok.2.2 (rate48 envI_ok.1)
    (by norm_num) (dur := 1 / 256) (by rw [fade48 envI_ok.1]; norm_num)
  obtain ⟨ws', e, e'⟩ := C12_accuracy envI rfl rne53_rel envI_ok.2.1 _ 2 4 h.2.2.1 _ _ h.1 wt h.2.2.2 wt.cf 1
    (by norm_num) (by norm_num) sawSquare_le _ _ wt' h'
  obtain ⟨ws'', f, f'⟩ := C12_documented envI rfl rne53_rel envI_ok.2.1 _ 2 4 h.2.2.1 (by norm_num) _ _ h.1 wt
    h.2.2.2 wt.cf sawSquare_le _ _ wt' h'
  exact ⟨wt, wt', ws', h.2.2.2, h', e, e', ws'', f, f'⟩

/-! ### calls of an oscillator; `S` is any oscillator type in any of the environments -/

section
variable {C : Type} [Zero C] [Add C] [Sub C] [Mul C] [Div C] (S : Sys ℝ C) (hS : Fine S.env) (hB : 0 < S.B)

/-- The oscillator types of the library are among them: with IEEE floats and with exact arithmetic. -/
example (t : FilterType) : Fine (sysF t).env ∧ 0 < (sysF t).B := ⟨envI_ok, by norm_num [sysF, sysRnd]⟩
example (t : FilterType) : Fine (sysOf envX t).env ∧ 0 < (sysOf envX t).B := ⟨envX_ok, by norm_num [sysOf]⟩

theorem ph {fl : ℝ → ℝ} (hf : Rounding fl) (k : ℕ) (hk : k < 16) : PhaseOk fl ((k : ℝ) / 16) := by
  have := phaseOk_dyadic hf (k := k) (n := 4) hk (by norm_num)
  norm_num at this; exact this

theorem ph0 {fl : ℝ → ℝ} (hf : Rounding fl) : PhaseOk fl (0 : ℝ) := by
  have := ph hf 0 (by norm_num); simpa using this

include hS in
/-- an oscillator just initialised: phase 0, step 1/16 -/
theorem osc : ∃ wt o, Built S.env sawSquare 2 4 44100 (1 / 256) wt ∧
    S.init S.fresh (some wt) 0 (1 / 16) = .ok (o, 0) ∧ Reached S 2 4 o ∧ o.prevPhase = 0 ∧
    o.prevPhaseDiff = 1 / 16 ∧ o.wt.isSome = true := by
  obtain ⟨wt, h⟩ := built S.env hS
  obtain ⟨o, wt', e, e1, -, -, -, e2, e3, -⟩ := C20_init S hS.1 hS.2.1 S.fresh _ 2 4 _ _ wt h 0 (1 / 16)
    (ph0 hS.1) (by norm_num)
  exact ⟨wt, o, h, e, Reached.init h ⟨ph0 hS.1, by norm_num⟩ e, e2, e3, by rw [e1]; rfl⟩

/-- C20, C21: null pointers are refused, `swapWavetable` gives back the old wavetable -/
example : ∃ wt o o', (∃ r, S.init o none 0 1 = .ok (o, r) ∧ r ≠ 0) ∧ S.swapWavetable o none 0 1 = .ok (o, none) ∧
    Reached S 2 4 o ∧ Built S.env sawSquare 2 4 44100 (1 / 256) wt ∧
    S.swapWavetable o (some wt) (3 / 16) (-1 / 8) = .ok (o', o.wt) ∧ o'.prevPhase = 3 / 16 := by
  obtain ⟨wt, o, h, -, hr, -⟩ := osc S hS
  obtain ⟨o', -, e, -, -, -, e', -⟩ := C21_swap S hS.1 hS.2.1 o _ 2 4 _ _ wt h (3 / 16) (-1 / 8)
    (by have := ph hS.1 3 (by norm_num); exact_mod_cast this) (by norm_num)
  exact ⟨wt, o, o', C20_null S o 0 1, C21_null S o 0 1, hr, h, e, e'⟩

/-- C21: three wavetables go in, one of them a null pointer; two stay outside, one inside -/
example : ∃ wt o o' backs, Reached S 2 4 o ∧
    runSwaps S o [(some wt, 0, 1 / 16), (none, 0, 0), (some wt, 1 / 16, -1 / 16)] = .ok (o', backs) ∧
    (backs.filterMap id ++ o'.wt.toList).map tablesOf =
      (o.wt.toList ++ [wt, wt]).map tablesOf := by
  obtain ⟨wt, o, h, -, hr, -⟩ := osc S hS
  obtain ⟨o', backs, e, e'⟩ := C21_conserved S hS.1 hS.2.1 o
    [(some wt, 0, 1 / 16), (none, 0, 0), (some wt, 1 / 16, -1 / 16)] (by
      intro w p d hm
      simp only [List.mem_cons, Prod.mk.injEq, Option.some.injEq, List.not_mem_nil, or_false] at hm
      rcases hm with ⟨rfl, rfl, rfl⟩ | ⟨h', -⟩ | ⟨rfl, rfl, rfl⟩
      · exact ⟨⟨_, _, _, _, _, h⟩, ph0 hS.1, by norm_num⟩
      · cases h'
      · exact ⟨⟨_, _, _, _, _, h⟩, by have := ph hS.1 1 (by norm_num); exact_mod_cast this, by norm_num⟩)
  exact ⟨wt, o, o', backs, hr, e, e'⟩

/-- C22: an oscillator that has played a sample, and one that has not but holds the same wavetable -/
example (ops : List (Op ℝ)) : ∃ o, Reached S 2 4 o ∧
    outputs (runOps S o (.reset (1 / 4) (1 / 8) :: ops)) =
      outputs (runOps S { S.fresh with wt := o.wt, crt := o.crt } (.reset (1 / 4) (1 / 8) :: ops)) := by
  obtain ⟨wt, o, h, -, hr, -⟩ := osc S hS
  exact ⟨o, hr, C22_wavetable_only S o { S.fresh with wt := o.wt, crt := o.crt } rfl rfl _ _ ops⟩

/-- phases of a few steps forward and one backward -/
theorem steps {fl : ℝ → ℝ} (hf : Rounding fl) :
    BlockSafe fl .kBidirectionnal 0 [1 / 16, 3 / 16, 2 / 16] ∧ BlockOk fl .kForward 0 [1 / 16, 3 / 16] := by
  have h1 : PhaseOk fl (1 / 16) := by have := ph hf 1 (by norm_num); exact_mod_cast this
  have h2 : PhaseOk fl (2 / 16) := by have := ph hf 2 (by norm_num); exact_mod_cast this
  have h3 : PhaseOk fl (3 / 16) := by have := ph hf 3 (by norm_num); exact_mod_cast this
  exact ⟨⟨h1, by norm_num [StepSafe], h3, by norm_num [StepSafe], h2, by norm_num [StepSafe], trivial⟩,
    ⟨h1, by norm_num [StepOk, Forward], h3, by norm_num [StepOk, Forward], trivial⟩⟩

include hB in
/-- C23, C24, C26, C27: three samples in one block or in two; the getters -/
example : ∃ o o' ys, Reached S 2 4 o ∧
    S.process .kBidirectionnal o [1 / 16, 3 / 16, 2 / 16] [0, 0, 0] = .ok (o', ys) ∧
    runOps S o ([[1 / 16], [3 / 16, 2 / 16]].map (Op.process .kBidirectionnal)) = .ok (o', ys) ∧
    o'.prevPhase = 2 / 16 ∧ o'.prevPhaseDiff ≤ 1 / 2 ∧
    ∃ o'' zs, runOps S o [.process .kForward [1 / 16, 3 / 16], .setWaveform 1, .reset 0 (1 / 4)] = .ok (o'', zs) := by
  obtain ⟨wt, o, h, e0, hr, h0, h1, hw⟩ := osc S hS
  have hz : ¬ AtZeroBackward o := fun hz => by have := hz.2; rw [h1] at this; norm_num at this
  obtain ⟨o', ys, e⟩ := C27_safe_histories S hS.1 hS.2.1 hB 2 4 o hr hz
    [.process .kBidirectionnal [1 / 16], .process .kBidirectionnal [3 / 16, 2 / 16]]
    (by
      rw [h0]
      obtain ⟨⟨a, b, c⟩, -⟩ := steps hS.1
      exact ⟨⟨a, b, trivial⟩, c, trivial⟩)
  have e2 := C24_blocks S .kBidirectionnal o hw [[1 / 16], [3 / 16, 2 / 16]] [0, 0, 0] rfl
  have e3 : S.process .kBidirectionnal o ([1 / 16, 3 / 16] ++ [2 / 16]) [0, 0, 0] = .ok (o', ys) := e2.symm.trans e
  obtain ⟨g1, -, -, -, g2, -⟩ := C23_getters S hS.1 hS.2.1 hB 2 4 o hr .kBidirectionnal [1 / 16, 3 / 16] (2 / 16)
    (by rw [h0]; exact Sys.blockSafe_ok (steps hS.1).1) [0, 0, 0] rfl o' ys e3
  have hops : ForwardHistory S.env.fl 2 0 [.process .kForward [1 / 16, 3 / 16], .setWaveform 1, .reset 0 (1 / 4)] :=
    ⟨rfl, (steps hS.1).2, by norm_num, by norm_num, ph0 hS.1, by norm_num, trivial⟩
  obtain ⟨oo, o2, zs, f0, f⟩ := C26_forward S hS.1 hS.2.1 hB _ 2 4 _ _ wt h 0 (1 / 16) (ph0 hS.1) (by norm_num) _ hops
  obtain ⟨-, -, -⟩ := C26_from_any S hS.1 hS.2.1 hB 2 4 o hr hz _ (by rw [h0]; exact hops)
  rw [e0] at f0; cases f0
  exact ⟨o, o', ys, hr, e3, e, g1, g2, o2, zs, f⟩

include hB in
/-- C27: every oscillator with more than one table can be led out of bounds; which sample it is -/
example : ∃ o, Reached S 2 4 o ∧
    (∃ ps, BlockOk S.env.fl .kBidirectionnal o.prevPhase ps ∧
      S.process .kBidirectionnal o ps (List.replicate ps.length 0) = .error .outOfBounds) ∧
    (S.process .kForward o [1 / 16] [0] = .error .outOfBounds ↔
      AtZeroBackward o ∧ DropsTable S o (Sys.dirDiff S.env.fl .kForward (1 / 16) o.prevPhase)) := by
  obtain ⟨wt, o, h, e0, hr, h0, h1, hw⟩ := osc S hS
  exact ⟨o, hr, C27_false S hS.1 hS.2.1 hB 2 4 (by norm_num) o hr,
    (C27_exact S hS.1 hS.2.1 hB 2 4 o hr .kForward (1 / 16) 0 (steps hS.1).2.1
      (by rw [h0]; exact (steps hS.1).2.2.1)).2⟩

include hB in
/-- C27: waveforms of four samples have one table, and are safe -/
example (ws : List ℝ) (hws : ws.length = 4) : ∃ o o' ys, Reached S 1 2 o ∧
    S.process .kBidirectionnal o [1 / 16, 0, 3 / 16] [0, 0, 0] = .ok (o', ys) := by
  obtain ⟨wt, e⟩ := C02_succeeds S.env hS.1 hS.2.1 hS.2.2 2 (by norm_num) (by norm_num) 1 (by norm_num) ws
    (by rw [hws]; norm_num) 44100 (1 / 256) (by norm_num) (rate hS.1) (fade_range hS.1)
  have h : Built S.env ws 1 2 44100 (1 / 256) wt :=
    ⟨rate hS.1, by rw [fade hS.1]; norm_num, by rw [hws]; norm_num, e⟩
  obtain ⟨o, wt', e, e1, -, -, -, e2, e3, -⟩ := C20_init S hS.1 hS.2.1 S.fresh _ 1 2 _ _ wt h 0 (1 / 16)
    (ph0 hS.1) (by norm_num)
  have hr : Reached S 1 2 o := Reached.init h ⟨ph0 hS.1, by norm_num⟩ e
  obtain ⟨o', ys, f⟩ := C27_single_table S hS.1 hS.2.1 hB 1 o hr .kBidirectionnal [1 / 16, 0, 3 / 16] [0, 0, 0]
    (by
      rw [e2]
      obtain ⟨⟨a, -, b, -, -⟩, -⟩ := steps hS.1
      exact ⟨a, by norm_num [StepOk], ph0 hS.1, by norm_num [StepOk], b, by norm_num [StepOk], trivial⟩) rfl
  exact ⟨o, o', ys, hr, f⟩

include hB in
/-- C28, C29: a held phase, and the waveforms 0 to 3 of two -/
example : ∃ o, Reached S 2 4 o ∧
    (S.env.dbg = true → S.process .kForward o [0, 1 / 16] [0, 0] = .error .assertFail) ∧
    (S.env.dbg = false → S.process .kForward o [0, 1 / 16] [0, 0] = .error .divByZero ∨
      AtZeroBackward o ∧ S.process .kForward o [0, 1 / 16] [0, 0] = .error .outOfBounds) ∧
    S.setWaveform o 3 = .ok { o with crt := 3 } ∧
    (∃ o', S.setWaveform o 3 = .ok o' ∧ S.process .kForward o' [1 / 16] [0] = .error .outOfBounds) ∧
    ∃ o' o'' ys, S.setWaveform o 1 = .ok o' ∧
      S.process .kBidirectionnal o' [1 / 16, 3 / 16, 2 / 16] [0, 0, 0] = .ok (o'', ys) := by
  obtain ⟨wt, o, h, e0, hr, h0, h1, hw⟩ := osc S hS
  have hz : ¬ AtZeroBackward o := fun hz => by have := hz.2; rw [h1] at this; norm_num at this
  refine ⟨o, hr, fun hd => ?_, fun hd => ?_, C29_set_accepts_all S o hw 3,
    C29_out_of_range S hS.1 hS.2.1 hB 2 4 o hr 3 (Or.inr (by norm_num)) .kForward (1 / 16) [] [0] (steps hS.1).2.1
      (by rw [h0]; exact (steps hS.1).2.2.1) rfl,
    C29_in_range S hS.1 hS.2.1 hB 2 4 o hr hz 1 (by norm_num) (by norm_num) .kBidirectionnal _ _
      (by rw [h0]; exact (steps hS.1).1) rfl⟩
  · have := C28_debug_aborts S hS.1 hd .kForward o hw [1 / 16] [0, 0] rfl
    rwa [h0] at this
  · have := C28_release_divides_by_zero S hS.1 hS.2.1 hB hd 2 4 o hr 0 (by rw [h0]; norm_num) .kForward [1 / 16]
      [0, 0] rfl
    rwa [h0] at this

include hB in
/-- C28: the README example with this wavetable and blocks of 64 samples -/
example (dir : Sys.Direction) : ∃ wt o, Built S.env sawSquare 2 4 44100 (1 / 256) wt ∧
    S.init S.fresh (some wt) 0 (1 / 100) = .ok (o, 0) ∧
    S.process dir o (List.replicate (63 + 1) 0) (List.replicate 64 0) =
      .error (if S.env.dbg then .assertFail else .divByZero) := by
  obtain ⟨wt, h⟩ := built S.env hS
  obtain ⟨o, e, e'⟩ := C28_readme_example S hS.1 hS.2.1 hB _ 2 4 _ _ wt h (1 / 100) (by norm_num) dir 63
    (List.replicate 64 0) (by rw [List.length_replicate])
  exact ⟨wt, o, h, e, e'⟩

end

/-- C25: another square does not change what is heard of the saw -/
example {C : Type} [Field C] (S : Sys ℝ C) (hS : Fine S.env) (hB : 0 < S.B) (ops : List (Op ℝ)) (hops : ∀ i, Op.setWaveform i ∈ ops → i = 0) :
    ∃ wt wt' ws', ws' ≠ sawSquare ∧ Built S.env sawSquare 2 4 44100 (1 / 256) wt ∧
      Built S.env ws' 2 4 44100 (1 / 256) wt' ∧
      (do let (o, _) ← S.init S.fresh (some wt) 0 (1 / 16)
          let (_, ys) ← runOps S o ops
          return ys : R (List ℝ)) =
      (do let (o, _) ← S.init S.fresh (some wt') 0 (1 / 16)
          let (_, ys) ← runOps S o ops
          return ys : R (List ℝ)) := by
  obtain ⟨wt, h⟩ := built S.env hS
  have hlen : (sawSquare.take 16 ++ List.replicate 16 5).length = 2 * 2 ^ 4 := by
    rw [List.length_append, List.length_take, sawSquare_length, List.length_replicate]; norm_num
  obtain ⟨wt', e⟩ := C02_succeeds S.env hS.1 hS.2.1 hS.2.2 4 (by norm_num) (by norm_num) 2 (by norm_num) _ hlen 44100
    (1 / 256) (by norm_num) (rate hS.1) (fade_range hS.1)
  have h' : Built S.env (sawSquare.take 16 ++ List.replicate 16 5) 2 4 44100 (1 / 256) wt' :=
    ⟨rate hS.1, by rw [fade hS.1]; norm_num, hlen, e⟩
  have key := C25_isolation S hS.1 hS.2.1 hB _ _ 2 4 _ _ wt wt' h h' (fun w => w = 0) rfl ?_ 0 (1 / 16) ops
    (fun i hi => ⟨0, hops i hi, rfl⟩)
  refine ⟨wt, wt', sawSquare.take 16 ++ List.replicate 16 5, ?_, h, h', key⟩
  · intro he
    have h5 : (5 : ℝ) ∈ sawSquare := by
      rw [← he]; exact List.mem_append_right _ (List.mem_replicate.2 ⟨by norm_num, rfl⟩)
    have := sawSquare_le 5 h5
    norm_num at this
  · rintro w rfl
    unfold waveformOf
    rw [Nat.zero_mul, List.drop_zero, List.drop_zero, List.take_append_of_le_length
      (by rw [List.length_take, sawSquare_length]; norm_num), List.take_take]
    norm_num

end Applied
end Adwt.Props
