import Verif.FromFits.Model
import Verif.Pipe1D.Props

/-!
# RM synthesis of one pixel of a FITS cube: properties
-/

namespace Verif.FromFits

open Verif.NumPy

/-! ## C142: the pixel asked for -/

theorem pyIndex_some (n : ℕ) (i : ℤ) (k : ℕ) :
    pyIndex n i = some k ↔ k < n ∧ (i = k ∨ i = (k : ℤ) - n) := by
  unfold pyIndex
  split_ifs <;> simp only [Option.some.injEq, reduceCtorEq, false_iff] <;> omega

theorem pyIndex_none (n : ℕ) (i : ℤ) : pyIndex n i = none ↔ i < -n ∨ (n : ℤ) ≤ i := by
  unfold pyIndex
  split_ifs <;> simp only [reduceCtorEq, true_iff, false_iff] <;> omega

/-- C142. For whole numbers `1 ≤ X ≤ nx`, `1 ≤ Y ≤ ny` the spectra are those of the pixel with these
FITS numbers. -/
theorem pixel_partial {n ny nx : ℕ} (Q U : Fin n → Fin ny → Fin nx → Fl) (x : Fin nx) (y : Fin ny)
    (r : Prep n) (hr : prep Q U (pixIndex ((x : ℕ) + 1)) (pixIndex ((y : ℕ) + 1)) = r) :
    (r = .refused ∧ ∀ j, Q j y x = .fin 0) ∨
      ∃ q u dQ dU, r = .data q u dQ dU ∧ (∀ j, dQ j = some (1 / 1000) ∧ dU j = some (1 / 1000)) ∧
        (∀ j v, q j = some v ↔ Q j y x = .fin v) ∧ ∀ j v, u j = some v ↔ U j y x = .fin v := by
  have hp : ∀ k : ℕ, pixIndex ((k : ℝ) + 1) = k := by
    intro k
    unfold pixIndex pyInt
    rw [if_pos (by positivity)]
    have : ⌊(k : ℝ) + 1⌋ = (k : ℤ) + 1 := by
      rw [Int.floor_eq_iff]; push_cast; constructor <;> linarith
    rw [this]; ring
  rw [hp, hp] at hr
  have hy : pyIndex ny (y : ℕ) = some (y : ℕ) := (pyIndex_some _ _ _).mpr ⟨y.2, Or.inl rfl⟩
  have hx : pyIndex nx (x : ℕ) = some (x : ℕ) := (pyIndex_some _ _ _).mpr ⟨x.2, Or.inl rfl⟩
  have hc : ∀ (f : Fl) v, clean f = some v ↔ f = .fin v := by
    intro f v; cases f <;> simp [clean]
  unfold prep at hr
  rw [hy, hx] at hr
  dsimp only at hr
  rw [dif_pos ⟨y.2, x.2⟩] at hr
  split_ifs at hr with h0
  · left
    refine ⟨hr.symm, fun j => ?_⟩
    classical
    have h1 := Finset.card_eq_zero.mp h0.1
    by_contra h2
    have h3 := Finset.notMem_empty j
    rw [← h1] at h3
    exact h3 (Finset.mem_filter.mpr ⟨Finset.mem_univ j, fun h => h2 ((hc _ _).mp h)⟩)
  · right
    exact ⟨_, _, _, _, hr.symm, fun j => ⟨rfl, rfl⟩, fun j v => hc _ _, fun j v => hc _ _⟩

/-- C142. Positions beyond the far edge are refused, and so are positions far enough on the other
side. -/
theorem pixel_outside (n : ℕ) (hn1 : 1 ≤ n) (x : ℝ) :
    pyIndex n (pixIndex x) = none ↔ x ≤ -n ∨ (n : ℝ) + 1 ≤ x := by
  rw [pyIndex_none]
  unfold pixIndex pyInt
  have hn : (0 : ℝ) ≤ n := Nat.cast_nonneg n
  split_ifs with h
  · constructor
    · rintro (h1 | h1)
      · exfalso
        have : 0 ≤ ⌊x⌋ := Int.floor_nonneg.mpr h
        omega
      · right
        have : ((n : ℤ) + 1 : ℤ) ≤ ⌊x⌋ := by omega
        rw [Int.le_floor] at this
        push_cast at this
        exact this
    · rintro (h1 | h1)
      · have : (1 : ℝ) ≤ n := by exact_mod_cast hn1
        linarith
      · right
        have : ((n : ℤ) + 1 : ℤ) ≤ ⌊x⌋ := by rw [Int.le_floor]; push_cast; exact h1
        omega
  · push Not at h
    constructor
    · rintro (h1 | h1)
      · left
        have : ⌈x⌉ ≤ (-n : ℤ) := by omega
        rw [Int.ceil_le] at this
        push_cast at this
        exact this
      · exfalso
        have : ⌈x⌉ ≤ 0 := Int.ceil_le.mpr (by push_cast; exact h.le)
        omega
    · rintro (h1 | h1)
      · left
        have : ⌈x⌉ ≤ (-n : ℤ) := by rw [Int.ceil_le]; push_cast; exact h1
        omega
      · linarith

/-- C142. The claim that positions before the first pixel are refused is false: 0, and every number
between -1 and 1, silently selects the last pixel. -/
theorem pixel_zero (n : ℕ) (hn : 1 ≤ n) (x : ℝ) (h0 : -1 < x) (h1 : x < 1) :
    pyIndex n (pixIndex x) = some (n - 1) := by
  have : pyInt x = 0 := by
    unfold pyInt
    split_ifs with h
    · rw [Int.floor_eq_iff]; push_cast; constructor <;> linarith
    · push Not at h
      rw [Int.ceil_eq_iff]; push_cast; constructor <;> linarith
  unfold pixIndex
  rw [this, pyIndex_some]
  omega

/-- C142. The same holds for a sky position left of the image: a position within `n` pixels before the
first one takes the spectrum from the opposite side. -/
theorem sky_wraps (n k : ℕ) (hk : 1 ≤ k) (hn : k ≤ n) (p : ℝ) (hp : |p + k| < 1 / 2) :
    pyIndex n (skyIndex p) = some (n - k) := by
  have hr : skyIndex p = -k := by
    rw [abs_lt] at hp
    unfold skyIndex pyRound
    by_cases h : (-k : ℝ) ≤ p
    · have hf : ⌊p⌋ = -(k : ℤ) := by
        rw [Int.floor_eq_iff]; push_cast; constructor <;> linarith
      rw [hf]; push_cast
      rw [if_pos (by linarith)]
    · push Not at h
      have hf : ⌊p⌋ = -(k : ℤ) - 1 := by
        rw [Int.floor_eq_iff]; push_cast; constructor <;> linarith
      rw [hf]; push_cast
      rw [if_neg (by linarith), if_pos (by linarith)]
      ring
  rw [hr, pyIndex_some]
  omega

/-- C142. A position given as pixel numbers and the same position on the sky select the same pixel if
it lies in the first half of the pixel. -/
theorem pixel_sky_same (X : ℝ) (h1 : 1 ≤ X) (hf : X - ⌊X⌋ < 1 / 2) :
    pixIndex X = skyIndex (X - 1) := by
  unfold pixIndex skyIndex pyInt pyRound
  rw [if_pos (by linarith), Int.floor_sub_one]
  push_cast
  rw [if_pos (by linarith)]

/-- C142. In the other half they do not: the pixel numbers select the pixel before the one the sky
position selects, which is the one that contains the position. -/
theorem pixel_sky_differ (X : ℝ) (h1 : 1 ≤ X) (hf : 1 / 2 < X - ⌊X⌋) :
    skyIndex (X - 1) = pixIndex X + 1 ∧ |X - ((skyIndex (X - 1) : ℝ) + 1)| < 1 / 2 ∧
      1 / 2 < |X - ((pixIndex X : ℝ) + 1)| := by
  have h2 : skyIndex (X - 1) = ⌊X⌋ := by
    unfold skyIndex pyRound
    rw [Int.floor_sub_one]
    push_cast
    rw [if_neg (by linarith), if_pos (by linarith)]
    ring
  have h3 : pixIndex X = ⌊X⌋ - 1 := by
    unfold pixIndex pyInt
    rw [if_pos (by linarith)]
  have h4 := Int.lt_floor_add_one X
  rw [h2, h3]
  push_cast
  refine ⟨by ring, ?_, ?_⟩
  · rw [abs_lt]; constructor <;> linarith
  · rw [lt_abs]; left; linarith

/-- A case: the pixel number 2.75 of an image. -/
example : pixIndex 2.75 = 1 ∧ skyIndex (2.75 - 1) = 2 := by
  have hf : ⌊(2.75 : ℝ)⌋ = 2 := by rw [Int.floor_eq_iff]; norm_num
  have h := (pixel_sky_differ 2.75 (by norm_num) (by rw [hf]; norm_num)).1
  have h3 : pixIndex 2.75 = 1 := by
    unfold pixIndex pyInt
    rw [if_pos (by norm_num), hf]; rfl
  exact ⟨h3, by rw [h, h3]; rfl⟩

/-! ## C143: empty pixels -/

/-- The pixel of a cube has no signal: every value of both cubes is zero. -/
def Empty {n ny nx : ℕ} (Q U : Fin n → Fin ny → Fin nx → Fl) (y : Fin ny) (x : Fin nx) : Prop :=
  ∀ j, Q j y x = .fin 0 ∧ U j y x = .fin 0

/-- When the program refuses a pixel of the cube. -/
theorem refused_iff {n ny nx : ℕ} (Q U : Fin n → Fin ny → Fin nx → Fl) (y : Fin ny) (x : Fin nx) :
    prep Q U (x : ℕ) (y : ℕ) = .refused ↔ ∀ j, Q j y x = .fin 0 := by
  classical
  have hy : pyIndex ny (y : ℕ) = some (y : ℕ) := (pyIndex_some _ _ _).mpr ⟨y.2, Or.inl rfl⟩
  have hx : pyIndex nx (x : ℕ) = some (x : ℕ) := (pyIndex_some _ _ _).mpr ⟨x.2, Or.inl rfl⟩
  have hc : ∀ f : Fl, ¬ neZero (clean f) ↔ f = .fin 0 := by
    intro f; unfold neZero; cases f <;> simp [clean]
  unfold prep
  rw [hy, hx]
  dsimp only
  rw [dif_pos ⟨y.2, x.2⟩]
  split_ifs with h
  · refine iff_of_true rfl fun j => ?_
    by_contra h2
    have h3 := Finset.notMem_empty j
    rw [← Finset.card_eq_zero.mp h.1] at h3
    exact h3 (Finset.mem_filter.mpr ⟨Finset.mem_univ j, not_not.mp fun h => h2 ((hc _).mp h)⟩)
  · refine iff_of_false (by simp) fun h2 => h ?_
    rw [and_self, Finset.card_eq_zero]
    exact Finset.filter_eq_empty_iff.mpr fun j _ => (hc _).mpr (h2 j)

/-- C143. An empty pixel is refused; a pixel with some nonzero or undefined Stokes Q is not. -/
theorem refused_partial {n ny nx : ℕ} (Q U : Fin n → Fin ny → Fin nx → Fl) (y : Fin ny) (x : Fin nx) :
    (Empty Q U y x → prep Q U (x : ℕ) (y : ℕ) = .refused) ∧
      ((∃ j, Q j y x ≠ .fin 0) → prep Q U (x : ℕ) (y : ℕ) ≠ .refused) := by
  refine ⟨fun h => (refused_iff Q U y x).mpr fun j => (h j).1, ?_⟩
  rintro ⟨j, hj⟩ h
  exact hj ((refused_iff Q U y x).mp h j)

/-- C143. The claim that only empty pixels are refused is false: a source whose Stokes Q is zero in
every channel (a polarisation angle of 45 degrees without Faraday rotation) is refused, whatever its
Stokes U. -/
theorem refused_with_signal {n ny nx : ℕ} (U : Fin n → Fin ny → Fin nx → Fl) (y : Fin ny) (x : Fin nx)
    (j : Fin n) (v : ℝ) (hv : v ≠ 0) (hU : U j y x = .fin v) :
    prep (fun _ _ _ => .fin 0) U (x : ℕ) (y : ℕ) = .refused ∧
      ¬ Empty (fun _ _ _ => .fin 0) U y x := by
  refine ⟨(refused_iff _ U y x).mpr fun _ => rfl, fun h => ?_⟩
  have := (h j).2
  rw [hU] at this
  exact hv (Fl.fin.inj this)

/-- C143. Nor are pixels without any data refused: blank (NaN) pixels pass the test. -/
theorem blank_not_refused {n ny nx : ℕ} (U : Fin n → Fin ny → Fin nx → Fl) (hn : 1 ≤ n) (y : Fin ny)
    (x : Fin nx) : prep (fun _ _ _ => .nan) U (x : ℕ) (y : ℕ) ≠ .refused := by
  intro h
  have := (refused_iff _ U y x).mp h ⟨0, hn⟩
  cases this

/-- A case: one channel, one pixel, `Q = 0`, `U = 1`. -/
example : prep (n := 1) (ny := 1) (nx := 1) (fun _ _ _ => .fin 0) (fun _ _ _ => .fin 1) 0 0 = .refused :=
  (refused_with_signal (fun _ _ _ => .fin 1) 0 0 0 1 one_ne_zero rfl).1

/-! ## C144: the channels of the spectrum -/

/-- The frequency a header with a linear axis gives to the pixel of FITS number `k`. -/
noncomputable def headerFreq (a : HeaderAxis) (k : ℕ) : ℝ := a.crval + (k - a.crpix) * a.cdelt

/-- C144. For a cube with axes right ascension, declination, frequency, the spectrum has one value per
frequency; value `j` is from channel `j + 1` of the selected pixel and its frequency is the one the
header gives to that channel. -/
theorem channels_partial (ra dec fr : HeaderAxis) (hra : ra.isFreq = false)
    (hdec : dec.isFreq = false) (hfr : fr.isFreq = true)
    {α : Type*} (a : NdArr α) (ha : a.shape = dataShape [ra, dec, fr]) (y x : ℕ) (hy : y < dec.naxis)
    (hx : x < ra.naxis) :
    ∃ (s : NdArr α) (f : List ℝ), getData a y x = some s ∧ freqArray [ra, dec, fr] = some f ∧
      s.shape = [f.length] ∧ f.length = fr.naxis ∧
      ∀ j, (hj : j < f.length) → s.get [j] = a.get [j, y, x] ∧ f[j] = headerFreq fr (j + 1) := by
  have h1 : pyIndex dec.naxis y = some y := (pyIndex_some _ _ _).mpr ⟨hy, Or.inl rfl⟩
  have h2 : pyIndex ra.naxis x = some x := (pyIndex_some _ _ _).mpr ⟨hx, Or.inl rfl⟩
  refine ⟨⟨[fr.naxis], fun idx => a.get (idx.headD 0 :: y :: x :: idx.tail)⟩,
    (List.range fr.naxis).map fun i : ℕ => fr.crval + ((i : ℝ) + 1 - fr.crpix) * fr.cdelt, ?_, ?_, ?_,
    ?_, ?_⟩
  · unfold getData
    rw [ha]
    simp [dataShape, h1, h2]
  · unfold freqArray
    rw [List.find?_cons, hra, List.find?_cons, hdec, List.find?_cons, hfr]
    rfl
  · simp
  · simp
  · intro j hj
    refine ⟨rfl, ?_⟩
    simp only [List.getElem_map, List.getElem_range]
    unfold headerFreq
    push_cast
    ring

/-- C144. With a further axis for the Stokes parameter, which many images have, no spectrum is
extracted: the result is two-dimensional, the second axis being right ascension, whatever pixel is
asked for. -/
theorem channels_stokes_axis (ra dec fr st : HeaderAxis) {α : Type*} (a : NdArr α)
    (ha : a.shape = dataShape [ra, dec, fr, st]) (y x : ℤ) (s : NdArr α)
    (hs : getData a y x = some s) : s.shape = [st.naxis, ra.naxis] := by
  unfold getData at hs
  rw [ha] at hs
  simp only [dataShape, List.map_cons, List.map_nil, List.reverse_cons, List.reverse_nil,
    List.nil_append, List.cons_append, Option.bind_eq_some_iff, Option.map_eq_some_iff] at hs
  obtain ⟨y', -, x', -, rfl⟩ := hs
  rfl

/-- C144. There the coordinates index the wrong axes: the vertical coordinate selects the channel and
the horizontal one the row. -/
theorem channels_stokes_wrong (ra dec fr st : HeaderAxis) {α : Type*} (a : NdArr α)
    (ha : a.shape = dataShape [ra, dec, fr, st]) (y x : ℕ) (hy : y < fr.naxis) (hx : x < dec.naxis)
    (k i : ℕ) : ∃ s, getData a y x = some s ∧ s.get [k, i] = a.get [k, y, x, i] := by
  have h1 : pyIndex fr.naxis y = some y := (pyIndex_some _ _ _).mpr ⟨hy, Or.inl rfl⟩
  have h2 : pyIndex dec.naxis x = some x := (pyIndex_some _ _ _).mpr ⟨hx, Or.inl rfl⟩
  refine ⟨⟨[st.naxis, ra.naxis], fun idx => a.get (idx.headD 0 :: y :: x :: idx.tail)⟩, ?_, rfl⟩
  unfold getData
  rw [ha]
  simp [dataShape, h1, h2]

/-- A case: a cube of 5 by 4 pixels and 3 channels. -/
example : ∃ ra dec fr : HeaderAxis, ra.isFreq = false ∧
    dec.isFreq = false ∧ fr.isFreq = true ∧
    dataShape [ra, dec, fr] = [3, 4, 5] :=
  ⟨⟨false, 5, 0, 1, 1⟩, ⟨false, 4, 0, 1, 1⟩, ⟨true, 3, 1000000000, 1, 1000000⟩, rfl, rfl, rfl,
    rfl⟩

/-! ## C145: the weighting -/

open Verif.Pipe1D in
/-- C145. If the errors of all channels are equal, the choice between inverse-variance and uniform
weights changes nothing in the result. -/
theorem weighting_irrelevant {n : ℕ} [NeZero n] (x : StokesI.FracIn n) (fit : Option StokesI.FitResult)
    (o : Opts) (fw : ℝ) (d : ℝ) (hd : 0 < d) (h : ∀ j, (stage x fit o).dqu j = some d) :
    run x fit { o with variance := true } fw = run x fit { o with variance := false } fw := by
  have hT : ∀ b j, (stage x fit { o with variance := b }).dqu j = some d := fun b j => h j
  have hwT : ∀ j, (stage x fit { o with variance := true }).weight j = some (1 / d ^ 2) := by
    intro j
    change weight true ((stage x fit o).dqu j) = _
    rw [h j]; rfl
  have hwF : ∀ j, (stage x fit { o with variance := false }).weight j = some 1 := fun j => rfl
  have hd2 : (1 / d ^ 2 : ℝ) ≠ 0 := by positivity
  have hr : Synth.doRmsynthPlanes (synthInput x fit { o with variance := true })
      = Synth.doRmsynthPlanes (synthInput x fit { o with variance := false }) := by
    refine Synth.weight_scale (synthInput x fit { o with variance := false })
      (synthInput x fit { o with variance := true }) (1 / d ^ 2) hd2 rfl rfl rfl rfl rfl ?_
    intro j
    change ((stage x fit { o with variance := true }).weight j).getD 0
      = 1 / d ^ 2 * ((stage x fit { o with variance := false }).weight j).getD 0
    rw [hwT, hwF]
    simp
  have hn : noiseTheory (stage x fit { o with variance := true }).weight
        (stage x fit { o with variance := true }).dqu
      = noiseTheory (stage x fit { o with variance := false }).weight
        (stage x fit { o with variance := false }).dqu := by
    have hn0 : (n : ℝ) ≠ 0 := by exact_mod_cast NeZero.ne n
    unfold noiseTheory
    simp only [hT, hwT, hwF, Option.getD_some, Finset.sum_const, Finset.card_univ, Fintype.card_fin,
      nsmul_eq_mul, mul_one, one_pow, one_mul]
    rw [if_neg (by positivity), if_neg hn0]
    congr 2
    field_simp
  have hreg : Regular x fit { o with variance := true } ↔ Regular x fit { o with variance := false } := by
    have hT' : finiteWeights true (stage x fit { o with variance := true }).dqu := fun _ j => by
      rw [hT]
      simpa using hd.ne'
    have hF' : finiteWeights false (stage x fit { o with variance := false }).dqu := fun h => absurd h (by simp)
    unfold Regular
    refine and_congr Iff.rfl (and_congr Iff.rfl (and_congr Iff.rfl (and_congr Iff.rfl ⟨fun _ => hF', fun _ => hT'⟩)))
  by_cases hR : Regular x fit { o with variance := true }
  swap
  · exact (if_neg hR).trans (if_neg (mt hreg.2 hR)).symm
  rw [run_regular hR, run_regular (hreg.1 hR)]
  unfold runRegular
  dsimp only
  rw [hr, hn]
  simp only [hwT, hwF, Option.getD_some, ne_eq, hd2, one_ne_zero, not_false_eq_true, true_and]
  rfl

open Verif.Pipe1D in
/-- C145. The spectra extracted from FITS cubes have equal errors, so without Stokes I (the model is the
same constant in all channels, or the fit failed and it is one) both weightings give the same
result. -/
theorem fits_weighting {n ny nx : ℕ} [NeZero n] (Q U : Fin n → Fin ny → Fin nx → Fl) (ix iy : ℤ)
    (q u dQ dU : Fin n → Option ℝ) (hp : prep Q U ix iy = .data q u dQ dU) (freq : Fin n → ℝ)
    (dI : Fin n → Option ℝ) (ord : ℤ) (fn : StokesI.FitFun) (fit : Option StokesI.FitResult) (g : ℝ)
    (hg : g ≠ 0) (hfit : ∀ r, fit = some r → ∀ j, StokesI.calcModel r (freq j) = g) (o : Opts) (fw : ℝ) :
    run ⟨freq, q, u, dI, dQ, dU, ord, fn, none⟩ fit { o with variance := true } fw
      = run ⟨freq, q, u, dI, dQ, dU, ord, fn, none⟩ fit { o with variance := false } fw := by
  have hd : dQ = (fun _ => some (1 / 1000)) ∧ dU = fun _ => some (1 / 1000) := by
    unfold prep at hp
    split at hp
    · split_ifs at hp
      dsimp only at hp
      split_ifs at hp
      injection hp with _ _ h3 h4
      exact ⟨h3.symm, h4.symm⟩
    · cases hp
  rw [hd.1, hd.2]
  cases fit with
  | none =>
    refine weighting_irrelevant _ _ o fw (1 / 1000) (by norm_num) fun j => ?_
    simp only [stage, StokesI.createFrac, StokesI.divNaN, dqu, Option.bind_some, one_ne_zero, if_false,
      Option.map_some]
    norm_num
  | some r =>
    refine weighting_irrelevant _ _ o fw (1 / 1000 / |g|) (by positivity) fun j => ?_
    simp only [stage, StokesI.createFrac, StokesI.divNaN, dqu, Option.bind_some, hfit r rfl, hg, if_false,
      Option.map_some, Option.some.injEq]
    rw [← add_div, abs_div]
    norm_num
    ring

/-- A case: one channel, the model is two everywhere. -/
example : ∃ (Q U : Fin 1 → Fin 1 → Fin 1 → Fl) (q u dQ dU : Fin 1 → Option ℝ) (r : StokesI.FitResult),
    prep Q U 0 0 = .data q u dQ dU ∧ ∀ f, StokesI.calcModel r f = 2 := by
  have h := pixel_partial (n := 1) (ny := 1) (nx := 1) (fun _ _ _ => .fin 1) (fun _ _ _ => .fin 1) 0 0 _ rfl
  have h0 : pixIndex (((0 : Fin 1) : ℕ) + 1) = 0 := by
    simp [pixIndex, pyInt]
  rw [h0] at h
  rcases h with h | ⟨q, u, dQ, dU, h, -⟩
  · exact absurd (Fl.fin.inj (h.2 0)) one_ne_zero
  · refine ⟨_, _, q, u, dQ, dU,
      { StokesI.dummyFit 1 0 .linear 0 with params := ![0, 0, 0, 0, 0, 2] }, h, fun f => ?_⟩
    simp [StokesI.calcModel, StokesI.dummyFit, StokesI.poly5]

end Verif.FromFits
