import Verif.Chunks.Clean
import Verif.PeakFit.Files

/-!
# Peak fitting of cubes in chunks (C293)

Source: `/repo/RMtools_3D/create_chunks.py` 60-116, `/repo/RMtools_3D/RMpeakfit_3D.py` 254-307, 457-488 (`read_files` and `main`, modelled by
`PeakFit.fitFile`), `/repo/RMtools_3D/assemble_chunks.py` 73-158. A pixel of the cube carries its spectrum and the width of its spread function, which are
in two files cut in the same way. No Stokes I cube. A chunk file has one row (`create_chunks.py` 95, 104).
-/

namespace Verif.Chunks

open Verif.NumPy Verif.PeakFit

variable {n N : ℕ}

/-- A pixel of the cube and of the map of widths. -/
structure PeakPixel (N : ℕ) where
  spec : Fin N → Option ℂ
  width : ℝ

/-- What all chunks have in common: header and options. -/
structure PeakSetup (n N : ℕ) where
  isFD : ℕ → Bool
  phi : Fin N → ℝ
  lamSq : Fin n → ℝ
  lam0 : ℝ
  noise : Option (Fin n → Option ℝ)
  variance : Bool
  prods : List String

/-- A cube as a FITS file: axes depth, row, column. -/
def peakCube (ny nx : ℕ) (pix : ℕ → ℕ → PeakPixel N) : NdArr (Option ℂ) where
  shape := [N, ny, nx]
  get := fun idx => if h : idx.headD 0 < N then (pix (idx.getD 1 0) (idx.getD 2 0)).spec ⟨idx.headD 0, h⟩ else none

/-- The map of widths as a FITS file: axes row, column. -/
def widthMap (ny nx : ℕ) (pix : ℕ → ℕ → PeakPixel N) : NdArr ℝ where
  shape := [ny, nx]
  get := fun idx => (pix (idx.getD 0 0) (idx.getD 1 0)).width

/-- The peak fit of such files (`main`); the maps with their shape. -/
noncomputable def peakRun [NeZero n] (s : PeakSetup n N) (ny nx : ℕ) (pix : ℕ → ℕ → PeakPixel N) : Option (Maps × List ℕ) :=
  fitFile s.isFD (peakCube ny nx pix) (widthMap ny nx pix) s.phi s.lamSq s.lam0 s.noise none s.variance s.prods

/-- A blank pixel, for indices outside the image. -/
def noPixel : PeakPixel N := ⟨fun _ => none, 0⟩

/-- The run for a chunk file (one row); the pixels of the maps that were asked for, as `assemble_chunks.py` reads them. -/
noncomputable def runPeakFile [NeZero n] (s : PeakSetup n N) (f : File (PeakPixel N)) : Option (File (String → Option ℝ)) :=
  (peakRun s 1 f.pix.length fun _ t => f.pix.getD t noPixel).map fun r =>
    { name := f.name, naxis := f.naxis, oldX := f.oldX, oldY := f.oldY
      pix := (List.range f.pix.length).map fun t name => if name ∈ s.prods then r.1 name (0, t) else none }

/-- The run for the whole image. -/
noncomputable def peakWhole [NeZero n] (s : PeakSetup n N) {X Y : ℕ} (img : Fin X → Fin Y → PeakPixel N) : Option (Maps × List ℕ) :=
  peakRun s Y X fun y x => if h : x < X ∧ y < Y then img ⟨x, h.1⟩ ⟨y, h.2⟩ else noPixel

/-- Specification of usable settings: the depth axis is the slowest one, there are at least three depths, the products exist and the noise is a number. -/
structure PeakSetup.Ok (s : PeakSetup n N) : Prop where
  axis : Cube.findAxis s.isFD 3 3 = 3
  depths : 3 ≤ N
  known : ∀ k ∈ s.prods, k ∈ allProducts
  noise : ∀ d, s.noise = some d → (noiseFactor s.variance d).isSome

/-- The theoretical noise. -/
noncomputable def PeakSetup.level (s : PeakSetup n N) : Option ℝ := s.noise.bind fun d => noiseFactor s.variance d

/-- Specification: the measurements of a single pixel. -/
noncomputable def onePeak [NeZero n] (s : PeakSetup n N) (c : PeakPixel N) (name : String) : Option ℝ :=
  if name ∈ s.prods then
    (measurePix c.spec s.phi c.width s.level s.lamSq s.lam0).bind fun m => meaning s.lamSq s.lam0 m c.width 1 s.level name
  else none

/-- An image of at least two columns: each pixel of the maps is the measurement of that pixel alone. -/
theorem peakRun_spec [NeZero n] (s : PeakSetup n N) (hs : s.Ok) (ny nx : ℕ) (hx : nx ≠ 1) (pix : ℕ → ℕ → PeakPixel N) :
    ∃ maps, peakRun s ny nx pix = some (maps, [ny, nx]) ∧
      ∀ a b, a < ny → b < nx → ∀ name ∈ s.prods, maps name (a, b) = onePeak s (pix a b) name := by
  have hN := hs.depths
  obtain ⟨hsh, hg⟩ := addRow_squeeze (peakCube ny nx pix) ny nx rfl (by omega) hx
  have hlen : (peakCube ny nx pix).squeeze.shape.length = 2 ↔ ny = 1 := by
    have hN1 : N ≠ 1 := by omega
    by_cases hy : ny = 1 <;> simp [NdArr.squeeze, peakCube, sqz, hN1, hx, hy]
  obtain ⟨hfs, hfg⟩ := addRowMap_squeeze (peakCube ny nx pix).squeeze (widthMap ny nx pix) ny nx rfl hx hlen
  unfold peakRun fitFile
  dsimp only
  rw [readFDF_plain s.isFD (peakCube ny nx pix) ny nx rfl hs.axis]
  set X : PeakFit.In n N :=
    { fdf := addRow (peakCube ny nx pix).squeeze, phi := s.phi, fwhm := addRowMap (peakCube ny nx pix).squeeze (widthMap ny nx pix).squeeze,
      lamSq := s.lamSq, lam0 := s.lam0, noise := s.noise, i := none, variance := s.variance } with hX
  have hfit : Fits X ny nx := ⟨hsh, hfs, fun c hc => by simp [hX] at hc, hs.noise⟩
  obtain ⟨maps, hm, hpix⟩ := maps_spec X ny nx hfit hN s.prods hs.known
  refine ⟨maps, hm, fun a b ha hb name hname => ?_⟩
  obtain ⟨h1, h2⟩ := hpix a b ha hb
  have hget : ∀ k : Fin N, X.fdf.get [(k : ℕ), a, b] = (pix a b).spec k := by
    intro k
    rw [show X.fdf = addRow (peakCube ny nx pix).squeeze from rfl, hg k a b ha]
    show (if h : (k : ℕ) < N then (pix a b).spec ⟨k, h⟩ else none) = _
    rw [dif_pos k.isLt]
  have hfw : X.fwhm.get [a, b] = (pix a b).width := hfg a b ha
  have hlev : noiseAt X 1 = s.level := by
    show (s.noise.bind fun d => (noiseFactor s.variance d).map fun f => 1 * f) = _
    unfold PeakSetup.level
    congr 1
    funext d
    cases noiseFactor s.variance d <;> simp
  unfold onePeak
  rw [if_pos hname]
  unfold measurePix
  by_cases hall : ∀ k, ((pix a b).spec k).isSome
  · rw [if_pos hall]
    obtain ⟨v, m, hv, hm', hval⟩ := h2 (fun k => ((pix a b).spec k).getD 0) (fun k => by
      rw [hget k]
      obtain ⟨z, hz⟩ := Option.isSome_iff_exists.mp (hall k)
      rw [hz]; rfl)
    have hv1 : v = 1 := by
      have : stokesAt X (a, b) = some 1 := rfl
      rw [this] at hv
      exact (Option.some.inj hv).symm
    subst hv1
    rw [hlev, hfw] at hm' hval
    rw [show X.phi = s.phi from rfl, show X.lamSq = s.lamSq from rfl, show X.lam0 = s.lam0 from rfl] at hm'
    rw [hm', Option.bind_some]
    exact hval name hname
  · rw [if_neg hall]
    push Not at hall
    obtain ⟨k, hk⟩ := hall
    exact h1 ⟨k, by rw [hget k]; simpa using hk⟩ name hname

/-- A chunk of a number of pixels other than one. -/
theorem runPeakFile_eq [NeZero n] (s : PeakSetup n N) (hs : s.Ok) (f : File (PeakPixel N)) (hf : f.pix.length ≠ 1) :
    runPeakFile s f = some (File.map (onePeak s) f) := by
  obtain ⟨maps, hm, hval⟩ := peakRun_spec s hs 1 f.pix.length hf fun _ t => f.pix.getD t noPixel
  unfold runPeakFile
  rw [hm, Option.map_some]
  unfold File.map
  congr 1
  congr 1
  apply List.ext_getElem
  · simp
  · intro t h1 h2
    simp only [List.length_map, List.length_range] at h1
    rw [List.getElem_map, List.getElem_map, List.getElem_range]
    funext name
    by_cases hname : name ∈ s.prods
    · rw [if_pos hname]
      refine (hval 0 t one_pos h1 name hname).trans ?_
      simp [h1]
    · rw [if_neg hname]
      unfold onePeak
      rw [if_neg hname]

/-- A chunk of a single pixel raises: `squeeze` drops two axes and only one is put back. -/
theorem single_chunk_none [NeZero n] (s : PeakSetup n N) (hs : s.Ok) (f : File (PeakPixel N)) (hf : f.pix.length = 1) : runPeakFile s f = none := by
  unfold runPeakFile peakRun
  rw [single_raises s.isFD (peakCube 1 f.pix.length _) _ s.phi s.lamSq s.lam0 s.noise none s.variance s.prods (by rw [hf]; rfl) hs.axis
    (by have := hs.depths; omega)]
  rfl

/-- The sizes of the chunks. -/
theorem chunk_sizes (pre post : List Char) (naxis : ℕ) {X Y : ℕ} (img : Fin X → Fin Y → PeakPixel N) (m : ℕ) (h0 : 0 < m) (h1 : m < X * Y)
    (files : List (File (PeakPixel N))) (hfiles : create pre post naxis img m = some files) :
    (∀ f ∈ files, f.pix.length = 1 → m = 1 ∨ X * Y % m = 1) ∧ ((m = 1 ∨ X * Y % m = 1) → ∃ f ∈ files, f.pix.length = 1) := by
  have hXY := index_pixel (lt_trans h0 h1)
  let d := img ⟨_, hXY.1⟩ ⟨_, hXY.2⟩
  rw [create_eq pre post naxis img d m h0 h1, Option.some.injEq] at hfiles
  subst hfiles
  set k := ceilDiv (X * Y) m with hk
  have hk2 : 2 ≤ k := two_le_ceilDiv (X * Y) m h0 h1
  have hc := ceilDiv_spec (X * Y) m h0 (by omega)
  rw [← hk] at hc
  have hfull : ∀ i, i + 1 < k → (chunkIdx m (X * Y) k i).length = m := by
    intro i hi
    unfold chunkIdx
    rw [if_pos hi]
    simp [fullIdx]
  have hlen : (chunkIdx m (X * Y) k (k - 1)).length = X * Y - (k - 1) * m := by
    unfold chunkIdx
    rw [if_neg (by omega)]
    unfold fullIdx
    rw [List.filter_map, List.length_map]
    have e : (fun t => decide (t < X * Y)) ∘ (fun t => t + (k - 1) * m) = fun t => decide (t < X * Y - (k - 1) * m) := by
      funext t
      simp only [Function.comp]
      congr 1
      rw [eq_iff_iff]
      omega
    have hkm : k * m = (k - 1) * m + m := by
      obtain ⟨j, hj⟩ : ∃ j, k = j + 1 := ⟨k - 1, by omega⟩
      rw [hj, Nat.add_sub_cancel, Nat.succ_mul]
    rw [e, range_filter m _ (by omega), List.length_range]
  have hmod : X * Y % m = (X * Y - (k - 1) * m) % m := by
    conv_lhs => rw [show X * Y = (X * Y - (k - 1) * m) + (k - 1) * m by omega]
    rw [Nat.add_mul_mod_self_right]
  have hkm : k * m = (k - 1) * m + m := by
    obtain ⟨j, hj⟩ : ∃ j, k = j + 1 := ⟨k - 1, by omega⟩
    rw [hj, Nat.add_sub_cancel, Nat.succ_mul]
  constructor
  · intro f hf hone
    rw [List.mem_map] at hf
    obtain ⟨i, hi, rfl⟩ := hf
    rw [List.mem_range] at hi
    rw [List.length_map] at hone
    by_cases hi' : i + 1 < k
    · rw [hfull i hi'] at hone
      exact Or.inl hone
    · obtain rfl : i = k - 1 := by omega
      rw [hlen] at hone
      rw [hmod, hone]
      by_cases hm1 : m = 1
      · exact Or.inl hm1
      · exact Or.inr (Nat.mod_eq_of_lt (by omega))
  · intro h
    refine ⟨_, List.mem_map.2 ⟨k - 1, List.mem_range.2 (by omega), rfl⟩, ?_⟩
    rw [List.length_map, hlen]
    rcases h with h | h
    · subst h
      omega
    · rw [hmod] at h
      by_cases he : X * Y - (k - 1) * m = m
      · rw [he, Nat.mod_self] at h
        omega
      · rwa [Nat.mod_eq_of_lt (by omega)] at h

/-- **C293 (partial).** Cutting a Faraday depth cube and its map of widths into chunks of two or more pixels, so that no single pixel is left for the last one, fitting the peaks of
every chunk and assembling the maps, found in any order, gives the maps of the whole cube (of at least two columns). Missing: a single pixel in a
chunk, see `chunk_of_one_raises`. -/
theorem peaks_chunked_partial [NeZero n] (s : PeakSetup n N) (hs : s.Ok) (pre post : List Char) (naxis : ℕ) (hax : naxis = 2 ∨ naxis = 3 ∨ naxis = 4) {X Y : ℕ}
    (hX : X ≠ 1) (img : Fin X → Fin Y → PeakPixel N) (m : ℕ) (h0 : 2 ≤ m) (h1 : m < X * Y) (hlast : X * Y % m ≠ 1) :
    ∃ files outs maps, create pre post naxis img m = some files ∧ files.mapM (runPeakFile s) = some outs ∧ peakWhole s img = some (maps, [Y, X]) ∧
      ∀ L : List (File (String → Option ℝ)), L.Perm outs →
        ∃ im, assemble L = some im ∧ ∀ (x : Fin X) (y : Fin Y), ∃ v, im x y = some v ∧ ∀ name ∈ s.prods, v name = maps name ((y : ℕ), (x : ℕ)) := by
  obtain ⟨files, hfiles, hr⟩ := chunk_round_trip pre post naxis hax img m (by omega) (by exact_mod_cast h1) (onePeak s)
  obtain ⟨maps, hm, hval⟩ := peakRun_spec s hs Y X hX fun y x => if h : x < X ∧ y < Y then img ⟨x, h.1⟩ ⟨y, h.2⟩ else noPixel
  refine ⟨files, files.map (File.map (onePeak s)), maps, hfiles, ?_, hm, fun L hL => ?_⟩
  · apply mapM_some
    intro f hf
    refine runPeakFile_eq s hs f fun hone => ?_
    rcases (chunk_sizes pre post naxis img m (by omega) h1 files hfiles).1 f hf hone with h | h
    · omega
    · exact hlast h
  · obtain ⟨im, him, hv⟩ := hr L hL
    refine ⟨im, him, fun x y => ⟨_, hv x y, fun name hname => ?_⟩⟩
    rw [hval y x y.isLt x.isLt name hname, dif_pos ⟨x.isLt, y.isLt⟩]

/-- **C293 is refuted**: with one pixel per chunk, or one pixel left over for the last chunk, the peak fit of some chunk raises, though that of the whole cube does not. -/
theorem chunk_of_one_raises [NeZero n] (s : PeakSetup n N) (hs : s.Ok) (pre post : List Char) (naxis : ℕ) {X Y : ℕ}
    (hX : X ≠ 1) (img : Fin X → Fin Y → PeakPixel N) (m : ℕ) (h0 : 0 < m) (h1 : m < X * Y) (hlast : m = 1 ∨ X * Y % m = 1) :
    ∃ files, create pre post naxis img m = some files ∧ (∃ f ∈ files, runPeakFile s f = none) ∧ ∃ maps, peakWhole s img = some (maps, [Y, X]) := by
  obtain ⟨files, hfiles⟩ := Option.isSome_iff_exists.1 ((create_isSome_iff pre post naxis img m).2 ⟨by exact_mod_cast h0, by exact_mod_cast h1⟩)
  obtain ⟨f, hf, hone⟩ := (chunk_sizes pre post naxis img m h0 h1 files hfiles).2 hlast
  obtain ⟨maps, hm, -⟩ := peakRun_spec s hs Y X hX fun y x => if h : x < X ∧ y < Y then img ⟨x, h.1⟩ ⟨y, h.2⟩ else noPixel
  exact ⟨files, hfiles, ⟨f, hf, single_chunk_none s hs f hone⟩, maps, hm⟩

/-! ## A case -/

/-- Two channels, three depths, uniform noise of one. -/
noncomputable def peakSetup : PeakSetup 2 3 where
  isFD := fun i => i == 3
  phi := fun i => (i : ℝ) - 1
  lamSq := fun j => (j : ℝ) + 1
  lam0 := 3 / 2
  noise := some fun _ => some 1
  variance := true
  prods := defaultProducts

theorem peakSetup_ok : peakSetup.Ok := by
  refine ⟨rfl, le_rfl, products_known.1, fun d hd => ?_⟩
  obtain rfl := Option.some.inj hd
  show (noiseFactor true _).isSome
  unfold noiseFactor Pipe1D.noiseTheory
  rw [if_pos (by intro _ j; simp)]
  simp

/-- The hypotheses of `peaks_chunked_partial` hold for an image of four pixels in chunks of two, those of `chunk_of_one_raises` for three pixels in chunks of two. -/
example (img : Fin 2 → Fin 2 → PeakPixel 3) (img' : Fin 3 → Fin 1 → PeakPixel 3) (pre post : List Char) :
    (∃ files outs maps, create pre post 3 img 2 = some files ∧ files.mapM (runPeakFile peakSetup) = some outs ∧ peakWhole peakSetup img = some (maps, [2, 2])) ∧
    ∃ files, create pre post 3 img' 2 = some files ∧ ∃ f ∈ files, runPeakFile peakSetup f = none := by
  obtain ⟨files, outs, maps, h1, h2, h3, -⟩ := peaks_chunked_partial peakSetup peakSetup_ok pre post 3 (by norm_num) (by norm_num) img 2 le_rfl (by norm_num)
    (by norm_num)
  obtain ⟨files', h4, h5, -⟩ := chunk_of_one_raises peakSetup peakSetup_ok pre post 3 (by norm_num) img' 2 (by norm_num) (by norm_num) (by norm_num)
  exact ⟨⟨files, outs, maps, h1, h2, h3⟩, files', h4, h5⟩

end Verif.Chunks
