import Verif.Chunks.Chain
import Verif.Chunks.Peaks

/-!
# RM synthesis and peak fitting of a cube in chunks (C305)

Source: `/repo/RMtools_3D/create_chunks.py` 28-120, then `/repo/RMtools_3D/do_RMsynth_3D.py` 57-268 and `/repo/RMtools_3D/RMpeakfit_3D.py` 254-307, 457-488 on each of the
chunks, `/repo/RMtools_3D/assemble_chunks.py` 22-160. The models are those of C221, C301 and C293. The peak fit takes the reference wavelength from the header of the cube it reads
(`LAMSQ0`), so that of its own chunk.
-/

namespace Verif.Chunks

open Verif.NumPy Verif.PeakFit

variable {n : ℕ}

/-- What the peak fit reads for a pixel: the spectrum and the width of the RMSF, a function `width` of the RMSF as in `cleanInput`. -/
noncomputable def peakInput [NeZero n] {s : Setup n} {o : Pipe1D.Opts} (width : SpreadFn s o → ℝ) (a : Spectrum s o × SpreadFn s o) : PeakPixel (nDepth s o) := ⟨a.1, width a.2⟩

/-- The pixels of the cubes that `rmsynth3d` writes for these pixels of the Stokes cubes. -/
noncomputable def synthPixels [NeZero n] (s : Setup n) (o : Pipe1D.Opts) (width : SpreadFn s o → ℝ) (L : List (Column n)) : Option (List (PeakPixel (nDepth s o))) :=
  (runCube s o L).bind fun D => (runSpreadCube s o L).map fun S => (D.zip S).map (peakInput width)

/-- The settings of the peak fit for the products of a run of `rmsynth3d`: the reference is that in the header of the cube. -/
noncomputable def peakSetupOf [NeZero n] (s : Setup n) (o : Pipe1D.Opts) (ps : PeakSetup n (nDepth s o)) (L : List (Column n)) : PeakSetup n (nDepth s o) :=
  { ps with lam0 := reference s o L }

/-- `rmsynth3d` and then the peak fit on a chunk. -/
noncomputable def synthPeakFile [NeZero n] (s : Setup n) (o : Pipe1D.Opts) (width : SpreadFn s o → ℝ) (ps : PeakSetup n (nDepth s o)) (f : File (Column n)) :
    Option (File (String → Option ℝ)) :=
  (synthPixels s o width f.pix).bind fun P =>
    runPeakFile (peakSetupOf s o ps f.pix) { name := f.name, naxis := f.naxis, oldX := f.oldX, oldY := f.oldY, pix := P }

/-- `rmsynth3d` and then the peak fit on the whole image; the pixels are in the order of `pixels`. -/
noncomputable def synthPeakWhole [NeZero n] (s : Setup n) (o : Pipe1D.Opts) (width : SpreadFn s o → ℝ) (ps : PeakSetup n (nDepth s o)) {X Y : ℕ} (img : Fin X → Fin Y → Column n) :
    Option (Maps × List ℕ) :=
  (synthPixels s o width (pixels img)).bind fun P => peakRun (peakSetupOf s o ps (pixels img)) Y X fun y x => P.getD (x * Y + y) noPixel

theorem peakSetupOf_ok [NeZero n] (s : Setup n) (o : Pipe1D.Opts) (ps : PeakSetup n (nDepth s o)) (h : ps.Ok) (L : List (Column n)) : (peakSetupOf s o ps L).Ok :=
  ⟨h.axis, h.depths, h.known, h.noise⟩

/-- **C305, the part that holds.** If every pixel has Stokes Q in a channel with a weight, every channel that can be used somewhere in the image can be used somewhere in each chunk (or in
super-resolution), and no chunk has a single pixel, then cutting the Stokes cubes into chunks, running `rmsynth3d` and the peak fit on each and assembling the maps, found in any order,
gives the maps of the two runs on the whole. -/
theorem synth_peak_chunked_partial [NeZero n] (s : Setup n) (o : Pipe1D.Opts) (width : SpreadFn s o → ℝ) (ps : PeakSetup n (nDepth s o)) (hps : ps.Ok)
    (pre post : List Char) (naxis : ℕ) (hax : naxis = 2 ∨ naxis = 3 ∨ naxis = 4) {X Y : ℕ} (hX : X ≠ 1) (img : Fin X → Fin Y → Column n)
    (m : ℕ) (h0 : 2 ≤ m) (h1 : m < X * Y) (hlast : X * Y % m ≠ 1)
    (hrun : (synthPixels s o width (pixels img)).isSome) (hd : 0 < (Pipe1D.axisParams s.freq o).1)
    (hw : ∀ x y, Weighted s o (img x y)) (files : List (File (Column n))) (hfiles : create pre post naxis img m = some files)
    (hp : o.superRes = true ∨ ∀ f ∈ files, ∀ j, chanWeight s o j ≠ 0 → (∃ x y, UsableVoxel s (img x y) j) → ∃ c ∈ f.pix, UsableVoxel s c j) :
    ∃ outs maps, files.mapM (synthPeakFile s o width ps) = some outs ∧ synthPeakWhole s o width ps img = some (maps, [Y, X]) ∧
      ∀ L : List (File (String → Option ℝ)), L.Perm outs →
        ∃ im, assemble L = some im ∧ ∀ (x : Fin X) (y : Fin Y), ∃ v, im x y = some v ∧ ∀ name ∈ ps.prods, v name = maps name ((y : ℕ), (x : ℕ)) := by
  have hmem := mem_file pre post naxis img m files hfiles
  have hwp : ∀ c ∈ pixels img, Weighted s o c := by
    intro c hc
    obtain ⟨x, y, rfl⟩ := (mem_pixels img c).1 hc
    exact hw x y
  have href : ∀ f ∈ files, reference s o f.pix = reference s o (pixels img) := by
    intro f hf
    apply reference_eq
    rcases hp with hp | hp
    · exact Or.inl hp
    · right
      intro j hj
      constructor
      · rintro ⟨c, hc, hu⟩
        exact ⟨c, hmem f hf c hc, hu⟩
      · rintro ⟨c, hc, hu⟩
        obtain ⟨x, y, rfl⟩ := (mem_pixels img c).1 hc
        exact hp f hf j hj ⟨x, y, hu⟩
  obtain ⟨P, hP⟩ := Option.isSome_iff_exists.1 hrun
  obtain ⟨D, hD, hP⟩ := Option.bind_eq_some_iff.1 hP
  obtain ⟨S, hS, -⟩ := Option.map_eq_some_iff.1 hP
  obtain ⟨hreg, g, hg, -⟩ := (runSpread_iff s o _ S).1 hS
  obtain ⟨-, hsc, -⟩ := (runCube_eq s o _ D).1 hD
  let φ : Column n → PeakPixel (nDepth s o) := fun c =>
    peakInput width (one s o (reference s o (pixels img)) c, spread s o g (reference s o (pixels img)) c)
  have key : ∀ L : List (Column n), reference s o L = reference s o (pixels img) → (∀ c ∈ L, c ∈ pixels img) →
      synthPixels s o width L = some (L.map φ) := by
    intro L hL hsub
    have e1 := (runCube_eq s o L _).2 ⟨hreg, fun c hc => by rw [hL]; exact hsc c (hsub c hc), rfl⟩
    have e2 := runSpread_eq s o hd hreg g hg L fun c hc => hwp c (hsub c hc)
    unfold synthPixels
    rw [e1, e2, Option.bind_some, Option.map_some, List.zip_map', List.map_map, hL]
    rfl
  set ps' := peakSetupOf s o ps (pixels img) with hps'
  have hok : ps'.Ok := peakSetupOf_ok s o ps hps _
  obtain ⟨files', outs, maps', hf', houts, hm', hv⟩ := peaks_chunked_partial ps' hok pre post naxis hax hX (fun x y => φ (img x y)) m h0 h1 hlast
  have hfe : files' = files.map (File.map φ) := Option.some.inj (hf'.symm.trans (create_map pre post naxis img m files hfiles φ))
  obtain ⟨maps, hm, hval⟩ := peakRun_spec ps' hok Y X hX fun y x => ((pixels img).map φ).getD (x * Y + y) noPixel
  obtain ⟨maps'', hm'', hval'⟩ := peakRun_spec ps' hok Y X hX fun y x => if h : x < X ∧ y < Y then φ (img ⟨x, h.1⟩ ⟨y, h.2⟩) else noPixel
  have hmm : maps'' = maps' := by
    have : some (maps'', [Y, X]) = some (maps', [Y, X]) := hm''.symm.trans hm'
    exact (Prod.mk.inj (Option.some.inj this)).1
  subst hmm
  refine ⟨outs, maps, ?_, ?_, fun L hL => ?_⟩
  · rw [← houts, hfe, List.mapM_map]
    apply mapM_same
    intro f hf
    unfold synthPeakFile
    rw [key f.pix (href f hf) (hmem f hf), Option.bind_some]
    have : peakSetupOf s o ps f.pix = ps' := by
      rw [hps']
      unfold peakSetupOf
      rw [href f hf]
    rw [this]
    rfl
  · unfold synthPeakWhole
    rw [key _ rfl fun c hc => hc, Option.bind_some]
    exact hm
  · obtain ⟨im, him, hx⟩ := hv L hL
    refine ⟨im, him, fun x y => ?_⟩
    obtain ⟨v, hv1, hv2⟩ := hx x y
    refine ⟨v, hv1, fun name hname => (hv2 name hname).trans ?_⟩
    rw [hval y x y.isLt x.isLt name hname, hval' y x y.isLt x.isLt name hname, dif_pos ⟨x.isLt, y.isLt⟩, List.getD_eq_getElem?_getD, List.getElem?_map, pixels_get]
    rfl

/-- C305 is false for a chunk of a single pixel: the peak fit of the chunk raises, whatever RM synthesis gives. -/
theorem synth_peak_single_raises [NeZero n] (s : Setup n) (o : Pipe1D.Opts) (width : SpreadFn s o → ℝ) (ps : PeakSetup n (nDepth s o)) (hps : ps.Ok)
    (f : File (Column n)) (hf : f.pix.length = 1) : synthPeakFile s o width ps f = none := by
  unfold synthPeakFile
  cases hP : synthPixels s o width f.pix with
  | none => rfl
  | some P =>
    obtain ⟨D, hD, hP⟩ := Option.bind_eq_some_iff.1 hP
    obtain ⟨S, hS, rfl⟩ := Option.map_eq_some_iff.1 hP
    obtain ⟨-, g, -, rfl⟩ := (runSpread_iff s o _ S).1 hS
    obtain ⟨-, -, rfl⟩ := (runCube_eq s o _ D).1 hD
    rw [Option.bind_some]
    exact single_chunk_none _ (peakSetupOf_ok s o ps hps _) _ (by simp [hf])

/-- Settings of the peak fit for the depths of the case: uniform noise, all default products. -/
noncomputable def aPeak : PeakSetup 2 (nDepth (aSetup false) Pipe3D.wOpts) where
  isFD := fun i => i == 3
  phi := depths (aSetup false) Pipe3D.wOpts
  lamSq := Pipe1D.lamSq aFreq
  lam0 := 0
  noise := some fun _ => some 1
  variance := true
  prods := defaultProducts

/-- Four pixels with all channels, in chunks of two, meet the hypotheses of `synth_peak_chunked_partial`, with the settings `aPeak` for the peak fit. -/
theorem synth_peak_case (width : SpreadFn (aSetup false) Pipe3D.wOpts → ℝ) (pre post : List Char) :
    let img : Fin 2 → Fin 2 → Column 2 := fun _ _ => aFull
    aPeak.Ok ∧ (synthPixels (aSetup false) Pipe3D.wOpts width (pixels img)).isSome ∧
    0 < (Pipe1D.axisParams (aSetup false).freq Pipe3D.wOpts).1 ∧ (∀ x y, Weighted (aSetup false) Pipe3D.wOpts (img x y)) ∧
    ∃ files, create pre post 3 img 2 = some files ∧ ∀ f ∈ files, ∀ j, ∃ c ∈ f.pix, UsableVoxel (aSetup false) c j := by
  intro img
  refine ⟨⟨rfl, ?_, products_known.1, fun d hd => ?_⟩, ?_, (by positivity : (0 : ℝ) < Real.pi / 2), fun x y => ⟨1, rfl, ?_⟩, ?_⟩
  · show 3 ≤ Axis.nChanRM (Real.pi / 2) (Real.pi / 2)
    rw [Pipe3D.wOpts_nChan]
  · obtain rfl := Option.some.inj hd
    show (noiseFactor true _).isSome
    unfold noiseFactor Pipe1D.noiseTheory
    rw [if_pos (by intro _ j; simp)]
    simp
  · obtain ⟨R, hR⟩ := aRun (pixels img)
    have hD := (runCube_eq (aSetup false) Pipe3D.wOpts (pixels img) _).2 ⟨aRegular false, fun c _ => rfl, rfl⟩
    unfold synthPixels
    rw [hD, hR]
    rfl
  · show (1 : ℝ) ≠ 0
    norm_num
  · refine ⟨_, create_eq pre post 3 img aFull 2 two_pos (by norm_num), fun f hf j => ⟨aFull, ?_, (aUsable false j).1⟩⟩
    have hl : List.range (ceilDiv (2 * 2) 2) = [0, 1] := rfl
    rw [hl] at hf
    simp only [List.map_cons, List.map_nil, List.mem_cons, List.not_mem_nil, or_false] at hf
    rcases hf with rfl | rfl <;> exact List.mem_cons_self

end Verif.Chunks
