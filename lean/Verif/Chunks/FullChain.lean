import Verif.Chunks.PeakChain

/-!
# RM synthesis, RM-CLEAN and peak fitting of a cube in chunks (C307)

Source: as for `Chunks/Chain` and `Chunks/PeakChain`: `rmsynth3d`, then `rmclean3d`, then the peak fit of the clean spectra on each of the chunks. RM-CLEAN keeps the header of
the cube it reads with its reference wavelength (`/repo/RMtools_3D/do_RMclean_3D.py` 104, 165, 216).
-/

namespace Verif.Chunks

open Verif.NumPy Verif.PeakFit

variable {n N : ℕ} {α : Type*}

/-- What the peak fit of the clean spectra reads: the clean spectrum of a pixel and the width of its RMSF. -/
noncomputable def cleanPeakPixels [NeZero n] (s : Setup n) (o : Pipe1D.Opts) [NeZero (nDepth s o)] [NeZero (Axis.nPhi2 (nDepth s o))] (width : SpreadFn s o → ℝ)
    (cs : CleanSetup (nDepth s o)) (L : List (Column n)) : Option (List (PeakPixel (nDepth s o))) :=
  (synthClean s o width cs L).bind fun C => (runSpreadCube s o L).map fun S => (C.zip S).map fun a => ⟨a.1.clean, width a.2⟩

/-- `rmsynth3d`, `rmclean3d` and the peak fit on a chunk. -/
noncomputable def fullFile [NeZero n] (s : Setup n) (o : Pipe1D.Opts) [NeZero (nDepth s o)] [NeZero (Axis.nPhi2 (nDepth s o))] (width : SpreadFn s o → ℝ)
    (cs : CleanSetup (nDepth s o)) (ps : PeakSetup n (nDepth s o)) (f : File (Column n)) : Option (File (String → Option ℝ)) :=
  (cleanPeakPixels s o width cs f.pix).bind fun P =>
    runPeakFile (peakSetupOf s o ps f.pix) { name := f.name, naxis := f.naxis, oldX := f.oldX, oldY := f.oldY, pix := P }

/-- The three programs on the whole image. -/
noncomputable def fullWhole [NeZero n] (s : Setup n) (o : Pipe1D.Opts) [NeZero (nDepth s o)] [NeZero (Axis.nPhi2 (nDepth s o))] (width : SpreadFn s o → ℝ)
    (cs : CleanSetup (nDepth s o)) (ps : PeakSetup n (nDepth s o)) {X Y : ℕ} (img : Fin X → Fin Y → Column n) : Option (Maps × List ℕ) :=
  (cleanPeakPixels s o width cs (pixels img)).bind fun P => peakRun (peakSetupOf s o ps (pixels img)) Y X fun y x => P.getD (x * Y + y) noPixel

/-- The peak fit of chunks whose pixels are made by a program that works pixel by pixel. -/
theorem peaks_of_pixels [NeZero n] (ps : PeakSetup n N) (hps : ps.Ok) (pre post : List Char) (naxis : ℕ) (hax : naxis = 2 ∨ naxis = 3 ∨ naxis = 4) {X Y : ℕ} (hX : X ≠ 1)
    (img : Fin X → Fin Y → α) (m : ℕ) (h0 : 2 ≤ m) (h1 : m < X * Y) (hlast : X * Y % m ≠ 1) (files : List (File α)) (hfiles : create pre post naxis img m = some files)
    (φ : α → PeakPixel N) :
    ∃ outs maps, (files.mapM fun f => runPeakFile ps (File.map φ f)) = some outs ∧
      (peakRun ps Y X fun y x => ((pixels img).map φ).getD (x * Y + y) noPixel) = some (maps, [Y, X]) ∧
      ∀ L : List (File (String → Option ℝ)), L.Perm outs →
        ∃ im, assemble L = some im ∧ ∀ (x : Fin X) (y : Fin Y), ∃ v, im x y = some v ∧ ∀ name ∈ ps.prods, v name = maps name ((y : ℕ), (x : ℕ)) := by
  obtain ⟨files', outs, maps', hf', houts, hm', hv⟩ := peaks_chunked_partial ps hps pre post naxis hax hX (fun x y => φ (img x y)) m h0 h1 hlast
  have hfe : files' = files.map (File.map φ) := Option.some.inj (hf'.symm.trans (create_map pre post naxis img m files hfiles φ))
  obtain ⟨maps, hm, hval⟩ := peakRun_spec ps hps Y X hX fun y x => ((pixels img).map φ).getD (x * Y + y) noPixel
  obtain ⟨maps'', hm'', hval'⟩ := peakRun_spec ps hps Y X hX fun y x => if h : x < X ∧ y < Y then φ (img ⟨x, h.1⟩ ⟨y, h.2⟩) else noPixel
  have hmm : maps'' = maps' := by
    have : some (maps'', [Y, X]) = some (maps', [Y, X]) := hm''.symm.trans hm'
    exact (Prod.mk.inj (Option.some.inj this)).1
  subst hmm
  refine ⟨outs, maps, ?_, hm, fun L hL => ?_⟩
  · rw [← houts, hfe, List.mapM_map]
    rfl
  · obtain ⟨im, him, hx⟩ := hv L hL
    refine ⟨im, him, fun x y => ?_⟩
    obtain ⟨v, hv1, hv2⟩ := hx x y
    refine ⟨v, hv1, fun name hname => (hv2 name hname).trans ?_⟩
    rw [hval y x y.isLt x.isLt name hname, hval' y x y.isLt x.isLt name hname, dif_pos ⟨x.isLt, y.isLt⟩, List.getD_eq_getElem?_getD, List.getElem?_map, pixels_get]
    rfl

/-- **C307, the part that holds.** Under the conditions of `synth_peak_chunked_partial` the three programs on the chunks, put together in any order, give the maps of the three programs on the
whole. -/
theorem full_chunked_partial [NeZero n] (s : Setup n) (o : Pipe1D.Opts) [NeZero (nDepth s o)] [NeZero (Axis.nPhi2 (nDepth s o))] (width : SpreadFn s o → ℝ)
    (cs : CleanSetup (nDepth s o)) (ps : PeakSetup n (nDepth s o)) (hps : ps.Ok)
    (pre post : List Char) (naxis : ℕ) (hax : naxis = 2 ∨ naxis = 3 ∨ naxis = 4) {X Y : ℕ} (hX : X ≠ 1) (img : Fin X → Fin Y → Column n)
    (m : ℕ) (h0 : 2 ≤ m) (h1 : m < X * Y) (hlast : X * Y % m ≠ 1)
    (hrun : (synthClean s o width cs (pixels img)).isSome) (hd : 0 < (Pipe1D.axisParams s.freq o).1)
    (hw : ∀ x y, Weighted s o (img x y)) (files : List (File (Column n))) (hfiles : create pre post naxis img m = some files)
    (hp : o.superRes = true ∨ ∀ f ∈ files, ∀ j, chanWeight s o j ≠ 0 → (∃ x y, UsableVoxel s (img x y) j) → ∃ c ∈ f.pix, UsableVoxel s c j) :
    ∃ outs maps, files.mapM (fullFile s o width cs ps) = some outs ∧ fullWhole s o width cs ps img = some (maps, [Y, X]) ∧
      ∀ L : List (File (String → Option ℝ)), L.Perm outs →
        ∃ im, assemble L = some im ∧ ∀ (x : Fin X) (y : Fin Y), ∃ v, im x y = some v ∧ ∀ name ∈ ps.prods, v name = maps name ((y : ℕ), (x : ℕ)) := by
  have hmem := mem_file pre post naxis img m files hfiles
  have hwp : ∀ c ∈ pixels img, Weighted s o c := by
    intro c hc
    obtain ⟨x, y, rfl⟩ := (mem_pixels img c).1 hc
    exact hw x y
  have href : ∀ f ∈ files, reference s o f.pix = reference s o (pixels img) := by
    intro f hf
    apply reference_eq
    rcases hp with hp | hp
    · exact Or.inl hp
    · right
      intro j hj
      constructor
      · rintro ⟨c, hc, hu⟩
        exact ⟨c, hmem f hf c hc, hu⟩
      · rintro ⟨c, hc, hu⟩
        obtain ⟨x, y, rfl⟩ := (mem_pixels img c).1 hc
        exact hp f hf j hj ⟨x, y, hu⟩
  obtain ⟨R, hR⟩ := Option.isSome_iff_exists.1 hrun
  obtain ⟨D, hD, hR⟩ := Option.bind_eq_some_iff.1 hR
  obtain ⟨S, hS, hR⟩ := Option.bind_eq_some_iff.1 hR
  obtain ⟨hreg, g, hg, -⟩ := (runSpread_iff s o _ S).1 hS
  obtain ⟨-, hsc, -⟩ := (runCube_eq s o _ D).1 hD
  let ρ := reference s o (pixels img)
  let ψ : Column n → DirtyPixel (nDepth s o) (Axis.nPhi2 (nDepth s o)) := fun c => cleanInput width (one s o ρ c, spread s o g ρ c)
  have base : ∀ L : List (Column n), reference s o L = ρ → (∀ c ∈ L, c ∈ pixels img) →
      synthClean s o width cs L = L.mapM (fun c => cleanOne cs (ψ c)) ∧ runSpreadCube s o L = some (L.map (spread s o g ρ)) := by
    intro L hL hsub
    have e1 := (runCube_eq s o L _).2 ⟨hreg, fun c hc => by rw [hL]; exact hsc c (hsub c hc), rfl⟩
    have e2 := runSpread_eq s o hd hreg g hg L fun c hc => hwp c (hsub c hc)
    rw [hL] at e1 e2
    refine ⟨?_, e2⟩
    unfold synthClean
    rw [e1, e2, Option.bind_some, Option.bind_some, List.zip_map', List.map_map, runClean_eq, List.mapM_map]
    rfl
  have hall : ∀ c ∈ pixels img, (cleanOne cs (ψ c)).isSome := by
    rw [← mapM_isSome, ← (base _ rfl fun c hc => hc).1]
    exact hrun
  let γ : Column n → CleanPixel (nDepth s o) := fun c => (cleanOne cs (ψ c)).getD ⟨fun _ => none, fun _ => 0, 0, fun _ => none⟩
  let φ : Column n → PeakPixel (nDepth s o) := fun c => ⟨(γ c).clean, width (spread s o g ρ c)⟩
  have key : ∀ L : List (Column n), reference s o L = ρ → (∀ c ∈ L, c ∈ pixels img) → cleanPeakPixels s o width cs L = some (L.map φ) := by
    intro L hL hsub
    obtain ⟨b1, b2⟩ := base L hL hsub
    have b3 : L.mapM (fun c => cleanOne cs (ψ c)) = some (L.map γ) := by
      apply mapM_some
      intro c hc
      obtain ⟨v, hv⟩ := Option.isSome_iff_exists.1 (hall c (hsub c hc))
      simp only [γ, hv, Option.getD_some]
    unfold cleanPeakPixels
    rw [b1, b2, b3, Option.bind_some, Option.map_some, List.zip_map', List.map_map]
    rfl
  obtain ⟨outs, maps, houts, hm, hv⟩ := peaks_of_pixels (peakSetupOf s o ps (pixels img)) (peakSetupOf_ok s o ps hps _) pre post naxis hax hX img m h0 h1 hlast files hfiles φ
  refine ⟨outs, maps, ?_, ?_, hv⟩
  · rw [← houts]
    apply mapM_same
    intro f hf
    unfold fullFile
    rw [key f.pix (href f hf) (hmem f hf), Option.bind_some]
    have : peakSetupOf s o ps f.pix = peakSetupOf s o ps (pixels img) := by
      unfold peakSetupOf
      rw [href f hf]
    rw [this]
    rfl
  · unfold fullWhole
    rw [key _ rfl fun c hc => hc, Option.bind_some]
    exact hm

/-- C307 is false for a chunk of a single pixel: the peak fit of the chunk raises. -/
theorem full_single_raises [NeZero n] (s : Setup n) (o : Pipe1D.Opts) [NeZero (nDepth s o)] [NeZero (Axis.nPhi2 (nDepth s o))] (width : SpreadFn s o → ℝ)
    (cs : CleanSetup (nDepth s o)) (ps : PeakSetup n (nDepth s o)) (hps : ps.Ok) (f : File (Column n)) (hf : f.pix.length = 1) : fullFile s o width cs ps f = none := by
  unfold fullFile
  cases hP : cleanPeakPixels s o width cs f.pix with
  | none => rfl
  | some P =>
    obtain ⟨C, hC, hP⟩ := Option.bind_eq_some_iff.1 hP
    obtain ⟨S, hS, rfl⟩ := Option.map_eq_some_iff.1 hP
    obtain ⟨D, hD, hC⟩ := Option.bind_eq_some_iff.1 hC
    obtain ⟨S', hS', hC⟩ := Option.bind_eq_some_iff.1 hC
    obtain rfl : S = S' := Option.some.inj (hS.symm.trans hS')
    obtain ⟨-, g, -, rfl⟩ := (runSpread_iff s o _ S).1 hS
    obtain ⟨-, -, rfl⟩ := (runCube_eq s o _ D).1 hD
    unfold runClean at hC
    obtain ⟨r, -, rfl⟩ := Option.map_eq_some_iff.1 hC
    rw [Option.bind_some]
    exact single_chunk_none _ (peakSetupOf_ok s o ps hps _) _ (by simp [hf])

/-- Four pixels with all channels, in chunks of two, meet the hypotheses of `full_chunked_partial`, for any options of RM-CLEAN. -/
theorem full_case [NeZero (nDepth (aSetup false) Pipe3D.wOpts)] [NeZero (Axis.nPhi2 (nDepth (aSetup false) Pipe3D.wOpts))]
    (width : SpreadFn (aSetup false) Pipe3D.wOpts → ℝ) (cs : CleanSetup (nDepth (aSetup false) Pipe3D.wOpts)) (pre post : List Char) :
    let img : Fin 2 → Fin 2 → Column 2 := fun _ _ => aFull
    ∃ files outs maps, create pre post 3 img 2 = some files ∧ files.mapM (fullFile (aSetup false) Pipe3D.wOpts width cs aPeak) = some outs ∧
      fullWhole (aSetup false) Pipe3D.wOpts width cs aPeak img = some (maps, [2, 2]) := by
  intro img
  obtain ⟨hok, -, hd, hw, files, hfiles, hu⟩ := synth_peak_case width pre post
  have hrun : (synthClean (aSetup false) Pipe3D.wOpts width cs (pixels img)).isSome := by
    rw [synth_clean_runs]
    refine ⟨Option.isSome_iff_exists.2 ⟨_, (runCube_eq _ _ _ _).2 ⟨aRegular false, fun c _ => rfl, rfl⟩⟩, ?_⟩
    obtain ⟨R, hR⟩ := aRun (pixels img)
    rw [hR]
    rfl
  obtain ⟨outs, maps, h1, h2, -⟩ := full_chunked_partial (aSetup false) Pipe3D.wOpts width cs aPeak hok pre post 3 (by norm_num) (by norm_num) img 2 le_rfl (by norm_num) (by norm_num)
    hrun hd hw files hfiles (Or.inr fun f hf j _ _ => hu f hf j)
  exact ⟨files, outs, maps, hfiles, h1, h2⟩

end Verif.Chunks
