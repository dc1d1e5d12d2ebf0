import Verif.Chunks.Spread
import Verif.Chunks.Clean
import Verif.Clean.Continue

/-!
# RM synthesis and RM-CLEAN of a cube in chunks (C302)

Source: `/repo/RMtools_3D/create_chunks.py` 28-120, then `/repo/RMtools_3D/do_RMsynth_3D.py` 57-268 and `/repo/RMtools_3D/do_RMclean_3D.py` 55-164 (without
a pool) on each of the chunks, `/repo/RMtools_3D/assemble_chunks.py` 22-160. The models are those of C221, C301 and C227.
-/

namespace Verif.Chunks

open Verif.NumPy Verif.SynthSpec

variable {n : ℕ} {α β : Type*}

/-- What `rmclean3d` reads for a pixel (`do_RMclean_3D.py` 112-135): the dirty spectrum, the RMSF, and the width of the RMSF, which is a function `width` of the RMSF
(the fit of the main lobe, or the same number for all pixels). `Clean.Cube` has no NaN in the RMSF; a NaN is read as zero here, the theorems exclude it. -/
noncomputable def cleanInput [NeZero n] {s : Setup n} {o : Pipe1D.Opts} (width : SpreadFn s o → ℝ) (a : Spectrum s o × SpreadFn s o) :
    DirtyPixel (nDepth s o) (Axis.nPhi2 (nDepth s o)) := ⟨a.1, fun l => (a.2 l).getD 0, width a.2⟩

/-- `rmsynth3d` and then `rmclean3d` with its products. -/
noncomputable def synthClean [NeZero n] (s : Setup n) (o : Pipe1D.Opts) [NeZero (nDepth s o)] [NeZero (Axis.nPhi2 (nDepth s o))] (width : SpreadFn s o → ℝ) (cs : CleanSetup (nDepth s o)) (L : List (Column n)) :
    Option (List (CleanPixel (nDepth s o))) :=
  (runCube s o L).bind fun D => (runSpreadCube s o L).bind fun S => runClean cs ((D.zip S).map (cleanInput width))

/-- The two runs on a chunk. -/
noncomputable def synthCleanFile [NeZero n] (s : Setup n) (o : Pipe1D.Opts) [NeZero (nDepth s o)] [NeZero (Axis.nPhi2 (nDepth s o))] (width : SpreadFn s o → ℝ) (cs : CleanSetup (nDepth s o)) (f : File (Column n)) :
    Option (File (CleanPixel (nDepth s o))) :=
  (synthClean s o width cs f.pix).map fun r => { name := f.name, naxis := f.naxis, oldX := f.oldX, oldY := f.oldY, pix := r }

theorem create_map (pre post : List Char) (naxis : ℕ) {X Y : ℕ} (img : Fin X → Fin Y → α) (N : ℤ) (files : List (File α))
    (hfiles : create pre post naxis img N = some files) (φ : α → β) :
    create pre post naxis (fun x y => φ (img x y)) N = some (files.map (File.map φ)) := by
  obtain ⟨h0, h1⟩ := (create_isSome_iff pre post naxis img N).1 (by rw [hfiles]; rfl)
  obtain ⟨k, rfl⟩ := Int.eq_ofNat_of_zero_le h0.le
  have hk0 : 0 < k := by exact_mod_cast h0
  have hk1 : k < X * Y := by exact_mod_cast h1
  have hXY := index_pixel (lt_trans hk0 hk1)
  have hfe := Option.some.inj (hfiles.symm.trans (create_eq pre post naxis img (img ⟨_, hXY.1⟩ ⟨_, hXY.2⟩) k hk0 hk1))
  have hce := create_eq pre post naxis (fun x y => φ (img x y)) (φ (img ⟨_, hXY.1⟩ ⟨_, hXY.2⟩)) k hk0 hk1
  refine hce.trans ?_
  rw [hfe, List.map_map]
  congr 1
  apply List.map_congr_left
  intro i _
  simp only [Function.comp, File.map, List.map_map]
  congr 1
  apply List.map_congr_left
  intro t _
  simp only [Function.comp, pixAt]
  split_ifs <;> rfl

theorem mapM_same {γ δ : Type*} (l : List γ) (f f' : γ → Option δ) (h : ∀ a ∈ l, f a = f' a) : l.mapM f = l.mapM f' := by
  induction l with
  | nil => rfl
  | cons a l ih => rw [List.mapM_cons, List.mapM_cons, h a List.mem_cons_self, ih fun b hb => h b (List.mem_cons_of_mem a hb)]

theorem pixels_map {X Y : ℕ} (img : Fin X → Fin Y → α) (φ : α → β) : pixels (fun x y => φ (img x y)) = (pixels img).map φ := by
  unfold pixels
  rw [List.map_ofFn]
  rfl

/-- **C302, the part that holds.** If every pixel has Stokes Q in a channel with a weight, and every channel that can be used somewhere in the image can be used somewhere in each chunk
(or in super-resolution), then cutting the Stokes cubes into chunks, running `rmsynth3d` and `rmclean3d` on each and assembling the results, found in any order, gives the clean spectra,
components, iteration counts and residuals of the two runs on the whole. -/
theorem synth_clean_chunked_partial [NeZero n] (s : Setup n) (o : Pipe1D.Opts) [NeZero (nDepth s o)] [NeZero (Axis.nPhi2 (nDepth s o))]
    (width : SpreadFn s o → ℝ) (cs : CleanSetup (nDepth s o))
    (pre post : List Char) (naxis : ℕ) (hax : naxis = 2 ∨ naxis = 3 ∨ naxis = 4) {X Y : ℕ} (img : Fin X → Fin Y → Column n) (N : ℤ)
    (files : List (File (Column n))) (hfiles : create pre post naxis img N = some files)
    (R : List (CleanPixel (nDepth s o))) (hR : synthClean s o width cs (pixels img) = some R) (hd : 0 < (Pipe1D.axisParams s.freq o).1)
    (hw : ∀ x y, Weighted s o (img x y))
    (hp : o.superRes = true ∨ ∀ f ∈ files, ∀ j, chanWeight s o j ≠ 0 → (∃ x y, UsableVoxel s (img x y) j) → ∃ c ∈ f.pix, UsableVoxel s c j) :
    ∃ outs, files.mapM (synthCleanFile s o width cs) = some outs ∧ ∀ L : List (File (CleanPixel (nDepth s o))), L.Perm outs →
      ∃ im, assemble L = some im ∧ ∀ (x : Fin X) (y : Fin Y), im x y = R[(x : ℕ) * Y + y]? ∧ (im x y).isSome := by
  have hmem := mem_file pre post naxis img N files hfiles
  have hwp : ∀ c ∈ pixels img, Weighted s o c := by
    intro c hc
    obtain ⟨x, y, rfl⟩ := (mem_pixels img c).1 hc
    exact hw x y
  have href : ∀ f ∈ files, reference s o f.pix = reference s o (pixels img) := by
    intro f hf
    apply reference_eq
    rcases hp with hp | hp
    · exact Or.inl hp
    · right
      intro j hj
      constructor
      · rintro ⟨c, hc, hu⟩
        exact ⟨c, hmem f hf c hc, hu⟩
      · rintro ⟨c, hc, hu⟩
        obtain ⟨x, y, rfl⟩ := (mem_pixels img c).1 hc
        exact hp f hf j hj ⟨x, y, hu⟩
  obtain ⟨D, hD, hR⟩ := Option.bind_eq_some_iff.1 hR
  obtain ⟨S, hS, hR⟩ := Option.bind_eq_some_iff.1 hR
  obtain ⟨hreg, g, hg, -⟩ := (runSpread_iff s o _ S).1 hS
  obtain ⟨-, hsc, -⟩ := (runCube_eq s o _ D).1 hD
  let φ : Column n → DirtyPixel (nDepth s o) (Axis.nPhi2 (nDepth s o)) := fun c =>
    cleanInput width (one s o (reference s o (pixels img)) c, spread s o g (reference s o (pixels img)) c)
  have key : ∀ L : List (Column n), reference s o L = reference s o (pixels img) → (∀ c ∈ L, c ∈ pixels img) →
      synthClean s o width cs L = runClean cs (L.map φ) := by
    intro L hL hsub
    have e1 := (runCube_eq s o L _).2 ⟨hreg, fun c hc => by rw [hL]; exact hsc c (hsub c hc), rfl⟩
    have e2 := runSpread_eq s o hd hreg g hg L fun c hc => hwp c (hsub c hc)
    unfold synthClean
    rw [e1, e2, Option.bind_some, Option.bind_some, List.zip_map', List.map_map, hL]
    rfl
  have hRw : runClean cs (pixels fun x y => φ (img x y)) = some R := by
    rw [pixels_map, ← key _ rfl fun c hc => hc]
    unfold synthClean
    rw [hD, Option.bind_some, hS, Option.bind_some, hR]
  obtain ⟨outs, houts, hv⟩ := clean_chunked cs pre post naxis hax (fun x y => φ (img x y)) N _ (create_map pre post naxis img N files hfiles φ) R hRw
  refine ⟨outs, ?_, hv⟩
  rw [← houts, List.mapM_map]
  apply mapM_same
  intro f hf
  unfold synthCleanFile runCleanFile
  rw [key f.pix (href f hf) (hmem f hf)]
  rfl

/-- The two runs end normally exactly when both cubes are made. -/
theorem synth_clean_runs [NeZero n] (s : Setup n) (o : Pipe1D.Opts) [NeZero (nDepth s o)] [NeZero (Axis.nPhi2 (nDepth s o))]
    (width : SpreadFn s o → ℝ) (cs : CleanSetup (nDepth s o)) (L : List (Column n)) :
    (synthClean s o width cs L).isSome ↔ (runCube s o L).isSome ∧ (runSpreadCube s o L).isSome := by
  unfold synthClean
  cases hD : runCube s o L with
  | none => simp
  | some D =>
    cases hS : runSpreadCube s o L with
    | none => simp
    | some S =>
      obtain ⟨-, g, hg, -⟩ := (runSpread_iff s o _ S).1 hS
      have h2 : 2 ≤ nDepth s o := by
        by_contra h
        rw [Axis.phi2_short (by omega)] at hg
        simp at hg
      obtain ⟨r, hr⟩ := Clean.hogbom_runs (cleanCube cs ((D.zip S).map (cleanInput width))) h2 (Clean.doubled_axis_padOk _ (by omega))
      simp [runClean, hr]

/-- Two pixels with all channels, in chunks of one pixel, meet the hypotheses of `synth_clean_chunked_partial`, for any options of RM-CLEAN. -/
theorem synth_clean_case [NeZero (nDepth (aSetup false) Pipe3D.wOpts)] [NeZero (Axis.nPhi2 (nDepth (aSetup false) Pipe3D.wOpts))]
    (width : SpreadFn (aSetup false) Pipe3D.wOpts → ℝ) (cs : CleanSetup (nDepth (aSetup false) Pipe3D.wOpts)) (pre post : List Char) :
    let img : Fin 2 → Fin 1 → Column 2 := fun _ _ => aFull
    (∃ R, synthClean (aSetup false) Pipe3D.wOpts width cs (pixels img) = some R) ∧
    0 < (Pipe1D.axisParams (aSetup false).freq Pipe3D.wOpts).1 ∧ (∀ x y, Weighted (aSetup false) Pipe3D.wOpts (img x y)) ∧
    ∃ files, create pre post 3 img 1 = some files ∧ ∀ f ∈ files, ∀ j, ∃ c ∈ f.pix, UsableVoxel (aSetup false) c j := by
  intro img
  refine ⟨Option.isSome_iff_exists.1 ((synth_clean_runs _ _ width cs _).2 ⟨?_, ?_⟩), (by positivity : (0 : ℝ) < Real.pi / 2), fun x y => ⟨1, rfl, ?_⟩, ?_⟩
  · exact Option.isSome_iff_exists.2 ⟨_, (runCube_eq _ _ _ _).2 ⟨aRegular false, fun c _ => rfl, rfl⟩⟩
  · obtain ⟨R, hR⟩ := aRun (pixels img)
    rw [hR]
    rfl
  · show (1 : ℝ) ≠ 0
    norm_num
  · refine ⟨_, create_eq pre post 3 img aFull 1 one_pos (by norm_num), fun f hf j => ⟨aFull, ?_, (aUsable false j).1⟩⟩
    have hl : List.range (ceilDiv (2 * 1) 1) = [0, 1] := rfl
    rw [hl] at hf
    simp only [List.map_cons, List.map_nil, List.mem_cons, List.not_mem_nil, or_false] at hf
    rcases hf with rfl | rfl <;> exact List.mem_cons_self

theorem uncleaned [NeZero n] (s : Setup n) (o : Pipe1D.Opts) [NeZero (nDepth s o)] [NeZero (Axis.nPhi2 (nDepth s o))]
    (width : SpreadFn s o → ℝ) (cs : CleanSetup (nDepth s o)) (L : List (Column n)) (R : List (CleanPixel (nDepth s o)))
    (hR : synthClean s o width cs L = some R) (i : ℕ) (c : Column n) (hi : L[i]? = some c)
    (hcut : ∀ l, ‖(one s o (reference s o L) c l).getD 0‖ < cs.cutoff) :
    ∃ r, R[i]? = some r ∧ ∀ l, r.clean l = one s o (reference s o L) c l := by
  obtain ⟨D, hD, hR⟩ := Option.bind_eq_some_iff.1 hR
  obtain ⟨S, hS, hR⟩ := Option.bind_eq_some_iff.1 hR
  obtain ⟨-, g, -, rfl⟩ := (runSpread_iff s o _ S).1 hS
  obtain ⟨-, -, rfl⟩ := (runCube_eq s o _ D).1 hD
  obtain ⟨hil, hic⟩ := List.getElem?_eq_some_iff.1 hi
  set M := ((L.map (one s o (reference s o L))).zip (List.ofFn (spreadIn s o g L))).map (cleanInput width) with hM
  have hlen : i < M.length := by simpa [hM] using hil
  have hdirty : (M.get ⟨i, hlen⟩).dirty = one s o (reference s o L) c := by
    simp only [hM, List.get_eq_getElem, List.getElem_map, List.getElem_zip, cleanInput, hic]
  unfold runClean at hR
  obtain ⟨ro, hro, rfl⟩ := Option.map_eq_some_iff.1 hR
  have hns : ¬ (cleanCube cs M).selected ⟨i, hlen⟩ := by
    unfold Clean.Cube.selected
    rw [not_le]
    have e : ∀ l, (cleanCube cs M).dirty l ⟨i, hlen⟩ = one s o (reference s o L) c l := fun l => congrFun hdirty l
    simp only [e]
    exact hcut _
  obtain ⟨h1, -⟩ := (Clean.hogbom_pixel (cleanCube cs M) ro hro ⟨i, hlen⟩).2 hns
  refine ⟨_, by rw [List.getElem?_ofFn, dif_pos hlen], fun l => ?_⟩
  exact (h1 l).trans (congrFun hdirty l)

/-- C302 is false when a channel is blank in the whole of a chunk: of two pixels the second has no first channel, and with a cutoff above the spectra its clean spectrum
is `i` at one depth in the runs on the whole and 1 in the runs on the chunk. -/
theorem synth_clean_wrong [NeZero (nDepth (aSetup false) Pipe3D.wOpts)] [NeZero (Axis.nPhi2 (nDepth (aSetup false) Pipe3D.wOpts))]
    (width : SpreadFn (aSetup false) Pipe3D.wOpts → ℝ) (cs : CleanSetup (nDepth (aSetup false) Pipe3D.wOpts)) (hc : 1 < cs.cutoff) :
    ∃ R R' r r' l, synthClean (aSetup false) Pipe3D.wOpts width cs [aFull, aFlag] = some R ∧ synthClean (aSetup false) Pipe3D.wOpts width cs [aFlag] = some R' ∧
      R[1]? = some r ∧ R'[0]? = some r' ∧ r.clean l = some Complex.I ∧ r'.clean l = some 1 := by
  have hruns : ∀ L, ∃ R, synthClean (aSetup false) Pipe3D.wOpts width cs L = some R := by
    intro L
    refine Option.isSome_iff_exists.1 ((synth_clean_runs _ _ width cs _).2 ⟨?_, ?_⟩)
    · exact Option.isSome_iff_exists.2 ⟨_, (runCube_eq _ _ _ _).2 ⟨aRegular false, fun c _ => rfl, rfl⟩⟩
    · obtain ⟨R, hR⟩ := aRun L
      rw [hR]
      rfl
  have hone : ∀ ref l, one (aSetup false) Pipe3D.wOpts ref aFlag l =
      some (Complex.exp (-2 * Complex.I * (Axis.phiAxis (Real.pi / 2) (Real.pi / 2) l : ℝ) * (1 - ref))) := by
    intro ref l
    have hsc : scaleAt (aSetup false) ref aFlag = some (some 1) := rfl
    unfold one
    rw [hsc, aValue]
    simp
  have hcut : ∀ (ref : ℝ) l, ‖(one (aSetup false) Pipe3D.wOpts ref aFlag l).getD 0‖ < cs.cutoff := by
    intro ref l
    have e : (-2 * Complex.I * (Axis.phiAxis (Real.pi / 2) (Real.pi / 2) l : ℝ) * (1 - ref) : ℂ) =
        ((-2 * Axis.phiAxis (Real.pi / 2) (Real.pi / 2) l * (1 - ref) : ℝ) : ℂ) * Complex.I := by
      push_cast
      ring
    rw [hone, Option.getD_some, e, Complex.norm_exp_ofReal_mul_I]
    exact hc
  obtain ⟨R, hR⟩ := hruns [aFull, aFlag]
  obtain ⟨R', hR'⟩ := hruns [aFlag]
  obtain ⟨r, hr, hrv⟩ := uncleaned _ _ width cs _ R hR 1 aFlag rfl (hcut _)
  obtain ⟨r', hr', hrv'⟩ := uncleaned _ _ width cs _ R' hR' 0 aFlag rfl (hcut _)
  have hn : nDepth (aSetup false) Pipe3D.wOpts = 3 := Pipe3D.wOpts_nChan
  let l : Fin (nDepth (aSetup false) Pipe3D.wOpts) := ⟨2, by omega⟩
  have hl : Axis.phiAxis (Real.pi / 2) (Real.pi / 2) l = Real.pi / 2 := Pipe3D.wAxis l rfl
  obtain ⟨r1, r2⟩ := aReference false
  refine ⟨R, R', r, r', l, hR, hR', hr, hr', ?_, ?_⟩
  · rw [hrv, hone, r1, hl]
    have : (-2 * Complex.I * ((Real.pi / 2 : ℝ) : ℂ) * (1 - ((3 / 2 : ℝ) : ℂ)) : ℂ) = (Real.pi : ℂ) / 2 * Complex.I := by push_cast; ring
    rw [this, Complex.exp_pi_div_two_mul_I]
  · rw [hrv', hone, r2]
    simp

end Verif.Chunks
