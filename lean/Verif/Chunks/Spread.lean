import Verif.Chunks.Synth

/-!
# The RMSF cube in chunks (C301)

Source: `/repo/RMtools_3D/create_chunks.py` 28-120, the call of `get_rmsf_planes` in `/repo/RMtools_3D/do_RMsynth_3D.py` 213-226 on each of the chunks,
`/repo/RMtools_3D/assemble_chunks.py` 22-160. The models are `Chunks.create`, `Pipe3D.rmsfCube`, `Chunks.assemble`.
-/

namespace Verif.Chunks

open Complex Verif.NumPy Verif.SynthSpec

variable {n : ℕ}

/-- The RMSF of a pixel; `none` is NaN. -/
abbrev SpreadFn [NeZero n] (s : Setup n) (o : Pipe1D.Opts) := Fin (Axis.nPhi2 (nDepth s o)) → Option ℂ

/-- The run of `rmsynth3d` on the cube with these pixels: the RMSF cube (`do_RMsynth_3D.py` 213-226), pixel by pixel. `none`: the doubling of an axis of
one sample raises, or the input is not regular and not modelled. -/
noncomputable def runSpreadCube [NeZero n] (s : Setup n) (o : Pipe1D.Opts) (L : List (Column n)) : Option (List (SpreadFn s o)) :=
  (Pipe3D.rmsfCube (cubeOf s L) o).map fun R => List.ofFn fun p l => R l p

/-- The run on a chunk file. -/
noncomputable def runSpreadFile [NeZero n] (s : Setup n) (o : Pipe1D.Opts) (f : File (Column n)) : Option (File (SpreadFn s o)) :=
  (runSpreadCube s o f.pix).map fun r => { name := f.name, naxis := f.naxis, oldX := f.oldX, oldY := f.oldY, pix := r }

/-! ## Specification -/

/-- The Faraday depth axis of a run. -/
noncomputable def depths [NeZero n] (s : Setup n) (o : Pipe1D.Opts) : Fin (nDepth s o) → ℝ :=
  Axis.phiAxis (Pipe1D.axisParams s.freq o).2 (Pipe1D.axisParams s.freq o).1

/-- Stokes Q of the pixel is there in a channel with a weight. -/
def Weighted (s : Setup n) (o : Pipe1D.Opts) (c : Column n) : Prop := ∃ j, (c.q j).isSome ∧ chanWeight s o j ≠ 0

/-! ## One pixel -/

/-- The RMSF of one pixel with a given reference, on the axis `g`. -/
noncomputable def spread [NeZero n] (s : Setup n) (o : Pipe1D.Opts) (g : Fin (Axis.nPhi2 (nDepth s o)) → ℝ) (ref : ℝ) (c : Column n) : SpreadFn s o := fun l =>
  some (SynthSpec.rmsf (effWeight (some (Pipe3D.weight (cubeOf s [c]) o))) (fun j => (c.q j).isNone = false) (Pipe1D.lamSq s.freq) ref (g l))

theorem weighted_sum [NeZero n] (s : Setup n) (o : Pipe1D.Opts) (g : Fin (Axis.nPhi2 (nDepth s o)) → ℝ) (L : List (Column n)) (p : Fin L.length)
    (h : Weighted s o (L.get p)) : Rmsf.pixelWeight (Pipe3D.rmsfInput (cubeOf s L) o g) p ≠ 0 := by
  obtain ⟨j, hj, hw⟩ := h
  apply ne_of_gt
  unfold Rmsf.pixelWeight weightSum
  refine Finset.sum_pos' (fun i _ => Pipe3D.weight_nonneg (cubeOf s L) o i) ⟨j, ?_, ?_⟩
  · simp only [Finset.mem_filter, Finset.mem_univ, true_and]
    show ((L.get p).q j).isNone = false
    cases hq : (L.get p).q j with
    | none => rw [hq] at hj; cases hj
    | some v => rfl
  · refine lt_of_le_of_ne (Pipe3D.weight_nonneg (cubeOf s L) o j) ?_
    rw [← chanWeight_eq s o L j, Synth.weight0_eq] at hw
    exact hw.symm

theorem doubled_sym [NeZero n] (s : Setup n) (o : Pipe1D.Opts) (hd : 0 < (Pipe1D.axisParams s.freq o).1) (g : Fin (Axis.nPhi2 (nDepth s o)) → ℝ)
    (hg : Axis.phi2 (depths s o) = some g) : SymGrid g := by
  have h2 : 2 ≤ nDepth s o := by
    by_contra h
    rw [Axis.phi2_short (by omega)] at hg
    simp at hg
  obtain ⟨g', hg', -, -, -, -, hs2⟩ := Axis.phi2_spec h2 (depths s o)
  rw [hg, Option.some.injEq] at hg'
  subst hg'
  obtain ⟨-, -, -, hsym, -⟩ := Axis.phiAxis_spec (Pipe1D.axisParams s.freq o).2 (Pipe1D.axisParams s.freq o).1 hd
  exact hs2 hsym

/-- The RMSF of pixel `p` in the run, on the axis `g`. -/
noncomputable def spreadIn [NeZero n] (s : Setup n) (o : Pipe1D.Opts) (g : Fin (Axis.nPhi2 (nDepth s o)) → ℝ) (L : List (Column n)) (p : Fin L.length) : SpreadFn s o :=
  fun l => Rmsf.rmsf (Pipe3D.rmsfInput (cubeOf s L) o g) l p

theorem runSpread_iff [NeZero n] (s : Setup n) (o : Pipe1D.Opts) (L : List (Column n)) (R : List (SpreadFn s o)) :
    runSpreadCube s o L = some R ↔ RegularSetup s o ∧ ∃ g, Axis.phi2 (depths s o) = some g ∧
      R = List.ofFn (spreadIn s o g L) := by
  classical
  unfold runSpreadCube Pipe3D.rmsfCube
  by_cases h : RegularSetup s o
  · rw [if_pos ((regular_cubeOf s o L).2 h), Option.map_map, Option.map_eq_some_iff]
    constructor
    · rintro ⟨g, hg, rfl⟩
      exact ⟨h, g, hg, rfl⟩
    · rintro ⟨-, g, hg, rfl⟩
      exact ⟨g, hg, rfl⟩
  · rw [if_neg fun h' => h ((regular_cubeOf s o L).1 h')]
    simp [h]

/-- A run gives every pixel its RMSF with the reference of the run. -/
theorem runSpread_eq [NeZero n] (s : Setup n) (o : Pipe1D.Opts) (hd : 0 < (Pipe1D.axisParams s.freq o).1) (hreg : RegularSetup s o)
    (g : Fin (Axis.nPhi2 (nDepth s o)) → ℝ) (hg : Axis.phi2 (depths s o) = some g) (L : List (Column n)) (hL : ∀ c ∈ L, Weighted s o c) :
    runSpreadCube s o L = some (L.map (spread s o g (reference s o L))) := by
  rw [runSpread_iff]
  refine ⟨hreg, g, hg, ?_⟩
  apply List.ext_getElem
  · simp
  · intro i hi1 hi2
    have hi : i < L.length := by simpa using hi1
    simp only [List.getElem_ofFn, List.getElem_map]
    funext l
    exact (Rmsf.rmsf_sym (Pipe3D.rmsfInput (cubeOf s L) o g) (doubled_sym s o hd g hg) (reference s o L) rfl l ⟨i, hi⟩
      (weighted_sum s o g L ⟨i, hi⟩ (hL _ (List.getElem_mem hi)))).symm

theorem spread_turn [NeZero n] (s : Setup n) (o : Pipe1D.Opts) (g : Fin (Axis.nPhi2 (nDepth s o)) → ℝ) (a b : ℝ) (c : Column n)
    (l : Fin (Axis.nPhi2 (nDepth s o))) :
    spread s o g b c l = (spread s o g a c l).map fun z => exp (2 * I * (g l : ℝ) * (b - a)) * z := by
  unfold spread SynthSpec.rmsf
  rw [Option.map_some, Option.some.injEq, ← mul_div_assoc, Finset.mul_sum]
  congr 1
  refine Finset.sum_congr rfl fun j _ => ?_
  rw [mul_left_comm, ← Complex.exp_add]
  congr 2
  ring

/-- **C301, the part that holds.** If every pixel has Stokes Q in a channel with a weight, the RMSF cube assembled from the runs on the chunks has the same
moduli as the RMSF cube of the run on the whole, and its phases differ by the difference of the reference wavelengths; it is the same cube if every channel that can be used somewhere
in the image can be used somewhere in each chunk, and in super-resolution. -/
theorem spread_chunked_partial [NeZero n] (s : Setup n) (o : Pipe1D.Opts) (pre post : List Char) (naxis : ℕ)
    (hax : naxis = 2 ∨ naxis = 3 ∨ naxis = 4) {X Y : ℕ} (img : Fin X → Fin Y → Column n) (N : ℤ)
    (files : List (File (Column n))) (hfiles : create pre post naxis img N = some files)
    (R : List (SpreadFn s o)) (hR : runSpreadCube s o (pixels img) = some R) (hd : 0 < (Pipe1D.axisParams s.freq o).1)
    (hw : ∀ x y, Weighted s o (img x y)) :
    ∃ outs g, files.mapM (runSpreadFile s o) = some outs ∧ Axis.phi2 (depths s o) = some g ∧ ∀ L : List (File (SpreadFn s o)), L.Perm outs →
      ∃ im, assemble L = some im ∧ ∀ (x : Fin X) (y : Fin Y), ∃ r r', R[(x : ℕ) * Y + y]? = some r ∧ im x y = some r' ∧
        (∀ l, (r' l).map norm = (r l).map norm ∧ (r l).isSome) ∧
        (∃ f ∈ files, img x y ∈ f.pix ∧ ∀ l, r' l = (r l).map fun z => exp (2 * I * (g l : ℝ) * (reference s o f.pix - reference s o (pixels img))) * z) ∧
        ((o.superRes = true ∨ ∀ f ∈ files, ∀ j, chanWeight s o j ≠ 0 → (∃ x y, UsableVoxel s (img x y) j) → ∃ c ∈ f.pix, UsableVoxel s c j) → r' = r) := by
  obtain ⟨hreg, g, hg, -⟩ := (runSpread_iff s o _ R).1 hR
  have hwp : ∀ c ∈ pixels img, Weighted s o c := by
    intro c hc
    obtain ⟨x, y, rfl⟩ := (mem_pixels img c).1 hc
    exact hw x y
  have hmem := mem_file pre post naxis img N files hfiles
  rw [runSpread_eq s o hd hreg g hg _ hwp, Option.some.injEq] at hR
  subst hR
  have houts : files.mapM (runSpreadFile s o) = some (files.map fun f => File.map (spread s o g (reference s o f.pix)) f) := by
    apply mapM_some
    intro f hf
    unfold runSpreadFile
    rw [runSpread_eq s o hd hreg g hg f.pix fun c hc => hwp c (hmem f hf c hc)]
    rfl
  refine ⟨_, g, houts, hg, fun L hL => ?_⟩
  obtain ⟨h0, h1⟩ := (create_isSome_iff pre post naxis img N).1 (by rw [hfiles]; rfl)
  obtain ⟨k, rfl⟩ := Int.eq_ofNat_of_zero_le h0.le
  have hk0 : 0 < k := by exact_mod_cast h0
  have hk1 : k < X * Y := by exact_mod_cast h1
  let G : ℕ → Column n → SpreadFn s o := fun i => spread s o g (reference s o ((files[i]?).elim [] File.pix))
  obtain ⟨files', hf', hr⟩ := chunk_round_trip_each pre post naxis hax img k hk0 hk1 G
  have hff : files' = files := Option.some.inj (hf'.symm.trans hfiles)
  rw [hff] at hr
  obtain ⟨im, him, hval⟩ := hr L (by
    refine hL.trans (List.Perm.of_eq ?_)
    apply List.ext_getElem
    · simp
    · intro i hi1 hi2
      have hi : i < files.length := by simpa using hi1
      simp only [List.getElem_map, List.getElem_mapIdx, G, List.getElem?_eq_getElem hi, Option.elim_some])
  refine ⟨im, him, fun x y => ?_⟩
  obtain ⟨p1, p2, p3⟩ := pixel_index x.isLt y.isLt
  have hXY := index_pixel (lt_trans hk0 hk1)
  have hce := create_eq pre post naxis img (img ⟨_, hXY.1⟩ ⟨_, hXY.2⟩) k hk0 hk1
  have hfe := Option.some.inj (hfiles.symm.trans hce)
  have hiK : ((x : ℕ) * Y + y) / k < ceilDiv (X * Y) k := by
    have := two_le_ceilDiv (X * Y) k hk0 hk1
    have := ceilDiv_spec (X * Y) k hk0 (by omega)
    rw [Nat.div_lt_iff_lt_mul hk0]
    omega
  have hi : ((x : ℕ) * Y + y) / k < files.length := by rw [hfe]; simpa using hiK
  have himg : img x y ∈ (files[((x : ℕ) * Y + y) / k]).pix := by
    rw [List.getElem_of_eq hfe hi, List.getElem_map, List.getElem_range]
    dsimp only
    rw [List.mem_map]
    exact ⟨(x : ℕ) * Y + y, (mem_chunkIdx k (X * Y) _ _ _ hk0 rfl hiK).2 ⟨p1, rfl⟩, pixAt_index img _ x y⟩
  have hv : im x y = some (spread s o g (reference s o (files[((x : ℕ) * Y + y) / k]).pix) (img x y)) := by
    rw [hval x y]
    simp only [G, List.getElem?_eq_getElem hi, Option.elim_some]
  have hf := List.getElem_mem hi
  set f := files[((x : ℕ) * Y + y) / k]
  refine ⟨spread s o g (reference s o (pixels img)) (img x y), _, by rw [List.getElem?_map, pixels_get]; rfl, hv, fun l => ⟨?_, rfl⟩,
    ⟨f, hf, himg, fun l => spread_turn s o g _ _ _ l⟩, fun hp => ?_⟩
  · rw [spread_turn s o g (reference s o (pixels img)) (reference s o f.pix)]
    unfold spread
    rw [Option.map_some, Option.map_some, Option.map_some, norm_mul]
    have e : (2 * I * ((g l : ℝ) : ℂ) * ((reference s o f.pix : ℂ) - reference s o (pixels img))) =
        ((2 * g l * (reference s o f.pix - reference s o (pixels img)) : ℝ) : ℂ) * I := by
      push_cast
      ring
    rw [e, Complex.norm_exp_ofReal_mul_I, one_mul]
  · congr 1
    apply reference_eq
    rcases hp with hp | hp
    · exact Or.inl hp
    · right
      intro j hj
      constructor
      · rintro ⟨c, hc, hu⟩
        exact ⟨c, hmem f hf c hc, hu⟩
      · rintro ⟨c, hc, hu⟩
        obtain ⟨x, y, rfl⟩ := (mem_pixels img c).1 hc
        exact hp f hf j hj ⟨x, y, hu⟩

theorem rmsf_blank {m k : ℕ} (x : Rmsf.Input n m k) (hn : ¬ Rmsf.do1D x) (ref : ℝ) (hl : Rmsf.lam0Sq x = some ref) (l : Fin k) (p : Fin m)
    (hm : ∀ j, x.msk j p = true) : Rmsf.rmsf x l p = some 0 := by
  unfold Rmsf.rmsf
  rw [hl]
  dsimp only
  rw [if_neg hn, Rmsf.rmsfPix_eq]
  unfold SynthSpec.rmsf
  have he : (Finset.univ.filter fun j => x.msk j p = false) = ∅ := by
    rw [Finset.filter_eq_empty_iff]
    intro j _
    rw [hm j]
    simp
  rw [he, Finset.sum_empty, zero_div]

/-- C301 is false for blank pixels. In the run on the whole a pixel without Stokes Q has an RMSF of zeros if another pixel has Stokes Q in some channel; in the run on a
chunk with blank pixels only it is NaN. -/
theorem spread_blank_wrong [NeZero n] (s : Setup n) (o : Pipe1D.Opts) (L f : List (Column n)) (R R' : List (SpreadFn s o))
    (hR : runSpreadCube s o L = some R) (hR' : runSpreadCube s o f = some R')
    (c : Column n) (hc : ∀ j, c.q j = none) (hother : ∃ d ∈ L, ∃ j, (d.q j).isSome) (hf : ∀ d ∈ f, ∀ j, d.q j = none)
    (i i' : ℕ) (hi : L[i]? = some c) (hi' : f[i']? = some c) :
    ∃ r r', R[i]? = some r ∧ R'[i']? = some r' ∧ ∀ l, r l = some 0 ∧ r' l = none := by
  obtain ⟨-, g, hg, rfl⟩ := (runSpread_iff s o _ R).1 hR
  obtain ⟨-, g', hg', rfl⟩ := (runSpread_iff s o _ R').1 hR'
  obtain ⟨hil, hiv⟩ := List.getElem?_eq_some_iff.1 hi
  obtain ⟨hil', hiv'⟩ := List.getElem?_eq_some_iff.1 hi'
  refine ⟨_, _, by rw [List.getElem?_ofFn, dif_pos hil], by rw [List.getElem?_ofFn, dif_pos hil'], fun l => ⟨?_, ?_⟩⟩
  · have hn : ¬ Rmsf.do1D (Pipe3D.rmsfInput (cubeOf s L) o g) := by
      intro h
      obtain ⟨d, hd, j, hj⟩ := hother
      obtain ⟨p, rfl⟩ := List.get_of_mem hd
      rcases h j with h | h
      · have := (Rmsf.xySum_eq_zero _ j).1 h ⟨i, hil⟩
        have e : ((L.get ⟨i, hil⟩).q j).isNone = false := this
        rw [List.get_eq_getElem, hiv, hc j] at e
        cases e
      · have := (Rmsf.xySum_eq_m _ j).1 h p
        have e : ((L.get p).q j).isNone = true := this
        cases hq : (L.get p).q j with
        | none => rw [hq] at hj; cases hj
        | some v => rw [hq] at e; cases e
    refine rmsf_blank (Pipe3D.rmsfInput (cubeOf s L) o g) hn (reference s o L) rfl l ⟨i, hil⟩ fun j => ?_
    show ((L.get ⟨i, hil⟩).q j).isNone = true
    rw [List.get_eq_getElem, hiv, hc j]
    rfl
  · have hall : ∀ j p, (Pipe3D.rmsfInput (cubeOf s f) o g').msk j p = true := by
      intro j p
      show ((f.get p).q j).isNone = true
      rw [hf _ (List.get_mem f p) j]
      rfl
    have h1 : Rmsf.do1D (Pipe3D.rmsfInput (cubeOf s f) o g') := fun j => Or.inr ((Rmsf.xySum_eq_m _ j).2 (hall j))
    show Rmsf.rmsf (Pipe3D.rmsfInput (cubeOf s f) o g') l ⟨i', hil'⟩ = none
    unfold Rmsf.rmsf
    have hl : Rmsf.lam0Sq (Pipe3D.rmsfInput (cubeOf s f) o g') = some (reference s o f) := rfl
    rw [hl]
    dsimp only
    rw [if_pos h1]
    unfold Rmsf.rmsf1D
    rw [if_pos]
    exact Finset.sum_eq_zero fun j _ => Rmsf.weight1_of_full _ j (hall j)

/-! ## The hypotheses can be met -/

/-- A blank pixel. -/
def aBlank : Column 2 := ⟨fun _ => none, fun _ => none, fun _ => none⟩

theorem aRun (L : List (Column 2)) : ∃ R, runSpreadCube (aSetup false) Pipe3D.wOpts L = some R := by
  have h2 : 2 ≤ nDepth (aSetup false) Pipe3D.wOpts := by
    show 2 ≤ Axis.nChanRM (Real.pi / 2) (Real.pi / 2)
    rw [Pipe3D.wOpts_nChan]
    norm_num
  obtain ⟨g, hg, -⟩ := Axis.phi2_spec h2 (depths (aSetup false) Pipe3D.wOpts)
  exact ⟨_, (runSpread_iff _ _ L _).2 ⟨aRegular false, g, hg, rfl⟩⟩

/-- Two pixels, one of them blank, in chunks of one pixel. -/
theorem spread_blank_case : ∃ R R' r r', runSpreadCube (aSetup false) Pipe3D.wOpts [aFull, aBlank] = some R ∧
    runSpreadCube (aSetup false) Pipe3D.wOpts [aBlank] = some R' ∧ R[1]? = some r ∧ R'[0]? = some r' ∧ ∀ l, r l = some 0 ∧ r' l = none := by
  obtain ⟨R, hR⟩ := aRun [aFull, aBlank]
  obtain ⟨R', hR'⟩ := aRun [aBlank]
  obtain ⟨r, r', h⟩ := spread_blank_wrong _ _ _ _ R R' hR hR' aBlank (fun _ => rfl) ⟨aFull, by simp, 0, rfl⟩
    (by intro d hd j; rw [List.mem_singleton] at hd; subst hd; rfl) 1 0 rfl rfl
  exact ⟨R, R', r, r', hR, hR', h⟩

/-- The image of C221 meets the hypotheses of `spread_chunked_partial`, with different references of the chunks. -/
theorem spread_case : (∃ R, runSpreadCube (aSetup false) Pipe3D.wOpts (pixels aImage) = some R) ∧
    0 < (Pipe1D.axisParams (aSetup false).freq Pipe3D.wOpts).1 ∧ ∀ x y, Weighted (aSetup false) Pipe3D.wOpts (aImage x y) := by
  refine ⟨aRun _, (by positivity : (0 : ℝ) < Real.pi / 2), fun x y => ⟨1, ?_, ?_⟩⟩
  · unfold aImage
    split_ifs <;> rfl
  · show (1 : ℝ) ≠ 0
    norm_num

end Verif.Chunks
