import Verif.PeakFit.Props

/-!
# Peak-fit maps of files (C120)

Cubes as RM synthesis writes them: axes depth, row, column, the depth axis recognised or the slowest one.
-/

namespace Verif.PeakFit

open Verif.NumPy

variable {n N : ℕ}

theorem readFDF_plain {α : Type*} (isFD : ℕ → Bool) (d : NdArr α) (ny nx : ℕ) (hd : d.shape = [N, ny, nx])
    (hax : Cube.findAxis isFD 3 3 = 3) : Cube.readFDF isFD d = d.squeeze := by
  unfold Cube.readFDF
  rw [hd]
  simp [hax]

/-- An image of at least two columns keeps its shape and its pixels. -/
theorem addRow_squeeze {α : Type*} (d : NdArr α) (ny nx : ℕ) (hd : d.shape = [N, ny, nx]) (hN : N ≠ 1)
    (hx : nx ≠ 1) : (addRow d.squeeze).shape = [N, ny, nx] ∧
      ∀ k a b, a < ny → (addRow d.squeeze).get [k, a, b] = d.get [k, a, b] := by
  by_cases hy : ny = 1
  · have hs : d.squeeze.shape = [N, nx] := by simp [NdArr.squeeze, hd, sqz, hN, hx, hy]
    unfold addRow
    rw [hs]
    refine ⟨by simp [hy], fun k a b ha => ?_⟩
    have : a = 0 := by omega
    simp [NdArr.squeeze, hd, fill, hN, hx, hy, this]
  · have hs : d.squeeze.shape = [N, ny, nx] := by simp [NdArr.squeeze, hd, sqz, hN, hx, hy]
    have e : addRow d.squeeze = d.squeeze := by unfold addRow; rw [hs]
    rw [e]
    refine ⟨hs, fun k a b _ => ?_⟩
    simp [NdArr.squeeze, hd, fill, hN, hx, hy]

theorem addRowMap_squeeze {α : Type*} (c : NdArr (Option ℂ)) (d : NdArr α) (ny nx : ℕ) (hd : d.shape = [ny, nx])
    (hx : nx ≠ 1) (hc : c.shape.length = 2 ↔ ny = 1) : (addRowMap c d.squeeze).shape = [ny, nx] ∧
      ∀ a b, a < ny → (addRowMap c d.squeeze).get [a, b] = d.get [a, b] := by
  unfold addRowMap
  by_cases hy : ny = 1
  · rw [if_pos (hc.mpr hy)]
    refine ⟨by simp [NdArr.expandFront, NdArr.squeeze, hd, sqz, hx, hy], fun a b ha => ?_⟩
    have : a = 0 := by omega
    simp [NdArr.expandFront, NdArr.squeeze, hd, fill, hx, hy, this]
  · rw [if_neg (fun h => hy (hc.mp h))]
    refine ⟨by simp [NdArr.squeeze, hd, sqz, hx, hy], fun a b _ => ?_⟩
    simp [NdArr.squeeze, hd, fill, hx, hy]

/-- C120, the part that holds: for an image of at least two columns the maps have the shape of the image, and every
pixel has the measurements of its own spectrum (or NaN in all maps if that is blank). -/
theorem file_maps_partial [NeZero n] (isFD : ℕ → Bool) (d : NdArr (Option ℂ)) (fwhm : NdArr ℝ) (phi : Fin N → ℝ)
    (lamSq : Fin n → ℝ) (lam0 : ℝ) (variance : Bool) (prods : List String) (ny nx : ℕ)
    (hd : d.shape = [N, ny, nx]) (hax : Cube.findAxis isFD 3 3 = 3) (hfw : fwhm.shape = [ny, nx]) (hN : 3 ≤ N)
    (hx : nx ≠ 1) (hprods : ∀ k ∈ prods, k ∈ allProducts) :
    ∃ maps, fitFile isFD d fwhm phi lamSq lam0 none none variance prods = some (maps, [ny, nx]) ∧
      ∀ a b, a < ny → b < nx →
        ((∃ k : Fin N, d.get [k, a, b] = none) → ∀ name ∈ prods, maps name (a, b) = none) ∧
        ∀ F : Fin N → ℂ, (∀ k : Fin N, d.get [k, a, b] = some (F k)) →
          ∃ m, Pipe1D.measureN F phi (fwhm.get [a, b]) none lamSq lam0 = some m ∧
            ∀ name ∈ prods, maps name (a, b) = meaning lamSq lam0 m (fwhm.get [a, b]) 1 none name := by
  obtain ⟨hs, hg⟩ := addRow_squeeze d ny nx hd (by omega) hx
  have hlen : d.squeeze.shape.length = 2 ↔ ny = 1 := by
    have hN1 : N ≠ 1 := by omega
    by_cases hy : ny = 1 <;> simp [NdArr.squeeze, hd, sqz, hN1, hx, hy]
  obtain ⟨hfs, hfg⟩ := addRowMap_squeeze d.squeeze fwhm ny nx hfw hx hlen
  unfold fitFile
  dsimp only
  rw [readFDF_plain isFD d ny nx hd hax]
  set X : In n N :=
    { fdf := addRow d.squeeze, phi := phi, fwhm := addRowMap d.squeeze fwhm.squeeze, lamSq := lamSq, lam0 := lam0,
      noise := none, i := none, variance := variance } with hX
  have hfit : Fits X ny nx := ⟨hs, hfs, fun c hc => by simp [hX] at hc, fun c hc => by simp [hX] at hc⟩
  obtain ⟨maps, hm, hpix⟩ := maps_spec X ny nx hfit hN prods hprods
  refine ⟨maps, hm, ?_⟩
  intro a b ha hb
  obtain ⟨h1, h2⟩ := hpix a b ha hb
  constructor
  · rintro ⟨k, hk⟩
    exact h1 ⟨k, by rw [show X.fdf = addRow d.squeeze from rfl, hg k a b ha]; exact hk⟩
  · intro F hF
    obtain ⟨v, m, hv, hm', hval⟩ := h2 F (fun k => by
      rw [show X.fdf = addRow d.squeeze from rfl, hg k a b ha]; exact hF k)
    have hv1 : v = 1 := by
      have : stokesAt X (a, b) = some 1 := rfl
      rw [this] at hv
      exact (Option.some.inj hv).symm
    have hnone : noiseAt X v = none := rfl
    rw [hnone] at hm' hval
    have hfw' : X.fwhm.get [a, b] = fwhm.get [a, b] := hfg a b ha
    rw [hfw', hv1] at hval
    rw [hfw'] at hm'
    exact ⟨m, hm', hval⟩

/-- Instance: an image of one row and two columns, three depths. -/
example : ∃ (d : NdArr (Option ℂ)) (fwhm : NdArr ℝ), d.shape = [3, 1, 2] ∧ fwhm.shape = [1, 2] ∧
    Cube.findAxis (fun i => i == 3) 3 3 = 3 ∧ (2 : ℕ) ≠ 1 ∧ ∀ k ∈ defaultProducts, k ∈ allProducts :=
  ⟨⟨[3, 1, 2], fun _ => some 1⟩, ⟨[1, 2], fun _ => 1⟩, rfl, rfl, rfl, by decide, products_known.1⟩

/-- The shape of the maps is that of the cube after `addRow`. -/
theorem fit_shape [NeZero n] (x : In n N) (prods : List String) (maps : Maps) (sh : List ℕ)
    (h : fit x prods = some (maps, sh)) : sh = x.fdf.shape.tail := by
  unfold fit at h
  split at h
  · rename_i k s0 s1 hs
    rw [hs]
    cases h1 : ifreq0Arr x with
    | none => rw [h1] at h; simp at h
    | some i0 =>
      rw [h1] at h
      cases h2 : dFDF x i0 with
      | none => rw [Option.bind_some, h2] at h; simp at h
      | some d =>
        rw [Option.bind_some, h2, Option.bind_some] at h
        cases h3 : loop prods (pixel x i0 d) (pixels s0 s1) with
        | none => rw [h3] at h; simp at h
        | some mp =>
          rw [h3] at h
          simp only [Option.map_some, Option.some.injEq, Prod.mk.injEq] at h
          exact h.2.symm
  · simp at h

/-- C120 is false for the code: an image of one column and `ny ≥ 2` rows gives maps of one row and `ny` columns. -/
theorem column_transposed [NeZero n] (isFD : ℕ → Bool) (d : NdArr (Option ℂ)) (fwhm : NdArr ℝ) (phi : Fin N → ℝ)
    (lamSq : Fin n → ℝ) (lam0 : ℝ) (noise : Option (Fin n → Option ℝ)) (i : Option (NdArr ℝ)) (variance : Bool)
    (prods : List String) (ny : ℕ) (hd : d.shape = [N, ny, 1]) (hax : Cube.findAxis isFD 3 3 = 3) (hN : N ≠ 1)
    (hy : 2 ≤ ny) (maps : Maps) (sh : List ℕ)
    (h : fitFile isFD d fwhm phi lamSq lam0 noise i variance prods = some (maps, sh)) :
    sh = [1, ny] ∧ sh ≠ [ny, 1] := by
  unfold fitFile at h
  dsimp only at h
  rw [readFDF_plain isFD d ny 1 hd hax] at h
  have hsq : d.squeeze.shape = [N, ny] := by
    have : ny ≠ 1 := by omega
    simp [NdArr.squeeze, hd, sqz, hN, this]
  have hs := fit_shape _ prods maps sh h
  have : (addRow d.squeeze).shape = [N, 1, ny] := by unfold addRow; rw [hsq]
  replace hs : sh = (addRow d.squeeze).shape.tail := hs
  rw [this] at hs
  subst hs
  refine ⟨rfl, ?_⟩
  intro hh
  simp at hh
  omega

/-- Such a run does produce maps (the hypothesis of `column_transposed` is met). -/
theorem column_runs [NeZero n] (isFD : ℕ → Bool) (d : NdArr (Option ℂ)) (fwhm : NdArr ℝ) (phi : Fin N → ℝ)
    (lamSq : Fin n → ℝ) (lam0 : ℝ) (variance : Bool) (prods : List String) (ny : ℕ) (hd : d.shape = [N, ny, 1])
    (hax : Cube.findAxis isFD 3 3 = 3) (hfw : fwhm.shape = [ny, 1]) (hN : 3 ≤ N) (hy : 2 ≤ ny)
    (hprods : ∀ k ∈ prods, k ∈ allProducts) :
    (fitFile isFD d fwhm phi lamSq lam0 none none variance prods).isSome := by
  have hy1 : ny ≠ 1 := by omega
  have hN1 : N ≠ 1 := by omega
  have hsq : d.squeeze.shape = [N, ny] := by simp [NdArr.squeeze, hd, sqz, hN1, hy1]
  unfold fitFile
  dsimp only
  rw [readFDF_plain isFD d ny 1 hd hax]
  set X : In n N :=
    { fdf := addRow d.squeeze, phi := phi, fwhm := addRowMap d.squeeze fwhm.squeeze, lamSq := lamSq, lam0 := lam0,
      noise := none, i := none, variance := variance } with hX
  have hfit : Fits X 1 ny := by
    refine ⟨?_, ?_, fun c hc => by simp [hX] at hc, fun c hc => by simp [hX] at hc⟩
    · show (addRow d.squeeze).shape = _
      unfold addRow; rw [hsq]
    · show (addRowMap d.squeeze fwhm.squeeze).shape = _
      unfold addRowMap
      rw [hsq]
      simp [NdArr.expandFront, NdArr.squeeze, hfw, sqz, hy1]
  obtain ⟨maps, hm, -⟩ := maps_spec X 1 ny hfit hN prods hprods
  rw [hm]; rfl

/-- With a Stokes I model (of the image's own shape) a column fares worse: all pixels but the first are NaN in all
maps, whatever their spectra are. -/
theorem column_stokesI_lost [NeZero n] (isFD : ℕ → Bool) (d : NdArr (Option ℂ)) (fwhm : NdArr ℝ) (phi : Fin N → ℝ)
    (lamSq : Fin n → ℝ) (lam0 : ℝ) (c : NdArr ℝ) (variance : Bool) (prods : List String) (ny : ℕ)
    (hd : d.shape = [N, ny, 1]) (hax : Cube.findAxis isFD 3 3 = 3) (hN : N ≠ 1) (hy : 2 ≤ ny)
    (hc : c.shape = [n, ny, 1]) (maps : Maps) (sh : List ℕ)
    (h : fitFile isFD d fwhm phi lamSq lam0 none (some c) variance prods = some (maps, sh)) :
    ∀ b, 1 ≤ b → b < ny → ∀ name ∈ prods, maps name (0, b) = none := by
  have hsq : d.squeeze.shape = [N, ny] := by
    have : ny ≠ 1 := by omega
    simp [NdArr.squeeze, hd, sqz, hN, this]
  have hrow : (addRow d.squeeze).shape = [N, 1, ny] := by unfold addRow; rw [hsq]
  unfold fitFile at h
  dsimp only at h
  rw [readFDF_plain isFD d ny 1 hd hax] at h
  set X : In n N :=
    { fdf := addRow d.squeeze, phi := phi, fwhm := addRowMap d.squeeze fwhm.squeeze, lamSq := lamSq, lam0 := lam0,
      noise := none, i := some c, variance := variance } with hX
  unfold fit at h
  rw [show X.fdf.shape = [N, 1, ny] from hrow] at h
  dsimp only at h
  cases h1 : ifreq0Arr X with
  | none => rw [h1] at h; simp at h
  | some i0 =>
    have hi0 : i0.shape = [ny, 1] := by
      unfold ifreq0Arr at h1
      rw [show X.i = some c from rfl] at h1
      dsimp only at h1
      split_ifs at h1
      have := Option.some.inj h1
      subst this
      show c.shape.tail = _
      rw [hc]; rfl
    rw [h1, Option.bind_some, show dFDF X i0 = some none from rfl, Option.bind_some] at h
    cases h3 : loop prods (pixel X i0 none) (pixels 1 ny) with
    | none => rw [h3] at h; simp at h
    | some mp =>
      rw [h3] at h
      simp only [Option.map_some, Option.some.injEq, Prod.mk.injEq] at h
      obtain ⟨rfl, -⟩ := h
      intro b hb1 hb name hname
      obtain ⟨r, hr, hval⟩ := (foldlM_spec prods _ _ _ mp (nodup_pixels 1 ny) h3).1 (0, b)
        ((mem_pixels 1 ny (0, b)).mpr ⟨by omega, hb⟩)
      rw [hval name hname]
      have hat : at2 i0 (0, b) = none := by
        unfold at2
        rw [hi0]
        simp
        omega
      unfold pixel at hr
      cases hf : at2 X.fwhm (0, b) with
      | none => rw [hf] at hr; simp at hr
      | some fw =>
        rw [hf, Option.bind_some, show noisePix none (0, b) = some none from rfl, Option.map_some, hat] at hr
        have := (Option.some.inj hr).symm
        rw [this]
        cases measurePix (fun k : Fin N => X.fdf.get [k, (0 : ℕ), b]) X.phi fw none X.lamSq X.lam0 <;> rfl

/-- An image of a single pixel raises. -/
theorem single_raises [NeZero n] (isFD : ℕ → Bool) (d : NdArr (Option ℂ)) (fwhm : NdArr ℝ) (phi : Fin N → ℝ)
    (lamSq : Fin n → ℝ) (lam0 : ℝ) (noise : Option (Fin n → Option ℝ)) (i : Option (NdArr ℝ)) (variance : Bool)
    (prods : List String) (hd : d.shape = [N, 1, 1]) (hax : Cube.findAxis isFD 3 3 = 3) (hN : N ≠ 1) :
    fitFile isFD d fwhm phi lamSq lam0 noise i variance prods = none := by
  unfold fitFile
  dsimp only
  rw [readFDF_plain isFD d 1 1 hd hax]
  have hsq : d.squeeze.shape = [N] := by simp [NdArr.squeeze, hd, sqz, hN]
  have : (addRow d.squeeze).shape = [N] := by unfold addRow; rw [hsq]; exact hsq
  unfold fit
  rw [this]

end Verif.PeakFit
