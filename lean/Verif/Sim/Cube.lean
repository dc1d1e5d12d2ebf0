import Verif.Sim.Run
import Verif.Sim.Image
import Verif.Sim.Catalogue
import Verif.Robust.Cube

/-!
# A simulated cube, analysed (C219, C220)

Source: `/repo/RMtools_3D/mk_test_cube_data.py` 259-520 (`create_IQU_cube_data`). The random numbers are inputs. The sky position of a
pixel is the linear one (see `Sim.world2pix`). The three cubes go to rmsynth3d with the frequencies of `freqs_Hz.dat`, which are
those before flagging (line 514).
-/

namespace Verif.Sim

open Complex Verif.QU Verif.NumPy Verif.SynthSpec

variable {n m : ℕ}

/-- The loop over the catalogue, 371-416: positions (columns 1 and 2, `preLst[0]`, `preLst[1]`) and spectra of the entries of type 1
and 2. An exception ends the program. -/
noncomputable def cubeSources (freq : Fin n → Option ℝ) (f0 : ℝ) : List (List ℝ) → Except Err (List ((ℝ × ℝ) × (Fin n → IQU)))
  | [] => .ok []
  | e :: es =>
    match rowSpectrum freq f0 e with
    | .error x => .error x
    | .ok none => cubeSources freq f0 es
    | .ok (some s) =>
      match item (e.drop 1) 0, item (e.drop 1) 1 with
      | .ok a, .ok b =>
        match cubeSources freq f0 es with
        | .error x => .error x
        | .ok l => .ok (((a, b), s) :: l)
      | _, _ => .error .indexError

/-- The random numbers of the three cubes, by channel and pixel, 441-450. -/
structure CubeDraws (n : ℕ) where
  i : Fin n → ℕ → ℕ → ℝ
  q : Fin n → ℕ → ℕ → ℝ
  u : Fin n → ℕ → ℕ → ℝ

/-- One voxel of the three cubes, 419-450. -/
noncomputable def simVoxel (h : SimHeader) (bmin bmaj bpa pix : ℝ) (srcs : List ((ℝ × ℝ) × (Fin n → IQU)))
    (curve : Fin n → Option ℝ) (d : CubeDraws n) (j : Fin n) (x y : ℕ) : IQU where
  i := noisy (cubePixel h bmin bmaj bpa pix (srcs.map fun s => (s.1, (s.2 j).i)) x y) (d.i j x y) (curve j)
  q := noisy (cubePixel h bmin bmaj bpa pix (srcs.map fun s => (s.1, (s.2 j).q)) x y) (d.q j x y) (curve j)
  u := noisy (cubePixel h bmin bmaj bpa pix (srcs.map fun s => (s.1, (s.2 j).u)) x y) (d.u j x y) (curve j)

/-- `create_IQU_cube_data`, 259-520: the voxels of the three cubes, with `nx` by `ny` pixels. -/
noncomputable def simulateCube (freq curve : Fin n → Option ℝ) (f0 : ℝ) (d : CubeDraws n) (nx ny : ℕ)
    (xc yc bmin bmaj bpa pix : ℝ) (es : List (List ℝ)) : Except Err (Fin n → ℕ → ℕ → IQU) :=
  match cubeSources freq f0 es with
  | .error x => .error x
  | .ok l => .ok (simVoxel (simpleHeader nx ny xc yc bmin bmaj bpa pix) bmin bmaj bpa pix l curve d)

/-! ## Specification -/

/-- A source of a catalogue: position, (unused) sizes, flux, spectral index, components. -/
structure Src where
  pos : ℝ × ℝ
  size : ℝ × ℝ × ℝ
  flux : ℝ
  si : ℝ
  comps : List Comp

/-- The row of the catalogue, in the order in which the program reads it (see C102). -/
def Src.row (s : Src) : List ℝ := swapRow1 (s.pos.1, s.pos.2, s.size) s.flux s.si s.comps

/-- Components and dispersions make sense. -/
def Src.Ok (s : Src) : Prop := s.comps ≠ [] ∧ ∀ c ∈ s.comps, 0 ≤ c.sigma

/-- The sum of the fractions of the components, which no polarised fraction exceeds. -/
noncomputable def Src.maxFrac (s : Src) : ℝ := (s.comps.map fun c => |c.p|).sum

/-- The flux of a source in the beam centred on the pixel, at frequency `ν`. -/
noncomputable def Src.seen (s : Src) (h : SimHeader) (f0 ν : ℝ) (x y : ℕ) : ℝ :=
  s.flux * (ν / f0) ^ s.si * beamResponse h.bmaj h.bmin h.bpa ((skyOf h x y).1 - s.pos.1) ((skyOf h x y).2 - s.pos.2)

/-! ## The cubes -/

/-- What the code simulates as the polarised fraction of a source. -/
noncomputable def Src.frac (s : Src) (ν : ℝ) : ℂ := (s.comps.map fun c => screen c.p c.psi c.rm c.sigma (lamSq ν)).sum

theorem norm_screen_le (p psi rm s l : ℝ) (hs : 0 ≤ s) : ‖screen p psi rm s l‖ ≤ |p| := by
  rw [screen_eq _ _ _ _ _ hs]
  unfold rot
  rw [norm_mul, norm_mul, Complex.norm_real, Real.norm_eq_abs]
  have e1 : ∀ t : ℝ, ‖exp (2 * I * (t : ℂ))‖ = 1 := by
    intro t
    rw [show 2 * I * (t : ℂ) = ((2 * t : ℝ) : ℂ) * I by push_cast; ring, Complex.norm_exp_ofReal_mul_I]
  rw [e1, mul_one]
  have e2 : ‖exp ((-2 * s * l ^ 2 : ℝ) : ℂ)‖ ≤ 1 := by
    rw [Complex.norm_exp, Complex.ofReal_re]
    refine Real.exp_le_one_iff.2 ?_
    have := mul_nonneg hs (sq_nonneg l)
    linarith
  exact mul_le_of_le_one_right (abs_nonneg p) e2

theorem norm_list_sum_le {α : Type} (l : List α) (f : α → ℂ) (g : α → ℝ) (h : ∀ a ∈ l, ‖f a‖ ≤ g a) :
    ‖(l.map f).sum‖ ≤ (l.map g).sum := by
  induction l with
  | nil => simp
  | cons a l ih =>
    simp only [List.map_cons, List.sum_cons]
    exact le_trans (norm_add_le _ _) (add_le_add (h a (by simp)) (ih fun b hb => h b (by simp [hb])))

theorem Src.norm_frac_le (s : Src) (h : s.Ok) (ν : ℝ) : ‖s.frac ν‖ ≤ s.maxFrac :=
  norm_list_sum_le _ _ _ fun c hc => norm_screen_le _ _ _ _ _ (h.2 c hc)

/-- The spectrum of a row. -/
theorem row_spectrum (freq : Fin n → Option ℝ) (f0 : ℝ) (h0 : 0 < f0) (s : Src) (h : s.Ok) :
    ∃ r, rowSpectrum freq f0 s.row = .ok (some r) ∧
      (∀ j, freq j = none → r j = ⟨none, none, none⟩) ∧
      ∀ j ν, freq j = some ν → 0 < ν → (r j).i = some (s.flux * (ν / f0) ^ s.si) ∧
        (r j).q = some (s.flux * (ν / f0) ^ s.si * (s.frac ν).re) ∧
        (r j).u = some (s.flux * (ν / f0) ^ s.si * (s.frac ν).im) := by
  obtain ⟨q, hq, hn, hv⟩ := pquBurn_ok freq s.comps h.2
  obtain ⟨r, hr, hr2⟩ := C104_burn freq s.flux s.si f0 h0 _ _ _ _ q hq
  refine ⟨r, ?_, ?_, ?_⟩
  · unfold Src.row
    rw [C102_row1_partial _ _ _ _ _ _ h.1, hr]
    rfl
  · intro j hj
    simp only [iquBurn, hq, absSpec, refFreq, Except.ok.injEq] at hr
    rw [← hr]
    simp [hj, powerLaw, mulNaN]
  · intro j ν hj hν
    exact hr2 j ν hj hν _ _ _ (hv j ν hj hν)

theorem cubeSources_rows (freq : Fin n → Option ℝ) (f0 : ℝ) (h0 : 0 < f0) (ss : List Src) (h : ∀ s ∈ ss, s.Ok) :
    ∃ g : Src → Fin n → IQU, cubeSources freq f0 (ss.map Src.row) = .ok (ss.map fun s => (s.pos, g s)) ∧
      ∀ s ∈ ss, (∀ j, freq j = none → g s j = ⟨none, none, none⟩) ∧
      ∀ j ν, freq j = some ν → 0 < ν → (g s j).i = some (s.flux * (ν / f0) ^ s.si) ∧
        (g s j).q = some (s.flux * (ν / f0) ^ s.si * (s.frac ν).re) ∧
        (g s j).u = some (s.flux * (ν / f0) ^ s.si * (s.frac ν).im) := by
  classical
  have hex : ∀ s : Src, ∃ r, s.Ok → rowSpectrum freq f0 s.row = .ok (some r) ∧ (∀ j, freq j = none → r j = ⟨none, none, none⟩) ∧
      ∀ j ν, freq j = some ν → 0 < ν → (r j).i = some (s.flux * (ν / f0) ^ s.si) ∧
        (r j).q = some (s.flux * (ν / f0) ^ s.si * (s.frac ν).re) ∧
        (r j).u = some (s.flux * (ν / f0) ^ s.si * (s.frac ν).im) := by
    intro s
    by_cases hs : s.Ok
    · obtain ⟨r, hr⟩ := row_spectrum freq f0 h0 s hs
      exact ⟨r, fun _ => hr⟩
    · exact ⟨fun _ => ⟨none, none, none⟩, fun h => absurd h hs⟩
  choose g hg using hex
  refine ⟨g, ?_, fun s hs => (hg s (h s hs)).2⟩
  induction ss with
  | nil => rfl
  | cons s ss ih =>
    have h1 := (hg s (h s (by simp))).1
    have h2 := ih fun t ht => h t (by simp [ht])
    simp only [List.map_cons]
    unfold cubeSources
    rw [h1, h2]
    rfl

/-- C219. Rows of another type than 1 and 2 are left out, wherever they are in the catalogue. -/
theorem cubeSources_other (freq : Fin n → Option ℝ) (f0 : ℝ) (es fs : List (List ℝ)) (t : ℝ) (e : List ℝ) (h1 : pyInt t ≠ 1) (h2 : pyInt t ≠ 2) :
    cubeSources freq f0 (es ++ (t :: e) :: fs) = cubeSources freq f0 (es ++ fs) := by
  have ht : rowSpectrum freq f0 (t :: e) = .ok none := by
    unfold rowSpectrum
    simp only [item, List.getElem?_cons_zero]
    show (if pyInt t = 1 then _ else if pyInt t = 2 then _ else _) = _
    rw [if_neg h1, if_neg h2]
    rfl
  induction es with
  | nil =>
    simp only [List.nil_append]
    conv_lhs => unfold cubeSources
    rw [ht]
  | cons d ds ih =>
    simp only [List.cons_append]
    conv_lhs => unfold cubeSources
    conv_rhs => unfold cubeSources
    rw [ih]

/-- The voxels of a simulated cube: the sources as seen in the beam, and the noise. -/
theorem simulateCube_voxel (freq curve : Fin n → Option ℝ) (f0 : ℝ) (h0 : 0 < f0) (d : CubeDraws n) (nx ny : ℕ)
    (xc yc bmin bmaj bpa pix : ℝ) (hpix : 0 < pix) (hmin : 0 < bmin) (hmaj : 0 < bmaj) (ss : List Src) (h : ∀ s ∈ ss, s.Ok) :
    ∃ v, simulateCube freq curve f0 d nx ny xc yc bmin bmaj bpa pix (ss.map Src.row) = .ok v ∧
      (ss ≠ [] → ∀ j x y, freq j = none → v j x y = ⟨none, none, none⟩) ∧
      ∀ j ν c, freq j = some ν → 0 < ν → curve j = some c → ∀ x y,
        (v j x y).i = some ((ss.map fun s => s.seen (simpleHeader nx ny xc yc bmin bmaj bpa pix) f0 ν x y).sum + d.i j x y * c) ∧
        (v j x y).q = some ((ss.map fun s => s.seen (simpleHeader nx ny xc yc bmin bmaj bpa pix) f0 ν x y * (s.frac ν).re).sum + d.q j x y * c) ∧
        (v j x y).u = some ((ss.map fun s => s.seen (simpleHeader nx ny xc yc bmin bmaj bpa pix) f0 ν x y * (s.frac ν).im).sum + d.u j x y * c) := by
  obtain ⟨g, h1, h2⟩ := cubeSources_rows freq f0 h0 ss h
  refine ⟨_, by unfold simulateCube; rw [h1], ?_, ?_⟩
  · intro hne j x y hj
    obtain ⟨s, hs⟩ := List.exists_mem_of_ne_nil ss hne
    have key : ∀ f : IQU → Option ℝ, f ⟨none, none, none⟩ = none →
        cubePixel (simpleHeader nx ny xc yc bmin bmaj bpa pix) bmin bmaj bpa pix
          ((ss.map fun s => (s.pos, g s)).map fun s => (s.1, f (s.2 j))) x y = none := by
      intro f hf
      refine (C105_superposition _ _ _ _ _ _ x y).1 ⟨(s.pos, f (g s j)), ?_, ?_⟩
      · rw [List.map_map]
        exact List.mem_map.2 ⟨s, hs, rfl⟩
      · show f (g s j) = none
        rw [(h2 s hs).1 j hj, hf]
    unfold simVoxel
    rw [key IQU.i rfl, key IQU.q rfl, key IQU.u rfl]
    rfl
  · intro j ν c hj hν hc x y
    have key : ∀ (f : IQU → Option ℝ) (a : Src → ℝ), (∀ s ∈ ss, f (g s j) = some (s.flux * (ν / f0) ^ s.si * a s)) →
        cubePixel (simpleHeader nx ny xc yc bmin bmaj bpa pix) bmin bmaj bpa pix
          ((ss.map fun s => (s.pos, g s)).map fun s => (s.1, f (s.2 j))) x y =
        some (ss.map fun s => s.seen (simpleHeader nx ny xc yc bmin bmaj bpa pix) f0 ν x y * a s).sum := by
      intro f a hf
      rw [(C105_superposition _ _ _ _ _ _ x y).2 (ss.map fun s => (s.pos, s.flux * (ν / f0) ^ s.si * a s)) (by
        rw [List.map_map, List.map_map]
        apply List.map_congr_left
        intro s hs
        simp only [Function.comp]
        rw [hf s hs]), List.map_map]
      congr 2
      apply List.map_congr_left
      intro s _
      simp only [Function.comp]
      rw [C105_beam nx ny xc yc bmin bmaj bpa pix hpix hmin hmaj _ _ _ _ _ rfl]
      unfold Src.seen
      ring
    unfold simVoxel
    dsimp only
    refine ⟨?_, ?_, ?_⟩
    · rw [key IQU.i (fun _ => 1) fun s hs => by rw [((h2 s hs).2 j ν hj hν).1, mul_one], hc]
      simp [noisy]
    · rw [key IQU.q (fun s => (s.frac ν).re) fun s hs => ((h2 s hs).2 j ν hj hν).2.1, hc]
      simp [noisy]
    · rw [key IQU.u (fun s => (s.frac ν).im) fun s hs => ((h2 s hs).2 j ν hj hν).2.2, hc]
      simp [noisy]

/-! ## C219 -/

/-- The cubes are given to rmsynth3d: pixel `k` of the run is pixel `(x, y)` of the cubes, the Stokes I cube is the model of Stokes I,
and the frequencies are those of the file. -/
structure Given (X : Pipe3D.In n m) (k : Fin m) (v : Fin n → ℕ → ℕ → IQU) (f : Fin n → ℝ) (x y : ℕ) : Prop where
  q : ∀ j, X.q j k = (v j x y).q
  u : ∀ j, X.u j k = (v j x y).u
  i : ∃ i, X.i = some i ∧ ∀ j, i j k = (v j x y).i
  freq : X.freq = f

/-- What there is in the beam at pixel `(x, y)` beside source `s`, which has one component of fraction `p` and no dispersion: the flux of the
others with their polarised flux, and the noise in Stokes Q, U, I. -/
noncomputable def confusion (others : List Src) (h : SimHeader) (f0 ν p : ℝ) (nI nQ nU : ℝ) (x y : ℕ) : ℝ :=
  (others.map fun t => |t.seen h f0 ν x y| * (t.maxFrac + p)).sum + Real.sqrt (nQ ^ 2 + nU ^ 2) + p * |nI|

/-- **C219**. In the peak maps of a simulated cube a source is found. The catalogue, beam, image, flagged channels, noise, weights
and options of rmsynth3d are arbitrary; the source has one component of fraction `p` and depth `rm` and no dispersion. If in every channel
that is not flagged the flux seen at the pixel is positive and what there is beside the source at most `δ` times it, and `2 δ` is less than
`(cos (Δ d / 2) - r) p` (with `r` the largest response further than `L` from the centre, `Δ` the width of the band and `d` the step of the
depth axis), the peak RM at the pixel is within `L` of `rm`, and the peak intensity between `(cos (Δ d / 2) p - δ) S` and `(p + δ) S`, where `S` is
the Stokes I by which rmsynth3d multiplies the spectrum. -/
theorem simulated_source_found [NeZero n] (f : Fin n → ℝ) (hf : ∀ j, 0 < f j) (ranges : List (ℝ × ℝ)) (curve : Fin n → Option ℝ)
    (f0 : ℝ) (h0 : 0 < f0) (d : CubeDraws n) (nx ny : ℕ) (xc yc bmin bmaj bpa pix : ℝ) (hpix : 0 < pix) (hmin : 0 < bmin)
    (hmaj : 0 < bmaj) (before after : List Src) (s : Src) (p psi rm : ℝ) (hs : s.comps = [⟨p, psi, rm, 0⟩]) (hp : 0 < p)
    (hok : ∀ t ∈ before ++ s :: after, t.Ok) (v : Fin n → ℕ → ℕ → IQU)
    (hv : simulateCube (fun j => flagged ranges (f j)) curve f0 d nx ny xc yc bmin bmaj bpa pix ((before ++ s :: after).map Src.row) = .ok v)
    (X : Pipe3D.In n m) (k : Fin m) (x y : ℕ) (hX : Given X k v f x y) (o : Pipe1D.Opts) (hreg : Pipe3D.Regular X o)
    (S L r Δ δ : ℝ) (hS : Pipe3D.scale X o k = some (some S)) (hS0 : 0 < S) (hd : 0 < (Pipe3D.axisParams X o).1) (hr : 0 ≤ r)
    (hgood : ∃ j, (∀ g ∈ ranges, ¬ (g.1 ≤ f j ∧ f j ≤ g.2)) ∧ 0 < Robust.cubeWeight X o.variance j)
    (hcurve : ∀ j, (∀ g ∈ ranges, ¬ (g.1 ≤ f j ∧ f j ≤ g.2)) → ∃ c, curve j = some c ∧
      0 < ((before ++ s :: after).map fun t => t.seen (simpleHeader nx ny xc yc bmin bmaj bpa pix) f0 (f j) x y).sum + d.i j x y * c ∧
      confusion (before ++ after) (simpleHeader nx ny xc yc bmin bmaj bpa pix) f0 (f j) p (d.i j x y * c) (d.q j x y * c) (d.u j x y * c) x y ≤
        δ * (((before ++ s :: after).map fun t => t.seen (simpleHeader nx ny xc yc bmin bmaj bpa pix) f0 (f j) x y).sum + d.i j x y * c))
    (hΔ : ∀ i j, |(299792458 / f i) ^ 2 - (299792458 / f j) ^ 2| ≤ Δ)
    (hdΔ : (Pipe3D.axisParams X o).1 / 2 * Δ ≤ Real.pi)
    (hl : ∃ l, |rm| ≤ Axis.phiAxis (Pipe3D.axisParams X o).2 (Pipe3D.axisParams X o).1 l)
    (hfar : ∀ t, L < |t| → |t| ≤ ((Pipe3D.nPhi X o : ℝ) - 1) * (Pipe3D.axisParams X o).1 → Robust.pixelResponse X o.variance k t ≤ r)
    (hδ : 2 * δ < (Real.cos ((Pipe3D.axisParams X o).1 / 2 * Δ) - r) * p)
    (ph : ℕ → ℝ) (hph : ∀ l : Fin (Pipe3D.nPhi X o), ph l = Axis.phiAxis (Pipe3D.axisParams X o).2 (Pipe3D.axisParams X o).1 l) :
    ∃ F : Fin (Pipe3D.nPhi X o) → ℂ, (∀ l, Pipe3D.fdfCube X o l k = some (some (F l))) ∧
      ∃ A w, Cube.peakOf ph ((List.ofFn F).map some) = some (some A, some w) ∧ |w - rm| ≤ L ∧
        (Real.cos ((Pipe3D.axisParams X o).1 / 2 * Δ) * p - δ) * S ≤ A ∧ A ≤ (p + δ) * S := by
  classical
  obtain ⟨v', hv', hvn, hvs⟩ := simulateCube_voxel (fun j => flagged ranges (f j)) curve f0 h0 d nx ny xc yc bmin bmaj bpa pix hpix hmin hmaj
    (before ++ s :: after) hok
  rw [hv'] at hv
  obtain rfl := Except.ok.inj hv
  set hd0 := simpleHeader nx ny xc yc bmin bmaj bpa pix with hhd
  obtain ⟨ic, hic, hic2⟩ := hX.i
  have hint : ∀ j, Pipe3D.intensity X j k = (v' j x y).i := by
    intro j
    unfold Pipe3D.intensity
    rw [hic]
    exact hic2 j
  -- a channel can be used exactly if it is not flagged
  have hflag : ∀ j, (∀ g ∈ ranges, ¬ (g.1 ≤ f j ∧ f j ≤ g.2)) → flagged ranges (f j) = some (f j) := by
    intro j hj
    rcases C106_flagged ranges (f j) with h | ⟨-, g, hg, h⟩
    · exact h.1
    · exact absurd h (hj g hg)
  have hun : ∀ j, Pipe3D.Usable X j k → ∀ g ∈ ranges, ¬ (g.1 ≤ f j ∧ f j ≤ g.2) := by
    intro j hj
    rcases C106_flagged ranges (f j) with h | h
    · exact h.2
    · exfalso
      obtain ⟨a, b, c, e1, -⟩ := hj
      rw [hX.q, hvn (by simp) j x y h.1] at e1
      exact absurd e1 (by simp)
  -- the spectrum
  set P : Fin n → ℂ := fun j => p * exp (2 * I * ((psi * Real.pi / 180 : ℝ) + rm * (((299792458 / X.freq j) ^ 2 : ℝ) : ℂ))) with hP
  have hPn : ∀ j, ‖P j‖ = p := by
    intro j
    rw [hP]
    dsimp only
    rw [norm_mul, Complex.norm_real, Real.norm_of_nonneg hp.le,
      show 2 * I * (((psi * Real.pi / 180 : ℝ) : ℂ) + rm * (((299792458 / X.freq j) ^ 2 : ℝ) : ℂ)) =
        ((2 * (psi * Real.pi / 180 + rm * (299792458 / X.freq j) ^ 2) : ℝ) : ℂ) * I by push_cast; ring,
      Complex.norm_exp_ofReal_mul_I, mul_one]
  have hPs : ∀ j, s.frac (f j) = P j := by
    intro j
    unfold Src.frac
    rw [hs]
    simp only [List.map_cons, List.map_nil, List.sum_cons, List.sum_nil, add_zero]
    rw [screen_eq _ _ _ _ _ le_rfl, hP, hX.freq]
    unfold rot radians lamSq
    simp
  set e : Fin n → ℂ := fun j => (((X.q j k).getD 0 : ℝ) + ((X.u j k).getD 0 : ℝ) * I) / (((v' j x y).i.getD 1 : ℝ) : ℂ) - P j with he
  have hmain : ∀ j, (∀ g ∈ ranges, ¬ (g.1 ≤ f j ∧ f j ≤ g.2)) → Pipe3D.Usable X j k ∧ ‖e j‖ ≤ δ := by
    intro j hj
    obtain ⟨c, hc, hpos, hconf⟩ := hcurve j hj
    obtain ⟨e1, e2, e3⟩ := hvs j (f j) c (hflag j hj) (hf j) hc x y
    set T := ((before ++ s :: after).map fun t => t.seen hd0 f0 (f j) x y).sum + d.i j x y * c with hT
    refine ⟨⟨_, _, _, by rw [hX.q, e2], by rw [hX.u, e3], by rw [hint, e1], hpos.ne'⟩, ?_⟩
    have hTne : (T : ℂ) ≠ 0 := by exact_mod_cast hpos.ne'
    have hnT : ‖(T : ℂ)‖ = T := by rw [Complex.norm_real, Real.norm_of_nonneg hpos.le]
    rw [he]
    dsimp only
    rw [hX.q, hX.u, e1, e2, e3, Option.getD_some, Option.getD_some, Option.getD_some]
    rw [← mul_le_mul_iff_left₀ hpos]
    refine le_trans ?_ hconf
    have hsc : ∀ z : ℂ, ‖z / (T : ℂ) - P j‖ * T = ‖z - P j * T‖ := by
      intro z
      have : z - P j * T = (z / (T : ℂ) - P j) * T := by rw [sub_mul, div_mul_cancel₀ _ hTne]
      rw [this, norm_mul, hnT]
    rw [hsc]
    have hsplit : ((((before ++ s :: after).map fun t => t.seen hd0 f0 (f j) x y * (t.frac (f j)).re).sum + d.q j x y * c : ℝ) : ℂ) +
        ((((before ++ s :: after).map fun t => t.seen hd0 f0 (f j) x y * (t.frac (f j)).im).sum + d.u j x y * c : ℝ) : ℂ) * I - P j * T =
        ((before ++ after).map fun t => (t.seen hd0 f0 (f j) x y : ℂ) * (t.frac (f j) - P j)).sum +
          ((d.q j x y * c : ℝ) + (d.u j x y * c : ℝ) * I) - P j * (d.i j x y * c : ℝ) := by
      have l1 : ∀ l : List Src, (((l.map fun t => t.seen hd0 f0 (f j) x y * (t.frac (f j)).re).sum : ℝ) : ℂ) +
          (((l.map fun t => t.seen hd0 f0 (f j) x y * (t.frac (f j)).im).sum : ℝ) : ℂ) * I - P j * ((l.map fun t => t.seen hd0 f0 (f j) x y).sum : ℝ) =
          (l.map fun t => (t.seen hd0 f0 (f j) x y : ℂ) * (t.frac (f j) - P j)).sum := by
        intro l
        induction l with
        | nil => simp
        | cons t l ih =>
          simp only [List.map_cons, List.sum_cons]
          rw [← ih]
          have := Complex.re_add_im (t.frac (f j))
          push_cast
          linear_combination (t.seen hd0 f0 (f j) x y : ℂ) * this
      have l2 : ((before ++ s :: after).map fun t => (t.seen hd0 f0 (f j) x y : ℂ) * (t.frac (f j) - P j)).sum =
          ((before ++ after).map fun t => (t.seen hd0 f0 (f j) x y : ℂ) * (t.frac (f j) - P j)).sum := by
        simp [hPs]
      rw [← l2, ← l1, hT]
      push_cast
      ring
    rw [hsplit]
    unfold confusion
    refine le_trans (norm_sub_le _ _) (add_le_add (le_trans (norm_add_le _ _) (add_le_add ?_ ?_)) ?_)
    · refine norm_list_sum_le _ _ _ fun t ht => ?_
      rw [norm_mul, Complex.norm_real, Real.norm_eq_abs]
      refine mul_le_mul_of_nonneg_left ?_ (abs_nonneg _)
      refine le_trans (norm_sub_le _ _) (add_le_add (Src.norm_frac_le t (hok t ?_) _) (hPn j).le)
      rcases List.mem_append.1 ht with h | h
      · exact List.mem_append_left _ h
      · exact List.mem_append_right _ (List.mem_cons_of_mem _ h)
    · rw [Complex.norm_add_mul_I]
    · rw [norm_mul, hPn, Complex.norm_real, Real.norm_eq_abs]
  have hδ0 : 0 ≤ δ := by
    obtain ⟨j, hj, -⟩ := hgood
    exact le_trans (norm_nonneg _) (hmain j hj).2
  have hnoise : ∀ phi, Robust.pixelNoise X o.variance k e phi ≤ δ :=
    fun phi => Robust.pixelNoise_le X o.variance k e phi δ hδ0 fun j hj => (hmain j (hun j hj)).2
  refine Robust.peak_noisy_source X o hreg k S p (psi * Real.pi / 180) rm L r δ δ Δ e hS hS0 hp hd hr ?_ ?_ ?_ hdΔ hl hfar
    (fun phi _ => hnoise phi) hnoise (by linarith) ph hph
  · intro j a b c ha hb hc hcne
    have hcne' : (c : ℂ) ≠ 0 := by exact_mod_cast hcne
    rw [hint] at hc
    have : (P j + e j) = ((a : ℂ) + b * I) / c := by
      rw [he]
      dsimp only
      rw [ha, hb, hc]
      simp
    show (a : ℂ) + b * I = c * (P j + e j)
    rw [this]
    field_simp
  · obtain ⟨j, hj, hw⟩ := hgood
    exact ⟨j, (hmain j hj).1, hw⟩
  · intro i j _ _
    rw [hX.freq]
    exact hΔ i j

end Verif.Sim
