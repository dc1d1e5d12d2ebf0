import Verif.Pipe3D.Units
import Verif.Headers.Writefits
import Verif.Headers.Maps
import Verif.Pipe3D.Props

/-!
# The products of RM synthesis of cubes carry the unit of their values (C250)

Source: `/repo/RMtools_3D/do_RMsynth_3D.py` (`run_rmsynth` 57-268, `writefits` 272-646, `create_peak_maps` 685-711).
-/

namespace Verif.Pipe3D

open Verif.NumPy Verif.Similar Verif.Headers Complex

variable {n m : ℕ}

/-! ## The numbers that are written -/

/-- The arrays given to `writefits`, for any number of depths: entries outside of an array are not read. -/
structure Arrays (m : ℕ) where
  nPhi : ℕ
  nPhi2 : ℕ
  phi : ℕ → ℝ
  phi2 : ℕ → ℝ
  fdf : ℕ → Fin m → Option ℂ
  rmsf : ℕ → Fin m → Option ℂ
  fwhm : Option ℝ
  lam0 : ℝ

/-- An array of cubes by natural-number index. -/
def plane {N : ℕ} (F : Fin N → Fin m → Option ℂ) (l : ℕ) (p : Fin m) : Option ℂ := if h : l < N then F ⟨l, h⟩ p else none

/-- What `run_rmsynth` returns, with the depth axes and the width. `none`: an `IndexError` (see `ifreq0`). -/
noncomputable def collect [NeZero n] (x : In n m) (o : Pipe1D.Opts) (out : Output n m (nPhi x o) (Axis.nPhi2 (nPhi x o))) : Option (Arrays m) :=
  open Classical in
  if ∀ F, out.fdf = some F → ∀ l p, (F l p).isSome then
    some
      { nPhi := nPhi x o
        nPhi2 := Axis.nPhi2 (nPhi x o)
        phi := at0 (synthInput x o).phi
        phi2 := ((Axis.phi2 (synthInput x o).phi).map at0).getD fun _ => 0
        fdf := plane ((out.fdf.map fun F l p => (F l p).getD none).getD fun _ _ => none)
        rmsf := plane (out.rmsf.getD fun _ _ => none)
        fwhm := Rmsf.fwhm (Pipe1D.arrMin (Pipe1D.lamSq x.freq)) (Pipe1D.arrMax (Pipe1D.lamSq x.freq))
        lam0 := lamsq0 out.lam0 }
  else none

/-- `run_rmsynth` with its switches (`run`), its depth axes (164-170 and `util_RM.py` 288-294) and the width of the spread function without a fit of
it (`util_RM.py` 360). `none`: an exception. What was not asked for is blank. -/
noncomputable def arrays [NeZero n] (notRmsynth notRmsf : Bool) (x : In n m) (o : Pipe1D.Opts) : Option (Arrays m) :=
  (run notRmsynth notRmsf x o).bind (collect x o)

/-- One of the parts of a complex number. -/
noncomputable def part : Part → ℂ → ℝ
  | .re, z => z.re
  | .im, z => z.im
  | .tot, z => ‖z‖

/-- The number in a product at depth `l` (if it has a depth axis) and pixel `p`, lines 426-640. NaN is `none`. -/
noncomputable def Arrays.value (w : Arrays m) : Item → ℕ → Fin m → Option ℝ
  | .fdf a, l, p => (w.fdf l p).map (part a)
  | .rmsf a, l, p => (w.rmsf l p).map (part a)
  | .fwhm, _, _ => w.fwhm
  | .maxPI, _, p => (Cube.peakOf w.phi ((List.range w.nPhi).map fun l => w.fdf l p)).bind Prod.fst
  | .peakRM, _, p => (Cube.peakOf w.phi ((List.range w.nPhi).map fun l => w.fdf l p)).bind Prod.snd

/-! ## Helpers -/

theorem part_mul (a : Part) (s : ℝ) (hs : 0 < s) (z : ℂ) : part a ((s : ℂ) * z) = s * part a z := by
  cases a with
  | re => simp [part]
  | im => simp [part]
  | tot => simp [part, abs_of_pos hs]

theorem argmaxFrom_mul (s : ℝ) (hs : 0 < s) (l : List (Option ℝ)) (best : ℝ) (bi i : ℕ) :
    Cube.argmaxFrom (s * best) bi i (l.map fun v => v.map (s * ·)) = Cube.argmaxFrom best bi i l := by
  induction l generalizing best bi i with
  | nil => rfl
  | cons v l ih =>
    cases v with
    | none => rfl
    | some v =>
      simp only [List.map_cons, Option.map_some, Cube.argmaxFrom, mul_lt_mul_iff_right₀ hs]
      split_ifs
      · exact ih _ _ _
      · exact ih _ _ _

theorem argmaxNaN_mul (s : ℝ) (hs : 0 < s) (l : List (Option ℝ)) :
    Cube.argmaxNaN (l.map fun v => v.map (s * ·)) = Cube.argmaxNaN l := by
  cases l with
  | nil => rfl
  | cons v l =>
    cases v with
    | none => rfl
    | some v =>
      simp only [List.map_cons, Option.map_some, Cube.argmaxNaN]
      rw [argmaxFrom_mul s hs]

theorem maxFrom_mul (s : ℝ) (hs : 0 < s) (l : List (Option ℝ)) (b : Option ℝ) :
    Cube.maxFrom (b.map (s * ·)) (l.map fun v => v.map (s * ·)) = (Cube.maxFrom b l).map (s * ·) := by
  induction l generalizing b with
  | nil => rfl
  | cons v l ih =>
    simp only [List.map_cons, Cube.maxFrom]
    rw [← ih]
    congr 1
    cases b with
    | none => cases v <;> rfl
    | some b =>
      cases v with
      | none => rfl
      | some v =>
        simp only [Option.map_some, Option.some.injEq]
        exact (mul_max_of_nonneg _ _ hs.le).symm

theorem maxNaN_mul (s : ℝ) (hs : 0 < s) (l : List (Option ℝ)) :
    Cube.maxNaN (l.map fun v => v.map (s * ·)) = (Cube.maxNaN l).map fun v => v.map (s * ·) := by
  cases l with
  | nil => rfl
  | cons v l =>
    simp only [List.map_cons, Cube.maxNaN, Option.map_some, Option.some.injEq]
    exact maxFrom_mul s hs l v

/-- Peak maps of a multiplied spectrum on a multiplied depth axis. -/
theorem peakOf_mul (s R : ℝ) (hs : 0 < s) (phi : ℕ → ℝ) (l : List (Option ℂ)) :
    Cube.peakOf (fun i => R * phi i) (l.map fun v => v.map ((s : ℂ) * ·)) =
      (Cube.peakOf phi l).map fun r => (r.1.map (s * ·), r.2.map (R * ·)) := by
  have habs : (l.map fun v => v.map ((s : ℂ) * ·)).map Cube.absNaN = (l.map Cube.absNaN).map fun v => v.map (s * ·) := by
    rw [List.map_map, List.map_map]
    refine List.map_congr_left fun v _ => ?_
    cases v with
    | none => rfl
    | some v => simp [Cube.absNaN, abs_of_pos hs]
  have hall : (l.map fun v => v.map ((s : ℂ) * ·)).all Option.isNone = l.all Option.isNone := by
    rw [List.all_map]
    congr 1
    funext v
    cases v <;> rfl
  unfold Cube.peakOf
  rw [habs, maxNaN_mul s hs, argmaxNaN_mul s hs, hall]
  cases Cube.maxNaN (l.map Cube.absNaN) with
  | none => rfl
  | some v =>
    cases Cube.argmaxNaN (l.map Cube.absNaN) with
    | none => rfl
    | some j =>
      simp only [Option.map_some, Option.bind_some, Option.some.injEq, Prod.mk.injEq, true_and]
      split_ifs <;> rfl

theorem fwhm_rescaled [NeZero n] (r : ℝ) (hr : 0 < r) (freq : Fin n → ℝ) :
    Rmsf.fwhm (Pipe1D.arrMin (Pipe1D.lamSq fun j => r * freq j)) (Pipe1D.arrMax (Pipe1D.lamSq fun j => r * freq j)) =
      (Rmsf.fwhm (Pipe1D.arrMin (Pipe1D.lamSq freq)) (Pipe1D.arrMax (Pipe1D.lamSq freq))).map (r ^ 2 * ·) := by
  have hk : 0 < (r ^ 2)⁻¹ := by positivity
  have h1 : Pipe1D.arrMax (Pipe1D.lamSq fun j => r * freq j) = (r ^ 2)⁻¹ * Pipe1D.arrMax (Pipe1D.lamSq freq) := by
    rw [lamSq_at]
    unfold Pipe1D.arrMax
    rw [npMax_mul _ _ hk]
  have h2 : Pipe1D.arrMin (Pipe1D.lamSq fun j => r * freq j) = (r ^ 2)⁻¹ * Pipe1D.arrMin (Pipe1D.lamSq freq) := by
    rw [lamSq_at, arrMin_mul _ _ hk]
  rw [h1, h2]
  unfold Rmsf.fwhm
  rw [← mul_sub]
  by_cases h : Pipe1D.arrMax (Pipe1D.lamSq freq) - Pipe1D.arrMin (Pipe1D.lamSq freq) = 0
  · rw [if_pos h, if_pos (by rw [h, mul_zero]), Option.map_none]
  · rw [if_neg h, if_neg (mul_ne_zero hk.ne' h), Option.map_some, Option.some.injEq, ← div_div, div_right_comm, div_inv_eq_mul, mul_comm]

theorem plane_cast {N N' : ℕ} (hN : N' = N) (F : Fin N → Fin m → Option ℂ) (F' : Fin N' → Fin m → Option ℂ) (s : ℂ)
    (h : ∀ l p, F' l p = (F (l.cast hN) p).map (s * ·)) (l : ℕ) (p : Fin m) : plane F' l p = (plane F l p).map (s * ·) := by
  subst hN
  unfold plane
  split_ifs with hl
  · exact h ⟨l, hl⟩ p
  · rfl

theorem at0_cast {N N' : ℕ} (hN : N' = N) (f : Fin N → ℝ) (f' : Fin N' → ℝ) (R : ℝ) (h : ∀ l, f' l = R * f (l.cast hN)) (l : ℕ) :
    at0 f' l = R * at0 f l := by
  subst hN
  unfold at0
  split_ifs with hl
  · exact h ⟨l, hl⟩
  · rw [mul_zero]

theorem phi2_cast {N N' : ℕ} (hN : N' = N) (f : Fin N → ℝ) (f' : Fin N' → ℝ) (R : ℝ) (h : ∀ l, f' l = R * f (l.cast hN)) :
    (Axis.phi2 f = none ∧ Axis.phi2 f' = none) ∨
    ∃ g g', Axis.phi2 f = some g ∧ Axis.phi2 f' = some g' ∧ ∀ l, g' l = R * g (l.cast (congrArg Axis.nPhi2 hN)) := by
  subst hN
  have e : f' = fun l => R * f l := funext h
  rw [e, phi2_mul]
  cases Axis.phi2 f with
  | none => exact Or.inl ⟨rfl, rfl⟩
  | some g => exact Or.inr ⟨g, _, rfl, rfl, fun _ => rfl⟩

/-- The arrays in other units. -/
structure ArraysAt (s r : ℝ) (w w' : Arrays m) : Prop where
  nPhi : w'.nPhi = w.nPhi
  nPhi2 : w'.nPhi2 = w.nPhi2
  phi : ∀ l, w'.phi l = r ^ 2 * w.phi l
  phi2 : ∀ l, w'.phi2 l = r ^ 2 * w.phi2 l
  fdf : ∀ l p, w'.fdf l p = (w.fdf l p).map ((s : ℂ) * ·)
  rmsf : ∀ l p, w'.rmsf l p = w.rmsf l p
  fwhm : w'.fwhm = w.fwhm.map (r ^ 2 * ·)
  lam0 : w'.lam0 = (r ^ 2)⁻¹ * w.lam0

theorem collect_rescaled [NeZero n] {s t r : ℝ} (hs : 0 < s) (ht : t ≠ 0) (hr : 0 < r) {x x' : In n m} (h : Rescaled s t r x x')
    (o : Pipe1D.Opts) (hN : nPhi x' (optsAt r o) = nPhi x o) (out : Output n m (nPhi x o) (Axis.nPhi2 (nPhi x o)))
    (out' : Output n m (nPhi x' (optsAt r o)) (Axis.nPhi2 (nPhi x' (optsAt r o))))
    (hf : (out.fdf = none ∧ out'.fdf = none) ∨ (out.fdf = some (fdfCube x o) ∧ out'.fdf = some (fdfCube x' (optsAt r o))))
    (hg : (out.rmsf = none ∧ out'.rmsf = none) ∨ ∃ G G', out.rmsf = some G ∧ out'.rmsf = some G' ∧
      ∀ l p, G' l p = G (l.cast (congrArg Axis.nPhi2 hN)) p)
    (hl : out'.lam0 = out.lam0.map ((r ^ 2)⁻¹ * ·)) :
    (collect x o out = none ∧ collect x' (optsAt r o) out' = none) ∨
    ∃ w w', collect x o out = some w ∧ collect x' (optsAt r o) out' = some w' ∧ ArraysAt s r w w' := by
  obtain ⟨hN', hphi⟩ := axis_rescaled hr h o
  have hF := fdfCube_rescaled hs ht hr h o hN
  have hc : (∀ F, out'.fdf = some F → ∀ l p, (F l p).isSome) ↔ (∀ F, out.fdf = some F → ∀ l p, (F l p).isSome) := by
    rcases hf with ⟨h1, h2⟩ | ⟨h1, h2⟩
    · rw [h1, h2]
      simp
    · rw [h1, h2]
      constructor
      · intro hh F e l p
        obtain rfl := Option.some.inj e
        have := hh _ rfl (l.cast hN.symm) p
        rw [hF, Option.isSome_map] at this
        exact this
      · intro hh F e l p
        obtain rfl := Option.some.inj e
        rw [hF, Option.isSome_map]
        exact hh _ rfl _ p
  unfold collect
  by_cases hcc : ∀ F, out.fdf = some F → ∀ l p, (F l p).isSome
  · rw [if_pos hcc, if_pos (hc.mpr hcc)]
    refine Or.inr ⟨_, _, rfl, rfl, hN, congrArg Axis.nPhi2 hN, at0_cast hN _ _ _ hphi, ?_, ?_, ?_, ?_, ?_⟩
    · intro l
      dsimp only
      rcases phi2_cast hN _ _ _ hphi with ⟨h1, h2⟩ | ⟨g, g', h1, h2, h3⟩
      · rw [h1, h2]
        simp
      · rw [h1, h2]
        exact at0_cast _ _ _ _ h3 l
    · refine plane_cast hN _ _ _ ?_
      intro l p
      rcases hf with ⟨h1, h2⟩ | ⟨h1, h2⟩
      · rw [h1, h2]
        rfl
      · rw [h1, h2]
        simp only [Option.map_some, Option.getD_some]
        rw [hF]
        cases fdfCube x o (l.cast hN) p <;> rfl
    · intro l p
      have e : ∀ v : Option ℂ, v = v.map ((1 : ℂ) * ·) := fun v => by cases v <;> simp
      dsimp only
      have := plane_cast (congrArg Axis.nPhi2 hN) (out.rmsf.getD fun _ _ => none) (out'.rmsf.getD fun _ _ => none) 1 (by
        intro l p
        rw [← e]
        rcases hg with ⟨h1, h2⟩ | ⟨G, G', h1, h2, h3⟩
        · rw [h1, h2]
          rfl
        · rw [h1, h2]
          exact h3 l p) l p
      rw [this, ← e]
    · show Rmsf.fwhm (Pipe1D.arrMin (Pipe1D.lamSq x'.freq)) (Pipe1D.arrMax (Pipe1D.lamSq x'.freq)) = _
      rw [h.freq]
      exact fwhm_rescaled r hr x.freq
    · show lamsq0 out'.lam0 = (r ^ 2)⁻¹ * lamsq0 out.lam0
      rw [hl]
      unfold lamsq0
      cases out.lam0 <;> simp
  · rw [if_neg hcc, if_neg (fun hh => hcc (hc.mp hh))]
    exact Or.inl ⟨rfl, rfl⟩

/-- **C250**, numbers. In other units of flux density, and at other frequencies (with limits of the depth axis to match), RM synthesis of cubes ends in
the same way, and its arrays are those of the first run in other units. -/
theorem arrays_rescaled [NeZero n] {s t r : ℝ} (hs : 0 < s) (ht : t ≠ 0) (hr : 0 < r) {x x' : In n m} (h : Rescaled s t r x x')
    (o : Pipe1D.Opts) (a b : Bool) :
    (arrays a b x o = none ∧ arrays a b x' (optsAt r o) = none) ∨
    ∃ w w', arrays a b x o = some w ∧ arrays a b x' (optsAt r o) = some w' ∧ ArraysAt s r w w' := by
  obtain ⟨hN, hphi⟩ := axis_rescaled hr h o
  have hR : (r ^ 2 : ℝ) ≠ 0 := by positivity
  have hlam := (synth_rescaled hs ht hr h o hN).2
  obtain ⟨c, hc, hw⟩ := weight_rescaled hs h o
  have hmsk : (fun j p => (x'.q j p).isNone) = fun j p => (x.q j p).isNone := by
    funext j p
    rw [h.q]
    cases x.q j p <;> rfl
  have hls : ∀ j, Pipe1D.lamSq x'.freq j = (r ^ 2)⁻¹ * Pipe1D.lamSq x.freq j := fun j => by rw [h.freq, lamSq_at]
  have hreg := regular_rescaled hs hr h o
  unfold arrays
  by_cases hx : Regular x o
  swap
  · unfold run
    rw [if_neg hx, if_neg (mt hreg.1 hx)]
    exact Or.inl ⟨rfl, rfl⟩
  rw [run_regular hx, run_regular (hreg.2 hx)]
  unfold runRegular
  by_cases hab : (a && b) = true
  · rw [if_pos hab, if_pos hab]
    exact Or.inl ⟨rfl, rfl⟩
  rw [if_neg hab, if_neg hab]
  by_cases hb : b = true
  · rw [if_pos hb, if_pos hb, Option.bind_some, Option.bind_some]
    refine collect_rescaled hs ht hr h o hN _ _ (Or.inr ⟨rfl, rfl⟩) (Or.inl ⟨rfl, rfl⟩) ?_
    dsimp only
    rw [hlam]
    rfl
  rw [if_neg hb, if_neg hb]
  rcases phi2_cast hN _ _ _ hphi with ⟨h1, h2⟩ | ⟨g, g', h1, h2, h3⟩
  · rw [h1, h2]
    exact Or.inl ⟨rfl, rfl⟩
  rw [h1, h2, Option.map_some, Option.map_some, Option.bind_some, Option.bind_some]
  by_cases ha : a = true
  · rw [if_pos ha, if_pos ha]
    obtain ⟨r1, r2⟩ := rmsf_core (rmsfOnlyInput x o g) (rmsfOnlyInput x' (optsAt r o) g') (congrArg Axis.nPhi2 hN) c (r ^ 2) (r ^ 2)⁻¹ hc
      (mul_inv_cancel₀ hR) hmsk hls h3 hw (lam0_opt o r _)
    exact collect_rescaled hs ht hr h o hN _ _ (Or.inl ⟨rfl, rfl⟩) (Or.inr ⟨_, _, rfl, rfl, r1⟩) r2
  · rw [if_neg ha, if_neg ha]
    obtain ⟨r1, r2⟩ := rmsf_core (rmsfInput x o g) (rmsfInput x' (optsAt r o) g') (congrArg Axis.nPhi2 hN) c (r ^ 2) (r ^ 2)⁻¹ hc
      (mul_inv_cancel₀ hR) hmsk hls h3 hw (congrArg some hlam)
    exact collect_rescaled hs ht hr h o hN _ _ (Or.inr ⟨rfl, rfl⟩) (Or.inr ⟨_, _, rfl, rfl, r1⟩) r2

/-! ## The unit of a product -/

/-- By what the numbers in unit `u` are multiplied if flux densities are multiplied by `s` (as in a smaller unit) and all wavelengths are divided by
`r`: `F` is the unit of the data. A flux density per response is a flux density. Faraday depths are radians by squared wavelength. `none`: the unit is
unknown. -/
noncomputable def factor (F : String) (s r : ℝ) (u : String) : Option ℝ :=
  if u = F ∨ u = F ++ "/RMSF" then some s else if u = "" then some 1 else if u = "rad/m^2" then some (r ^ 2) else none

/-- What each product goes with. -/
noncomputable def goesWith (s r : ℝ) : Item → ℝ
  | .fdf _ => s
  | .rmsf _ => 1
  | .fwhm => r ^ 2
  | .maxPI => s
  | .peakRM => r ^ 2

theorem value_rescaled {s r : ℝ} (hs : 0 < s) {w w' : Arrays m} (h : ArraysAt s r w w') (P : Item) (l : ℕ) (p : Fin m) :
    w'.value P l p = (w.value P l p).map (goesWith s r P * ·) := by
  have hp : Cube.peakOf w'.phi ((List.range w'.nPhi).map fun l => w'.fdf l p) =
      (Cube.peakOf w.phi ((List.range w.nPhi).map fun l => w.fdf l p)).map fun v => (v.1.map (s * ·), v.2.map (r ^ 2 * ·)) := by
    rw [← peakOf_mul s (r ^ 2) hs, List.map_map, h.nPhi, show w'.phi = fun i => r ^ 2 * w.phi i from funext h.phi]
    congr 1
    refine List.map_congr_left fun l _ => ?_
    exact h.fdf l p
  cases P with
  | fdf a =>
    show (w'.fdf l p).map (part a) = ((w.fdf l p).map (part a)).map (s * ·)
    rw [h.fdf]
    cases w.fdf l p with
    | none => rfl
    | some z => simp only [Option.map_some, part_mul a s hs]
  | rmsf a =>
    show (w'.rmsf l p).map (part a) = ((w.rmsf l p).map (part a)).map (1 * ·)
    rw [h.rmsf]
    cases w.rmsf l p with
    | none => rfl
    | some z => simp
  | fwhm => exact h.fwhm
  | maxPI =>
    show (Cube.peakOf w'.phi ((List.range w'.nPhi).map fun l => w'.fdf l p)).bind Prod.fst = _
    rw [hp]
    show _ = ((Cube.peakOf w.phi ((List.range w.nPhi).map fun l => w.fdf l p)).bind Prod.fst).map (s * ·)
    cases Cube.peakOf w.phi ((List.range w.nPhi).map fun l => w.fdf l p) <;> rfl
  | peakRM =>
    show (Cube.peakOf w'.phi ((List.range w'.nPhi).map fun l => w'.fdf l p)).bind Prod.snd = _
    rw [hp]
    show _ = ((Cube.peakOf w.phi ((List.range w.nPhi).map fun l => w.fdf l p)).bind Prod.snd).map (r ^ 2 * ·)
    cases Cube.peakOf w.phi ((List.range w.nPhi).map fun l => w.fdf l p) <;> rfl

theorem append_rmsf (F u : String) (h : u.length < 5) : u ≠ F ++ "/RMSF" := by
  intro e
  rw [e, String.length_append] at h
  have : "/RMSF".length = 5 := by decide
  omega

/-- **C250.** The products of RM synthesis of cubes: if Stokes Q and U have the unit `F` in which the header of Stokes Q says they are, then every
file which is written names a unit, and its numbers are in this unit. In other units of flux density (`s`) and of the intensity model (`t`; it may be
in any unit), and at frequencies `r` times higher with depth axes to match, RM synthesis ends in the same way, and each number in each file is that of
the first run times the factor by which quantities in the unit named in its header change. The width is the one that is not fitted. -/
theorem product_units_partial [NeZero n] (isFreq isStokes : String → Bool) (h : Header) (naxis : ℕ) (j : Job) (F : String)
    (hF : h.get (.plain "BUNIT") = some (.txt F)) (hF1 : F ≠ "") (hF2 : F ≠ "rad/m^2") (hF3 : "rad/m^2" ≠ F ++ "/RMSF")
    (L : List (Item × Header)) (hL : writefits isFreq isStokes h naxis j = some L)
    {s t r : ℝ} (hs : 0 < s) (ht : t ≠ 0) (hr : 0 < r) {x x' : In n m} (hx : Rescaled s t r x x') (o : Pipe1D.Opts) (w : Arrays m)
    (hw : arrays j.notRmsynth j.notRmsf x o = some w) :
    ∃ w', arrays j.notRmsynth j.notRmsf x' (optsAt r o) = some w' ∧
      ∀ c ∈ L, ∃ u k, c.2.get (.plain "BUNIT") = some (.txt u) ∧ factor F s r u = some k ∧
        ∀ l p, w'.value c.1 l p = (w.value c.1 l p).map (k * ·) := by
  rcases arrays_rescaled hs ht hr hx o j.notRmsynth j.notRmsf with ⟨h1, -⟩ | ⟨w1, w', h1, h2, h3⟩
  · rw [h1] at hw
    cases hw
  rw [h1] at hw
  obtain rfl := Option.some.inj hw
  refine ⟨w', h2, ?_⟩
  intro c hc
  obtain ⟨B, hB, -, hall⟩ := writefits_spec _ _ _ _ _ _ hL
  obtain ⟨hu, -⟩ := hall c hc
  rw [hF] at hB hu
  subst hB
  have f1 : factor F s r (F ++ "/RMSF") = some s := by
    unfold factor
    rw [if_pos (Or.inr rfl)]
  have f2 : factor F s r F = some s := by
    unfold factor
    rw [if_pos (Or.inl rfl)]
  have f3 : factor F s r "" = some 1 := by
    unfold factor
    rw [if_neg (by
      rintro (e | e)
      · exact hF1 e.symm
      · exact append_rmsf F "" (by decide) e), if_pos rfl]
  have f4 : factor F s r "rad/m^2" = some (r ^ 2) := by
    unfold factor
    rw [if_neg (by
      rintro (e | e)
      · exact hF2 e.symm
      · exact hF3 e), if_neg (by decide), if_pos rfl]
  have key : ∀ P : Item, ∃ u, unitWritten (some (.txt (F ++ "/RMSF"))) (some (.txt F)) j.notRmsf P = some (.txt u) ∧
      factor F s r u = some (goesWith s r P) := by
    intro P
    cases P with
    | fdf a => exact ⟨_, rfl, f1⟩
    | rmsf a => exact ⟨_, rfl, f3⟩
    | fwhm => exact ⟨_, rfl, f4⟩
    | maxPI => exact ⟨_, rfl, f2⟩
    | peakRM => exact ⟨_, rfl, f4⟩
  obtain ⟨u, hu1, hu2⟩ := key c.1
  exact ⟨u, _, hu.trans hu1, hu2, fun l p => value_rescaled hs h3 c.1 l p⟩

/-- **C250**, headers. Which files are written, and what their headers say: spectra are in the unit of the data per response, the spread function has
no unit, its width and the depth of the peak are in radians per square metre, the height of the peak is in the unit of the data. The reference
wavelength is in each, the extrema of the cube in none. -/
theorem written_units (isFreq isStokes : String → Bool) (h : Header) (naxis : ℕ) (j : Job) (F : String)
    (hF : h.get (.plain "BUNIT") = some (.txt F)) (hn : 1 ≤ naxis) (ht : Typed h naxis) (hj : (j.notRmsynth && j.notRmsf) = false) :
    ∃ L, writefits isFreq isStokes h naxis j = some L ∧
      L.map Prod.fst = (if j.notRmsynth then [] else [.fdf .re, .fdf .im, .fdf .tot]) ++
        (if j.notRmsf then [] else [.rmsf .re, .rmsf .im, .rmsf .tot, .fwhm]) ++
        (if j.notRmsynth || !j.peaks then [] else [.maxPI, .peakRM]) ∧
      ∀ c ∈ L, c.2.get (.plain "LAMSQ0") = some (.num j.lam0) ∧ c.2.get (.plain "DATAMAX") = none ∧ c.2.get (.plain "DATAMIN") = none ∧
        c.2.get (.plain "BUNIT") = some (.txt (match c.1 with
          | .fdf _ => F ++ "/RMSF"
          | .rmsf _ => ""
          | .fwhm => "rad/m^2"
          | .maxPI => F
          | .peakRM => "rad/m^2")) ∧
        (c.1 = .fwhm → c.2.get (.plain "BTYPE") = none) ∧ (c.1 = .peakRM → c.2.get (.plain "BTYPE") = some (.txt "FDEP")) := by
  obtain ⟨L, hL⟩ := writefits_some isFreq isStokes h naxis j hn ht (by rw [hF]; simp) hj
  obtain ⟨B, hB, h1, h2⟩ := writefits_spec _ _ _ _ _ _ hL
  refine ⟨L, hL, h1, ?_⟩
  intro c hc
  obtain ⟨a1, a2, a3, a4⟩ := h2 c hc
  rw [hF] at hB a1
  subst hB
  refine ⟨a2.1, a2.2.1, a2.2.2, ?_, a3, a4⟩
  rw [a1]
  cases c.1 <;> rfl

/-- **C250**, without a unit. If the header of Stokes Q has no unit, the spectra have none; but the map of the height of the peak, which is of the same
kind as they are, is then said to be without dimension in a run that writes the spread function, and is of no unit in a run that does not. -/
theorem no_unit_wrong (isFreq isStokes : String → Bool) (h : Header) (naxis : ℕ) (j : Job) (hF : h.get (.plain "BUNIT") = none) (hn : 1 ≤ naxis)
    (ht : Typed h naxis) (hj : j.notRmsynth = false) (hp : j.peaks = true) :
    ∃ L, writefits isFreq isStokes h naxis j = some L ∧ (∃ H, (.fdf .tot, H) ∈ L) ∧ (∃ H, (.maxPI, H) ∈ L) ∧
      (∀ a H, (.fdf a, H) ∈ L → H.get (.plain "BUNIT") = none) ∧
      (∀ H, (.maxPI, H) ∈ L → H.get (.plain "BUNIT") = if j.notRmsf then none else some (.txt "")) := by
  obtain ⟨L, hL⟩ := writefits_some isFreq isStokes h naxis j hn ht (by rw [hF]; simp) (by rw [hj]; rfl)
  obtain ⟨B, hB, h1, h2⟩ := writefits_spec _ _ _ _ _ _ hL
  rw [hF] at hB h2
  subst hB
  rw [hj, hp] at h1
  have hmem : ∀ P : Item, P ∈ L.map Prod.fst → ∃ H, (P, H) ∈ L := by
    intro P hP
    obtain ⟨c, hc, rfl⟩ := List.mem_map.mp hP
    exact ⟨c.2, hc⟩
  refine ⟨L, hL, hmem _ (by rw [h1]; simp), hmem _ (by rw [h1]; simp), ?_, ?_⟩
  · intro a H hc
    exact (h2 _ hc).1
  · intro H hc
    exact (h2 _ hc).1

/-! ## Cases -/

/-- One channel at a wavelength of one metre, and one without data. -/
noncomputable def oneCube (u : ℝ) : In 2 1 where
  q := fun j _ => if j = 0 then some 1 else none
  u := fun j _ => if j = 0 then some u else none
  i := none
  freq := wFreq
  rms := none

theorem oneCube_regular (u : ℝ) : Regular (oneCube u) wOpts :=
  ⟨wFreq_pos, ⟨0, 1, wFreq_ne⟩, (by positivity : (0 : ℝ) < Real.pi / 2).ne', fun r h => by simp [oneCube] at h⟩

theorem oneCube_fdf (u : ℝ) (l : Fin (nPhi (oneCube u) wOpts)) : fdfCube (oneCube u) wOpts l 0 = some (some (1 + u * I)) := by
  have hls : (synthInput (oneCube u) wOpts).lamSq 0 = 1 := wFreq_lamSq.1
  have e3 : ∀ j, Synth.weight0 (synthInput (oneCube u) wOpts) j = 1 := by
    intro j
    simp [Synth.weight0, synthInput, weight, oneCube]
  have hp : Synth.pCubeRaw (synthInput (oneCube u) wOpts) 0 0 = some (1 + u * I) := by
    unfold Synth.pCubeRaw
    have e1 : (synthInput (oneCube u) wOpts).dataQ 0 0 = some 1 := rfl
    have e2 : (synthInput (oneCube u) wOpts).dataU 0 0 = some u := rfl
    rw [e1, e2, e3]
    simp [mul_comm]
  have hp1 : Synth.pCubeRaw (synthInput (oneCube u) wOpts) 1 0 = none := by
    unfold Synth.pCubeRaw
    have e1 : (synthInput (oneCube u) wOpts).dataQ 1 0 = none := rfl
    rw [e1]
  have hm : Synth.mskCube (synthInput (oneCube u) wOpts) 0 0 = false := by
    unfold Synth.mskCube
    rw [hp]
    rfl
  have hm1 : Synth.mskCube (synthInput (oneCube u) wOpts) 1 0 = true := by
    unfold Synth.mskCube
    rw [hp1]
    rfl
  have hw : Synth.weight1 (synthInput (oneCube u) wOpts) 0 = 1 := by
    unfold Synth.weight1 Synth.planeCount
    rw [e3]
    simp [hm]
  have hw1 : Synth.weight1 (synthInput (oneCube u) wOpts) 1 = 0 := by
    unfold Synth.weight1 Synth.planeCount
    rw [e3]
    simp [hm1]
  have hl : Synth.lam0Sq (synthInput (oneCube u) wOpts) = 1 := by
    unfold Synth.lam0Sq
    have e4 : (synthInput (oneCube u) wOpts).lam0 = none := rfl
    rw [e4]
    simp [hw, hw1, hls]
  have hk : Synth.kArr (synthInput (oneCube u) wOpts) 0 = 1 := by
    unfold Synth.kArr
    simp [hw, hw1, hm]
  have hr : ∀ l, Synth.fdfRaw (synthInput (oneCube u) wOpts) l 0 = 1 + u * I := by
    intro l
    unfold Synth.fdfRaw Synth.nufft1d3
    rw [hl, hk]
    simp [Synth.pCube, hp, hp1, hls]
  have hne : (1 + u * I : ℂ) ≠ 0 := by
    intro e
    have := congrArg Complex.re e
    simp at this
  unfold fdfCube scale
  rw [if_pos (oneCube_regular u)]
  show Option.map _ (some (some 1)) = _
  simp only [Option.map_some, Option.bind_some, Option.some.injEq]
  unfold Synth.fdf
  rw [if_neg (fun hh => hne ((hr l).symm.trans (hh l))), hr]
  simp

/-- **C250**, units that differ. Only the header of Stokes Q is read: if Stokes U is in another unit (here: any number of units to the one of Q), no error is
raised, and the numbers written as flux density in the unit of Q are neither in this unit nor in that of U. -/
theorem mixed_units_wrong (u : ℝ) : ∃ w, arrays false true (oneCube u) wOpts = some w ∧ 1 < w.nPhi ∧
    ∀ l < w.nPhi, w.value (.fdf .re) l 0 = some 1 ∧ w.value (.fdf .im) l 0 = some u ∧ w.value (.fdf .tot) l 0 = some (Real.sqrt (1 + u ^ 2)) := by
  have hN : nPhi (oneCube u) wOpts = 3 := wOpts_nChan
  have hF : ∀ l p, fdfCube (oneCube u) wOpts l p = some (some (1 + u * I)) := by
    intro l p
    rw [Subsingleton.elim p 0]
    exact oneCube_fdf u l
  unfold arrays
  rw [run_regular (oneCube_regular u)]
  unfold runRegular
  rw [if_neg (by decide), if_pos rfl, Option.bind_some]
  unfold collect
  rw [if_pos (by
    intro F e l p
    obtain rfl := Option.some.inj e
    rw [hF]
    rfl)]
  refine ⟨_, rfl, by show 1 < nPhi (oneCube u) wOpts; omega, ?_⟩
  intro l hl
  have hl' : l < nPhi (oneCube u) wOpts := hl
  have hv : ∀ a, Arrays.value (m := 1)
      { nPhi := nPhi (oneCube u) wOpts
        nPhi2 := Axis.nPhi2 (nPhi (oneCube u) wOpts)
        phi := at0 (synthInput (oneCube u) wOpts).phi
        phi2 := ((Axis.phi2 (synthInput (oneCube u) wOpts).phi).map at0).getD fun _ => 0
        fdf := plane (((some (fdfCube (oneCube u) wOpts)).map fun F l p => (F l p).getD none).getD fun _ _ => none)
        rmsf := plane ((none : Option (Fin (Axis.nPhi2 (nPhi (oneCube u) wOpts)) → Fin 1 → Option ℂ)).getD fun _ _ => none)
        fwhm := Rmsf.fwhm (Pipe1D.arrMin (Pipe1D.lamSq (oneCube u).freq)) (Pipe1D.arrMax (Pipe1D.lamSq (oneCube u).freq))
        lam0 := lamsq0 (some (Synth.lam0Sq (synthInput (oneCube u) wOpts))) } (.fdf a) l 0 = some (part a (1 + u * I)) := by
    intro a
    unfold Arrays.value
    dsimp only
    unfold plane
    rw [dif_pos hl', Option.map_some, Option.getD_some, hF]
    rfl
  have hn : ‖(1 + u * I : ℂ)‖ = Real.sqrt (1 + u ^ 2) := by
    rw [Complex.norm_eq_sqrt_sq_add_sq]
    simp
  refine ⟨(hv .re).trans ?_, (hv .im).trans ?_, (hv .tot).trans ?_⟩
  · simp [part]
  · simp [part]
  · show some ‖(1 + u * I : ℂ)‖ = _
    rw [hn]

/-- A cube with a unit meets the hypotheses of `written_units`, and with `oneCube` those of `product_units_partial`. -/
example : (plainCube ++ [(.plain "BUNIT", .txt "Jy/beam")] : Header).get (.plain "BUNIT") = some (.txt "Jy/beam") ∧
    Typed (plainCube ++ [(.plain "BUNIT", .txt "Jy/beam")]) 3 ∧ "Jy/beam" ≠ "" ∧ "Jy/beam" ≠ "rad/m^2" ∧ "rad/m^2" ≠ "Jy/beam" ++ "/RMSF" := by
  refine ⟨rfl, ?_, by decide, by decide, by decide⟩
  intro i h1 h2
  interval_cases i
  · exact ⟨_, rfl⟩
  · exact ⟨_, rfl⟩
  · exact ⟨_, rfl⟩

/-- From janskys to millijanskys, at frequencies a thousand times lower. -/
example (u : ℝ) : Rescaled 1000 1000 (1 / 1000) (oneCube u)
    { oneCube u with
      q := fun j _ => if j = 0 then some (1000 * 1) else none, u := fun j _ => if j = 0 then some (1000 * u) else none
      freq := fun j => 1 / 1000 * wFreq j } :=
  ⟨fun j _ => by fin_cases j <;> rfl, fun j _ => by fin_cases j <;> rfl, rfl, rfl, rfl⟩

/-- A cube without a unit meets the hypotheses of `no_unit_wrong`. -/
example : plainCube.get (.plain "BUNIT") = none ∧ Typed plainCube 3 := ⟨rfl, plainCube_typed⟩

end Verif.Pipe3D
