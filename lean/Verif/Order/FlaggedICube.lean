import Verif.Order.ICube
import Verif.Order.FlaggedFit
import Verif.ICube.ChainEnds

/-!
# Planes of a Stokes I cube without data, and planes that are not in the cube (C297)

Source: `/repo/RMtools_3D/do_fitIcube.py` 260-329 (`cube_noise`), 410-444 (`fit_spectra_I`), 447-650 (`make_model_I`) and
`/repo/RMutils/util_misc.py` 449-533 (`fit_StokesI_model`).
-/

namespace Verif.Order

open Verif.StokesI Verif.StokesFit Verif.Mpfit Verif.NumPy Verif.ICube

variable {n k ny nx : ℕ}

/-! ## Specification -/

/-- The cube with the planes `e` only, and as many frequencies. -/
def inputRows (e : Fin k → Fin n) (x : Input n ny nx) : Input k ny nx where
  d := x.d ∘ e
  nFreq := k
  header := x.header
  hasBUNIT := x.hasBUNIT
  polyOrd := x.polyOrd
  threshold := x.threshold
  applyMask := x.applyMask

/-- The same maps, and the planes `e` of the model cube and of the noise file only. -/
def filesRows (e : Fin k → Fin n) (F : Files n ny nx) : Files k ny nx where
  mask := F.mask
  coeff := F.coeff
  coeffErr := F.coeffErr
  coeffHeader := F.coeffHeader
  refFreq := F.refFreq
  refFreqHeader := F.refFreqHeader
  covar := F.covar
  model := F.model ∘ e
  noise := F.noise ∘ e

/-! ## Helper lemmas -/

theorem choose_le (mp : ℕ → Option Fit) (o : ℤ) (s : ℤ × ℝ × Fit) (h : StokesFit.choose mp o = some s) : s.1 ≤ o.natAbs := by
  rcases lt_or_ge o 0 with ho | ho
  · obtain ⟨N, rfl⟩ : ∃ N : ℕ, o = -N := ⟨o.natAbs, by omega⟩
    obtain ⟨q, h1, h2, -⟩ := choose_spec mp N (by omega) s h
    rw [h1]
    omega
  · unfold StokesFit.choose at h
    rw [if_neg (by omega)] at h
    obtain ⟨f, -, hf⟩ := Option.map_eq_some_iff.mp h
    rw [← hf]
    dsimp only
    omega

/-- An outcome with fewer degrees of freedom. -/
noncomputable def lessDof (t : ℤ) : Outcome → Outcome
  | .raised => .raised
  | .nan => .nan
  | .fit r cov => .fit { r with dof := r.dof - t } cov

/-- The fit of the rows with data, whether it ends with a covariance matrix or not. -/
theorem fitStokes_rows (e : Fin k → Fin n) (he : Function.Injective e) (w : Raw n) (c : Cfg) (hc : c.Ok)
    (h : ∀ j, (∀ i, e i ≠ j) → w.i j = none ∨ w.dI j = none) (hk : w.polyOrd.natAbs + 1 < k) :
    (rawRows e w).fitStokes c = (w.fitStokes c).map (lessDof ((n : ℤ) - k)) := by
  have hkn : k ≤ n := by simpa using Fintype.card_le_of_injective e he
  have hs := spec_rows e he w h
  have hp : (rawRows e w).poly c = w.poly c := by
    funext o
    unfold Raw.poly
    have h1 : ((rawRows e w).spec.Mixed ∧ min o 5 < (rawRows e w).spec.m) ↔ (w.spec.Mixed ∧ min o 5 < w.spec.m) := by
      rw [mixed_perm hs, m_perm hs]
    have h2 : fitter c (polyProb (rawRows e w).fn o (rawRows e w).spec) = fitter c (polyProb w.fn o w.spec) :=
      fitter_order c hc w.fn o hs
    rw [h2]
    by_cases h : w.spec.Mixed ∧ min o 5 < w.spec.m
    · rw [if_pos h, if_pos (h1.mpr h)]
    · rw [if_neg h, if_neg fun h' => h (h1.mp h')]
  have hg : (rawRows e w).good = [] ↔ w.good = [] := by
    have := (good_rows e he w h).length_eq
    rw [List.length_map] at this
    rw [← List.length_eq_zero_iff, ← List.length_eq_zero_iff, this]
  unfold Raw.fitStokes
  rw [hp, ref_rows e he w h, Option.map_map]
  change Option.map _ (StokesFit.choose (w.poly c) w.polyOrd) = _
  cases hs1 : StokesFit.choose (w.poly c) w.polyOrd with
  | none => rfl
  | some s =>
    have hle := choose_le _ _ _ hs1
    have d1 : ¬ (s.2.2.covar.isNone = true ∧ (n : ℤ) - s.1 - 1 = 0) := fun h => by have := h.2; omega
    have d2 : ¬ (s.2.2.covar.isNone = true ∧ (k : ℤ) - s.1 - 1 = 0) := fun h => by have := h.2; omega
    rw [Option.map_some, Option.map_some, Function.comp_apply, if_neg d1, if_neg d2]
    · by_cases h2 : w.good = []
      · rw [if_pos h2, if_pos (hg.mpr h2)]
        rfl
      · rw [if_neg h2, if_neg fun h => h2 (hg.mp h)]
        unfold lessDof resultOf
        dsimp only
        congr 3
        ring

/-- The fit of one pixel, for the planes `e`. -/
def pixRows (e : Fin k → Fin n) (f : PixFit n) : PixFit k where
  I := f.I ∘ e
  coeffs := f.coeffs
  coeffsErr := f.coeffsErr
  covar := f.covar
  refFreq := f.refFreq

theorem pixFit_rows (e : Fin k → Fin n) (freq : Fin n → ℝ) (t : ℤ) (o : Outcome) :
    pixFit (freq ∘ e) (lessDof t o) = (pixFit freq o).map (pixRows e) := by
  cases o <;> rfl

theorem vals_none (p : Img ny nx (Option ℝ)) (h : ∀ i j, p i j = none) : ((planeVals p).all fun v => v.isNone) = true := by
  unfold planeVals
  rw [List.all_eq_true]
  intro v hv
  obtain ⟨q, -, rfl⟩ := List.mem_map.mp hv
  rw [h]
  rfl

theorem noise_none (x : Input n ny nx) (c : Fin n) (h : ∀ i j, x.d c i j = none) : noise x.d x.threshold c = none := by
  unfold noise planeNoise
  rw [if_pos (vals_none _ h)]

theorem mask_rows (e : Fin k → Fin n) (x : Input n ny nx) (h : ∀ c, (∀ i, e i ≠ c) → ∀ i j, x.d c i j = none) :
    (inputRows e x).mask = x.mask := by
  funext i j
  have h1 : 0 < mskCount (inputRows e x).d (inputRows e x).threshold i j ↔ 0 < mskCount x.d x.threshold i j := by
    rw [mskCount_pos, mskCount_pos]
    constructor
    · rintro ⟨a, ha⟩
      exact ⟨e a, ha⟩
    · rintro ⟨b, hb⟩
      by_cases hd : ∃ a, e a = b
      · obtain ⟨a, rfl⟩ := hd
        exact ⟨a, hb⟩
      · exfalso
        unfold planeSrc at hb
        rw [if_pos (vals_none _ (h b fun a ha => hd ⟨a, ha⟩))] at hb
        cases hb
  unfold Input.mask
  exact if_congr Iff.rfl (decide_eq_decide.mpr h1) rfl

theorem outcome_rows (e : Fin k → Fin n) (he : Function.Injective e) (c : Cfg) (hc : c.Ok) (freq : Fin n → ℝ) (fn : FitFun) (x : Input n ny nx)
    (h : ∀ c, (∀ i, e i ≠ c) → ∀ i j, x.d c i j = none) (hk : x.polyOrd.natAbs + 1 < k) (i : Fin ny) (j : Fin nx) :
    outcome c (freq ∘ e) fn (inputRows e x) i j = (outcome c freq fn x i j).map (lessDof ((n : ℤ) - k)) :=
  fitStokes_rows e he (fitRaw freq x.polyOrd fn (noise x.d x.threshold) fun ch => x.d ch i j) c hc (fun b hb => Or.inl (h b hb i j)) hk

theorem anyFit_rows (e : Fin k → Fin n) (he : Function.Injective e) (c : Cfg) (hc : c.Ok) (freq : Fin n → ℝ) (polyOrd : ℤ) (fn : FitFun)
    (rms s : Fin n → Option ℝ) (h : ∀ j, (∀ i, e i ≠ j) → s j = none) (hk : polyOrd.natAbs + 1 < k) :
    anyFit c (freq ∘ e) polyOrd fn (rms ∘ e) (s ∘ e) = pixRows e (anyFit c freq polyOrd fn rms s) := by
  have h1 := fitStokes_rows e he (fitRaw freq polyOrd fn rms s) c hc (fun j hj => Or.inl (h j hj)) hk
  have h2 : rawRows e (fitRaw freq polyOrd fn rms s) = fitRaw (freq ∘ e) polyOrd fn (rms ∘ e) (s ∘ e) := rfl
  rw [h2] at h1
  unfold anyFit
  rw [h1]
  cases (fitRaw freq polyOrd fn rms s).fitStokes c with
  | none => rfl
  | some o =>
    rw [Option.map_some, Option.bind_some, Option.bind_some, pixFit_rows]
    cases pixFit freq o <;> rfl

theorem fitPixels_rows (e : Fin k → Fin n) (fit : (Fin n → Option ℝ) → PixFit n) (fit' : (Fin k → Option ℝ) → PixFit k)
    (d : Fin n → Img ny nx (Option ℝ)) (h : ∀ i j, fit' ((fun c => d c i j) ∘ e) = pixRows e (fit fun c => d c i j)) (mask : Img ny nx Bool) :
    (fitPixels fit' (d ∘ e) mask).model = (fitPixels fit d mask).model ∘ e ∧
    (fitPixels fit' (d ∘ e) mask).coeffs = (fitPixels fit d mask).coeffs ∧
    (fitPixels fit' (d ∘ e) mask).coeffsErr = (fitPixels fit d mask).coeffsErr ∧
    (fitPixels fit' (d ∘ e) mask).refFreq = (fitPixels fit d mask).refFreq ∧
    (fitPixels fit' (d ∘ e) mask).covar = (fitPixels fit d mask).covar := by
  have key : ∀ i j, (∀ ch, (fitPixels fit' (d ∘ e) mask).model ch i j = (fitPixels fit d mask).model (e ch) i j) ∧
      (∀ k, (fitPixels fit' (d ∘ e) mask).coeffs k i j = (fitPixels fit d mask).coeffs k i j) ∧
      (∀ k, (fitPixels fit' (d ∘ e) mask).coeffsErr k i j = (fitPixels fit d mask).coeffsErr k i j) ∧
      (fitPixels fit' (d ∘ e) mask).refFreq i j = (fitPixels fit d mask).refFreq i j ∧
      ∀ a b, (fitPixels fit' (d ∘ e) mask).covar a b i j = (fitPixels fit d mask).covar a b i j := fun i j => by
    have k := C108_own_fit fit d mask i j
    have k' := C108_own_fit fit' (d ∘ e) mask i j
    dsimp only at k k'
    have hp : fit' (fun ch => (d ∘ e) ch i j) = pixRows e (fit fun ch => d ch i j) := h i j
    cases hm : mask i j with
    | true =>
      obtain ⟨a1, a2, a3, a4, a5⟩ := k.1 hm
      obtain ⟨b1, b2, b3, b4, b5⟩ := k'.1 hm
      refine ⟨fun ch => ?_, fun k => ?_, fun k => ?_, ?_, fun a b => ?_⟩
      · rw [a1, b1, hp]; rfl
      · rw [a2, b2, hp]; rfl
      · rw [a3, b3, hp]; rfl
      · rw [a4, b4, hp]; rfl
      · rw [a5, b5, hp]; rfl
    | false =>
      obtain ⟨a1, a2, a3, a4, a5⟩ := k.2 hm
      obtain ⟨b1, b2, b3, b4, b5⟩ := k'.2 hm
      refine ⟨fun ch => ?_, fun k => ?_, fun k => ?_, ?_, fun a b => ?_⟩
      · rw [a1, b1]
      · rw [a2, b2]
      · rw [a3, b3]
      · rw [a4, b4]
      · rw [a5, b5]
  refine ⟨?_, ?_, ?_, ?_, ?_⟩
  · funext ch i j
    exact (key i j).1 ch
  · funext k i j
    exact (key i j).2.1 k
  · funext k i j
    exact (key i j).2.2.1 k
  · funext i j
    exact (key i j).2.2.2.1
  · funext a b i j
    exact (key i j).2.2.2.2 a b

theorem makeModel_rows (e : Fin k → Fin n) (fit : (Fin n → Option ℝ) → (Fin n → Option ℝ) → PixFit n)
    (fit' : (Fin k → Option ℝ) → (Fin k → Option ℝ) → PixFit k) (x : Input n ny nx) (hn : x.nFreq = n) (hk1 : k ≠ 1) (hn1 : n ≠ 1)
    (hfit : ∀ i j, fit' (noise x.d x.threshold ∘ e) ((fun c => x.d c i j) ∘ e) = pixRows e (fit (noise x.d x.threshold) fun c => x.d c i j))
    (h : ∀ c, (∀ i, e i ≠ c) → ∀ i j, x.d c i j = none) : makeModel fit' (inputRows e x) = (makeModel fit x).map (filesRows e) := by
  have hsq : (sqz [k, ny, nx]).length = (sqz [n, ny, nx]).length := by simp [sqz, hk1, hn1, List.filter_cons]
  obtain ⟨m1, m2, m3, m4, m5⟩ := fitPixels_rows e (fit (noise x.d x.threshold)) (fit' (noise x.d x.threshold ∘ e)) x.d hfit x.mask
  unfold makeModel
  rw [mask_rows e x h, show (inputRows e x).d = x.d ∘ e from rfl, show noise (x.d ∘ e) (inputRows e x).threshold = noise x.d x.threshold ∘ e from rfl,
    if_neg (show ¬ k ≠ (inputRows e x).nFreq from fun h => h rfl), if_neg (show ¬ n ≠ x.nFreq from fun h => h hn.symm), hsq]
  by_cases h2 : (sqz [n, ny, nx]).length < 3
  · rw [if_pos h2, if_pos h2]
    rfl
  rw [if_neg h2, if_neg h2]
  dsimp only
  by_cases h3 : x.hasBUNIT = false
  · rw [if_pos h3, if_pos (show (inputRows e x).hasBUNIT = false from h3)]
    rfl
  rw [if_neg h3, if_neg (show ¬ (inputRows e x).hasBUNIT = false from h3)]
  by_cases h4 : 5 < x.polyOrd.natAbs
  · rw [if_pos h4, if_pos (show 5 < (inputRows e x).polyOrd.natAbs from h4)]
    rfl
  rw [if_neg h4, if_neg (show ¬ 5 < (inputRows e x).polyOrd.natAbs from h4), m1, m2, m3, m4, m5]
  rfl

/-! ## C297 -/

/-- **C297, the part that holds.** The Stokes I fit of a cube in which planes have no data, and of the cube without these planes, the others in any
order, if there are at least two more planes left than the order of the model: the run ends in the same way, with the same mask, coefficients,
errors, covariances and reference frequencies, and the same model and noise in every plane that is left. -/
theorem icube_planes_partial (e : Fin k → Fin n) (he : Function.Injective e) (c : Cfg) (hc : c.Ok) (freq : Fin n → ℝ) (fn : FitFun)
    (x : Input n ny nx) (hn : x.nFreq = n) (h : ∀ c, (∀ i, e i ≠ c) → ∀ i j, x.d c i j = none) (hk : x.polyOrd.natAbs + 1 < k) :
    runModel c (freq ∘ e) fn (inputRows e x) = (runModel c freq fn x).map (Except.map (filesRows e)) := by
  classical
  have hkn : k ≤ n := by simpa using Fintype.card_le_of_injective e he
  have hsq : (sqz [k, ny, nx]).length = (sqz [n, ny, nx]).length := by
    simp [sqz, show k ≠ 1 by omega, show n ≠ 1 by omega, List.filter_cons]
  have h0 : ∀ (n : ℕ) (freq : Fin n → ℝ) (x : Input n ny nx), runModel c freq fn x =
      if n ≠ x.nFreq then some (.error (.known .exit))
      else if (sqz [n, ny, nx]).length < 3 then some (.error (.known .indexError))
      else if ∃ i j, x.mask i j = true ∧ outcome c freq fn x i j = none then none
      else if ∃ i j, x.mask i j = true ∧ outcome c freq fn x i j = some .raised then some (.error .zeroDivision)
      else some ((makeModel (anyFit c freq x.polyOrd fn) x).mapError .known) := fun n freq x => by
    unfold runModel
    rfl
  have hno : ∀ o : Option Outcome, o.map (lessDof ((n : ℤ) - k)) = none ↔ o = none := fun o => Option.map_eq_none_iff
  have hra : ∀ o : Option Outcome, o.map (lessDof ((n : ℤ) - k)) = some .raised ↔ o = some .raised := fun o => by
    cases o with
    | none => exact Iff.rfl
    | some o => cases o <;> simp [lessDof]
  rw [h0, h0]
  simp only [mask_rows e x h, outcome_rows e he c hc freq fn x h hk, hno, hra]
  rw [makeModel_rows e (anyFit c freq x.polyOrd fn) (anyFit c (freq ∘ e) (inputRows e x).polyOrd fn) x hn (by omega) (by omega)
    (fun i j => anyFit_rows e he c hc freq x.polyOrd fn _ _ (fun b hb => h b hb i j) hk) h,
    if_neg (show ¬ k ≠ (inputRows e x).nFreq from fun h => h rfl), if_neg (show ¬ n ≠ x.nFreq from fun h => h hn.symm), hsq]
  by_cases h2 : (sqz [n, ny, nx]).length < 3
  · rw [if_pos h2, if_pos h2]
    rfl
  rw [if_neg h2, if_neg h2]
  by_cases h3 : ∃ i j, x.mask i j = true ∧ outcome c freq fn x i j = none
  · rw [if_pos h3, if_pos h3]
    rfl
  rw [if_neg h3, if_neg h3]
  by_cases h4 : ∃ i j, x.mask i j = true ∧ outcome c freq fn x i j = some .raised
  · rw [if_pos h4, if_pos h4]
    rfl
  rw [if_neg h4, if_neg h4]
  cases makeModel (anyFit c freq x.polyOrd fn) x <;> rfl

/-- The four pixels of C208 with a third plane that has no data. -/
noncomputable def fourFlag (hd : Header) (o : ℤ) : Input 3 2 2 where
  d := fun c i j => if c = 2 then none else ![![some 1, some (-1)], ![some 2, none]] i j
  nFreq := 3
  header := hd
  hasBUNIT := true
  polyOrd := o
  threshold := -3
  applyMask := false

theorem fourFlag_drop (hd : Header) (o : ℤ) (c : Fin 3) (h : ∀ i, two i ≠ c) (i j : Fin 2) : (fourFlag hd o).d c i j = none := by
  rw [two_drop c h]
  rfl

theorem fourFlag_rows (hd : Header) (o : ℤ) : inputRows two (fourFlag hd o) = { four hd with polyOrd := o } := by
  have h1 : (fourFlag hd o).d ∘ two = (four hd).d := by
    funext c i j
    fin_cases c <;> rfl
  unfold inputRows
  rw [h1]
  rfl

/-- A case: fitted with a constant. -/
theorem icube_planes_four (c : Cfg) (hc : c.Ok) (freq : Fin 3 → ℝ) (fn : FitFun) (hd : Header) :
    ∃ F, runModel c freq fn (fourFlag hd 0) = some (.ok F) ∧ runModel c (freq ∘ two) fn (four hd) = some (.ok (filesRows two F)) := by
  obtain ⟨F', -, hF, -⟩ := case_four c hc (freq ∘ two) fn hd
    { variance := false, superRes := false, dPhi := none, phiMax := none, nSamples := 10 } rfl fun _ => none
  have h := icube_planes_partial two two_inj c hc freq fn (fourFlag hd 0) rfl (fourFlag_drop hd 0) (by norm_num [fourFlag])
  rw [fourFlag_rows, show ({ four hd with polyOrd := 0 } : Input 2 2 2) = four hd from rfl] at h
  rw [hF] at h
  cases hr : runModel c freq fn (fourFlag hd 0) with
  | none => rw [hr] at h; cases h
  | some r =>
    cases r with
    | error a => rw [hr] at h; cases h
    | ok F => exact ⟨F, rfl, by rw [hF, h, hr]; rfl⟩

theorem fourFlag_noise (hd : Header) (o : ℤ) (ch : Fin 3) (h : ch ≠ 2) :
    noise (fourFlag hd o).d (fourFlag hd o).threshold ch = some (1 / 0.6745) := by
  have h1 := four_noise hd 0
  unfold noise at h1 ⊢
  have : (fourFlag hd o).d ch = (four hd).d 0 := by
    funext i j
    show (if ch = 2 then none else _) = _
    rw [if_neg h]
    rfl
  rw [this]
  exact h1

/-- **C297 is false for few planes.** Two planes with data and one without, fitted with a straight line: the run ends with its files, the blank
pixel is blank. Without the plane that has no data the run ends with a `ZeroDivisionError` for the blank pixel, and no file is written. -/
theorem icube_planes_stops (c : Cfg) (hc : c.Ok) (freq : Fin 3 → ℝ) (fn : FitFun) (hd : Header) :
    (∃ F, runModel c freq fn (fourFlag hd 1) = some (.ok F) ∧ (∀ ch, F.model ch 1 1 = none) ∧ ∀ ch, F.model ch 1 0 = some 2) ∧
    runModel c (freq ∘ two) fn (inputRows two (fourFlag hd 1)) = some (.error .zeroDivision) := by
  have hflat : ∀ (i j : Fin 2) (v : ℝ), (∀ ch, ch ≠ 2 → (fourFlag hd 1).d ch i j = some v) →
      ∃ r, outcome c freq fn (fourFlag hd 1) i j = some (.fit r true) ∧ ∀ f, calcModel r f = v := by
    intro i j v h
    set w := fitRaw freq (fourFlag hd 1).polyOrd fn (noise (fourFlag hd 1).d (fourFlag hd 1).threshold) fun ch => (fourFlag hd 1).d ch i j with hw
    have hset : ({0, 1} : Finset (Fin 3)) ⊆ (Finset.univ.filter fun ch => w.i ch ≠ none ∧ w.dI ch ≠ none) := by
      intro ch hch
      have h2 : ch ≠ 2 := by
        rintro rfl
        revert hch
        decide
      rw [Finset.mem_filter]
      refine ⟨Finset.mem_univ _, ?_, ?_⟩
      · show (fourFlag hd 1).d ch i j ≠ none
        rw [h ch h2]
        simp
      · show noise (fourFlag hd 1).d (fourFlag hd 1).threshold ch ≠ none
        rw [fourFlag_noise hd 1 ch h2]
        simp
    have hcard := Finset.card_le_card hset
    obtain ⟨r, hr, -, -, -, hm⟩ := fit_flat w c hc v (Or.inl fun ch hi => by
      show noise (fourFlag hd 1).d (fourFlag hd 1).threshold ch ≠ some 0
      by_cases h2 : ch = 2
      · exact absurd (show w.i ch = none by rw [h2]; rfl) hi
      · rw [fourFlag_noise hd 1 ch h2]
        norm_num) (by
      intro ch a ha _
      have h2 : ch ≠ 2 := by
        rintro rfl
        cases ha
      have : (fourFlag hd 1).d ch i j = some a := ha
      rw [h ch h2] at this
      exact (Option.some.inj this).symm) (Or.inl ⟨1, rfl, by norm_num, lt_of_lt_of_le (by decide) hcard⟩)
    exact ⟨r, hr, hm⟩
  have hv : ∀ (i j : Fin 2) (ch : Fin 3), ch ≠ 2 → (fourFlag hd 1).d ch i j = ![![some 1, some (-1)], ![some 2, none]] i j := by
    intro i j ch h
    show (if ch = 2 then none else _) = _
    rw [if_neg h]
  have h00 := hflat 0 0 1 fun ch h => by rw [hv 0 0 ch h]; rfl
  have h01 := hflat 0 1 (-1) fun ch h => by rw [hv 0 1 ch h]; rfl
  have h10 := hflat 1 0 2 fun ch h => by rw [hv 1 0 ch h]; rfl
  have hbl : ∀ ch, (fourFlag hd 1).d ch 1 1 = none := fun ch => by fin_cases ch <;> rfl
  have hgood : ∀ {m : ℕ} (fr : Fin m → ℝ) (rms : Fin m → Option ℝ) (s : Fin m → Option ℝ), (∀ a, s a = none) →
      (fitRaw fr 1 fn rms s).good = [] := by
    intro m fr rms s hs
    unfold Raw.good
    rw [List.filter_eq_nil_iff]
    intro a _
    simp [fitRaw, hs]
  have h11 : outcome c freq fn (fourFlag hd 1) 1 1 = some .nan :=
    (outcome_few (fitRaw freq 1 fn (noise (fourFlag hd 1).d (fourFlag hd 1).threshold) fun ch => (fourFlag hd 1).d ch 1 1) c 1 rfl (by norm_num)
      (by rw [hgood _ _ _ hbl]; simp)).2 (by norm_num) (hgood _ _ _ hbl)
  constructor
  · obtain ⟨F, hF, hb⟩ := blank_pixels_partial c freq fn (fourFlag hd 1) 1 rfl (by norm_num) (by norm_num) rfl ⟨by norm_num, by norm_num, by norm_num⟩ rfl
      (by
        intro i j _
        fin_cases i <;> fin_cases j
        · obtain ⟨r, hr, -⟩ := h00
          exact fun h => by rw [show outcome c freq fn (fourFlag hd 1) 0 0 = none from h] at hr; cases hr
        · obtain ⟨r, hr, -⟩ := h01
          exact fun h => by rw [show outcome c freq fn (fourFlag hd 1) 0 1 = none from h] at hr; cases hr
        · obtain ⟨r, hr, -⟩ := h10
          exact fun h => by rw [show outcome c freq fn (fourFlag hd 1) 1 0 = none from h] at hr; cases hr
        · exact fun h => by rw [show outcome c freq fn (fourFlag hd 1) 1 1 = none from h] at h11; cases h11)
    refine ⟨F, hF, hb 1 1 hbl, fun ch => ?_⟩
    obtain ⟨f, hf, hI, -⟩ := (runModel_ok c freq fn (fourFlag hd 1) F hF 1 0).1 rfl
    obtain ⟨r, hr, hm⟩ := h10
    rw [hr] at hf
    simp only [Option.bind_some, pixFit, Option.some.injEq] at hf
    rw [hI, ← hf]
    show some (calcModel r (freq ch)) = some 2
    rw [hm]
  · rw [fourFlag_rows]
    refine (blank_pixel_stops c (freq ∘ two) fn { four hd with polyOrd := 1 } 1 rfl (by norm_num) rfl 1 1 rfl 0 rfl).2 rfl
      ⟨by norm_num, by norm_num, by norm_num⟩ ?_
    intro i j _
    -- the fits of the other pixels end
    have hfl : ∀ (i j : Fin 2) (v : ℝ), (∀ ch, (four hd).d ch i j = some v) →
        outcome c (freq ∘ two) fn { four hd with polyOrd := 1 } i j ≠ none := by
      intro i j v h
      set w := fitRaw (freq ∘ two) 1 fn (noise (four hd).d (four hd).threshold) fun ch => (four hd).d ch i j with hw
      have hset : (Finset.univ.filter fun ch => w.i ch ≠ none ∧ w.dI ch ≠ none) = Finset.univ := by
        refine Finset.filter_true_of_mem fun ch _ => ⟨?_, ?_⟩
        · show (four hd).d ch i j ≠ none
          rw [h ch]
          simp
        · show noise (four hd).d (four hd).threshold ch ≠ none
          rw [four_noise]
          simp
      obtain ⟨r, hr, -⟩ := fit_flat w c hc v (Or.inl fun ch _ => by
        show noise (four hd).d (four hd).threshold ch ≠ some 0
        rw [four_noise]
        norm_num) (by
        intro ch a ha _
        have : (four hd).d ch i j = some a := ha
        rw [h ch] at this
        exact (Option.some.inj this).symm) (Or.inl ⟨1, rfl, by norm_num, by rw [hset]; simp⟩)
      intro hn
      have : w.fitStokes c = none := hn
      rw [hr] at this
      cases this
    fin_cases i <;> fin_cases j
    · exact hfl 0 0 1 fun _ => rfl
    · exact hfl 0 1 (-1) fun _ => rfl
    · exact hfl 1 0 2 fun _ => rfl
    · intro hn
      have hr := blank_pixel_raised c (freq ∘ two) fn { four hd with polyOrd := 1 } 1 rfl (by norm_num) rfl 1 1 0 rfl
      rw [show outcome c (freq ∘ two) fn { four hd with polyOrd := 1 } 1 1 = none from hn] at hr
      cases hr

end Verif.Order
