import Verif.ICube.Units
import Verif.Order.Fit

/-!
# The order of the planes in a Stokes I cube fit (C275)

`do_fitIcube.py`, `make_model_I` 447-650: the same planes in another order, with their frequencies.
-/

namespace Verif.Order

open Verif.StokesI Verif.StokesFit Verif.Mpfit Verif.NumPy Verif.ICube

variable {n ny nx : ℕ}

/-- The same cube with the planes in another order. -/
def planes (e : Equiv.Perm (Fin n)) (x : Input n ny nx) : Input n ny nx := { x with d := x.d ∘ e }

/-- The same files with the planes of the model cube and the entries of the noise file in another order. -/
def files (e : Equiv.Perm (Fin n)) (F : Files n ny nx) : Files n ny nx := { F with model := F.model ∘ e, noise := F.noise ∘ e }

theorem noise_planes (e : Equiv.Perm (Fin n)) (x : Input n ny nx) : noise (planes e x).d (planes e x).threshold = noise x.d x.threshold ∘ e := rfl

theorem mask_planes (e : Equiv.Perm (Fin n)) (x : Input n ny nx) : (planes e x).mask = x.mask := by
  funext i j
  have h : 0 < mskCount (planes e x).d (planes e x).threshold i j ↔ 0 < mskCount x.d x.threshold i j := by
    rw [mskCount_pos, mskCount_pos]
    exact e.surjective.exists (p := fun c => planeSrc (x.d c) x.threshold i j = true) |>.symm
  unfold Input.mask
  exact if_congr Iff.rfl (decide_eq_decide.mpr h) rfl

theorem fitRaw_order (e : Equiv.Perm (Fin n)) (freq : Fin n → ℝ) (polyOrd : ℤ) (fn : FitFun) (rms s : Fin n → Option ℝ) :
    fitRaw (freq ∘ e) polyOrd fn (rms ∘ e) (s ∘ e) = raw e (fitRaw freq polyOrd fn rms s) := rfl

theorem outcome_order (e : Equiv.Perm (Fin n)) (c : Cfg) (hc : c.Ok) (freq : Fin n → ℝ) (fn : FitFun) (x : Input n ny nx) (i : Fin ny) (j : Fin nx) :
    outcome c (freq ∘ e) fn (planes e x) i j = outcome c freq fn x i j :=
  fitStokes_order e (fitRaw freq x.polyOrd fn (noise x.d x.threshold) fun ch => x.d ch i j) c hc

/-- The fit of one pixel with the channels in another order. -/
def pix (e : Equiv.Perm (Fin n)) (f : PixFit n) : PixFit n := { f with I := f.I ∘ e }

/-- The fit of one spectrum as `runModel` has it. -/
noncomputable def anyFit (c : Cfg) (freq : Fin n → ℝ) (polyOrd : ℤ) (fn : FitFun) (rms s : Fin n → Option ℝ) : PixFit n :=
  match ((fitRaw freq polyOrd fn rms s).fitStokes c).bind (pixFit freq) with
  | some f => f
  | none => PixFit.ofFit freq (dummyFit n 0 fn 0)

theorem pixFit_order (e : Equiv.Perm (Fin n)) (freq : Fin n → ℝ) (o : Outcome) : pixFit (freq ∘ e) o = (pixFit freq o).map (pix e) := by
  cases o <;> rfl

theorem anyFit_order (e : Equiv.Perm (Fin n)) (c : Cfg) (hc : c.Ok) (freq : Fin n → ℝ) (polyOrd : ℤ) (fn : FitFun) (rms s : Fin n → Option ℝ) :
    anyFit c (freq ∘ e) polyOrd fn (rms ∘ e) (s ∘ e) = pix e (anyFit c freq polyOrd fn rms s) := by
  unfold anyFit
  rw [fitRaw_order, fitStokes_order e _ c hc]
  cases (fitRaw freq polyOrd fn rms s).fitStokes c with
  | none => rfl
  | some o =>
    rw [Option.bind_some, Option.bind_some, pixFit_order]
    cases pixFit freq o <;> rfl

theorem fitPixels_order (e : Equiv.Perm (Fin n)) (fit fit' : (Fin n → Option ℝ) → PixFit n) (h : ∀ s, fit' (s ∘ e) = pix e (fit s))
    (d : Fin n → Img ny nx (Option ℝ)) (mask : Img ny nx Bool) :
    fitPixels fit' (d ∘ e) mask = { fitPixels fit d mask with model := (fitPixels fit d mask).model ∘ e } := by
  have key : ∀ i j, (∀ ch, (fitPixels fit' (d ∘ e) mask).model ch i j = (fitPixels fit d mask).model (e ch) i j) ∧
      (∀ k, (fitPixels fit' (d ∘ e) mask).coeffs k i j = (fitPixels fit d mask).coeffs k i j) ∧
      (∀ k, (fitPixels fit' (d ∘ e) mask).coeffsErr k i j = (fitPixels fit d mask).coeffsErr k i j) ∧
      (fitPixels fit' (d ∘ e) mask).refFreq i j = (fitPixels fit d mask).refFreq i j ∧
      ∀ a b, (fitPixels fit' (d ∘ e) mask).covar a b i j = (fitPixels fit d mask).covar a b i j := fun i j => by
    have k := C108_own_fit fit d mask i j
    have k' := C108_own_fit fit' (d ∘ e) mask i j
    dsimp only at k k'
    have hp : fit' (fun ch => (d ∘ e) ch i j) = pix e (fit fun ch => d ch i j) := h fun ch => d ch i j
    cases hm : mask i j with
    | true =>
      obtain ⟨a1, a2, a3, a4, a5⟩ := k.1 hm
      obtain ⟨b1, b2, b3, b4, b5⟩ := k'.1 hm
      refine ⟨fun ch => ?_, fun k => ?_, fun k => ?_, ?_, fun a b => ?_⟩
      · rw [a1, b1, hp]; rfl
      · rw [a2, b2, hp]; rfl
      · rw [a3, b3, hp]; rfl
      · rw [a4, b4, hp]; rfl
      · rw [a5, b5, hp]; rfl
    | false =>
      obtain ⟨a1, a2, a3, a4, a5⟩ := k.2 hm
      obtain ⟨b1, b2, b3, b4, b5⟩ := k'.2 hm
      refine ⟨fun ch => ?_, fun k => ?_, fun k => ?_, ?_, fun a b => ?_⟩
      · rw [a1, b1]
      · rw [a2, b2]
      · rw [a3, b3]
      · rw [a4, b4]
      · rw [a5, b5]
  have ext : ∀ P P' : Products n ny nx, P.model = P'.model → P.coeffs = P'.coeffs → P.coeffsErr = P'.coeffsErr → P.refFreq = P'.refFreq →
      P.covar = P'.covar → P = P' := by
    rintro ⟨⟩ ⟨⟩ h1 h2 h3 h4 h5
    simp only at h1 h2 h3 h4 h5
    subst h1 h2 h3 h4 h5
    rfl
  refine ext _ _ ?_ ?_ ?_ ?_ ?_
  · funext ch i j
    exact (key i j).1 ch
  · funext k i j
    exact (key i j).2.1 k
  · funext k i j
    exact (key i j).2.2.1 k
  · funext i j
    exact (key i j).2.2.2.1
  · funext a b i j
    exact (key i j).2.2.2.2 a b

theorem makeModel_order (e : Equiv.Perm (Fin n)) (fit fit' : (Fin n → Option ℝ) → (Fin n → Option ℝ) → PixFit n)
    (h : ∀ r s, fit' (r ∘ e) (s ∘ e) = pix e (fit r s)) (x : Input n ny nx) :
    makeModel fit' (planes e x) = (makeModel fit x).map (files e) := by
  unfold makeModel
  rw [mask_planes, noise_planes, show (planes e x).d = x.d ∘ e from rfl,
    fitPixels_order e (fit (noise x.d x.threshold)) (fit' (noise x.d x.threshold ∘ e)) (fun s => h _ s)]
  by_cases h1 : n ≠ x.nFreq
  · rw [if_pos h1, if_pos (show n ≠ (planes e x).nFreq from h1)]
    rfl
  rw [if_neg h1, if_neg (show ¬ n ≠ (planes e x).nFreq from h1)]
  by_cases h2 : (sqz [n, ny, nx]).length < 3
  · rw [if_pos h2, if_pos h2]
    rfl
  rw [if_neg h2, if_neg h2]
  dsimp only
  by_cases h3 : x.hasBUNIT = false
  · rw [if_pos h3, if_pos (show (planes e x).hasBUNIT = false from h3)]
    rfl
  rw [if_neg h3, if_neg (show ¬ (planes e x).hasBUNIT = false from h3)]
  by_cases h4 : 5 < x.polyOrd.natAbs
  · rw [if_pos h4, if_pos (show 5 < (planes e x).polyOrd.natAbs from h4)]
    rfl
  rw [if_neg h4, if_neg (show ¬ 5 < (planes e x).polyOrd.natAbs from h4)]
  rfl

/-- **C275.** The Stokes I fit of the same planes in any other order, each with its frequency, ends in the same way and writes the same mask,
coefficients, errors, covariances and reference frequencies, and the same model plane and noise for every channel. -/
theorem icube_order (e : Equiv.Perm (Fin n)) (c : Cfg) (hc : c.Ok) (freq : Fin n → ℝ) (fn : FitFun) (x : Input n ny nx) :
    runModel c (freq ∘ e) fn (planes e x) = (runModel c freq fn x).map (Except.map (files e)) := by
  classical
  have h0 : ∀ (freq : Fin n → ℝ) (x : Input n ny nx), runModel c freq fn x =
      if n ≠ x.nFreq then some (.error (.known .exit))
      else if (sqz [n, ny, nx]).length < 3 then some (.error (.known .indexError))
      else if ∃ i j, x.mask i j = true ∧ outcome c freq fn x i j = none then none
      else if ∃ i j, x.mask i j = true ∧ outcome c freq fn x i j = some .raised then some (.error .zeroDivision)
      else some ((makeModel (anyFit c freq x.polyOrd fn) x).mapError .known) := fun freq x => by
    unfold runModel
    rfl
  rw [h0, h0]
  simp only [mask_planes, outcome_order e c hc]
  rw [makeModel_order e (anyFit c freq x.polyOrd fn) (anyFit c (freq ∘ e) (planes e x).polyOrd fn) fun r s => anyFit_order e c hc freq x.polyOrd fn r s]
  by_cases h1 : n ≠ x.nFreq
  · rw [if_pos h1, if_pos (show n ≠ (planes e x).nFreq from h1)]
    rfl
  rw [if_neg h1, if_neg (show ¬ n ≠ (planes e x).nFreq from h1)]
  by_cases h2 : (sqz [n, ny, nx]).length < 3
  · rw [if_pos h2, if_pos h2]
    rfl
  rw [if_neg h2, if_neg h2]
  by_cases h3 : ∃ i j, x.mask i j = true ∧ outcome c freq fn x i j = none
  · rw [if_pos h3, if_pos h3]
    rfl
  rw [if_neg h3, if_neg h3]
  by_cases h4 : ∃ i j, x.mask i j = true ∧ outcome c freq fn x i j = some .raised
  · rw [if_pos h4, if_pos h4]
    rfl
  rw [if_neg h4, if_neg h4]
  cases makeModel (anyFit c freq x.polyOrd fn) x <;> rfl

/-- A case: the four pixels of C208, one of them blank, in both orders. -/
theorem icube_order_four (c : Cfg) (hc : c.Ok) (freq : Fin 2 → ℝ) (fn : FitFun) (hd : Header) (o : Pipe1D.Opts) (hu : o.variance = false) :
    ∃ F, runModel c freq fn (four hd) = some (.ok F) ∧
      runModel c (freq ∘ Equiv.swap 0 1) fn (planes (Equiv.swap 0 1) (four hd)) = some (.ok (files (Equiv.swap 0 1) F)) := by
  obtain ⟨F, -, hF, -⟩ := case_four c hc freq fn hd o hu fun _ => none
  exact ⟨F, hF, by rw [icube_order _ c hc, hF]; rfl⟩

end Verif.Order
