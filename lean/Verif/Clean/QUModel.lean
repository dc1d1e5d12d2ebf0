import Verif.Clean.Bridge
import Mathlib.Data.List.OfFn

/-!
# The Q/U model from the files of `rmsynth1d` and `rmclean1d` (C208)

Source: `/repo/RMtools_1D/clean_model.py` (`calculate_QU_model` 20-61, `read_files` 68-95, `main` 98-146). `quModel` is in
`Verif.Clean.Bridge`. The components in `_FDFmodel.dat` are in flux units: `run_rmsynth` (`do_RMsynth_1D.py` 352-360) has multiplied
the spectrum by Stokes I at the reference frequency. Six coefficients are in the JSON file (`polyCoeffs`), for `c / sqrt(lam0Sq)` as the
reference frequency (`do_RMsynth_1D.py` 347-350); they are printed in single precision, which is not modelled. `λ0² = 0` (super-resolution) is
not covered: the reference frequency is then infinite.
-/

open Complex

namespace Verif.Clean

open Verif.NumPy Verif.SynthSpec

variable {n m N : ℕ} [NeZero N] [NeZero (Axis.nPhi2 N)]

/-- The Stokes I that `calculate_QU_model` (45-61) returns with the spectrum. -/
noncomputable def quStokesI (c : ℝ) (freq : Fin n → ℝ) (lam0 : ℝ) (Iparms : Option (List ℝ)) : Option (Fin n → ℝ) :=
  (StokesI.padParams (Iparms.getD [0, 0, 0, 0, 0, 1])).map fun par j =>
    StokesI.powerlawPoly5 par (freq j / (c / Real.sqrt lam0))

theorem padParams_ofFn (p : Fin 6 → ℝ) : StokesI.padParams (List.ofFn p) = some p := by
  unfold StokesI.padParams
  rw [if_pos (by simp)]
  congr 1
  funext i
  fin_cases i <;> simp

/-- With the coefficients of a fit in `log` form, the Stokes I of the model is that of the fit. -/
theorem quStokesI_log (c : ℝ) (freq : Fin n → ℝ) (lam0 : ℝ) (r : StokesI.FitResult) (hr : r.fn = .log)
    (href : r.refFreq = c / Real.sqrt lam0) :
    quStokesI c freq lam0 (some (List.ofFn r.params)) = some fun j => StokesI.calcModel r (freq j) := by
  unfold quStokesI
  rw [Option.getD_some, padParams_ofFn, Option.map_some]
  congr 1
  funext j
  unfold StokesI.calcModel
  rw [hr, href]

/-- With the coefficients of a fit in `linear` form it is not: `1 + x` is read as `x`. -/
theorem quStokesI_linear_wrong (c : ℝ) (hc : 0 < c) (lam0 : ℝ) (hl : 0 < lam0) : ∃ r : StokesI.FitResult,
    r.fn = .linear ∧ r.refFreq = c / Real.sqrt lam0 ∧ (∀ f, 0 < f → 0 < StokesI.calcModel r f) ∧
    ∀ (n : ℕ) (freq : Fin n → ℝ), (∀ j, 0 < freq j) → ∃ I, quStokesI c freq lam0 (some (List.ofFn r.params)) = some I ∧
      ∀ j, I j ≠ StokesI.calcModel r (freq j) := by
  have hpos : 0 < c / Real.sqrt lam0 := div_pos hc (Real.sqrt_pos.2 hl)
  have e2 : (![0, 0, 0, 0, 1, 1] : Fin 6 → ℝ) 2 = 0 := rfl
  have e3 : (![0, 0, 0, 0, 1, 1] : Fin 6 → ℝ) 3 = 0 := rfl
  have e4 : (![0, 0, 0, 0, 1, 1] : Fin 6 → ℝ) 4 = 1 := rfl
  have e5 : (![0, 0, 0, 0, 1, 1] : Fin 6 → ℝ) 5 = 1 := rfl
  refine ⟨⟨![0, 0, 0, 0, 1, 1], 0, 0, 0, 0, 1, c / Real.sqrt lam0, fun _ _ => 0, fun _ => none, .linear⟩, rfl, rfl, ?_, ?_⟩
  · intro f hf
    have : 0 < f / (c / Real.sqrt lam0) := div_pos hf hpos
    simp only [StokesI.calcModel, StokesI.poly5]
    norm_num [e2, e3, e4, e5]
    linarith
  · intro n freq hf
    unfold quStokesI
    rw [Option.getD_some, padParams_ofFn]
    refine ⟨_, rfl, fun j => ?_⟩
    simp only [StokesI.calcModel, StokesI.poly5, StokesI.powerlawPoly5]
    norm_num [e2, e3, e4, e5]

omit [NeZero N] [NeZero (Axis.nPhi2 N)] in
/-- The spectrum of the model is its Stokes I times the sum of the components. -/
theorem quModel_log (c : ℝ) (freq : Fin n → ℝ) (phi : Fin N → ℝ) (cc : Fin N → ℂ) (lam0 : ℝ) (r : StokesI.FitResult)
    (hr : r.fn = .log) (href : r.refFreq = c / Real.sqrt lam0) :
    quModel c freq phi cc lam0 (some (List.ofFn r.params)) = some fun j =>
      (StokesI.calcModel r (freq j) : ℂ) * ∑ k, cc k * exp (2 * I * (phi k * ((c / freq j) ^ 2 - lam0 : ℝ))) := by
  unfold quModel
  rw [Option.getD_some, padParams_ofFn, Option.map_some]
  congr 1
  funext j
  unfold StokesI.calcModel
  rw [hr, href]

/-- The chain. RM-CLEAN on a spectrum in flux units; the Q/U model from its components and the Stokes I fit (`log`); the fractional
spectra of the model, with the same fit; RM synthesis with the same channels, flags, weights and reference; multiplication by Stokes I at
the reference frequency as in `run_rmsynth`. The result is what RM-CLEAN removed, times Stokes I at the reference frequency. -/
theorem model_chain (c : ℝ) (freq : Fin n → ℝ)
    (x : Rmsf.Input n m (Axis.nPhi2 N)) (phi : Fin N → ℝ) (p : Fin m)
    (L : ℝ) (P : Params N (Axis.nPhi2 N)) (hS : Setting x phi p L P)
    (hlam : ∀ j, x.lamSq j = (c / freq j) ^ 2) (dirty : Fin N → ℂ)
    (r : StokesI.FitResult) (hr : r.fn = .log) (href : r.refFreq = c / Real.sqrt L)
    (hI : ∀ j, StokesI.calcModel r (freq j) ≠ 0)
    (qu : Fin n → ℂ) (hqu : quModel c freq phi (stage2 P dirty).cc L (some (List.ofFn r.params)) = some qu)
    (z : Synth.Input n m N) (hz1 : z.lamSq = x.lamSq) (hz2 : z.weight = x.weight)
    (hz3 : z.phi = phi) (hz4 : Synth.refLamSq z = L)
    (hz5 : ∀ j, Synth.spectrum z p j = if x.msk j p then none else some (qu j / StokesI.calcModel r (freq j)))
    (l : Fin N) :
    (StokesI.calcModel r (c / Real.sqrt L) : ℂ) * Synth.value z l p =
      StokesI.calcModel r (c / Real.sqrt L) * (dirty l - (stage2 P dirty).resid l) := by
  congr 1
  have hsymphi : SymGrid z.phi := by
    obtain ⟨c, d, hN, hc, hd, hphi, -⟩ := hS.axis
    intro l
    rw [hz3, hphi, hphi]
    have : ((Fin.rev l : Fin N) : ℕ) = N - 1 - l := by simp [Fin.rev]; omega
    have hNc : (N : ℝ) = 2 * c + 1 := by rw [hN]; push_cast; ring
    rw [this, Nat.cast_sub (by omega), Nat.cast_sub (by omega), hNc]
    push_cast; ring
  rw [Synth.value_sym z hsymphi, hz4, hz1, hz2, hz3]
  rw [quModel_log c freq phi _ L r hr href] at hqu
  injection hqu with hqu
  have hsome : ∀ j, (Synth.spectrum z p j).isSome = true ↔ x.msk j p = false := by
    intro j; rw [hz5]; cases x.msk j p <;> simp
  rw [fdf_components (effWeight x.weight) (Synth.spectrum z p) x.lamSq L (phi l) phi (stage2 P dirty).cc]
  · rw [clean_conserves_rmsf x phi p L P hS dirty l, add_sub_cancel_left]
    apply Finset.sum_congr rfl
    intro k _
    congr 2
    funext j
    exact propext (hsome j)
  · intro j hj
    rw [hsome] at hj
    have hne : (StokesI.calcModel r (freq j) : ℂ) ≠ 0 := by exact_mod_cast hI j
    rw [hz5, hj, ← hqu]
    simp only [Bool.false_eq_true, if_false, Option.some.injEq]
    rw [mul_div_cancel_left₀ _ hne, hlam]

/-- **C208**, what holds: if Stokes I is one at the reference frequency, the model gives back what RM-CLEAN removed. -/
theorem qu_files_partial (c : ℝ) (freq : Fin n → ℝ)
    (x : Rmsf.Input n m (Axis.nPhi2 N)) (phi : Fin N → ℝ) (p : Fin m)
    (L : ℝ) (P : Params N (Axis.nPhi2 N)) (hS : Setting x phi p L P)
    (hlam : ∀ j, x.lamSq j = (c / freq j) ^ 2) (dirty : Fin N → ℂ)
    (r : StokesI.FitResult) (hr : r.fn = .log) (href : r.refFreq = c / Real.sqrt L)
    (hI : ∀ j, StokesI.calcModel r (freq j) ≠ 0) (hone : StokesI.calcModel r (c / Real.sqrt L) = 1)
    (qu : Fin n → ℂ) (hqu : quModel c freq phi (stage2 P dirty).cc L (some (List.ofFn r.params)) = some qu)
    (z : Synth.Input n m N) (hz1 : z.lamSq = x.lamSq) (hz2 : z.weight = x.weight)
    (hz3 : z.phi = phi) (hz4 : Synth.refLamSq z = L)
    (hz5 : ∀ j, Synth.spectrum z p j = if x.msk j p then none else some (qu j / StokesI.calcModel r (freq j)))
    (l : Fin N) :
    (StokesI.calcModel r (c / Real.sqrt L) : ℂ) * Synth.value z l p = dirty l - (stage2 P dirty).resid l := by
  rw [model_chain c freq x phi p L P hS hlam dirty r hr href hI qu hqu z hz1 hz2 hz3 hz4 hz5 l, hone]
  simp

/-- **C208**, what is wrong: if Stokes I at the reference frequency is not one, the model is wrong at every depth at which RM-CLEAN removed
anything. The components are in flux units already, and are multiplied by Stokes I again. -/
theorem qu_files_wrong (c : ℝ) (freq : Fin n → ℝ)
    (x : Rmsf.Input n m (Axis.nPhi2 N)) (phi : Fin N → ℝ) (p : Fin m)
    (L : ℝ) (P : Params N (Axis.nPhi2 N)) (hS : Setting x phi p L P)
    (hlam : ∀ j, x.lamSq j = (c / freq j) ^ 2) (dirty : Fin N → ℂ)
    (r : StokesI.FitResult) (hr : r.fn = .log) (href : r.refFreq = c / Real.sqrt L)
    (hI : ∀ j, StokesI.calcModel r (freq j) ≠ 0) (hone : StokesI.calcModel r (c / Real.sqrt L) ≠ 1)
    (qu : Fin n → ℂ) (hqu : quModel c freq phi (stage2 P dirty).cc L (some (List.ofFn r.params)) = some qu)
    (z : Synth.Input n m N) (hz1 : z.lamSq = x.lamSq) (hz2 : z.weight = x.weight)
    (hz3 : z.phi = phi) (hz4 : Synth.refLamSq z = L)
    (hz5 : ∀ j, Synth.spectrum z p j = if x.msk j p then none else some (qu j / StokesI.calcModel r (freq j)))
    (l : Fin N) (hl : (stage2 P dirty).resid l ≠ dirty l) :
    (StokesI.calcModel r (c / Real.sqrt L) : ℂ) * Synth.value z l p ≠ dirty l - (stage2 P dirty).resid l := by
  rw [model_chain c freq x phi p L P hS hlam dirty r hr href hI qu hqu z hz1 hz2 hz3 hz4 hz5 l]
  intro h
  have h1 : dirty l - (stage2 P dirty).resid l ≠ 0 := sub_ne_zero.2 (Ne.symm hl)
  have h2 : (StokesI.calcModel r (c / Real.sqrt L) : ℂ) = 1 := mul_right_cancel₀ h1 (by rw [h, one_mul])
  exact hone (by exact_mod_cast h2)

/-! ### The command -/

/-- A Python value given to `open`: `argparse` with `nargs=1` (117-139) makes lists of one string. -/
inductive PyPath where
  | str (s : String)
  | list (l : List String)

/-- `open(x, "r")` for an existing file: a list is a `TypeError`. -/
def pyOpen : PyPath → Option String
  | .str s => some s
  | .list _ => none

/-- `main`, 98-146, up to the reading of the files: `np.loadtxt` (85) takes a list as the lines of a table, so that it may or may not
raise (`loads`); then `open(rmSynthfile, "r")` (88). The files that are read, or `none` for an exception. -/
def quMain (loads : List String → Bool) (freqfile synthfile ccfile : String) : Option (List String) :=
  let freqfile := PyPath.list [freqfile]
  let synthfile := PyPath.list [synthfile]
  if loads [ccfile] then (pyOpen synthfile).bind fun s => (pyOpen freqfile).map fun f => [s, f] else none

/-- **C208**, the command: it raises, whatever the files. -/
theorem qu_command_raises (loads : List String → Bool) (freqfile synthfile ccfile : String) :
    quMain loads freqfile synthfile ccfile = none := by
  unfold quMain
  split_ifs <;> rfl

/-- The hypotheses on Stokes I can be met: a power law of spectral index -1 and 3 Jy at the reference frequency. -/
example : ∃ r : StokesI.FitResult, r.fn = .log ∧ r.refFreq = 10 ∧ StokesI.calcModel r 10 = 3 ∧
    ∀ f, 0 < f → StokesI.calcModel r f ≠ 0 := by
  refine ⟨⟨![0, 0, 0, 0, -1, 3], 0, 0, 0, 0, 1, 10, fun _ _ => 0, fun _ => none, .log⟩, rfl, rfl, ?_, ?_⟩
  · simp [StokesI.calcModel, StokesI.powerlawPoly5, StokesI.log10, Matrix.cons_val]
  · intro f hf
    have : (0 : ℝ) < f / 10 := by positivity
    simp [StokesI.calcModel, StokesI.powerlawPoly5, StokesI.log10, Matrix.cons_val]
    positivity

end Verif.Clean
