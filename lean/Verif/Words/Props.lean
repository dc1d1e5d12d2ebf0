import Verif.Words.Model
import Verif.Synth.Bands

/-!
# Options given as words (C262): theorems
-/

namespace Verif.Words

open Verif.StokesI Verif.StokesFit Verif.Mpfit

variable {n m N : ℕ}

theorem fitFun_none (word : String) : fitFun word = none ↔ word ≠ "linear" ∧ word ≠ "log" := by
  unfold fitFun
  by_cases h1 : word = "linear"
  · simp [h1]
  · by_cases h2 : word = "log"
    · simp [h2]
    · simp [h1, h2]

/-- **C262**, the Stokes I fit: a word other than the two documented ones stops the run with an exception, and a documented word never does, unless a Stokes I
model is supplied. -/
theorem fit_word (w : Raw n) [NeZero n] (fit weight : String) (c : Cfg) (o : Pipe1D.Opts) (fw : ℝ) :
    (∃ e, run1D w fit weight c o fw = .error e) ↔ w.modI = none ∧ fit ≠ "linear" ∧ fit ≠ "log" := by
  rw [← fitFun_none]
  unfold run1D
  cases hm : w.modI with
  | some v => exact ⟨fun ⟨e, he⟩ => (by cases he), fun h => (nomatch h.1)⟩
  | none =>
    unfold calcWord
    cases hf : fitFun fit with
    | none => exact ⟨fun _ => ⟨rfl, rfl⟩, fun _ => ⟨.unboundLocal, rfl⟩⟩
    | some f => exact ⟨fun ⟨e, he⟩ => (by cases he), fun h => (nomatch h.2)⟩

/-- **C262**, QU fits: the same, always. -/
theorem qu_word (w : Raw n) [NeZero n] (fit : String) (c : Cfg) :
    (∃ e, runQU w fit c = .error e) ↔ fit ≠ "linear" ∧ fit ≠ "log" := by
  rw [← fitFun_none]
  unfold runQU calcWord
  cases hf : fitFun fit with
  | none => exact ⟨fun _ => rfl, fun _ => ⟨.unboundLocal, rfl⟩⟩
  | some f => exact ⟨fun ⟨e, he⟩ => (by cases he), fun h => (nomatch h)⟩

/-- With a supplied model the function does not enter the run. -/
theorem run_fn (w : Raw n) [NeZero n] (v : Fin n → Option ℝ) (hm : w.modI = some v) (f : FitFun) (c : Cfg) (o : Pipe1D.Opts) (fw : ℝ) :
    ({ w with fn := f } : Raw n).run c o fw = w.run c o fw := by
  obtain ⟨freq, i, q, u, dI, dQ, dU, ord, fn, modI⟩ := w
  subst hm
  rfl

/-- **C262**, the Stokes I fit with a supplied model: the word is not used, whatever it is. -/
theorem fit_word_unused (w : Raw n) [NeZero n] (v : Fin n → Option ℝ) (hm : w.modI = some v) (fit fit' weight : String) (c : Cfg) (o : Pipe1D.Opts) (fw : ℝ) :
    run1D w fit weight c o fw = run1D w fit' weight c o fw := by
  unfold run1D
  simp only [run_fn w v hm]
  rw [hm]

/-- **C262 is false for weights**: no word is refused, and every word other than `variance`, misspelt or not, gives the result of `uniform`. -/
theorem weight_word_wrong (w : Raw n) [NeZero n] (fit weight : String) (hw : weight ≠ "variance") (c : Cfg) (o : Pipe1D.Opts) (fw : ℝ) :
    run1D w fit weight c o fw = run1D w fit "uniform" c o fw := by
  have h : isVariance weight = isVariance "uniform" := by
    unfold isVariance
    simp [hw]
  unfold run1D
  rw [h]

/-- **C262 is false for cubes**: every word other than `variance` gives the result of `uniform`, and without a file of the noise `variance` does so, too. -/
theorem cube_word_wrong (x : Pipe3D.In n m) [NeZero n] (weight : String) (hw : weight ≠ "variance" ∨ x.rms = none) (o : Pipe1D.Opts)
    (l : Fin (Pipe3D.nPhi x o)) (p : Fin m) :
    cube3D x weight o l p = cube3D x "uniform" o l p := by
  rcases hw with hw | hr
  · have h : isVariance weight = isVariance "uniform" := by
      unfold isVariance
      simp [hw]
    unfold cube3D
    rw [h]
  · obtain ⟨q, u, i, freq, rms⟩ := x
    subst hr
    unfold cube3D Pipe3D.fdfCube Pipe3D.Regular
    simp only [reduceCtorEq, false_implies, implies_true, and_true]
    rfl

/-- **C262**, peak maps of cubes: an unknown word is refused exactly if there is a file of the noise (and the Stokes I cube covers the reference
frequency). -/
theorem peak_word (x : PeakFit.In n N) [NeZero n] (weight : String) (prods : List String) :
    (∃ e, peakMaps x weight prods = .error e) ↔
      (PeakFit.ifreq0Arr x).isSome = true ∧ x.noise.isSome = true ∧ weight ≠ "variance" ∧ weight ≠ "uniform" := by
  unfold peakMaps
  by_cases h : (PeakFit.ifreq0Arr x).isSome = true ∧ x.noise.isSome = true ∧ weight ≠ "variance" ∧ weight ≠ "uniform"
  · rw [if_pos h]
    exact ⟨fun _ => h, fun _ => ⟨_, rfl⟩⟩
  · rw [if_neg h]
    exact ⟨fun ⟨e, he⟩ => (by cases he), fun h' => absurd h' h⟩

/-- **C262**, peak maps without a file of the noise: the word is not used. -/
theorem peak_word_unused (x : PeakFit.In n N) [NeZero n] (hn : x.noise = none) (weight weight' : String) (prods : List String) :
    peakMaps x weight prods = peakMaps x weight' prods := by
  obtain ⟨fdf, phi, fwhm, lamSq, lam0, noise, i, v⟩ := x
  subst hn
  unfold peakMaps
  rw [if_neg (by simp), if_neg (by simp)]
  rfl

/-! ## Cases -/

/-- What a misspelt weighting costs: errors 3 and 4 give the noise 5/2 instead of 12/5 (the example of `Pipe1D.bands_noise_variance`). -/
example : Pipe1D.noiseTheory (n := 2) (fun j => Pipe1D.weight (isVariance "Variance") ((![some 3, some 4] : Fin 2 → Option ℝ) j)) ![some 3, some 4] = some (5 / 2) := by
  have h : isVariance "Variance" = false := by decide
  simp only [Pipe1D.noiseTheory, h, Pipe1D.weight, Fin.sum_univ_two, Bool.false_eq_true, if_false, Matrix.cons_val_zero, Matrix.cons_val_one, Option.getD_some]
  rw [if_neg (by norm_num)]
  congr 1
  rw [show ((1 : ℝ) ^ 2 * 3 ^ 2 + 1 ^ 2 * 4 ^ 2) / (1 + 1) ^ 2 = (5 / 2) ^ 2 by norm_num]
  exact Real.sqrt_sq (by norm_num)

/-- A misspelt function: the plural. -/
example : fitFun "logs" = none ∧ fitFun "log" = some .log ∧ fitFun "linear" = some .linear := by decide

end Verif.Words
