import Verif.Memory.Programs

/-!
# Functions and the objects of the caller (C248)

The checks by `decide` are about the text of the programs; `keeps_of_check` and `new_of_check` turn them into statements about all their executions.
-/

namespace Verif.Memory

open Stmt

/-- **C248, the part that holds, first half.** RM synthesis, the spread function, RM-CLEAN, the measurement of the peak, the fractional spectra, the
complexity and the programs built from them change no array, dictionary or header that existed before the call, at no point of any execution. -/
theorem objects_unchanged_partial :
    Keeps synthPlanes ∧ Keeps rmsfPlanes ∧ Keeps hogbom ∧ Keeps peakParms ∧ Keeps fracSpectra ∧ Keeps sigmaAdd ∧ Keeps quComplexity ∧
    Keeps run1D ∧ Keeps clean1D ∧ Keeps run3D ∧ Keeps run3Dscaled ∧ Keeps writefits ∧ Keeps adjointPlanes ∧ Keeps fitCube := by
  refine ⟨?_, ?_, ?_, ?_, ?_, ?_, ?_, ?_, ?_, ?_, ?_, ?_, ?_, ?_⟩ <;> exact keeps_of_check (by decide +kernel)

/-- **C248, the part that holds, second half.** These results share no memory with what the caller had before. -/
theorem results_new_partial :
    New synthPlanes .fdf ∧ (∀ r ∈ [RmsfVar.rmsf, .fwhm, .stat], New rmsfPlanes r) ∧ (∀ r ∈ [HogbomVar.clean, .cc, .iterCount, .resid], New hogbom r) ∧
    (∀ r ∈ [Run1Var.mDict, .aPhi, .aPhi2, .aRmsf, .aFreq, .aWeight, .aFdf], New run1D r) ∧
    (∀ r ∈ [Clean1Var.mDictCl, .aDictCl, .clean, .cc, .iterCount, .resid], New clean1D r) ∧
    (∀ r ∈ [Run3Var.fdf, .phi, .lamSq], New run3Dscaled r) ∧ New adjointPlanes .fdf ∧ New fitCube .model := by
  refine ⟨new_of_check (R := [.fdf]) (by decide +kernel) _ (List.mem_singleton.mpr rfl), ?_, ?_, ?_, ?_, ?_,
    new_of_check (R := [.fdf]) (by decide +kernel) _ (List.mem_singleton.mpr rfl),
    new_of_check (R := [.model]) (by decide +kernel) _ (List.mem_singleton.mpr rfl)⟩ <;>
  exact new_of_check (by decide +kernel)

/-- **C248 is false for what some functions return.** The Faraday depths of the spread function are the caller's array if no doubling is asked for; the
depths and frequencies returned by RM-CLEAN are those in the dictionary it was given; adjoint RM synthesis returns the caller's frequencies. -/
theorem results_shared :
    ¬ New rmsfPlanes .phi2 ∧ ¬ New clean1D .outPhi ∧ ¬ New clean1D .outFreq ∧ ¬ New adjointPlanes .outFreq :=
  ⟨not_new_of_eval (c := [false]) (P := [.lamSq, .phi, .weight, .msk]) (k := 1) (by decide +kernel),
    not_new_of_eval (c := []) (P := [.mDict, .phi, .freq, .weight, .dirty, .phi2, .rmsf]) (k := 1) (by decide +kernel),
    not_new_of_eval (c := []) (P := [.mDict, .phi, .freq, .weight, .dirty, .phi2, .rmsf]) (k := 2) (by decide +kernel),
    not_new_of_eval (c := []) (P := [.dataQ, .dataU, .freq, .phi, .weight]) (k := 2) (by decide +kernel)⟩

theorem write_not_keeps {α : Type} [DecidableEq α] (s : Stmt α) (x : α) (h : ∀ σ τ : State α Bool, Exec (write x) σ τ → Passes s σ τ) : ¬ Keeps s := by
  intro hk
  let σ : State α Bool := { env := fun _ => some 0, mem := fun _ => false, next := 1 }
  have := hk Bool σ _ (h σ _ (.write σ x 0 true rfl)) 0 Nat.one_pos
  exact Bool.noConfusion this

/-- **C248 is false for three kinds of functions.** Saving results replaces values in the caller's dictionary (first in the loop), reducing a header to two
axes changes the header it is given and returns the same object, and wrapping periodic parameters changes the caller's samples. -/
theorem objects_changed : ¬ Keeps saveOutput ∧ (¬ Keeps removeAxes ∧ ¬ New removeAxes .out) ∧ (¬ Keeps wrapChains ∧ ¬ New wrapChains .out) := by
  refine ⟨write_not_keeps _ .dict fun σ τ h => .loop (.stop _ _) (.done h), ⟨write_not_keeps _ .header fun σ τ h => ?_, ?_⟩,
    ⟨write_not_keeps _ .chains fun σ τ h => ?_, ?_⟩⟩
  · exact .first (.loop (.stop _ _) (.done h))
  · exact not_new_of_eval (c := []) (P := [.header]) (k := 0) (by decide +kernel)
  · exact .first (.loop (.stop _ _) (.done h))
  · exact not_new_of_eval (c := []) (P := [.chains]) (k := 0) (by decide +kernel)

/-- Hypotheses met: all programs run to the end when called with all their arguments. -/
theorem case_runs :
    (∃ τ, Exec synthPlanes (start [.dataQ, .dataU, .lamSq, .phi, .weight]) τ) ∧ (∃ τ, Exec rmsfPlanes (start [.lamSq, .phi, .weight, .msk]) τ) ∧
    (∃ τ, Exec hogbom (start [.dirty, .phi, .rmsf, .phi2, .fwhm]) τ) ∧ (∃ τ, Exec peakParms (start [.fdf, .phi, .lamSq]) τ) ∧
    (∃ τ, Exec fracSpectra (start [.freq, .iArr, .qArr, .uArr, .dI, .dQ, .dU]) τ) ∧
    (∃ τ, Exec quComplexity (start [.freq, .q, .u, .dq, .du]) τ) ∧
    (∃ τ, Exec run1D (start [.freq, .iArr, .qArr, .uArr, .dI, .dQ, .dU]) τ) ∧
    (∃ τ, Exec clean1D (start [.mDict, .phi, .freq, .weight, .dirty, .phi2, .rmsf]) τ) ∧
    (∃ τ, Exec run3D (start [.dataQ, .dataU, .freq, .rms]) τ) ∧ (∃ τ, Exec run3Dscaled (start [.dataQ, .dataU, .dataI, .freq, .rms]) τ) ∧
    (∃ τ, Exec writefits (start [.fdf, .phi, .rmsf, .phi2, .fwhm, .template]) τ) ∧
    (∃ τ, Exec adjointPlanes (start [.dataQ, .dataU, .freq, .phi, .weight]) τ) ∧ (∃ τ, Exec fitCube (start [.cube, .header]) τ) := by
  refine ⟨?_, ?_, ?_, ?_, ?_, ?_, ?_, ?_, ?_, ?_, ?_, ?_, ?_⟩ <;> exact exec_of_eval (c := []) (by decide +kernel)

end Verif.Memory
