import Verif.Synth.Model
import Verif.Synth.Spec
import Mathlib.Tactic.Ring
import Mathlib.Tactic.Linarith
import Mathlib.Tactic.Push

/-! Helper lemmas about the RM-synthesis model. The property theorems are in `Synth/Props`. -/

open Complex

namespace Verif.Synth

variable {n m k : ℕ}

/-- The spectrum of one pixel. -/
noncomputable def pixPol (x : Input n m k) (p : Fin m) (j : Fin n) : Option ℂ :=
  SynthSpec.pol (x.dataQ j p) (x.dataU j p)

theorem mskCube_eq (x : Input n m k) (j : Fin n) (p : Fin m) :
    mskCube x j p = (pixPol x p j).isNone := by
  unfold mskCube pCubeRaw pixPol SynthSpec.pol
  cases x.dataQ j p <;> cases x.dataU j p <;> simp

theorem pCube_eq (x : Input n m k) (j : Fin n) (p : Fin m) :
    pCube x j p = (weight0 x j : ℂ) * (pixPol x p j).getD 0 := by
  unfold pCube pCubeRaw pixPol SynthSpec.pol
  cases x.dataQ j p <;> cases x.dataU j p <;> simp
  rename_i q u
  have : (⟨q, u⟩ : ℂ) = (q : ℂ) + I * (u : ℂ) := by
    apply Complex.ext <;> simp
  rw [this]; ring

theorem planeCount_eq_zero (x : Input n m k) (j : Fin n) :
    planeCount x j = 0 ↔ ∀ p, mskCube x j p = true := by
  unfold planeCount
  simp

theorem weight1_of_unmasked (x : Input n m k) (j : Fin n) (p : Fin m)
    (h : mskCube x j p = false) : weight1 x j = weight0 x j := by
  unfold weight1
  rw [if_neg, mul_one]
  rw [planeCount_eq_zero]
  intro hh
  simp [hh p] at h

theorem weight1_eq (x : Input n m k) (j : Fin n) :
    weight1 x j = if ∃ p, (pixPol x p j).isSome = true then weight0 x j else 0 := by
  by_cases h : ∃ p, (pixPol x p j).isSome = true
  · rw [if_pos h]
    obtain ⟨p, hp⟩ := h
    apply weight1_of_unmasked x j p
    rw [mskCube_eq]; simpa [Option.isSome_iff_ne_none] using hp
  · rw [if_neg h]
    unfold weight1
    rw [if_pos, mul_zero]
    rw [planeCount_eq_zero]
    intro p
    rw [mskCube_eq]
    push Not at h
    simpa [Option.isSome_iff_ne_none] using h p

theorem weightCube_sum (x : Input n m k) (p : Fin m) :
    ∑ j, (if mskCube x j p then 0 else weight1 x j) =
      SynthSpec.weightSum (weight0 x) (fun j => (pixPol x p j).isSome = true) := by
  unfold SynthSpec.weightSum
  rw [Finset.sum_filter]
  apply Finset.sum_congr rfl
  intro j _
  cases h : mskCube x j p with
  | true =>
    rw [mskCube_eq] at h
    simp [Option.isNone_iff_eq_none.mp h]
  | false =>
    rw [weight1_of_unmasked x j p h]
    rw [mskCube_eq] at h
    simp [Option.isSome_iff_ne_none, Option.isNone_eq_false_iff] at h ⊢
    simp [h]

/-- Master lemma: what the code evaluates at output index `l` is the defining sum at *minus* the
reversed grid value. -/
theorem fdfRaw_eq (x : Input n m k) (l : Fin k) (p : Fin m) :
    fdfRaw x l p = SynthSpec.fdf (weight0 x) (pixPol x p) x.lamSq (lam0Sq x)
      (-(x.phi (Fin.rev l))) := by
  unfold fdfRaw SynthSpec.fdf kArr nufft1d3
  rw [weightCube_sum]
  set s := SynthSpec.weightSum (weight0 x) (fun j => (pixPol x p j).isSome = true)
  have hsum : (∑ j, pCube x j p * exp (((x.phi (Fin.rev l) * 2 * (x.lamSq j - lam0Sq x) : ℝ) : ℂ) * I)) =
      ∑ j ∈ Finset.univ.filter (fun j => (pixPol x p j).isSome),
      (weight0 x j : ℂ) * (pixPol x p j).getD 0 *
        exp (-2 * I * ((-(x.phi (Fin.rev l)) : ℝ) : ℂ) * (x.lamSq j - lam0Sq x)) := by
    rw [Finset.sum_filter]
    apply Finset.sum_congr rfl
    intro j _
    rw [pCube_eq]
    by_cases h : (pixPol x p j).isSome = true
    · rw [if_pos h]
      congr 2
      push_cast
      ring
    · rw [if_neg h]
      simp only [Bool.not_eq_true, Option.isSome_eq_false_iff, Option.isNone_iff_eq_none] at h
      simp [h]
  rw [hsum]
  by_cases hs : s = 0
  · simp [hs]
  · rw [if_neg hs]
    push_cast
    rw [one_div, div_eq_mul_inv]

theorem fdfRaw_sym (x : Input n m k) (h : SynthSpec.SymGrid x.phi) (l : Fin k) (p : Fin m) :
    fdfRaw x l p = SynthSpec.fdf (weight0 x) (pixPol x p) x.lamSq (lam0Sq x) (x.phi l) := by
  rw [fdfRaw_eq, h l, neg_neg]

end Verif.Synth
