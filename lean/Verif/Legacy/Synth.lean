import Verif.Legacy.Model
import Verif.Synth.Props
import Verif.Rmsf.Props
import Mathlib.Tactic.FieldSimp

/-!
# The deprecated `do_rmsynth` against `do_rmsynth_planes` (C176, C177)
-/

open Complex

namespace Verif.Legacy

open Verif.SynthSpec

variable {n m k : ℕ}

/-- The same cube for `do_rmsynth_planes`: the channel axis comes first, no reference is supplied. -/
def Input.planes (x : Input n m k) : Synth.Input n m k where
  dataQ := fun j p => x.dataQ p j
  dataU := fun j p => x.dataU p j
  lamSq := x.lamSq
  phi := x.phi
  weight := x.weight
  lam0 := none

/-- The user's view of the spectrum of a pixel. -/
noncomputable def Input.spectrum (x : Input n m k) (p : Fin m) (j : Fin n) : Option ℂ := pol (x.dataQ p j) (x.dataU p j)

/-- Weight of the channels that have data in some pixel. -/
noncomputable def Input.total (x : Input n m k) : ℝ :=
  open Classical in weightSum (effWeight x.weight) (fun j => ∃ p, (x.spectrum p j).isSome = true)

/-- Weight of the channels that have data in the pixel. -/
noncomputable def Input.used (x : Input n m k) (p : Fin m) : ℝ :=
  weightSum (effWeight x.weight) (fun j => (x.spectrum p j).isSome = true)

theorem blank_iff (x : Input n m k) (j : Fin n) : blank x j ↔ ¬ ∃ p, (x.spectrum p j).isSome = true := by
  unfold blank Input.spectrum pol
  rw [Finset.sum_eq_zero_iff]
  push Not
  refine forall_congr' fun p => ?_
  cases x.dataQ p j <;> cases x.dataU p j <;> simp

theorem weightArr_getD (w : Option (Fin n → Option ℝ)) (j : Fin n) : (weightArr w j).getD 0 = effWeight w j := by
  unfold weightArr effWeight
  cases w <;> rfl

theorem weight1_getD (x : Input n m k) (j : Fin n) : (weight1 x j).getD 0 = Synth.weight1 x.planes j := by
  rw [Synth.weight1_eq, Synth.weight0_eq]
  have hp : (∃ p, (Synth.pixPol x.planes p j).isSome = true) ↔ ∃ p, (x.spectrum p j).isSome = true := Iff.rfl
  unfold weight1
  by_cases h : blank x j
  · rw [if_pos h, if_neg (by rw [hp]; exact (blank_iff x j).mp h)]
    rfl
  · rw [if_neg h, if_pos (by rw [hp]; rw [blank_iff, not_not] at h; exact h), weightArr_getD]
    rfl

theorem nansum_weight1 (x : Input n m k) : nansum (weight1 x) = ∑ j, Synth.weight1 x.planes j :=
  Finset.sum_congr rfl fun j _ => weight1_getD x j

theorem nansum_total (x : Input n m k) : nansum (weight1 x) = x.total := by
  rw [nansum_weight1, Synth.sum_weight1_eq]
  rfl

theorem refLamSq_planes (x : Input n m k) (h : ∑ j, Synth.weight1 x.planes j ≠ 0) :
    Synth.refLamSq x.planes =
      (1 / ∑ j, Synth.weight1 x.planes j) * ∑ j, Synth.weight1 x.planes j * x.lamSq j := by
  have : Synth.refLamSq x.planes = if ∑ j, Synth.weight1 x.planes j = 0 then 0
    else (1 / ∑ j, Synth.weight1 x.planes j) * ∑ j, Synth.weight1 x.planes j * x.lamSq j := rfl
  rw [this, if_neg h]

theorem meanLam_eq (x : Input n m k) (h : x.total ≠ 0) :
    meanLam (weight1 x) x.lamSq = some (Synth.refLamSq x.planes) := by
  have h' : nansum (weight1 x) ≠ 0 := by rw [nansum_total]; exact h
  unfold meanLam normK
  rw [if_neg h']
  rw [refLamSq_planes x (by rw [nansum_weight1] at h'; exact h'), nansum_weight1, Option.map_some]
  congr 2
  refine Finset.sum_congr rfl fun j _ => ?_
  rw [← weight1_getD x j]
  change (Option.map (fun v => v * x.lamSq j) (weight1 x j)).getD 0 = _
  cases weight1 x j <;> simp

theorem term_eq (x : Input n m k) (p : Fin m) (j : Fin n) (e : ℂ) :
    ((pCube x p j).map fun z => z * e).getD 0 =
      if (x.spectrum p j).isSome = true then (effWeight x.weight j : ℂ) * (x.spectrum p j).getD 0 * e else 0 := by
  by_cases h : (x.spectrum p j).isSome = true
  · rw [if_pos h]
    have hb : ¬ blank x j := fun hb => (blank_iff x j).mp hb ⟨p, h⟩
    unfold pCube weight1 Input.spectrum pol at *
    rw [if_neg hb, ← weightArr_getD]
    cases hq : x.dataQ p j with
    | none => simp [hq] at h
    | some q =>
      cases hu : x.dataU p j with
      | none => simp [hq, hu] at h
      | some u =>
        have : (⟨q, u⟩ : ℂ) = (q : ℂ) + I * (u : ℂ) := by apply Complex.ext <;> simp
        cases weightArr x.weight j with
        | none => simp
        | some w => simp [this]; exact Or.inl (mul_comm _ _)
  · rw [if_neg h]
    have : pCube x p j = none := by
      unfold pCube Input.spectrum pol at *
      cases hq : x.dataQ p j with
      | none => rfl
      | some q =>
        cases hu : x.dataU p j with
        | none => rfl
        | some u => simp [hq, hu] at h
    rw [this]; rfl

/-- What the deprecated function computes: the defining sum, with the sum of all weights as divisor. -/
theorem fdf_sum (x : Input n m k) (h : x.total ≠ 0) (p : Fin m) (l : Fin k) :
    fdf x p l = some ((∑ j ∈ Finset.univ.filter (fun j => (x.spectrum p j).isSome = true),
      (effWeight x.weight j : ℂ) * (x.spectrum p j).getD 0 *
        exp (-2 * I * x.phi l * (x.lamSq j - Synth.refLamSq x.planes))) / (x.total : ℂ)) := by
  unfold fdf
  rw [meanLam_eq x h]
  unfold normK
  rw [if_neg (by rw [nansum_total]; exact h), nansum_total]
  dsimp only [Option.bind, Option.map_some]
  congr 1
  rw [div_eq_mul_one_div, mul_comm]
  congr 1
  · unfold nansumC
    rw [Finset.sum_filter]
    refine Finset.sum_congr rfl fun j _ => ?_
    rw [term_eq]
    congr 2
    rw [mul_one]
    push_cast
    rfl
  · push_cast; ring

/-- C176, where the two functions agree: if every channel is either flagged in all pixels or in none, the deprecated function
returns the spectra and the reference of `do_rmsynth_planes`, on depth axes symmetric about zero. -/
theorem deprecated_synth_partial (x : Input n m k) (hs : SymGrid x.phi) (hw : x.total ≠ 0)
    (hf : ∀ j p p', (x.spectrum p j).isSome = (x.spectrum p' j).isSome) (p : Fin m) (l : Fin k) :
    fdf x p l = some (Synth.value x.planes l p) ∧
      meanLam (weight1 x) x.lamSq = some (Synth.refLamSq x.planes) := by
  refine ⟨?_, meanLam_eq x hw⟩
  rw [fdf_sum x hw, Synth.value_sym x.planes hs]
  have : x.total = weightSum (effWeight x.weight) (fun j => (x.spectrum p j).isSome = true) := by
    unfold Input.total weightSum
    refine Finset.sum_congr (Finset.filter_congr fun j _ => ?_) fun _ _ => rfl
    exact ⟨fun ⟨p', h⟩ => by rw [hf j p p']; exact h, fun h => ⟨p, h⟩⟩
  rw [this]
  rfl

/-- C176, for all flags: the deprecated function divides by the weight of all channels instead of the weight of the channels with
data in the pixel, so its spectrum is that of `do_rmsynth_planes` times the fraction of the weight that is not flagged. -/
theorem deprecated_synth_flags (x : Input n m k) (hs : SymGrid x.phi) (hw : x.total ≠ 0) (p : Fin m) (hp : x.used p ≠ 0)
    (l : Fin k) :
    fdf x p l = some (((x.used p / x.total : ℝ) : ℂ) * Synth.value x.planes l p) := by
  rw [fdf_sum x hw, Synth.value_sym x.planes hs]
  congr 1
  have hp' : (x.used p : ℂ) ≠ 0 := by exact_mod_cast hp
  have hw' : (x.total : ℂ) ≠ 0 := by exact_mod_cast hw
  unfold SynthSpec.fdf
  change _ = _ * (_ / ((x.used p : ℝ) : ℂ))
  push_cast
  rw [div_mul_div_comm, mul_comm (x.used p : ℂ), mul_div_mul_right _ _ hp']
  rfl

/-- C176 is false for the code: with positive weights, a channel with weight flagged in this pixel but not in another lowers
the amplitude of the deprecated function at all depths where there is a signal. -/
theorem deprecated_synth_low (x : Input n m k) (hs : SymGrid x.phi) (hw : ∀ j, 0 ≤ effWeight x.weight j) (p p' : Fin m)
    (hp : 0 < x.used p) (j : Fin n) (hj : (x.spectrum p j).isSome = false) (hj' : (x.spectrum p' j).isSome = true)
    (hwj : 0 < effWeight x.weight j) (l : Fin k) (hv : Synth.value x.planes l p ≠ 0) :
    ∃ z, fdf x p l = some z ∧ ‖z‖ < ‖Synth.value x.planes l p‖ := by
  classical
  have hlt : x.used p < x.total := by
    unfold Input.used Input.total weightSum
    refine Finset.sum_lt_sum_of_subset (i := j) ?_ ?_ ?_ hwj fun i _ _ => hw i
    · intro i hi
      rw [Finset.mem_filter] at hi ⊢
      exact ⟨hi.1, p, hi.2⟩
    · rw [Finset.mem_filter]; exact ⟨Finset.mem_univ _, p', hj'⟩
    · rw [Finset.mem_filter]; rw [hj]; simp
  have ht : 0 < x.total := hp.trans hlt
  refine ⟨_, deprecated_synth_flags x hs ht.ne' p hp.ne' l, ?_⟩
  rw [norm_mul, Complex.norm_real, Real.norm_of_nonneg (div_nonneg hp.le ht.le)]
  have := norm_pos_iff.mpr hv
  calc x.used p / x.total * ‖Synth.value x.planes l p‖ < 1 * ‖Synth.value x.planes l p‖ :=
        mul_lt_mul_of_pos_right ((div_lt_one ht).mpr hlt) this
    _ = _ := one_mul _

/-- C177, the spread function: it is that of `get_rmsf_planes` for the mask with the blank channels, on the same doubled axis. -/
theorem deprecated_rmsf (x : Input n m k) (hw : x.total ≠ 0) (y : Rmsf.Input n m (Axis.nPhi2 k))
    (hl : y.lamSq = x.lamSq) (hwt : y.weight = x.weight) (h0 : y.lam0 = none)
    (hmsk : ∀ j p, y.msk j p = true ↔ ∀ p', x.spectrum p' j = none)
    (hphi : Axis.phi2 x.phi = some y.phi2) :
    ∃ r, doRmsynth x = some r ∧ r.phi2 = y.phi2 ∧ ∀ l p, r.rmsf l = Rmsf.rmsf y l p := by
  classical
  unfold doRmsynth getRmsf
  rw [hphi]
  refine ⟨_, rfl, rfl, fun l p => ?_⟩
  dsimp only
  have hgood : ∀ j p, y.msk j p = false ↔ ∃ p', (x.spectrum p' j).isSome = true := by
    intro j p
    rw [← Bool.not_eq_true, hmsk]
    push Not
    exact exists_congr fun p' => by rw [Option.isSome_iff_ne_none]
  have h1D : Rmsf.do1D y := by
    intro j
    rw [Rmsf.xySum_eq_m, Rmsf.xySum_eq_zero]
    by_cases h : ∃ p', (x.spectrum p' j).isSome = true
    · left; intro p; rw [hgood]; exact h
    · right; intro p; rw [← Bool.not_eq_false, hgood]; exact h
  have hpw : Rmsf.pixelWeight y p = x.total := by
    unfold Rmsf.pixelWeight Input.total weightSum
    rw [hwt]
    exact Finset.sum_congr (Finset.filter_congr fun j _ => hgood j p) fun _ _ => rfl
  have hw1 : ∀ j, Rmsf.weight1 y j = Synth.weight1 x.planes j := by
    intro j
    rw [Rmsf.weight1_do1D y h1D p, Synth.weight1_eq, Synth.weight0_eq, Rmsf.weight0_eq, hwt]
    by_cases h : ∃ p', (x.spectrum p' j).isSome = true
    · rw [if_pos (c := ∃ p, (Synth.pixPol x.planes p j).isSome = true) h]
      simp only [(hgood j p).mpr h]
      rfl
    · rw [if_neg (c := ∃ p, (Synth.pixPol x.planes p j).isSome = true) h]
      have : y.msk j p = true := by rw [← Bool.not_eq_false, hgood]; exact h
      simp [this]
  have hL : Rmsf.lam0Sq y = some (Synth.refLamSq x.planes) := by
    have h' : ∑ j, Synth.weight1 x.planes j ≠ 0 := by rw [← nansum_weight1, nansum_total]; exact hw
    unfold Rmsf.lam0Sq
    rw [h0, hl, refLamSq_planes x h']
    simp only [hw1]
    rw [if_neg h']
  rw [Rmsf.rmsf_do1D y h1D _ hL l p (by rw [hpw]; exact hw), meanLam_eq x hw]
  unfold normK
  rw [if_neg (by rw [nansum_total]; exact hw), nansum_total]
  dsimp only [Option.bind, Option.map_some, Option.orElse]
  congr 1
  unfold SynthSpec.rmsf
  have : weightSum (effWeight y.weight) (fun j => y.msk j p = false) = x.total := hpw
  rw [this, div_eq_mul_one_div, mul_comm]
  congr 1
  · unfold nansumC
    rw [Finset.sum_filter]
    refine Finset.sum_congr rfl fun j _ => ?_
    have hj := weight1_getD x j
    rw [Synth.weight1_eq, Synth.weight0_eq] at hj
    rw [hl, hwt]
    have hmap : ((weight1 x j).map fun v => (v : ℂ) * exp (-2 * 1 * I * (y.phi2 l : ℂ) *
        ((x.lamSq j - Synth.refLamSq x.planes : ℝ) : ℂ))).getD 0 = (((weight1 x j).getD 0 : ℝ) : ℂ) *
        exp (-2 * I * (y.phi2 l : ℂ) * ((x.lamSq j : ℂ) - (Synth.refLamSq x.planes : ℂ))) := by
      cases weight1 x j <;> simp
    rw [hmap, hj]
    by_cases h : ∃ p', (x.spectrum p' j).isSome = true
    · rw [if_pos (c := ∃ p, (Synth.pixPol x.planes p j).isSome = true) h, if_pos ((hgood j p).mpr h)]
      rfl
    · rw [if_neg (c := ∃ p, (Synth.pixPol x.planes p j).isSome = true) h,
        if_neg (fun e => h ((hgood j p).mp e))]
      simp
  · push_cast; ring

/-- With fewer than two depths the deprecated function raises, where `do_rmsynth_planes` returns spectra. -/
theorem deprecated_short (x : Input n m k) (hk : k < 2) : doRmsynth x = none := by
  unfold doRmsynth getRmsf
  rw [Axis.phi2_short hk]
  rfl

/-- A cube of two pixels and two channels; the second channel of the first pixel is flagged. -/
def flaggedCube : Input 2 2 3 where
  dataQ := fun p j => if p = 0 ∧ j = 1 then none else some 1
  dataU := fun _ _ => some 0
  lamSq := fun j => 1 + j
  phi := fun l => (l : ℝ) - 1
  weight := none

/-- Instance of `deprecated_synth_low`: at depth zero the first pixel has amplitude one half instead of one. -/
example : Synth.value flaggedCube.planes 1 0 = 1 ∧ fdf flaggedCube 0 1 = some (1 / 2) := by
  have hs : SymGrid flaggedCube.phi := by
    intro l; fin_cases l <;> simp [flaggedCube, Fin.rev] <;> norm_num
  have hsp : ∀ p j, flaggedCube.spectrum p j = if p = 0 ∧ j = 1 then none else some 1 := by
    intro p j
    unfold Input.spectrum pol flaggedCube
    dsimp only
    split_ifs
    · rfl
    · simp only [Option.bind_some, Option.map_some]
      congr 1
  have ht : flaggedCube.total = 2 := by
    unfold Input.total weightSum
    rw [Finset.sum_filter, Fin.sum_univ_two, if_pos ⟨1, by rw [hsp]; simp⟩, if_pos ⟨1, by rw [hsp]; simp⟩]
    simp [effWeight, flaggedCube]; norm_num
  have hu : flaggedCube.used 0 = 1 := by
    unfold Input.used weightSum
    rw [Finset.sum_filter, Fin.sum_univ_two, if_pos (by rw [hsp]; simp), if_neg (by rw [hsp]; simp)]
    simp [effWeight, flaggedCube]
  have hv : Synth.value flaggedCube.planes 1 0 = 1 := by
    rw [Synth.value_sym _ hs]
    unfold SynthSpec.fdf
    change _ / ((flaggedCube.used 0 : ℝ) : ℂ) = 1
    rw [hu, Finset.sum_filter, Fin.sum_univ_two]
    have h0 : Synth.spectrum flaggedCube.planes 0 0 = some 1 := by
      exact (hsp 0 0).trans (by simp)
    have h1 : Synth.spectrum flaggedCube.planes 0 1 = none := by
      exact (hsp 0 1).trans (by simp)
    rw [h0, h1]
    simp [effWeight, flaggedCube, Input.planes]
  refine ⟨hv, ?_⟩
  rw [deprecated_synth_flags _ hs (by rw [ht]; norm_num) 0 (by rw [hu]; norm_num), hv, hu, ht]
  norm_num

/-! ## Rejected inputs -/

/-- Which inputs the deprecated function rejects: the channel axis must come last. -/
theorem deprecated_rejects_iff (q u : List ℕ) (nLam nPhi : ℕ) (w : Option (List ℕ)) :
    (synthShapes q u nLam nPhi w = .nones 4 ↔
      (∃ s, w = some s ∧ s ≠ [nLam]) ∨ q ≠ u ∨ 3 < q.length ∨ (q ≠ [] ∧ q.getLast? ≠ some nLam)) ∧
    (∀ s, synthShapes q u nLam nPhi w = .ok s → s = q.dropLast ++ [nPhi]) := by
  have hw : (w.getD [nLam] ≠ [nLam]) ↔ (∃ s, w = some s ∧ s ≠ [nLam]) := by
    cases w <;> simp
  unfold synthShapes
  by_cases h0 : w.getD [nLam] ≠ [nLam]
  · rw [if_pos h0]
    exact ⟨⟨fun _ => Or.inl (hw.mp h0), fun _ => rfl⟩, fun s h => by simp at h⟩
  · rw [if_neg h0]
    rw [hw] at h0
    simp only [h0, false_or]
    by_cases h1 : q ≠ u
    · rw [if_pos h1]; exact ⟨⟨fun _ => Or.inl h1, fun _ => rfl⟩, fun s h => by simp at h⟩
    · rw [if_neg h1]
      simp only [h1, false_or]
      by_cases h2 : q.length ≤ 3
      · rw [if_neg (not_not.mpr h2)]
        have h2' : ¬ 3 < q.length := by omega
        simp only [h2', false_or]
        cases hl : q.getLast? with
        | none =>
          rw [List.getLast?_eq_none_iff] at hl
          subst hl
          exact ⟨by simp, fun s h => by simp at h⟩
        | some a =>
          have hne : q ≠ [] := by rintro rfl; simp at hl
          dsimp only
          by_cases h3 : a = nLam
          · subst h3
            rw [if_neg (not_not.mpr rfl)]
            exact ⟨by simp, fun s h => by injection h with h; exact h.symm⟩
          · rw [if_pos h3]
            refine ⟨⟨fun _ => ⟨hne, fun h => h3 (by injection h)⟩, fun _ => rfl⟩, fun s h => by simp at h⟩
      · rw [if_pos h2]
        exact ⟨⟨fun _ => Or.inl (by omega), fun _ => rfl⟩, fun s h => by simp at h⟩

/-- Instance: a cube in the order of `do_rmsynth_planes` is rejected, in spectral order it is accepted. -/
example : synthShapes [100, 4, 5] [100, 4, 5] 100 31 none = .nones 4 ∧
    synthShapes [4, 5, 100] [4, 5, 100] 100 31 none = .ok [4, 5, 31] := by decide

end Verif.Legacy
