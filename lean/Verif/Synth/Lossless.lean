import Verif.Synth.Props
import Mathlib.LinearAlgebra.Vandermonde
import Mathlib.LinearAlgebra.FiniteDimensional.Lemmas
import Mathlib.Analysis.SpecialFunctions.Complex.Log

/-!
# Whether RM synthesis loses information (C228)

Two inputs which differ only in the values of Q and U of usable channels give different Faraday spectra, on every regular axis of depths
with at least as many samples as usable channels, unless two channels are a multiple of π / (sampling) apart in `λ²`. Both conditions are
necessary.
-/

open Complex

namespace Verif.Synth

open Verif.SynthSpec

variable {n m k : ℕ}

/-- Two inputs with the same channels, depths, weights and flags; only values of Q and U may differ. -/
structure SameSetup (x y : Input n m k) : Prop where
  lamSq : x.lamSq = y.lamSq
  phi : x.phi = y.phi
  weight : x.weight = y.weight
  lam0 : x.lam0 = y.lam0
  flags : ∀ p j, (spectrum x p j).isSome = (spectrum y p j).isSome

/-- The channel counts in the spectrum of the pixel. -/
def Counts (x : Input n m k) (p : Fin m) (j : Fin n) : Prop :=
  (spectrum x p j).isSome = true ∧ effWeight x.weight j ≠ 0

noncomputable instance (x : Input n m k) (p : Fin m) : DecidablePred (Counts x p) := Classical.decPred _

/-- The channels which count. -/
noncomputable def used (x : Input n m k) (p : Fin m) : Finset (Fin n) := Finset.univ.filter (Counts x p)

theorem mem_used (x : Input n m k) (p : Fin m) (j : Fin n) : j ∈ used x p ↔ Counts x p j := by
  simp [used]

theorem spectrum_msk (x : Input n m k) (p : Fin m) (j : Fin n) : mskCube x j p = !(spectrum x p j).isSome := by
  rw [mskCube_eq]
  unfold pixPol spectrum
  cases pol (x.dataQ j p) (x.dataU j p) <;> rfl

theorem SameSetup.msk {x y : Input n m k} (h : SameSetup x y) : mskCube x = mskCube y := by
  funext j p
  rw [spectrum_msk, spectrum_msk, h.flags]

theorem SameSetup.refLamSq {x y : Input n m k} (h : SameSetup x y) : refLamSq x = refLamSq y := by
  have hw : weight1 x = weight1 y := by
    funext j
    unfold weight1 planeCount
    rw [weight0_eq, weight0_eq, h.weight, h.msk]
  unfold Synth.refLamSq doRmsynthPlanes lam0Sq
  rw [hw, h.lam0, h.lamSq]

/-- The difference of two spectra in the terms of the definition. -/
noncomputable def diffSum (x y : Input n m k) (p : Fin m) (l : Fin k) : ℂ :=
  ∑ j ∈ used x p, ((effWeight x.weight j : ℂ) * ((spectrum x p j).getD 0 - (spectrum y p j).getD 0)) *
    exp (2 * I * x.phi (Fin.rev l) * (x.lamSq j - refLamSq x))

theorem value_diff (x y : Input n m k) (h : SameSetup x y) (p : Fin m) (l : Fin k) :
    value x l p - value y l p =
      diffSum x y p l / (weightSum (effWeight x.weight) (fun j => (spectrum x p j).isSome = true) : ℝ) := by
  rw [value_eq, value_eq, ← h.refLamSq, ← h.lamSq, ← h.weight, ← h.phi]
  unfold SynthSpec.fdf
  have hf : (fun j => (spectrum y p j).isSome = true) = fun j => (spectrum x p j).isSome = true := by
    funext j; rw [h.flags]
  have hS : (Finset.univ.filter fun j => (spectrum y p j).isSome = true) =
      Finset.univ.filter fun j => (spectrum x p j).isSome = true := by
    ext j; simp [h.flags]
  have hW : weightSum (effWeight x.weight) (fun j => (spectrum y p j).isSome = true) =
      weightSum (effWeight x.weight) (fun j => (spectrum x p j).isSome = true) := by
    unfold weightSum; rw [hS]
  rw [hS, hW, ← sub_div, ← Finset.sum_sub_distrib]
  congr 1
  unfold diffSum
  have hsub : used x p ⊆ Finset.univ.filter fun j => (spectrum x p j).isSome = true := by
    intro j hj
    exact Finset.mem_filter.2 ⟨Finset.mem_univ j, ((mem_used x p j).1 hj).1⟩
  rw [← Finset.sum_subset hsub]
  · refine Finset.sum_congr rfl fun j _ => ?_
    have : (-2 * I * ((-(x.phi (Fin.rev l)) : ℝ) : ℂ) * (x.lamSq j - refLamSq x)) =
        2 * I * x.phi (Fin.rev l) * (x.lamSq j - refLamSq x) := by push_cast; ring
    rw [this]; ring
  · intro j hj hn
    have hz : effWeight x.weight j = 0 := by
      by_contra hne
      exact hn ((mem_used x p j).2 ⟨(Finset.mem_filter.1 hj).2, hne⟩)
    rw [hz]; simp

theorem weightSum_ne (x : Input n m k) (p : Fin m) (hw : ∀ j, 0 ≤ effWeight x.weight j) (hne : (used x p).Nonempty) :
    weightSum (effWeight x.weight) (fun j => (spectrum x p j).isSome = true) ≠ 0 := by
  obtain ⟨j, hj⟩ := hne
  have hj' := (mem_used x p j).1 hj
  unfold weightSum
  refine ne_of_gt (Finset.sum_pos' (fun i _ => hw i) ⟨j, ?_, lt_of_le_of_ne (hw j) (Ne.symm hj'.2)⟩)
  exact Finset.mem_filter.2 ⟨Finset.mem_univ j, hj'.1⟩

/-- Equal output is equality of all values. -/
theorem same_output_iff (x y : Input n m k) (p : Fin m) :
    (∀ l, (doRmsynthPlanes x).1 l p = (doRmsynthPlanes y).1 l p) ↔ ∀ l, value x l p = value y l p := by
  constructor
  · intro h l
    unfold value; rw [h l]
  · intro h l
    by_cases hz : ∀ l, value x l p = 0
    · rw [(fdf_blank_iff x p).1 hz l, (fdf_blank_iff y p).1 (fun l => by rw [← h l, hz l]) l]
    · push Not at hz
      obtain ⟨l0, h0⟩ := hz
      rw [(fdf_blank_iff x p).2 ⟨l0, h0⟩ l, (fdf_blank_iff y p).2 ⟨l0, by rw [← h l0]; exact h0⟩ l, h l]

theorem same_output_diff (x y : Input n m k) (h : SameSetup x y) (p : Fin m) (hw : ∀ j, 0 ≤ effWeight x.weight j) :
    (∀ l, (doRmsynthPlanes x).1 l p = (doRmsynthPlanes y).1 l p) ↔ ∀ l, diffSum x y p l = 0 := by
  rw [same_output_iff]
  refine forall_congr' fun l => ?_
  rw [← sub_eq_zero, value_diff x y h]
  by_cases hne : (used x p).Nonempty
  · have := weightSum_ne x p hw hne
    rw [div_eq_zero_iff]
    constructor
    · rintro (h | h)
      · exact h
      · exact absurd (by exact_mod_cast h) this
    · exact Or.inl
  · have : diffSum x y p l = 0 := by
      unfold diffSum
      rw [Finset.not_nonempty_iff_eq_empty.1 hne, Finset.sum_empty]
    simp [this]

/-- Sums of geometric sequences with different ratios. -/
theorem geometric_zero {ι : Type*} (S : Finset ι) (z v : ι → ℂ) (hz : Set.InjOn z S) (K : ℕ) (hK : S.card ≤ K)
    (h : ∀ l < K, ∑ j ∈ S, v j * z j ^ l = 0) : ∀ j ∈ S, v j = 0 := by
  let e := S.equivFin
  have hinj : Function.Injective fun i : Fin S.card => z (e.symm i) := by
    intro a b hab
    exact e.symm.injective (Subtype.ext (hz (e.symm a).2 (e.symm b).2 hab))
  have hv : (fun i : Fin S.card => v (e.symm i)) = 0 := by
    refine Matrix.eq_zero_of_forall_pow_sum_mul_pow_eq_zero hinj fun i => ?_
    have := h i (lt_of_lt_of_le i.isLt hK)
    rw [← Finset.sum_coe_sort S (fun j => v j * z j ^ (i : ℕ))] at this
    rw [← this]
    exact Fintype.sum_equiv e.symm _ _ fun a => rfl
  intro j hj
  have := congrFun hv (e ⟨j, hj⟩)
  simpa using this

/-- The phase by which a channel turns from one depth to the next. -/
noncomputable def ratio (d l : ℝ) : ℂ := exp (2 * I * d * l)

theorem ratio_eq_iff (d a b : ℝ) : ratio d a = ratio d b ↔ ∃ t : ℤ, d * (a - b) = Real.pi * t := by
  unfold ratio
  rw [exp_eq_exp_iff_exists_int]
  refine exists_congr fun t => ?_
  constructor
  · intro h
    have h2 : (2 * I) * ((d * (a - b) : ℝ) : ℂ) = (2 * I) * ((Real.pi * t : ℝ) : ℂ) := by
      push_cast
      linear_combination h
    exact_mod_cast mul_left_cancel₀ (by simp : (2 * I : ℂ) ≠ 0) h2
  · intro h
    have h2 : ((d * (a - b) : ℝ) : ℂ) = ((Real.pi * t : ℝ) : ℂ) := by rw [h]
    push_cast at h2
    linear_combination (2 * I) * h2

theorem kernel_regular (x : Input n m k) (a d : ℝ) (hphi : ∀ l, x.phi l = a + d * (l : ℝ)) (l : Fin k) (t : ℝ) (L : ℝ) :
    exp (2 * I * x.phi l * (t - L)) = exp (2 * I * a * (t - L)) * ratio d (t - L) ^ (l : ℕ) := by
  unfold ratio
  rw [← exp_nat_mul, ← exp_add, hphi]
  congr 1
  push_cast; ring

/-- C228. Inputs with the same spectrum at a pixel have the same data there: a regular axis, at least as many depths as channels that count,
and no two of these channels a multiple of π / (sampling) apart. -/
theorem lossless (x y : Input n m k) (h : SameSetup x y) (p : Fin m) (hw : ∀ j, 0 ≤ effWeight x.weight j)
    (a d : ℝ) (hphi : ∀ l, x.phi l = a + d * (l : ℝ)) (hcard : (used x p).card ≤ k)
    (hal : ∀ i j, Counts x p i → Counts x p j → i ≠ j → ∀ t : ℤ, d * (x.lamSq i - x.lamSq j) ≠ Real.pi * t)
    (hout : ∀ l, (doRmsynthPlanes x).1 l p = (doRmsynthPlanes y).1 l p) :
    ∀ j, Counts x p j → spectrum x p j = spectrum y p j := by
  have hd := (same_output_diff x y h p hw).1 hout
  have key := geometric_zero (used x p) (fun j => ratio d (x.lamSq j - refLamSq x))
    (fun j => (effWeight x.weight j : ℂ) * ((spectrum x p j).getD 0 - (spectrum y p j).getD 0) *
      exp (2 * I * a * (x.lamSq j - refLamSq x))) ?_ k hcard ?_
  · intro j hj
    have hz := key j ((mem_used x p j).2 hj)
    have h0 : (spectrum x p j).getD 0 = (spectrum y p j).getD 0 := by
      have h1 := (mul_eq_zero.1 hz).resolve_right (exp_ne_zero _)
      exact sub_eq_zero.1 ((mul_eq_zero.1 h1).resolve_left (by exact_mod_cast hj.2))
    have h1 := hj.1
    have h2 := h1
    rw [h.flags] at h2
    obtain ⟨s, hs⟩ := Option.isSome_iff_exists.1 h1
    obtain ⟨t, ht⟩ := Option.isSome_iff_exists.1 h2
    rw [hs, ht] at h0
    rw [hs, ht]
    simpa using h0
  · intro i hi j hj hij
    by_contra hne
    obtain ⟨t, ht⟩ := (ratio_eq_iff d _ _).1 hij
    refine hal i j ((mem_used x p i).1 hi) ((mem_used x p j).1 hj) hne t ?_
    rw [← ht]; ring
  · intro l hl
    have := hd (Fin.rev ⟨l, hl⟩)
    unfold diffSum at this
    refine Eq.trans (Finset.sum_congr rfl fun j _ => ?_) this
    rw [Fin.rev_rev, kernel_regular x a d hphi]
    ring

/-- `x` with other values in the channels which count. -/
noncomputable def alter (x : Input n m k) (p : Fin m) (v : Fin n → ℂ) : Input n m k :=
  open Classical in
  { x with
    dataQ := fun j q => if q = p ∧ Counts x p j then some (v j).re else x.dataQ j q
    dataU := fun j q => if q = p ∧ Counts x p j then some (v j).im else x.dataU j q }

theorem alter_spectrum (x : Input n m k) (p : Fin m) (v : Fin n → ℂ) (j : Fin n) (h : Counts x p j) :
    spectrum (alter x p v) p j = some (v j) := by
  unfold spectrum alter pol
  simp [h]

theorem alter_setup (x : Input n m k) (p : Fin m) (v : Fin n → ℂ) : SameSetup x (alter x p v) := by
  refine ⟨rfl, rfl, rfl, rfl, fun q j => ?_⟩
  by_cases hc : q = p ∧ Counts x p j
  · obtain ⟨rfl, hc⟩ := hc
    rw [alter_spectrum x q v j hc, hc.1]
    rfl
  · unfold spectrum alter
    simp [hc]

theorem alter_diff (x : Input n m k) (p : Fin m) (c : Fin n → ℂ) (l : Fin k) :
    diffSum x (alter x p fun j => (spectrum x p j).getD 0 - c j / effWeight x.weight j) p l =
      ∑ j ∈ used x p, c j * exp (2 * I * x.phi (Fin.rev l) * (x.lamSq j - refLamSq x)) := by
  unfold diffSum
  refine Finset.sum_congr rfl fun j hj => ?_
  have hj := (mem_used x p j).1 hj
  have hne : (effWeight x.weight j : ℂ) ≠ 0 := by exact_mod_cast hj.2
  rw [alter_spectrum x p _ j hj]
  simp only [Option.getD_some, sub_sub_cancel]
  rw [mul_div_cancel₀ _ hne]

/-- Any non-trivial combination of channels that vanishes at all depths gives other data with the same output. -/
theorem lossy_of_kernel (x : Input n m k) (p : Fin m) (hw : ∀ j, 0 ≤ effWeight x.weight j) (c : Fin n → ℂ)
    (hc : ∃ j ∈ used x p, c j ≠ 0)
    (h0 : ∀ l, ∑ j ∈ used x p, c j * exp (2 * I * x.phi l * (x.lamSq j - refLamSq x)) = 0) :
    ∃ y, SameSetup x y ∧ (∀ l, (doRmsynthPlanes x).1 l p = (doRmsynthPlanes y).1 l p) ∧
      ∃ j, Counts x p j ∧ spectrum x p j ≠ spectrum y p j := by
  refine ⟨alter x p fun j => (spectrum x p j).getD 0 - c j / effWeight x.weight j, alter_setup x p _, ?_, ?_⟩
  · rw [same_output_diff x _ (alter_setup x p _) p hw]
    intro l
    rw [alter_diff]
    exact h0 _
  · obtain ⟨j, hj, hcj⟩ := hc
    have hj := (mem_used x p j).1 hj
    refine ⟨j, hj, ?_⟩
    rw [alter_spectrum x p _ j hj]
    obtain ⟨s, hs⟩ := Option.isSome_iff_exists.1 hj.1
    rw [hs]
    simp only [Option.getD_some, ne_eq, Option.some.injEq]
    intro he
    have : c j / (effWeight x.weight j : ℂ) = 0 := by linear_combination he
    rcases div_eq_zero_iff.1 this with h | h
    · exact hcj h
    · exact hj.2 (by exact_mod_cast h)

/-- C228, the number of samples is needed: with fewer depths than channels that count, on any axis, some other data have the same output. -/
theorem lossy_few (x : Input n m k) (p : Fin m) (hw : ∀ j, 0 ≤ effWeight x.weight j) (hcard : k < (used x p).card) :
    ∃ y, SameSetup x y ∧ (∀ l, (doRmsynthPlanes x).1 l p = (doRmsynthPlanes y).1 l p) ∧
      ∃ j, Counts x p j ∧ spectrum x p j ≠ spectrum y p j := by
  let M : Matrix (Fin k) (used x p) ℂ := fun l j => exp (2 * I * x.phi l * (x.lamSq j - refLamSq x))
  have hker : LinearMap.ker M.mulVecLin ≠ ⊥ := by
    refine LinearMap.ker_ne_bot_of_finrank_lt ?_
    simpa using hcard
  obtain ⟨v, hv, hne⟩ := (Submodule.ne_bot_iff _).1 hker
  classical
  refine lossy_of_kernel x p hw (fun j => if h : j ∈ used x p then v ⟨j, h⟩ else 0) ?_ ?_
  · obtain ⟨j, hj⟩ := Function.ne_iff.1 hne
    exact ⟨j, j.2, by rw [dif_pos j.2]; exact hj⟩
  · intro l
    have h := congrFun (LinearMap.mem_ker.1 hv) l
    rw [Matrix.mulVecLin_apply] at h
    unfold Matrix.mulVec dotProduct at h
    rw [← Finset.sum_coe_sort (used x p)]
    rw [Pi.zero_apply] at h
    rw [← h]
    refine Finset.sum_congr rfl fun j _ => ?_
    rw [dif_pos j.2, mul_comm]

/-- C228, the distance of the channels matters: with two channels a multiple of π / (sampling) apart, however many depths there are, some
other data have the same output. -/
theorem lossy_alias (x : Input n m k) (p : Fin m) (hw : ∀ j, 0 ≤ effWeight x.weight j)
    (a d : ℝ) (hphi : ∀ l, x.phi l = a + d * (l : ℝ)) (i j : Fin n) (hi : Counts x p i) (hj : Counts x p j) (hij : i ≠ j)
    (t : ℤ) (ht : d * (x.lamSq i - x.lamSq j) = Real.pi * t) :
    ∃ y, SameSetup x y ∧ (∀ l, (doRmsynthPlanes x).1 l p = (doRmsynthPlanes y).1 l p) ∧
      ∃ j, Counts x p j ∧ spectrum x p j ≠ spectrum y p j := by
  classical
  have hr : ratio d (x.lamSq i - refLamSq x) = ratio d (x.lamSq j - refLamSq x) :=
    (ratio_eq_iff d _ _).2 ⟨t, by rw [← ht]; ring⟩
  refine lossy_of_kernel x p hw (fun r => if r = i then exp (2 * I * a * (x.lamSq j - refLamSq x))
    else if r = j then -exp (2 * I * a * (x.lamSq i - refLamSq x)) else 0) ⟨i, (mem_used x p i).2 hi, by simp [exp_ne_zero]⟩ ?_
  intro l
  have hsub : ({i, j} : Finset (Fin n)) ⊆ used x p := by
    intro r hr
    rcases Finset.mem_insert.1 hr with rfl | hr
    · exact (mem_used x p _).2 hi
    · rw [Finset.mem_singleton.1 hr]; exact (mem_used x p _).2 hj
  rw [← Finset.sum_subset hsub]
  · rw [Finset.sum_pair hij]
    simp only [if_true, if_neg hij.symm]
    rw [kernel_regular x a d hphi, kernel_regular x a d hphi, hr]
    ring
  · intro r _ hn
    have h1 : r ≠ i := fun e => hn (by simp [e])
    have h2 : r ≠ j := fun e => hn (by simp [e])
    simp [h1, h2]

/-- C228, exactly: on a regular axis the output of a pixel determines its data if and only if there are at least as many depths as channels that count
and no two of these are a multiple of π / (sampling) apart. -/
theorem lossless_iff (x : Input n m k) (p : Fin m) (hw : ∀ j, 0 ≤ effWeight x.weight j)
    (a d : ℝ) (hphi : ∀ l, x.phi l = a + d * (l : ℝ)) :
    (∀ y, SameSetup x y → (∀ l, (doRmsynthPlanes x).1 l p = (doRmsynthPlanes y).1 l p) →
      ∀ j, Counts x p j → spectrum x p j = spectrum y p j) ↔
    (used x p).card ≤ k ∧
      ∀ i j, Counts x p i → Counts x p j → i ≠ j → ∀ t : ℤ, d * (x.lamSq i - x.lamSq j) ≠ Real.pi * t := by
  constructor
  · intro h
    constructor
    · by_contra hc
      obtain ⟨y, h1, h2, j, h3, h4⟩ := lossy_few x p hw (by omega)
      exact h4 (h y h1 h2 j h3)
    · intro i j hi hj hij t ht
      obtain ⟨y, h1, h2, r, h3, h4⟩ := lossy_alias x p hw a d hphi i j hi hj hij t ht
      exact h4 (h y h1 h2 r h3)
  · rintro ⟨h1, h2⟩ y hy hout
    exact lossless x y hy p hw a d hphi h1 h2 hout

end Verif.Synth
