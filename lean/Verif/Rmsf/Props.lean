import Verif.Rmsf.Lemmas
import Verif.Synth.Props

/-!
# Properties of the RMSF (C05, C10, C14, C15, C17, C18)

Theorems about `rmsf`, the cube of `get_rmsf_planes` (both of its branches).
-/

open Complex

namespace Verif.Rmsf

open Verif.SynthSpec

variable {n m k : ℕ}

theorem weight0_eq' (x : Input n m k) : weight0 x = effWeight x.weight := funext (weight0_eq x)

/-- Total weight of a pixel's unflagged channels. -/
noncomputable def pixelWeight (x : Input n m k) (p : Fin m) : ℝ :=
  weightSum (effWeight x.weight) (fun j => x.msk j p = false)

/-- On symmetric axes both branches give the defining sum. -/
theorem rmsf_sym (x : Input n m k) (hs : SymGrid x.phi2) (L : ℝ) (hL : lam0Sq x = some L)
    (l : Fin k) (p : Fin m) (hw : pixelWeight x p ≠ 0) :
    rmsf x l p = some (SynthSpec.rmsf (effWeight x.weight) (fun j => x.msk j p = false) x.lamSq L
      (x.phi2 l)) := by
  unfold rmsf
  rw [hL]
  dsimp only
  unfold pixelWeight at hw
  rw [← weight0_eq'] at hw ⊢
  split_ifs with h1
  · exact rmsf1D_eq x h1 L l p hw
  · rw [rmsfPix_eq, hs l, neg_neg]

/-- In the one-dimensional branch this holds for every axis. -/
theorem rmsf_do1D (x : Input n m k) (h1 : do1D x) (L : ℝ) (hL : lam0Sq x = some L)
    (l : Fin k) (p : Fin m) (hw : pixelWeight x p ≠ 0) :
    rmsf x l p = some (SynthSpec.rmsf (effWeight x.weight) (fun j => x.msk j p = false) x.lamSq L
      (x.phi2 l)) := by
  unfold rmsf
  rw [hL]
  dsimp only
  unfold pixelWeight at hw
  rw [← weight0_eq'] at hw ⊢
  rw [if_pos h1]
  exact rmsf1D_eq x h1 L l p hw

/-- Every value of the RMSF cube is NaN, or the defining sum at some depth. -/
theorem rmsf_cases (x : Input n m k) (l : Fin k) (p : Fin m) (z : ℂ) (hz : rmsf x l p = some z) :
    ∃ L t, z = SynthSpec.rmsf (effWeight x.weight) (fun j => x.msk j p = false) x.lamSq L t := by
  unfold rmsf at hz
  cases hL : lam0Sq x with
  | none => rw [hL] at hz; simp at hz
  | some L =>
    rw [hL] at hz
    dsimp only at hz
    rw [← weight0_eq']
    split_ifs at hz with h1
    · by_cases hw : weightSum (weight0 x) (fun j => x.msk j p = false) = 0
      · unfold rmsf1D at hz
        rw [sum_weight1_do1D x h1 p, if_pos hw] at hz
        simp at hz
      · rw [rmsf1D_eq x h1 L l p hw] at hz
        exact ⟨L, x.phi2 l, (Option.some.inj hz).symm⟩
    · rw [rmsfPix_eq] at hz
      exact ⟨L, _, (Option.some.inj hz).symm⟩

/-- C14. The RMSF is one at depth zero (symmetric axes, either branch). -/
theorem rmsf_at_zero (x : Input n m k) (hs : SymGrid x.phi2) (L : ℝ) (hL : lam0Sq x = some L)
    (l : Fin k) (p : Fin m) (hw : pixelWeight x p ≠ 0) (h0 : x.phi2 l = 0) :
    rmsf x l p = some 1 := by
  rw [rmsf_sym x hs L hL l p hw, h0, rmsf_zero _ _ _ _ hw]

/-- C14. Every number in the RMSF cube has modulus at most one (any axis, either branch). -/
theorem rmsf_le_one (x : Input n m k) (hw : ∀ j, 0 ≤ effWeight x.weight j) (l : Fin k) (p : Fin m)
    (z : ℂ) (hz : rmsf x l p = some z) : ‖z‖ ≤ 1 := by
  obtain ⟨L, t, rfl⟩ := rmsf_cases x l p z hz
  exact norm_rmsf_le _ _ _ _ _ fun j _ => hw j

/-- C15. The RMSF at `-φ` is the complex conjugate of the RMSF at `φ`. -/
theorem rmsf_hermitian (x : Input n m k) (hs : SymGrid x.phi2) (L : ℝ) (hL : lam0Sq x = some L)
    (l l' : Fin k) (p : Fin m) (hw : pixelWeight x p ≠ 0) (hll : x.phi2 l' = - x.phi2 l) :
    rmsf x l' p = (rmsf x l p).map (starRingEnd ℂ) := by
  rw [rmsf_sym x hs L hL l p hw, rmsf_sym x hs L hL l' p hw, hll, rmsf_conj]
  rfl

/-- The reference used by the RMSF computation, when none is supplied, is that of RM synthesis of
data with the same flags and weights. -/
theorem rmsf_reference (x : Input n m k) (y : Synth.Input n m k) (hl : x.lamSq = y.lamSq)
    (hw : x.weight = y.weight) (hr : x.lam0 = y.lam0)
    (hf : ∀ j p, x.msk j p = false ↔ (Synth.spectrum y p j).isSome = true)
    (hpos : ∑ j, weight1 x j ≠ 0) : lam0Sq x = some (Synth.refLamSq y) := by
  have h1 : ∀ j, weight1 x j = Synth.weight1 y j := by
    intro j
    rw [Synth.weight1_eq, Synth.weight0_eq, ← hw]
    unfold weight1
    rw [weight0_eq]
    have e : (xySum x j = m) ↔ ¬ ∃ p, (Synth.pixPol y p j).isSome = true := by
      rw [xySum_eq_m]
      constructor
      · rintro h ⟨p, hp⟩
        have := (hf j p).mpr hp
        rw [h p] at this; simp at this
      · intro h p
        by_contra hc
        exact h ⟨p, (hf j p).mp (by simpa using hc)⟩
    by_cases hh : ∃ p, (Synth.pixPol y p j).isSome = true
    · rw [if_pos hh, if_neg (by rw [e]; exact not_not.mpr hh), mul_one]
    · rw [if_neg hh, if_pos (e.mpr hh), mul_zero]
  unfold lam0Sq Synth.refLamSq Synth.doRmsynthPlanes Synth.lam0Sq
  dsimp only
  rw [hr]
  cases y.lam0 with
  | some v => rfl
  | none =>
    dsimp only
    rw [if_neg hpos]
    simp only [h1, hl] at hpos ⊢
    rw [if_neg hpos]

/-- C18. RM synthesis of unit polarisation (Q=1, U=0 in the unflagged channels) gives, at each
sample of the FDF axis, the RMSF at the corresponding sample of the doubled RMSF axis. -/
theorem rmsf_is_unit_fdf (hk : 2 ≤ k) (y : Synth.Input n m k) (x : Input n m (Axis.nPhi2 k))
    (hphi2 : Axis.phi2 y.phi = some x.phi2) (hs : SymGrid y.phi)
    (hl : x.lamSq = y.lamSq) (hw : x.weight = y.weight)
    (hunit : ∀ j p, Synth.spectrum y p j = if x.msk j p then none else some 1)
    (L : ℝ) (hL : lam0Sq x = some L) (hLy : Synth.refLamSq y = L)
    (p : Fin m) (hpw : pixelWeight x p ≠ 0) (l : Fin k) (hlt : (l : ℕ) + (k + 1) / 2 < Axis.nPhi2 k) :
    rmsf x ⟨l + (k + 1) / 2, hlt⟩ p = some (Synth.value y l p) := by
  obtain ⟨g, hg, -, -, hblock, -, hsym⟩ := Axis.phi2_spec hk y.phi
  have hgx : g = x.phi2 := by rw [hg] at hphi2; exact Option.some.inj hphi2
  subst hgx
  rw [rmsf_sym x (hsym hs) L hL _ p hpw, hblock l hlt, Synth.value_sym y hs, hLy, ← hl, ← hw]
  congr 1
  unfold SynthSpec.rmsf SynthSpec.fdf
  have hgood : ∀ j, ((Synth.spectrum y p j).isSome = true) ↔ (x.msk j p = false) := by
    intro j; rw [hunit]; cases x.msk j p <;> simp
  have hfil : Finset.univ.filter (fun j => (Synth.spectrum y p j).isSome = true) =
      Finset.univ.filter (fun j => x.msk j p = false) := by
    ext j; simp [hgood j]
  unfold weightSum
  rw [hfil]
  congr 1
  apply Finset.sum_congr rfl
  intro j hj
  have : x.msk j p = false := by simpa using hj
  rw [hunit, this]
  simp

/-- The mask of one pixel of a cube alone. -/
def onePixel (x : Input n m k) (p : Fin m) : Input n 1 k where
  lamSq := x.lamSq
  phi2 := x.phi2
  weight := x.weight
  msk := fun j _ => x.msk j p
  lam0 := x.lam0

theorem onePixel_do1D (x : Input n m k) (p : Fin m) : do1D (onePixel x p) := by
  intro j
  unfold xySum onePixel
  simp only [Finset.univ_unique, Finset.sum_singleton]
  split_ifs <;> simp

/-- C17, the part that holds: on symmetric axes, with a supplied reference, the RMSF of a pixel of
a cube is the RMSF computed from that pixel's flags alone. Missing for the full claim: asymmetric
axes (`rmsf_pixel_asym_wrong`) and pixels without weight (`rmsf_pixel_no_weight`). -/
theorem rmsf_pixel_partial (x : Input n m k) (hs : SymGrid x.phi2) (L : ℝ) (hL : x.lam0 = some L)
    (l : Fin k) (p : Fin m) (hw : pixelWeight x p ≠ 0) :
    rmsf x l p = rmsf (onePixel x p) l 0 := by
  have h1 : lam0Sq x = some L := by unfold lam0Sq; rw [hL]
  have h2 : lam0Sq (onePixel x p) = some L := by unfold lam0Sq onePixel; simp only [hL]
  rw [rmsf_sym x hs L h1 l p hw, rmsf_sym (onePixel x p) hs L h2 l 0 hw]
  rfl

/-- Two channels at `λ² = 0, lamSq`, two pixels; pixel 0 has channel 0 flagged, so that the per-pixel
branch is taken and pixel 0 has one channel. -/
noncomputable def twoPixels (lamSq : ℝ) (phi2 : Fin k → ℝ) : Input 2 2 k where
  lamSq := ![0, lamSq]
  phi2 := phi2
  weight := none
  msk := fun j p => decide (j = 0 ∧ p = 0)
  lam0 := some 0

theorem spec_twoPixels (lamSq : ℝ) (phi2 : Fin k → ℝ) (t : ℝ) :
    SynthSpec.rmsf (effWeight (twoPixels lamSq phi2).weight)
      (fun j => (twoPixels lamSq phi2).msk j 0 = false) (twoPixels lamSq phi2).lamSq 0 t =
      exp (((-2 * t * lamSq : ℝ) : ℂ) * I) := by
  unfold SynthSpec.rmsf weightSum
  simp only [Finset.sum_filter, Fin.sum_univ_two]
  simp [twoPixels, effWeight]
  congr 1; ring

theorem twoPixels_not_do1D (lamSq : ℝ) (phi2 : Fin k → ℝ) : ¬ do1D (twoPixels lamSq phi2) := by
  intro h
  rcases h 0 with h | h
  · rw [xySum_eq_zero] at h
    have := h 0
    simp [twoPixels] at this
  · rw [xySum_eq_m] at h
    have := h 1
    simp [twoPixels] at this

/-- C17 is false for the code: on every axis that is not symmetric about zero there is a cube in
which the RMSF of a pixel differs from the one computed from that pixel alone. -/
theorem rmsf_pixel_asym_wrong (phi2 : Fin k → ℝ) (h : ¬ SymGrid phi2) :
    ∃ (lamSq : ℝ) (l : Fin k), 0 < lamSq ∧
      rmsf (twoPixels lamSq phi2) l 0 ≠ rmsf (onePixel (twoPixels lamSq phi2) 0) l 0 := by
  unfold SymGrid at h
  push Not at h
  obtain ⟨l, hl⟩ := h
  set d := phi2 (Fin.rev l) + phi2 l with hd
  have hd0 : d ≠ 0 := by
    intro h0; apply hl; linarith
  refine ⟨Real.pi / (2 * |d|), l, by positivity, ?_⟩
  set lam := Real.pi / (2 * |d|)
  have hw : pixelWeight (onePixel (twoPixels lam phi2) 0) 0 ≠ 0 := by
    unfold pixelWeight weightSum
    simp only [Finset.sum_filter, Fin.sum_univ_two]
    simp [twoPixels, onePixel, effWeight]
  rw [rmsf_do1D _ (onePixel_do1D _ _) 0 rfl l 0 hw]
  have hL : lam0Sq (twoPixels lam phi2) = some 0 := rfl
  unfold rmsf
  rw [hL]
  dsimp only
  rw [if_neg (twoPixels_not_do1D lam phi2), rmsfPix_eq, weight0_eq']
  intro heq
  have heq := Option.some.inj heq
  have e2 : SynthSpec.rmsf (effWeight (onePixel (twoPixels lam phi2) 0).weight)
      (fun j => (onePixel (twoPixels lam phi2) 0).msk j 0 = false)
      (onePixel (twoPixels lam phi2) 0).lamSq 0 ((onePixel (twoPixels lam phi2) 0).phi2 l) =
      exp (((-2 * phi2 l * lam : ℝ) : ℂ) * I) := spec_twoPixels lam phi2 (phi2 l)
  rw [e2, spec_twoPixels] at heq
  change exp (((-2 * -(phi2 (Fin.rev l)) * lam : ℝ) : ℂ) * I) = _ at heq
  have h1 : exp (((-2 * -(phi2 (Fin.rev l)) * lam : ℝ) : ℂ) * I) =
      exp (((2 * d * lam : ℝ) : ℂ) * I) * exp (((-2 * phi2 l * lam : ℝ) : ℂ) * I) := by
    rw [← Complex.exp_add]
    congr 1
    rw [hd]; push_cast; ring
  have h2 : exp (((2 * d * lam : ℝ) : ℂ) * I) = -1 := by
    rcases lt_or_gt_of_ne hd0 with hneg | hpos
    · have : 2 * d * lam = -Real.pi := by
        simp only [lam]; rw [abs_of_neg hneg]; field_simp
      rw [this]; push_cast
      rw [neg_mul, Complex.exp_neg, Complex.exp_pi_mul_I]; norm_num
    · have : 2 * d * lam = Real.pi := by
        simp only [lam]; rw [abs_of_pos hpos]; field_simp
      rw [this, Complex.exp_pi_mul_I]
  rw [heq, h2] at h1
  have h3 : exp (((-2 * phi2 l * lam : ℝ) : ℂ) * I) ≠ 0 := Complex.exp_ne_zero _
  have h4 : (2 : ℂ) * exp (((-2 * phi2 l * lam : ℝ) : ℂ) * I) = 0 := by
    linear_combination h1
  rcases mul_eq_zero.mp h4 with h5 | h5
  · norm_num at h5
  · exact h3 h5

/-- The part of C17 about pixels without weight: the per-pixel branch reports zero where the
computation of that pixel alone reports NaN. -/
theorem rmsf_pixel_no_weight (x : Input n m k) (L : ℝ) (hL : x.lam0 = some L) (h1 : ¬ do1D x)
    (l : Fin k) (p : Fin m) (hw : pixelWeight x p = 0) :
    rmsf x l p = some 0 ∧ rmsf (onePixel x p) l 0 = none := by
  constructor
  · unfold rmsf
    have : lam0Sq x = some L := by unfold lam0Sq; rw [hL]
    rw [this]
    dsimp only
    rw [if_neg h1, rmsfPix_eq, weight0_eq']
    unfold SynthSpec.rmsf
    rw [show weightSum (effWeight x.weight) (fun j => x.msk j p = false) = 0 from hw]
    simp
  · unfold rmsf
    have : lam0Sq (onePixel x p) = some L := by unfold lam0Sq onePixel; simp only [hL]
    rw [this]
    dsimp only
    rw [if_pos (onePixel_do1D x p)]
    unfold rmsf1D
    rw [sum_weight1_do1D (onePixel x p) (onePixel_do1D x p) 0, if_pos]
    rw [weight0_eq']; exact hw

/-- Instance of the hypotheses used above: a cube in the per-pixel branch with weight in pixel 0. -/
example : ¬ do1D (twoPixels (k := 3) 1 ![-1, 0, 1]) ∧ SymGrid (twoPixels (k := 3) 1 ![-1, 0, 1]).phi2 ∧
    pixelWeight (twoPixels (k := 3) 1 ![-1, 0, 1]) 0 ≠ 0 := by
  refine ⟨twoPixels_not_do1D _ _, ?_, ?_⟩
  · intro l; fin_cases l <;> simp [Fin.rev, twoPixels]
  · unfold pixelWeight weightSum
    simp only [Finset.sum_filter, Fin.sum_univ_two]
    simp [twoPixels, effWeight]

/-- Keep the channels `e 0, e 1, …`. -/
def selectChannels {n' : ℕ} (e : Fin n' → Fin n) (x : Input n m k) : Input n' m k where
  lamSq := fun j => x.lamSq (e j)
  phi2 := x.phi2
  weight := x.weight.map fun w j => w (e j)
  msk := fun j => x.msk (e j)
  lam0 := x.lam0

/-- C10 for the RMSF. Reordering channels changes nothing. -/
theorem rmsf_permute (e : Equiv.Perm (Fin n)) (x : Input n m k) :
    rmsf (selectChannels e x) = rmsf x ∧ lam0Sq (selectChannels e x) = lam0Sq x := by
  have hw0 : ∀ j, weight0 (selectChannels e x) j = weight0 x (e j) := by
    intro j; unfold weight0 selectChannels
    cases x.weight <;> rfl
  have hw : ∀ j, weight1 (selectChannels e x) j = weight1 x (e j) := by
    intro j; unfold weight1; rw [hw0]; rfl
  have s1 : ∑ j, weight1 (selectChannels e x) j = ∑ j, weight1 x j := by
    simp only [hw]; exact Equiv.sum_comp e (weight1 x)
  have s2 : ∑ j, weight1 (selectChannels e x) j * (selectChannels e x).lamSq j =
      ∑ j, weight1 x j * x.lamSq j := by
    simp only [hw]; exact Equiv.sum_comp e (fun j => weight1 x j * x.lamSq j)
  have hl : lam0Sq (selectChannels e x) = lam0Sq x := by
    unfold lam0Sq; rw [s1, s2]; rfl
  refine ⟨?_, hl⟩
  have h1D : do1D (selectChannels e x) ↔ do1D x := by
    unfold do1D
    constructor
    · intro h j
      have := h (e.symm j)
      unfold xySum selectChannels at this
      simpa [xySum] using this
    · intro h j
      exact h (e j)
  funext l p
  unfold rmsf
  rw [hl]
  cases lam0Sq x with
  | none => rfl
  | some L =>
    dsimp only
    have e1 : rmsf1D (selectChannels e x) L l = rmsf1D x L l := by
      unfold rmsf1D
      rw [s1]
      simp only [hw]
      congr 3
      exact Equiv.sum_comp e (fun j => (weight1 x j : ℂ) *
        exp (-2 * I * (x.phi2 l : ℂ) * ((x.lamSq j - L : ℝ) : ℂ)))
    have e2 : rmsfPix (selectChannels e x) L l p = rmsfPix x L l p := by
      unfold rmsfPix kArr Synth.nufft1d3
      simp only [hw]
      have a1 : (∑ j, if (selectChannels e x).msk j p = true then 0 else weight1 x (e j)) =
          ∑ j, if x.msk j p = true then 0 else weight1 x j :=
        Equiv.sum_comp e (fun j => if x.msk j p = true then 0 else weight1 x j)
      have a2 : (∑ j, (if (selectChannels e x).msk j p = true then 0 else (weight1 x (e j) : ℂ)) *
          exp ((((selectChannels e x).phi2 (Fin.rev l) * 2 *
            ((selectChannels e x).lamSq j - L) : ℝ) : ℂ) * I)) =
          ∑ j, (if x.msk j p = true then 0 else (weight1 x j : ℂ)) *
          exp (((x.phi2 (Fin.rev l) * 2 * (x.lamSq j - L) : ℝ) : ℂ) * I) :=
        Equiv.sum_comp e (fun j => (if x.msk j p = true then 0 else (weight1 x j : ℂ)) *
          exp (((x.phi2 (Fin.rev l) * 2 * (x.lamSq j - L) : ℝ) : ℂ) * I))
      rw [a1, a2]
    simp only [e1, e2, h1D]

/-- C05 for the RMSF. Multiplying the weights by `c ≠ 0` changes nothing. -/
theorem rmsf_weight_scale (x y : Input n m k) (c : ℝ) (hc : c ≠ 0) (hm : x.msk = y.msk)
    (hl : x.lamSq = y.lamSq) (hp : x.phi2 = y.phi2) (hr : x.lam0 = y.lam0)
    (hw : ∀ j, effWeight y.weight j = c * effWeight x.weight j) :
    rmsf y = rmsf x ∧ lam0Sq y = lam0Sq x := by
  have hw1 : ∀ j, weight1 y j = c * weight1 x j := by
    intro j; unfold weight1 xySum; rw [weight0_eq, weight0_eq, hw, hm, mul_assoc]
  have hc' : (c : ℂ) ≠ 0 := by exact_mod_cast hc
  have hl0 : lam0Sq y = lam0Sq x := by
    unfold lam0Sq
    rw [hr]
    cases y.lam0 with
    | some v => rfl
    | none =>
      simp only [hw1, ← Finset.mul_sum, mul_assoc, mul_eq_zero, hc, false_or, hl]
      split_ifs with h
      · rfl
      · congr 1; field_simp
  refine ⟨?_, hl0⟩
  have h1D : do1D y ↔ do1D x := by unfold do1D xySum; rw [hm]
  funext l p
  unfold rmsf
  rw [hl0]
  cases lam0Sq x with
  | none => rfl
  | some L =>
    dsimp only
    have e1 : rmsf1D y L l = rmsf1D x L l := by
      unfold rmsf1D
      simp only [hw1, ← Finset.mul_sum, mul_eq_zero, hc, false_or, hl, hp]
      split_ifs with h
      · rfl
      · have h' : ((∑ j, weight1 x j : ℝ) : ℂ) ≠ 0 := by exact_mod_cast h
        congr 1
        simp only [ofReal_mul, mul_assoc, ← Finset.mul_sum]
        push_cast at h' ⊢
        field_simp
    have e2 : rmsfPix y L l p = rmsfPix x L l p := by
      rw [rmsfPix_eq, rmsfPix_eq, weight0_eq', weight0_eq', ← hm, ← hl, ← hp]
      unfold SynthSpec.rmsf weightSum
      simp only [hw, ← Finset.mul_sum, ofReal_mul, mul_assoc]
      rw [mul_div_mul_left _ _ hc']
    simp only [e1, e2, h1D]

end Verif.Rmsf
