import Verif.NumPy.Ieee
import Verif.Synth.Props
import Verif.Pipe3D.Model

/-!
# RM synthesis on floating-point values (C232, C233)

Source: `/repo/RMutils/util_RM.py` 97-225 (`do_rmsynth_planes`), `/repo/RMtools_1D/do_RMsynth_1D.py` 195-196, 292-296,
`/repo/RMtools_3D/do_RMsynth_3D.py` 176-195, `/repo/RMutils/util_misc.py` 819-841.

The same function as in `Verif.Synth.Model`, with infinities in data and weights. The finite arithmetic is exact, and wavelengths and depths
are finite.
-/

open Complex

namespace Verif.Ieee

open X

/-- Arguments of `do_rmsynth_planes`. -/
structure Input (n m k : ℕ) where
  dataQ : Fin n → Fin m → X
  dataU : Fin n → Fin m → X
  lamSq : Fin n → ℝ
  phi : Fin k → ℝ
  weight : Option (Fin n → X)
  lam0 : Option ℝ
  /-- The largest number of the data type. -/
  big : ℝ

variable {n m k : ℕ}

/-- `util_RM.py` 130-132. -/
def weight0 (x : Input n m k) (j : Fin n) : X :=
  match x.weight with
  | none => fin 1
  | some w => if (w j).isnan then fin 0 else w j

/-- Line 167: `(dataQ + 1j * dataU) * weightArr`. -/
noncomputable def pRaw (x : Input n m k) (j : Fin n) (p : Fin m) : C :=
  ((C.ofReal (x.dataQ j p)).add (C.i.mul (C.ofReal (x.dataU j p)))).mul (C.ofReal (weight0 x j))

/-- Line 170. -/
noncomputable def msk (x : Input n m k) (j : Fin n) (p : Fin m) : Bool := (pRaw x j p).isnan

/-- Line 171. -/
noncomputable def pCube (x : Input n m k) (j : Fin n) (p : Fin m) : ℂ := (pRaw x j p).toNum x.big

/-- Lines 174-175. -/
noncomputable def plane (x : Input n m k) (j : Fin n) : ℝ := if (∑ p, if msk x j p then 0 else 1) = 0 then 0 else 1

/-- Line 176. -/
noncomputable def weight1 (x : Input n m k) (j : Fin n) : X := (weight0 x j).mul (fin (plane x j))

/-- Lines 180-184. -/
noncomputable def lam0Sq (x : Input n m k) : ℝ :=
  match x.lam0 with
  | some l => l
  | none =>
    match ((fin 1).div (∑ j, weight1 x j)).mul (∑ j, (weight1 x j).mul (fin (x.lamSq j))) with
    | fin r => r
    | _ => 0

/-- Lines 188-192. -/
noncomputable def kArr (x : Input n m k) (p : Fin m) : ℝ :=
  match (fin 1).div (∑ j, (fin (if msk x j p then 0 else 1)).mul (weight1 x j)) with
  | pinf => 0
  | v => v.toNum x.big

/-- Lines 200-209. -/
noncomputable def fdfRaw (x : Input n m k) (l : Fin k) (p : Fin m) : ℂ :=
  Synth.nufft1d3 (fun j => x.lamSq j - lam0Sq x) (fun j => pCube x j p) (fun l => x.phi (Fin.rev l) * 2) l * (kArr x p : ℂ)

/-- Lines 213-214. -/
noncomputable def fdf (x : Input n m k) (l : Fin k) (p : Fin m) : Option ℂ :=
  open Classical in
  if ∀ l', fdfRaw x l' p = 0 then none else some (fdfRaw x l p)

/-- The input of the model without infinities: what is not finite is NaN. -/
def plain (x : Input n m k) : Synth.Input n m k where
  dataQ := fun j p => (x.dataQ j p).finite
  dataU := fun j p => (x.dataU j p).finite
  lamSq := x.lamSq
  phi := x.phi
  weight := x.weight.map fun w j => (w j).finite
  lam0 := x.lam0

/-- No weight is infinite. -/
def FiniteWeights (x : Input n m k) : Prop := ∀ w, x.weight = some w → ∀ j, w j ≠ pinf ∧ w j ≠ ninf

theorem weight0_plain (x : Input n m k) (h : FiniteWeights x) (j : Fin n) : weight0 x j = fin (Synth.weight0 (plain x) j) := by
  unfold weight0 Synth.weight0 plain
  cases hw : x.weight with
  | none => rfl
  | some w =>
    obtain ⟨h1, h2⟩ := h w hw j
    simp only [Option.map_some]
    cases hj : w j with
    | fin a => simp [isnan, finite]
    | pinf => exact absurd hj h1
    | ninf => exact absurd hj h2
    | nan => simp [isnan, finite]

/-- A voxel of the product with a finite weight. -/
theorem pRaw_cases (x : Input n m k) (h : FiniteWeights x) (j : Fin n) (p : Fin m) :
    (∃ q u, x.dataQ j p = fin q ∧ x.dataU j p = fin u ∧
      pRaw x j p = ⟨fin (q * Synth.weight0 (plain x) j), fin (u * Synth.weight0 (plain x) j)⟩) ∨
    (((x.dataQ j p).finite = none ∨ (x.dataU j p).finite = none) ∧
      ((x.dataQ j p).isnan = true ∨ (x.dataU j p).finite = none) ∧ pRaw x j p = ⟨nan, nan⟩) ∨
    (∃ u, x.dataU j p = fin u ∧ ((x.dataQ j p = pinf ∧ pRaw x j p = ⟨infTimes true (Synth.weight0 (plain x) j), nan⟩) ∨
      (x.dataQ j p = ninf ∧ pRaw x j p = ⟨infTimes false (Synth.weight0 (plain x) j), nan⟩))) := by
  have hi0 : ∀ b a, add (infTimes b a) (fin 0) = infTimes b a := fun b a => add_zero (infTimes b a)
  have hz : ∀ b, infTimes b 0 = nan := fun b => by unfold infTimes; simp
  unfold pRaw C.mul C.add C.ofReal C.i
  rw [weight0_plain x h]
  cases hq : x.dataQ j p <;> cases hu : x.dataU j p <;> simp [add_def, mul, add, neg, finite, isnan, hz]
  · exact hi0 _ _
  · exact hi0 _ _

theorem raw_none (x : Input n m k) (j : Fin n) (p : Fin m) (h1 : (x.dataQ j p).finite = none ∨ (x.dataU j p).finite = none) :
    Synth.pCubeRaw (plain x) j p = none := by
  unfold Synth.pCubeRaw
  have hq : (plain x).dataQ j p = (x.dataQ j p).finite := rfl
  have hu : (plain x).dataU j p = (x.dataU j p).finite := rfl
  rw [hq, hu]
  rcases h1 with h1 | h1 <;> rw [h1]
  cases (x.dataQ j p).finite <;> rfl

theorem raw_some (x : Input n m k) (j : Fin n) (p : Fin m) (q u : ℝ) (h1 : x.dataQ j p = fin q) (h2 : x.dataU j p = fin u) :
    Synth.pCubeRaw (plain x) j p = some (((q : ℂ) + I * (u : ℂ)) * (Synth.weight0 (plain x) j : ℂ)) := by
  unfold Synth.pCubeRaw
  have hq : (plain x).dataQ j p = (x.dataQ j p).finite := rfl
  have hu : (plain x).dataU j p = (x.dataU j p).finite := rfl
  rw [hq, hu, h1, h2]
  rfl

/-- The mask is that of the plain model, infinite data or not. -/
theorem msk_plain (x : Input n m k) (h : FiniteWeights x) (j : Fin n) (p : Fin m) : msk x j p = Synth.mskCube (plain x) j p := by
  unfold msk Synth.mskCube C.isnan
  rcases pRaw_cases x h j p with ⟨q, u, hq, hu, e⟩ | ⟨h1, -, e⟩ | ⟨u, hu, ⟨hq, e⟩ | ⟨hq, e⟩⟩
  · rw [e, raw_some x j p q u hq hu]; simp [isnan]
  · rw [e]
    rw [raw_none x j p h1]
    simp [isnan]
  · rw [e, raw_none x j p (Or.inl (by rw [hq]; rfl))]; simp [isnan]
  · rw [e, raw_none x j p (Or.inl (by rw [hq]; rfl))]; simp [isnan]

/-- Where the mask is not set, and where no infinite Q meets a finite U, the product is that of the plain model. -/
theorem pCube_plain (x : Input n m k) (h : FiniteWeights x) (j : Fin n) (p : Fin m)
    (hq : x.dataQ j p = pinf ∨ x.dataQ j p = ninf → (x.dataU j p).finite = none) : pCube x j p = Synth.pCube (plain x) j p := by
  unfold pCube Synth.pCube C.toNum
  rcases pRaw_cases x h j p with ⟨q, u, hq, hu, e⟩ | ⟨h1, -, e⟩ | ⟨u, hu, ⟨hq', e⟩ | ⟨hq', e⟩⟩
  · rw [e, raw_some x j p q u hq hu]
    simp only [toNum]
    apply Complex.ext <;> simp
  · rw [e]
    rw [raw_none x j p h1]
    simp only [toNum]
    rfl
  · have := hq (Or.inl hq'); rw [hu] at this; simp [finite] at this
  · have := hq (Or.inr hq'); rw [hu] at this; simp [finite] at this

theorem weight1_plain (x : Input n m k) (h : FiniteWeights x) (j : Fin n) : weight1 x j = fin (Synth.weight1 (plain x) j) := by
  unfold weight1 plane Synth.weight1 Synth.planeCount
  rw [weight0_plain x h]
  simp only [msk_plain x h, mul]

theorem lam0_plain (x : Input n m k) (h : FiniteWeights x) : lam0Sq x = Synth.lam0Sq (plain x) := by
  unfold lam0Sq Synth.lam0Sq
  have hl : (plain x).lam0 = x.lam0 := rfl
  rw [hl]
  cases x.lam0 with
  | some l => rfl
  | none =>
    dsimp only
    simp only [weight1_plain x h, mul, sum_fin]
    by_cases h0 : ∑ j, Synth.weight1 (plain x) j = 0
    · rw [h0]
      simp only [div, if_true, one_ne_zero, if_false, zero_lt_one, infTimes]
      split_ifs <;> rfl
    · simp only [div, h0, if_false]
      rfl

theorem kArr_plain (x : Input n m k) (h : FiniteWeights x) (p : Fin m) : kArr x p = Synth.kArr (plain x) p := by
  unfold kArr Synth.kArr
  have e : ∀ j, (fin (if msk x j p then 0 else 1)).mul (weight1 x j) =
      fin (if Synth.mskCube (plain x) j p then 0 else Synth.weight1 (plain x) j) := by
    intro j
    rw [weight1_plain x h, msk_plain x h]
    by_cases hm : Synth.mskCube (plain x) j p <;> simp [hm, mul]
  simp only [e, sum_fin]
  by_cases h0 : ∑ j, (if Synth.mskCube (plain x) j p then 0 else Synth.weight1 (plain x) j) = 0
  · rw [h0]
    simp [div]
  · simp only [div, h0, if_false]
    rfl

/-- C233. With finite weights and no infinite Q beside a finite U, the function on floating-point values is the plain model in which everything
that is not finite is NaN. -/
theorem refines (x : Input n m k) (h : FiniteWeights x)
    (hq : ∀ j p, x.dataQ j p = pinf ∨ x.dataQ j p = ninf → (x.dataU j p).finite = none) :
    fdf x = Synth.fdf (plain x) ∧ lam0Sq x = Synth.lam0Sq (plain x) := by
  have hr : fdfRaw x = Synth.fdfRaw (plain x) := by
    funext l p
    unfold fdfRaw Synth.fdfRaw
    rw [lam0_plain x h, kArr_plain x h]
    congr 2
    funext j
    exact pCube_plain x h j p (hq j p)
  refine ⟨?_, lam0_plain x h⟩
  funext l p
  unfold fdf Synth.fdf
  rw [hr]

/-! ## Errors of zero -/

/-- The weight of a channel is infinite, and none is negative. -/
def InfiniteWeight (x : Input n m k) : Prop :=
  ∃ w, x.weight = some w ∧ (∀ j, NonNeg (w j)) ∧ ∃ j, w j = pinf

/-- C232. An infinite weight blanks all pixels at all depths, whether the data of its channel are flagged or not, and sets the reference
wavelength to zero. -/
theorem infinite_weight_blanks (x : Input n m k) (h : InfiniteWeight x) (hl : ∀ j, 0 < x.lamSq j) :
    (∀ l p, fdf x l p = none) ∧ (x.lam0 = none → lam0Sq x = 0) := by
  obtain ⟨w, hw, hn, j0, hj0⟩ := h
  have h0 : ∀ j, NonNeg (weight0 x j) := by
    intro j
    unfold weight0
    rw [hw]
    dsimp only
    split_ifs
    · exact le_refl (0 : ℝ)
    · exact hn j
  have hw0 : weight0 x j0 = pinf := by
    unfold weight0
    rw [hw]
    simp [hj0, isnan]
  have hb : ∀ (a : X) (b : Bool), NonNeg a → NonNeg ((fin (if b then 0 else 1)).mul a) := by
    intro a b ha
    cases a <;> cases b <;> simp_all [NonNeg, mul, infTimes]
  have hp : ∀ j, plane x j = 0 ∨ plane x j = 1 := by
    intro j
    unfold plane
    split_ifs <;> simp
  have h1 : ∀ j, NonNeg (weight1 x j) := by
    intro j
    unfold weight1
    have := h0 j
    cases hwj : weight0 x j <;> rw [hwj] at this <;> rcases hp j with e | e <;> rw [e] <;> simp_all [NonNeg, mul, infTimes]
  have hu1 : Unbounded (weight1 x j0) := by
    unfold weight1
    rw [hw0]
    rcases hp j0 with e | e <;> rw [e] <;> simp [mul, infTimes, Unbounded]
  have hdiv : ∀ s, Unbounded s → (fin 1).div s = fin 0 ∨ (fin 1).div s = nan := by
    intro s hs
    cases s <;> simp_all [Unbounded, div]
  have hk : ∀ p, kArr x p = 0 := by
    intro p
    unfold kArr
    have hs : Unbounded (∑ j, (fin (if msk x j p then 0 else 1)).mul (weight1 x j)) := by
      refine unbounded_sum _ _ (fun j _ => hb _ _ (h1 j)) j0 (Finset.mem_univ _) ?_
      cases hwj : weight1 x j0 <;> rw [hwj] at hu1 <;> cases msk x j0 p <;> simp_all [Unbounded, mul, infTimes]
    rcases hdiv _ hs with e | e <;> rw [e] <;> rfl
  have hr : ∀ l p, fdfRaw x l p = 0 := by
    intro l p
    unfold fdfRaw
    rw [hk p]
    simp
  refine ⟨fun l p => ?_, fun hl0 => ?_⟩
  · unfold fdf
    rw [if_pos fun l' => hr l' p]
  · unfold lam0Sq
    rw [hl0]
    dsimp only
    have hs : Unbounded (∑ j, weight1 x j) := unbounded_sum _ _ (fun j _ => h1 j) j0 (Finset.mem_univ _) hu1
    have hs2 : Unbounded (∑ j, (weight1 x j).mul (fin (x.lamSq j))) := by
      refine unbounded_sum _ _ (fun j _ => ?_) j0 (Finset.mem_univ _) ?_
      · have h2 := h1 j
        have h3 := hl j
        cases hwj : weight1 x j <;> rw [hwj] at h2 <;> simp_all [NonNeg, mul, infTimes, h3.ne']
      · have h3 := hl j0
        cases hwj : weight1 x j0 <;> rw [hwj] at hu1 <;> simp_all [Unbounded, mul, infTimes, h3.ne']
    rcases hdiv _ hs with e | e <;> rw [e]
    · cases he : (∑ j, (weight1 x j).mul (fin (x.lamSq j))) <;> rw [he] at hs2 <;> simp_all [Unbounded, mul, infTimes]
    · rfl

/-! ## Infinite data -/

/-- The voxel of an infinite Q beside a finite U: flagged, but with the largest number in place of zero. -/
theorem pCube_infinite (x : Input n m k) (h : FiniteWeights x) (j : Fin n) (p : Fin m) (u : ℝ) (hq : x.dataQ j p = pinf)
    (hu : x.dataU j p = fin u) (hw : 0 < Synth.weight0 (plain x) j) :
    msk x j p = true ∧ pCube x j p = (x.big : ℂ) ∧ Synth.pCube (plain x) j p = 0 := by
  have hraw : pRaw x j p = ⟨pinf, nan⟩ := by
    rcases pRaw_cases x h j p with ⟨q, u, hq', -, -⟩ | ⟨-, h2, -⟩ | ⟨u, -, ⟨-, e⟩ | ⟨hq', -⟩⟩
    · rw [hq] at hq'; cases hq'
    · rw [hq, hu] at h2; simp [isnan, finite] at h2
    · rw [e]
      unfold infTimes
      rw [if_neg hw.ne', if_pos (by simp [hw])]
    · rw [hq] at hq'; cases hq'
  refine ⟨?_, ?_, ?_⟩
  · unfold msk C.isnan; rw [hraw]; rfl
  · unfold pCube C.toNum; rw [hraw]; rfl
  · unfold Synth.pCube
    rw [raw_none x j p (Or.inl (by rw [hq]; rfl))]

/-- C233. One infinite Q beside a finite U adds to every value of the spectrum of its pixel the largest number, divided by the sum of the weights. -/
theorem infinite_data (x : Input n m k) (h : FiniteWeights x) (p : Fin m) (j0 : Fin n) (u : ℝ) (hq : x.dataQ j0 p = pinf)
    (hu : x.dataU j0 p = fin u) (hw : 0 < Synth.weight0 (plain x) j0)
    (hrest : ∀ j, j ≠ j0 → x.dataQ j p = pinf ∨ x.dataQ j p = ninf → (x.dataU j p).finite = none) (l : Fin k) :
    ‖fdfRaw x l p - Synth.fdfRaw (plain x) l p‖ = |x.big * Synth.kArr (plain x) p| := by
  obtain ⟨-, h1, h2⟩ := pCube_infinite x h j0 p u hq hu hw
  have e : fdfRaw x l p - Synth.fdfRaw (plain x) l p =
      (x.big * Synth.kArr (plain x) p : ℝ) * exp (((x.phi (Fin.rev l) * 2 * (x.lamSq j0 - Synth.lam0Sq (plain x)) : ℝ) : ℂ) * I) := by
    unfold fdfRaw Synth.fdfRaw Synth.nufft1d3
    rw [lam0_plain x h, kArr_plain x h, ← sub_mul]
    have hs : (plain x).lamSq = x.lamSq := rfl
    have hp : (plain x).phi = x.phi := rfl
    rw [hs, hp, ← Finset.sum_sub_distrib, Finset.sum_eq_single j0]
    · dsimp only
      rw [h1, h2]
      push_cast
      ring
    · intro j _ hj
      dsimp only
      rw [pCube_plain x h j p (hrest j hj), sub_self]
    · intro h; exact absurd (Finset.mem_univ _) h
  rw [e, norm_mul, norm_exp_ofReal_mul_I, mul_one, Complex.norm_real, Real.norm_eq_abs]

theorem kArr_valid (x : Synth.Input n m k) (p : Fin m) : Synth.kArr x p =
    1 / SynthSpec.weightSum (SynthSpec.effWeight x.weight) (fun j => (Synth.spectrum x p j).isSome = true) := by
  unfold Synth.kArr
  rw [Synth.weightCube_sum, Synth.weight0_eq']
  dsimp only
  show (if SynthSpec.weightSum (SynthSpec.effWeight x.weight) (fun j => (Synth.spectrum x p j).isSome = true) = 0 then (0 : ℝ)
    else 1 / SynthSpec.weightSum (SynthSpec.effWeight x.weight) (fun j => (Synth.spectrum x p j).isSome = true)) = _
  split_ifs with h
  · rw [h, div_zero]
  · rfl

/-- **C233 is refuted**: an infinite Q beside a finite U is flagged, but the whole spectrum of the pixel then is of the order of the largest
number, where the spectrum of the other channels is bounded by their polarised intensity. -/
theorem infinite_data_spoils (x : Input n m k) (h : FiniteWeights x) (p : Fin m) (j0 : Fin n) (u : ℝ) (hq : x.dataQ j0 p = pinf)
    (hu : x.dataU j0 p = fin u) (hw : 0 < Synth.weight0 (plain x) j0) (hw0 : ∀ j, 0 ≤ SynthSpec.effWeight (plain x).weight j)
    (hrest : ∀ j, j ≠ j0 → x.dataQ j p = pinf ∨ x.dataQ j p = ninf → (x.dataU j p).finite = none)
    (B : ℝ) (hB0 : 0 ≤ B) (hB : ∀ j z, Synth.spectrum (plain x) p j = some z → ‖z‖ ≤ B)
    (hbig : B * SynthSpec.weightSum (SynthSpec.effWeight (plain x).weight) (fun j => (Synth.spectrum (plain x) p j).isSome = true) < x.big)
    (hpos : 0 < SynthSpec.weightSum (SynthSpec.effWeight (plain x).weight) (fun j => (Synth.spectrum (plain x) p j).isSome = true)) (l : Fin k) :
    msk x j0 p = true ∧ ‖Synth.value (plain x) l p‖ ≤ B ∧
    ∃ z, fdf x l p = some z ∧
      x.big / SynthSpec.weightSum (SynthSpec.effWeight (plain x).weight) (fun j => (Synth.spectrum (plain x) p j).isSome = true) - B ≤ ‖z‖ := by
  set W := SynthSpec.weightSum (SynthSpec.effWeight (plain x).weight) (fun j => (Synth.spectrum (plain x) p j).isSome = true) with hW
  have hk : Synth.kArr (plain x) p = 1 / W := kArr_valid (plain x) p
  have hv : ∀ l, ‖Synth.value (plain x) l p‖ ≤ B := fun l => (Synth.amplitude_bound (plain x) l p hw0).2 B hB0 fun j z hz _ => hB j z hz
  have hbp : 0 < x.big := lt_of_le_of_lt (mul_nonneg hB0 hpos.le) hbig
  have hd : ∀ l, x.big / W - B ≤ ‖fdfRaw x l p‖ := by
    intro l
    have h1 := infinite_data x h p j0 u hq hu hw hrest l
    rw [hk, abs_of_pos (by positivity), mul_one_div] at h1
    have h2 := hv l
    rw [Synth.value_eq_raw] at h2
    have h3 := norm_sub_le (fdfRaw x l p) (Synth.fdfRaw (plain x) l p)
    linarith
  have hne : fdfRaw x l p ≠ 0 := by
    rw [← norm_pos_iff]
    refine lt_of_lt_of_le ?_ (hd l)
    rw [sub_pos, lt_div_iff₀ hpos]
    exact hbig
  refine ⟨(pCube_infinite x h j0 p u hq hu hw).1, hv l, fdfRaw x l p, ?_, hd l⟩
  unfold fdf
  rw [if_neg fun h => hne (h l)]

/-! ## The programs -/

/-- `1.0 / np.power(d, 2.0)`, `do_RMsynth_1D.py` 293, `do_RMsynth_3D.py` 178, or one for uniform weights. -/
noncomputable def errWeight (variance : Bool) (d : X) : X := if variance then (fin 1).div (d.mul d) else fin 1

/-- The weight of the other models is this one, unless an error is zero; then it is infinite. -/
theorem errWeight_eq (variance : Bool) (d : Option ℝ) :
    NonNeg (errWeight variance (ofOption d)) ∧ (variance = true → d = some 0 → errWeight variance (ofOption d) = pinf) ∧
    (¬ (variance = true ∧ d = some 0) → errWeight variance (ofOption d) ≠ pinf ∧ errWeight variance (ofOption d) ≠ ninf ∧
      (errWeight variance (ofOption d)).finite = Pipe1D.weight variance d) := by
  unfold errWeight Pipe1D.weight
  cases variance with
  | false => simp [NonNeg, finite]
  | true =>
    cases d with
    | none => simp [ofOption, mul, div, NonNeg, finite]
    | some s =>
      by_cases hs : s = 0
      · simp [ofOption, mul, div, hs, NonNeg]
      · simp only [ofOption, mul, div, if_true, mul_self_eq_zero, hs, if_false, NonNeg, finite]
        refine ⟨div_nonneg zero_le_one (mul_self_nonneg s), fun _ h => absurd (Option.some.inj h) hs, fun _ => ⟨by simp, by simp, ?_⟩⟩
        simp only [Option.map_some, Option.some.injEq]
        rw [sq]

/-- `run_rmsynth` for spectra: the call of `do_rmsynth_planes`. The fractional spectra and errors are numbers or NaN (`util_misc.py` 822-823,
840-841 and `do_RMsynth_1D.py` 196). -/
noncomputable def spectrumInput [NeZero n] (x : StokesI.FracIn n) (fit : Option StokesI.FitResult) (o : Pipe1D.Opts) (big : ℝ) :
    Input n 1 (Axis.nChanRM (Pipe1D.stage x fit o).phiMax (Pipe1D.stage x fit o).dPhi) where
  dataQ := fun j _ => ofOption ((Pipe1D.stage x fit o).frac.q j)
  dataU := fun j _ => ofOption ((Pipe1D.stage x fit o).frac.u j)
  lamSq := Pipe1D.lamSq x.freq
  phi := Axis.phiAxis (Pipe1D.stage x fit o).phiMax (Pipe1D.stage x fit o).dPhi
  weight := some fun j => errWeight o.variance (ofOption ((Pipe1D.stage x fit o).dqu j))
  lam0 := if o.superRes then some 0 else none
  big := big

/-- `run_rmsynth` for cubes: the call of `do_rmsynth_planes`, with the quotients by the Stokes I model as they are (lines 188-195). -/
noncomputable def cubeInput [NeZero n] (x : Pipe3D.In n m) (o : Pipe1D.Opts) (big : ℝ) : Input n m (Pipe3D.nPhi x o) where
  dataQ := fun j p => match x.i with
    | some i => (ofOption (x.q j p)).div (ofOption (i j p))
    | none => ofOption (x.q j p)
  dataU := fun j p => match x.i with
    | some i => (ofOption (x.u j p)).div (ofOption (i j p))
    | none => ofOption (x.u j p)
  lamSq := Pipe1D.lamSq x.freq
  phi := Axis.phiAxis (Pipe3D.axisParams x o).2 (Pipe3D.axisParams x o).1
  weight := some fun j => match x.rms with
    | some r => errWeight o.variance (ofOption (r j))
    | none => fin 1
  lam0 := if o.superRes then some 0 else none
  big := big

theorem finite_ofOption (a : Option ℝ) : (ofOption a).finite = a := by cases a <;> rfl

theorem finite_div (a b : Option ℝ) : ((ofOption a).div (ofOption b)).finite = StokesI.divNaN a b := by
  unfold StokesI.divNaN
  cases a with
  | none => cases b <;> rfl
  | some a =>
    cases b with
    | none => rfl
    | some b =>
      simp only [ofOption, div, Option.bind_some]
      split_ifs <;> rfl

/-- C233. The one-dimensional program on floating-point values, without errors of zero, is the model of it used for the other properties. -/
theorem spectrum_refines [NeZero n] (x : StokesI.FracIn n) (fit : Option StokesI.FitResult) (o : Pipe1D.Opts) (big : ℝ)
    (hz : Pipe1D.finiteWeights o.variance (Pipe1D.stage x fit o).dqu) :
    fdf (spectrumInput x fit o big) = Synth.fdf (Pipe1D.synthInput x fit o) ∧
      lam0Sq (spectrumInput x fit o big) = Synth.lam0Sq (Pipe1D.synthInput x fit o) := by
  have hw : ∀ j, ¬ (o.variance = true ∧ (Pipe1D.stage x fit o).dqu j = some 0) := fun j h => hz h.1 j h.2
  have hp : plain (spectrumInput x fit o big) = Pipe1D.synthInput x fit o := by
    unfold plain spectrumInput Pipe1D.synthInput
    simp only [finite_ofOption, Option.map_some]
    congr 2
    funext j
    exact ((errWeight_eq o.variance _).2.2 (hw j)).2.2
  have := refines (spectrumInput x fit o big) (by
    rintro w hw' j
    simp only [spectrumInput, Option.some.injEq] at hw'
    rw [← hw']
    exact ⟨((errWeight_eq o.variance _).2.2 (hw j)).1, ((errWeight_eq o.variance _).2.2 (hw j)).2.1⟩) (by
    intro j p h
    simp only [spectrumInput] at h
    cases hq : (Pipe1D.stage x fit o).frac.q j <;> rw [hq] at h <;> simp [ofOption] at h)
  rw [hp] at this
  exact this

/-- C233. The cube program on floating-point values, without noise values of zero, is the model of it used for the other properties: voxels where the
Stokes I model is zero are ignored as flagged ones are. -/
theorem cube_refines [NeZero n] (x : Pipe3D.In n m) (o : Pipe1D.Opts) (big : ℝ)
    (hz : o.variance = true → ∀ r, x.rms = some r → ∀ j, r j ≠ some 0) :
    fdf (cubeInput x o big) = Synth.fdf (Pipe3D.synthInput x o) ∧ lam0Sq (cubeInput x o big) = Synth.lam0Sq (Pipe3D.synthInput x o) := by
  have hw : ∀ r, x.rms = some r → ∀ j, ¬ (o.variance = true ∧ r j = some 0) := fun r hr j h => hz h.1 r hr j h.2
  have hp : plain (cubeInput x o big) = Pipe3D.synthInput x o := by
    unfold plain cubeInput Pipe3D.synthInput Pipe3D.divided Pipe3D.weight
    dsimp only
    congr 1
    · funext j p
      cases x.i with
      | none => exact finite_ofOption _
      | some i => exact finite_div _ _
    · funext j p
      cases x.i with
      | none => exact finite_ofOption _
      | some i => exact finite_div _ _
    · simp only [Option.map_some]
      congr 1
      funext j
      cases hr : x.rms with
      | none => rfl
      | some r => exact ((errWeight_eq o.variance _).2.2 (hw r hr j)).2.2
  have := refines (cubeInput x o big) (by
    rintro w hw' j
    simp only [cubeInput, Option.some.injEq] at hw'
    rw [← hw']
    dsimp only
    cases hr : x.rms with
    | none => simp
    | some r => exact ⟨((errWeight_eq o.variance _).2.2 (hw r hr j)).1, ((errWeight_eq o.variance _).2.2 (hw r hr j)).2.1⟩) (by
    intro j p h
    simp only [cubeInput] at h ⊢
    cases hi : x.i with
    | none =>
      rw [hi] at h
      cases hq : x.q j p <;> simp [hq, ofOption] at h
    | some i =>
      rw [hi] at h
      dsimp only at h ⊢
      rw [finite_div]
      unfold StokesI.divNaN
      cases hq : x.q j p with
      | none => rw [hq] at h; cases hij : i j p <;> rw [hij] at h <;> simp [ofOption, div] at h
      | some q =>
        cases hij : i j p with
        | none => cases x.u j p <;> rfl
        | some v =>
          rw [hq, hij] at h
          simp only [ofOption, div] at h
          by_cases hv : v = 0
          · cases x.u j p <;> simp [hv]
          · rw [if_neg hv] at h
            simp at h)
  rw [hp] at this
  exact this

/-- **C232 is refuted**, single spectra with inverse-variance weights: an error of zero in one channel, be its data flagged or not, makes the
Faraday spectrum NaN at all depths. -/
theorem zero_error_spectrum [NeZero n] (x : StokesI.FracIn n) (fit : Option StokesI.FitResult) (o : Pipe1D.Opts) (big : ℝ)
    (hv : o.variance = true) (hf : ∀ j, 0 < x.freq j) (j : Fin n) (hj : (Pipe1D.stage x fit o).dqu j = some 0) :
    ∀ l p, fdf (spectrumInput x fit o big) l p = none := by
  refine (infinite_weight_blanks (spectrumInput x fit o big)
    ⟨_, rfl, fun j => (errWeight_eq o.variance _).1, j, (errWeight_eq o.variance _).2.1 hv hj⟩ fun j => ?_).1
  have := hf j
  have hc : (0 : ℝ) < Pipe1D.c := by unfold Pipe1D.c; norm_num
  show 0 < (Pipe1D.c / x.freq j) ^ 2
  positivity

/-- **C232 is refuted**, cubes: a noise value of zero in one channel makes the whole cube NaN. -/
theorem zero_error_cube [NeZero n] (x : Pipe3D.In n m) (o : Pipe1D.Opts) (big : ℝ) (hv : o.variance = true) (hf : ∀ j, 0 < x.freq j)
    (r : Fin n → Option ℝ) (hr : x.rms = some r) (j : Fin n) (hj : r j = some 0) :
    ∀ l p, fdf (cubeInput x o big) l p = none := by
  have hcw : (cubeInput x o big).weight = some fun j => errWeight o.variance (ofOption (r j)) := by
    unfold cubeInput
    rw [hr]
  refine (infinite_weight_blanks (cubeInput x o big)
    ⟨_, hcw, fun j => (errWeight_eq o.variance _).1, j, (errWeight_eq o.variance _).2.1 hv hj⟩ fun j => ?_).1
  have := hf j
  have hc : (0 : ℝ) < Pipe1D.c := by unfold Pipe1D.c; norm_num
  show 0 < (Pipe1D.c / x.freq j) ^ 2
  positivity

/-! ## Cases -/

/-- Two channels, the first flagged and with an error of zero. -/
noncomputable def zeroErr : StokesI.FracIn 2 where
  freq := ![1000000000, 1500000000]
  q := ![none, some 1]
  u := ![none, some 0]
  dI := ![some 1, some 1]
  dQ := ![some 0, some 1]
  dU := ![some 0, some 1]
  polyOrd := 0
  fn := .log
  modI := none

/-- The flagged channel blanks the spectrum of the other. -/
theorem case_spectrum (o : Pipe1D.Opts) (hv : o.variance = true) (big : ℝ) : ∀ l p, fdf (spectrumInput zeroErr none o big) l p = none := by
  refine zero_error_spectrum zeroErr none o big hv ?_ 0 ?_
  · intro j
    fin_cases j <;> simp [zeroErr]
  · simp [Pipe1D.stage, StokesI.createFrac, zeroErr, StokesI.divNaN, Pipe1D.dqu]

/-- A cube of one pixel and two channels with noise of zero in the first. -/
noncomputable def zeroCube : Pipe3D.In 2 1 where
  q := fun _ _ => some 1
  u := fun _ _ => some 0
  i := none
  freq := ![1000000000, 1500000000]
  rms := some ![some 0, some 1]

theorem case_cube (o : Pipe1D.Opts) (hv : o.variance = true) (big : ℝ) : ∀ l p, fdf (cubeInput zeroCube o big) l p = none := by
  refine zero_error_cube zeroCube o big hv ?_ _ rfl 0 rfl
  intro j
  fin_cases j <;> simp [zeroCube]

/-- One pixel and two channels, the first with an infinite Q. -/
def infQ : Input 2 1 1 where
  dataQ := fun j _ => if j = 0 then pinf else fin 1
  dataU := fun _ _ => fin 0
  lamSq := ![1, 2]
  phi := ![0]
  weight := none
  lam0 := none
  big := 1000

theorem infQ_spectrum (p : Fin 1) : Synth.spectrum (plain infQ) p 0 = none ∧ Synth.spectrum (plain infQ) p 1 = some 1 := by
  unfold Synth.spectrum plain infQ
  simp [finite, SynthSpec.pol]
  rfl

/-- The infinite value is reported as flagged, and makes the result 999 at least where the other channel has amplitude one. -/
theorem case_infinite : msk infQ 0 0 = true ∧ ‖Synth.value (plain infQ) 0 0‖ ≤ 1 ∧ ∃ z, fdf infQ 0 0 = some z ∧ 999 ≤ ‖z‖ := by
  obtain ⟨s0, s1⟩ := infQ_spectrum 0
  have hw : ∀ j, SynthSpec.effWeight (plain infQ).weight j = 1 := fun j => rfl
  have hs : SynthSpec.weightSum (SynthSpec.effWeight (plain infQ).weight) (fun j => (Synth.spectrum (plain infQ) 0 j).isSome = true) = 1 := by
    unfold SynthSpec.weightSum
    rw [Finset.sum_filter, Fin.sum_univ_two, s0, s1]
    simp [hw]
  have := infinite_data_spoils infQ (by intro w hw; cases hw) 0 0 0 (by simp [infQ]) rfl (by simp [Synth.weight0, plain, infQ])
    (fun j => by rw [hw]; exact zero_le_one) (by
      intro j hj h
      simp [infQ, hj] at h) 1 zero_le_one (by
      intro j z hz
      fin_cases j
      · have : Synth.spectrum (plain infQ) 0 0 = some z := hz
        rw [s0] at this
        cases this
      · have : Synth.spectrum (plain infQ) 0 1 = some z := hz
        rw [s1] at this
        cases this
        simp) (by rw [hs]; simp [infQ]) (by rw [hs]; exact one_pos) 0
  rw [hs] at this
  obtain ⟨h1, h2, z, hz, h3⟩ := this
  refine ⟨h1, h2, z, hz, le_trans ?_ h3⟩
  simp [infQ]
  norm_num

end Verif.Ieee
