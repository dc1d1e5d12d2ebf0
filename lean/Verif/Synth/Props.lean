import Verif.Synth.Lemmas
import Verif.Synth.SpecLemmas
import Verif.Axis.Props

/-!
# Properties of RM synthesis (C01 - C12)

All theorems are about `doRmsynthPlanes`/`fdf`/`lam0Sq` of `Synth/Model`, the transcription of
`do_rmsynth_planes`. `value` reads a blanked spectrum (NaN at every depth) as zero; theorem
`fdf_blank_iff` says when a spectrum is blanked.
-/

open Complex

namespace Verif.Synth

open Verif.SynthSpec

variable {n m k : ℕ}

/-- Output value of a pixel at one depth, reading NaN (an identically zero spectrum) as zero. -/
noncomputable def value (x : Input n m k) (l : Fin k) (p : Fin m) : ℂ :=
  ((doRmsynthPlanes x).1 l p).getD 0

/-- The reference wavelength squared which is returned. -/
noncomputable def refLamSq (x : Input n m k) : ℝ := (doRmsynthPlanes x).2

/-- The user's view of a pixel's spectrum. -/
noncomputable def spectrum (x : Input n m k) (p : Fin m) (j : Fin n) : Option ℂ :=
  pol (x.dataQ j p) (x.dataU j p)

theorem weight0_eq (x : Input n m k) (j : Fin n) : weight0 x j = effWeight x.weight j := by
  unfold weight0 effWeight
  cases x.weight with
  | none => rfl
  | some f =>
    dsimp only [Option.elim]
    cases f j <;> rfl

theorem weight0_eq' (x : Input n m k) : weight0 x = effWeight x.weight := funext (weight0_eq x)

theorem value_eq_raw (x : Input n m k) (l : Fin k) (p : Fin m) : value x l p = fdfRaw x l p := by
  unfold value doRmsynthPlanes fdf
  dsimp only
  split_ifs with h
  · simp [h l]
  · simp

/-- For every grid: the value at index `l` is the defining sum at minus the reversed grid value. -/
theorem value_eq (x : Input n m k) (l : Fin k) (p : Fin m) :
    value x l p = SynthSpec.fdf (effWeight x.weight) (spectrum x p) x.lamSq (refLamSq x)
      (-(x.phi (Fin.rev l))) := by
  rw [value_eq_raw, fdfRaw_eq, weight0_eq']; rfl

theorem value_sym (x : Input n m k) (h : SymGrid x.phi) (l : Fin k) (p : Fin m) :
    value x l p = SynthSpec.fdf (effWeight x.weight) (spectrum x p) x.lamSq (refLamSq x)
      (x.phi l) := by
  rw [value_eq, h l, neg_neg]

/-! ## C12 -/

/-- C12. A pixel is blanked (NaN at every depth) exactly when its value is zero at every depth;
otherwise it is a number at every depth. -/
theorem fdf_blank_iff (x : Input n m k) (p : Fin m) :
    ((∀ l, value x l p = 0) → ∀ l, (doRmsynthPlanes x).1 l p = none) ∧
    ((∃ l, value x l p ≠ 0) → ∀ l, (doRmsynthPlanes x).1 l p = some (value x l p)) := by
  constructor
  · intro h l
    unfold doRmsynthPlanes fdf
    dsimp only
    rw [if_pos]
    intro l'; rw [← value_eq_raw]; exact h l'
  · rintro ⟨l0, h⟩ l
    rw [value_eq_raw]
    unfold doRmsynthPlanes fdf
    dsimp only
    rw [if_neg]
    intro hh; apply h; rw [value_eq_raw]; exact hh l0

/-- C12. A completely flagged pixel is NaN at every depth. -/
theorem flagged_pixel_blank (x : Input n m k) (p : Fin m)
    (h : ∀ j, x.dataQ j p = none ∨ x.dataU j p = none) (l : Fin k) :
    (doRmsynthPlanes x).1 l p = none := by
  apply (fdf_blank_iff x p).1
  intro l'
  rw [value_eq]
  unfold SynthSpec.fdf
  have : ∀ j, spectrum x p j = none := by
    intro j; unfold spectrum pol
    rcases h j with h | h <;> rw [h] <;> simp
  simp [this]

/-- C12, a finding: a pixel with perfectly valid data `Q = U = 0` in all channels is blanked, too,
so NaN in the output does not mean that the input was flagged. -/
theorem zero_pixel_blank (x : Input n m k) (p : Fin m)
    (h : ∀ j, x.dataQ j p = some 0 ∧ x.dataU j p = some 0) (l : Fin k) :
    (doRmsynthPlanes x).1 l p = none := by
  apply (fdf_blank_iff x p).1
  intro l'
  rw [value_eq]
  unfold SynthSpec.fdf
  have : ∀ j, spectrum x p j = some 0 := by
    intro j; unfold spectrum pol
    rw [(h j).1, (h j).2]; rfl
  simp [this]

/-! ## C01, C02 -/

/-- C01. On the Faraday depth axis of `run_rmsynth` the returned spectrum is the defining sum of
RM synthesis, at every depth, unless the pixel has no weight at all or that sum vanishes at every
depth, in which cases the spectrum is NaN. -/
theorem rmsynth_correct (phiMax dPhi : ℝ) (hd : 0 < dPhi)
    (x : Input n m (Axis.nChanRM phiMax dPhi)) (hx : x.phi = Axis.phiAxis phiMax dPhi) (p : Fin m) :
    let F := fun phi => SynthSpec.fdf (effWeight x.weight) (spectrum x p) x.lamSq (refLamSq x) phi
    let W := weightSum (effWeight x.weight) (fun j => (spectrum x p j).isSome = true)
    ((∃ l, F (Axis.phiAxis phiMax dPhi l) ≠ 0) →
      W ≠ 0 ∧ ∀ l, (doRmsynthPlanes x).1 l p = some (F (Axis.phiAxis phiMax dPhi l))) ∧
    ((W = 0 ∨ ∀ l, F (Axis.phiAxis phiMax dPhi l) = 0) →
      ∀ l, (doRmsynthPlanes x).1 l p = none) := by
  intro F W
  obtain ⟨c, -, -, hsym, -⟩ := Axis.phiAxis_spec phiMax dPhi hd
  have hv : ∀ l, value x l p = F (Axis.phiAxis phiMax dPhi l) := by
    intro l
    rw [value_sym x (by rw [hx]; exact hsym), hx]
  have hW : W = 0 → ∀ phi, F phi = 0 := by
    intro h phi
    simp only [F, SynthSpec.fdf]
    have : (weightSum (effWeight x.weight) (fun j => (spectrum x p j).isSome = true) : ℝ) = 0 := h
    rw [this]; simp
  constructor
  · rintro ⟨l0, h0⟩
    refine ⟨fun hw => h0 (hW hw _), fun l => ?_⟩
    rw [← hv]
    exact (fdf_blank_iff x p).2 ⟨l0, by rw [hv]; exact h0⟩ l
  · intro h l
    apply (fdf_blank_iff x p).1
    intro l'
    rw [hv]
    rcases h with h | h
    · exact hW h _
    · exact h l'

/-- C02, the part that holds: any grid symmetric about zero. -/
theorem rmsynth_symGrid_partial (x : Input n m k) (h : SymGrid x.phi) (l : Fin k) (p : Fin m) :
    value x l p = SynthSpec.fdf (effWeight x.weight) (spectrum x p) x.lamSq (refLamSq x)
      (x.phi l) := value_sym x h l p

/-- One channel, one pixel, `Q = 1`, `U = 0`. -/
noncomputable def oneChannel (lamSq : ℝ) (phi : Fin k → ℝ) : Input 1 1 k where
  dataQ := fun _ _ => some 1
  dataU := fun _ _ => some 0
  lamSq := fun _ => lamSq
  phi := phi
  weight := none
  lam0 := some 0

theorem spec_oneChannel (lamSq : ℝ) (phi : Fin k → ℝ) (t : ℝ) :
    SynthSpec.fdf (effWeight (oneChannel lamSq phi).weight) (spectrum (oneChannel lamSq phi) 0)
      (oneChannel lamSq phi).lamSq (refLamSq (oneChannel lamSq phi)) t =
      exp (((-2 * t * lamSq : ℝ) : ℂ) * I) := by
  have h1 : refLamSq (oneChannel lamSq phi) = 0 := rfl
  have h2 : ∀ j, spectrum (oneChannel lamSq phi) 0 j = some 1 := by
    intro j; unfold spectrum pol oneChannel
    simp only [Option.bind_some, Option.map_some]
    congr 1
  have h3 : ∀ j, effWeight (oneChannel lamSq phi).weight j = 1 := by
    intro j; rfl
  unfold SynthSpec.fdf weightSum
  rw [h1]
  simp only [h2, h3]
  simp only [oneChannel, Option.isSome_some, Finset.filter_true, Finset.univ_unique,
    Finset.sum_singleton]
  simp only [Option.getD_some, mul_one, one_mul, ofReal_zero, sub_zero, ofReal_one, div_one]
  congr 1
  push_cast
  ring

/-- C02 is false for the code: for **every** grid which is not symmetric about zero there are
data (one channel with positive `λ²`, one depth) for which the returned value is not the defining
sum at that depth. Together with `rmsynth_symGrid_partial`: the routine is right for all data if
and only if the supplied grid is symmetric. -/
theorem rmsynth_asymGrid_wrong (phi : Fin k → ℝ) (h : ¬ SymGrid phi) :
    ∃ (lamSq : ℝ) (l : Fin k), 0 < lamSq ∧
      value (oneChannel lamSq phi) l 0 ≠
        SynthSpec.fdf (effWeight (oneChannel lamSq phi).weight) (spectrum (oneChannel lamSq phi) 0)
          (oneChannel lamSq phi).lamSq (refLamSq (oneChannel lamSq phi)) (phi l) := by
  unfold SymGrid at h
  push Not at h
  obtain ⟨l, hl⟩ := h
  set d := phi (Fin.rev l) + phi l with hd
  have hd0 : d ≠ 0 := by
    intro h0; apply hl; linarith
  refine ⟨Real.pi / (2 * |d|), l, by positivity, ?_⟩
  rw [value_eq, spec_oneChannel, spec_oneChannel]
  intro heq
  have h1 : exp (((-2 * -(phi (Fin.rev l)) * (Real.pi / (2 * |d|)) : ℝ) : ℂ) * I) =
      exp (((2 * d * (Real.pi / (2 * |d|)) : ℝ) : ℂ) * I) *
      exp (((-2 * phi l * (Real.pi / (2 * |d|)) : ℝ) : ℂ) * I) := by
    rw [← Complex.exp_add]
    congr 1
    rw [hd]; push_cast; ring
  have h2 : exp (((2 * d * (Real.pi / (2 * |d|)) : ℝ) : ℂ) * I) = -1 := by
    rcases lt_or_gt_of_ne hd0 with hneg | hpos
    · have : 2 * d * (Real.pi / (2 * |d|)) = -Real.pi := by
        rw [abs_of_neg hneg]; field_simp
      rw [this]; push_cast
      rw [neg_mul, Complex.exp_neg, Complex.exp_pi_mul_I]; norm_num
    · have : 2 * d * (Real.pi / (2 * |d|)) = Real.pi := by
        rw [abs_of_pos hpos]; field_simp
      rw [this, Complex.exp_pi_mul_I]
  change exp (((-2 * -(phi (Fin.rev l)) * (Real.pi / (2 * |d|)) : ℝ) : ℂ) * I) =
    exp (((-2 * phi l * (Real.pi / (2 * |d|)) : ℝ) : ℂ) * I) at heq
  rw [heq, h2] at h1
  have h3 : exp (((-2 * phi l * (Real.pi / (2 * |d|)) : ℝ) : ℂ) * I) ≠ 0 := Complex.exp_ne_zero _
  have h4 : (2 : ℂ) * exp (((-2 * phi l * (Real.pi / (2 * |d|)) : ℝ) : ℂ) * I) = 0 := by
    linear_combination h1
  rcases mul_eq_zero.mp h4 with h5 | h5
  · norm_num at h5
  · exact h3 h5

/-- An asymmetric grid: 0, 1, 2 (such as a user interested in positive depths would supply). -/
example : ¬ SymGrid (fun i : Fin 3 => (i : ℝ)) := by
  intro h
  have := h 0
  simp [Fin.rev] at this

/-! ## C03, C10: flags and order of channels -/

/-- C03. Only unflagged channels with non-zero weight matter: two inputs that agree in `λ²`,
weights, reference and grid, and whose spectra agree in every channel of non-zero weight (flags
included), give the same spectrum and reference. (A channel with Q flagged has spectrum `none`
whatever U is, so values stored behind a flag are covered.) -/
theorem flagged_irrelevant (x y : Input n m k) (hl : x.lamSq = y.lamSq) (hp : x.phi = y.phi)
    (hr : x.lam0 = y.lam0) (hw : effWeight x.weight = effWeight y.weight)
    (hd : ∀ j p, effWeight x.weight j ≠ 0 → spectrum x p j = spectrum y p j) :
    doRmsynthPlanes x = doRmsynthPlanes y := by
  have hw1 : ∀ j, weight1 x j = weight1 y j := by
    intro j
    rw [weight1_eq, weight1_eq, weight0_eq, weight0_eq, ← hw]
    by_cases h0 : effWeight x.weight j = 0
    · rw [h0]; simp
    · have : ∀ p, pixPol x p j = pixPol y p j := fun p => hd j p h0
      simp only [this]
  have hl0 : lam0Sq x = lam0Sq y := by
    unfold lam0Sq; simp only [hw1, hl, hr]
  have hraw : ∀ l p, fdfRaw x l p = fdfRaw y l p := by
    intro l p
    rw [fdfRaw_eq, fdfRaw_eq, hl0, hl, hp, weight0_eq', weight0_eq', ← hw]
    unfold SynthSpec.fdf weightSum
    simp only [Finset.sum_filter]
    have hnum : ∀ j, (if (pixPol x p j).isSome = true then
        (effWeight x.weight j : ℂ) * (pixPol x p j).getD 0 *
          exp (-2 * I * ((-(y.phi (Fin.rev l)) : ℝ) : ℂ) * ((y.lamSq j : ℂ) - (lam0Sq y : ℂ))) else 0) =
        (if (pixPol y p j).isSome = true then
        (effWeight x.weight j : ℂ) * (pixPol y p j).getD 0 *
          exp (-2 * I * ((-(y.phi (Fin.rev l)) : ℝ) : ℂ) * ((y.lamSq j : ℂ) - (lam0Sq y : ℂ))) else 0) := by
      intro j
      by_cases h0 : effWeight x.weight j = 0
      · rw [h0]; simp
      · rw [show pixPol x p j = pixPol y p j from hd j p h0]
    have hden : ∀ j, (if (pixPol x p j).isSome = true then effWeight x.weight j else 0) =
        (if (pixPol y p j).isSome = true then effWeight x.weight j else 0) := by
      intro j
      by_cases h0 : effWeight x.weight j = 0
      · rw [h0]; simp
      · rw [show pixPol x p j = pixPol y p j from hd j p h0]
    simp only [hnum, hden]
  unfold doRmsynthPlanes
  congr 1
  funext l p
  unfold fdf
  simp only [hraw]

/-- Keep only the channels `e 0, e 1, …` of an input (in this order). -/
def selectChannels {n' : ℕ} (e : Fin n' → Fin n) (x : Input n m k) : Input n' m k where
  dataQ := fun j => x.dataQ (e j)
  dataU := fun j => x.dataU (e j)
  lamSq := fun j => x.lamSq (e j)
  phi := x.phi
  weight := x.weight.map fun w j => w (e j)
  lam0 := x.lam0

theorem effWeight_select {n' : ℕ} (e : Fin n' → Fin n) (x : Input n m k) (j : Fin n') :
    effWeight (selectChannels e x).weight j = effWeight x.weight (e j) := by
  unfold effWeight selectChannels
  cases x.weight <;> rfl

/-- Sums over all channels equal sums over the kept channels if the dropped terms vanish. -/
theorem sum_select {M : Type*} [AddCommMonoid M] {n' : ℕ} (e : Fin n' → Fin n)
    (he : Function.Injective e) (f : Fin n → M) (h0 : ∀ j, (∀ i, e i ≠ j) → f j = 0) :
    ∑ i, f (e i) = ∑ j, f j := by
  classical
  have hinj : Set.InjOn e (Finset.univ : Finset (Fin n')) := fun a _ b _ h => he h
  rw [← Finset.sum_image (s := Finset.univ) (g := e) (f := f) hinj]
  apply Finset.sum_subset (Finset.subset_univ _)
  intro j _ hj
  apply h0
  intro i hi
  apply hj
  rw [Finset.mem_image]
  exact ⟨i, Finset.mem_univ i, hi⟩

/-- C03 and C10. Removing channels that are flagged in every pixel or have zero/NaN weight, and
reordering the remaining channels in any way, changes neither the spectrum nor the reference. -/
theorem select_channels {n' : ℕ} (e : Fin n' → Fin n) (he : Function.Injective e)
    (x : Input n m k)
    (hdrop : ∀ j, (∀ i, e i ≠ j) →
      effWeight x.weight j = 0 ∨ ∀ p, spectrum x p j = none) :
    doRmsynthPlanes (selectChannels e x) = doRmsynthPlanes x := by
  have hpix : ∀ p j, pixPol (selectChannels e x) p j = pixPol x p (e j) := fun p j => rfl
  have hw1 : ∀ j, weight1 (selectChannels e x) j = weight1 x (e j) := by
    intro j
    rw [weight1_eq, weight1_eq, weight0_eq, weight0_eq, effWeight_select]
    simp only [hpix]
  have hz : ∀ j, (∀ i, e i ≠ j) → weight1 x j = 0 := by
    intro j hj
    rw [weight1_eq, weight0_eq]
    rcases hdrop j hj with h | h
    · rw [h]; simp
    · rw [if_neg]
      rintro ⟨p, hp⟩
      have : pixPol x p j = none := h p
      rw [this] at hp; simp at hp
  have hsum1 : ∑ j, weight1 (selectChannels e x) j = ∑ j, weight1 x j := by
    simp only [hw1]; exact sum_select e he (weight1 x) hz
  have hsum2 : ∑ j, weight1 (selectChannels e x) j * (selectChannels e x).lamSq j =
      ∑ j, weight1 x j * x.lamSq j := by
    simp only [hw1]
    exact sum_select e he (fun j => weight1 x j * x.lamSq j) (fun j hj => by rw [hz j hj]; simp)
  have hl0 : lam0Sq (selectChannels e x) = lam0Sq x := by
    unfold lam0Sq
    rw [hsum1, hsum2]; rfl
  have hraw : ∀ l p, fdfRaw (selectChannels e x) l p = fdfRaw x l p := by
    intro l p
    rw [fdfRaw_eq, fdfRaw_eq, hl0, weight0_eq', weight0_eq']
    unfold SynthSpec.fdf weightSum
    simp only [Finset.sum_filter, hpix, effWeight_select]
    have hphi : (selectChannels e x).phi = x.phi := rfl
    have hlam : ∀ j, (selectChannels e x).lamSq j = x.lamSq (e j) := fun j => rfl
    simp only [hphi, hlam]
    congr 1
    · refine sum_select e he (fun j => if (pixPol x p j).isSome = true then
        (effWeight x.weight j : ℂ) * (pixPol x p j).getD 0 *
          exp (-2 * I * ((-(x.phi (Fin.rev l)) : ℝ) : ℂ) * ((x.lamSq j : ℂ) - (lam0Sq x : ℂ)))
          else 0) ?_
      intro j hj
      rcases hdrop j hj with h | h
      · rw [h]; simp
      · have : pixPol x p j = none := h p
        simp [this]
    · congr 1
      refine sum_select e he
        (fun j => if (pixPol x p j).isSome = true then effWeight x.weight j else 0) ?_
      intro j hj
      rcases hdrop j hj with h | h
      · rw [h]; simp
      · have : pixPol x p j = none := h p
        simp [this]
  unfold doRmsynthPlanes
  rw [hl0]
  congr 1
  funext l p
  unfold fdf
  simp only [hraw]

/-- C10. Reordering all channels changes nothing. -/
theorem permute_channels (e : Equiv.Perm (Fin n)) (x : Input n m k) :
    doRmsynthPlanes (selectChannels e x) = doRmsynthPlanes x :=
  select_channels e e.injective x fun j hj => absurd (e.apply_symm_apply j) (hj _)

/-- Instance of `select_channels`: dropping the flagged middle channel of three. -/
example (a b : ℝ) (phi : Fin k → ℝ) :
    let x : Input 3 1 k :=
      { dataQ := fun j _ => ![some a, none, some b] j, dataU := fun _ _ => some 0,
        lamSq := ![1, 2, 3], phi := phi, weight := none, lam0 := none }
    doRmsynthPlanes (selectChannels ![0, 2] x) = doRmsynthPlanes x := by
  intro x
  apply select_channels
  · intro i j h
    fin_cases i <;> fin_cases j <;> simp_all
  · intro j hj
    right
    intro p
    fin_cases j
    · exact absurd rfl (hj 0)
    · rfl
    · exact absurd rfl (hj 1)

/-! ## C04: linearity -/

/-- C04. RM synthesis is linear in the polarisation spectrum, for a given reference. -/
theorem rmsynth_linear (x y z : Input n m k) (a b : ℂ) (L : ℝ)
    (hlx : x.lamSq = z.lamSq) (hly : y.lamSq = z.lamSq) (hpx : x.phi = z.phi) (hpy : y.phi = z.phi)
    (hwx : x.weight = z.weight) (hwy : y.weight = z.weight)
    (hx : x.lam0 = some L) (hy : y.lam0 = some L) (hz : z.lam0 = some L)
    (hdx : ∀ j p, (spectrum x p j).isSome = (spectrum z p j).isSome)
    (hdy : ∀ j p, (spectrum y p j).isSome = (spectrum z p j).isSome)
    (hd : ∀ j p u v w, spectrum x p j = some u → spectrum y p j = some v → spectrum z p j = some w →
      w = a * u + b * v) (l : Fin k) (p : Fin m) :
    value z l p = a * value x l p + b * value y l p := by
  have r : ∀ q : Input n m k, q.lam0 = some L → refLamSq q = L := by
    intro q hq; unfold refLamSq doRmsynthPlanes lam0Sq; rw [hq]
  rw [value_eq, value_eq, value_eq, r x hx, r y hy, r z hz, hlx, hly, hpx, hpy, hwx, hwy]
  unfold SynthSpec.fdf
  simp only [hdx, hdy]
  rw [← mul_div_assoc, ← mul_div_assoc, ← add_div, Finset.mul_sum, Finset.mul_sum,
    ← Finset.sum_add_distrib]
  congr 1
  apply Finset.sum_congr rfl
  intro j hj
  have hj' : (spectrum z p j).isSome = true := by simpa using hj
  obtain ⟨w, hw⟩ := Option.isSome_iff_exists.mp hj'
  obtain ⟨u, hu⟩ := Option.isSome_iff_exists.mp ((hdx j p).trans hj')
  obtain ⟨v, hv⟩ := Option.isSome_iff_exists.mp ((hdy j p).trans hj')
  rw [hu, hv, hw, hd j p u v w hu hv hw]
  simp only [Option.getD_some]
  ring

/-! ## C05: weight scale -/

/-- C05. Multiplying all weights by a constant `c ≠ 0` changes nothing. -/
theorem weight_scale (x y : Input n m k) (c : ℝ) (hc : c ≠ 0)
    (hQ : x.dataQ = y.dataQ) (hU : x.dataU = y.dataU) (hl : x.lamSq = y.lamSq)
    (hp : x.phi = y.phi) (hr : x.lam0 = y.lam0)
    (hw : ∀ j, effWeight y.weight j = c * effWeight x.weight j) :
    doRmsynthPlanes y = doRmsynthPlanes x := by
  have hpix : ∀ p j, pixPol y p j = pixPol x p j := by
    intro p j; unfold pixPol; rw [hQ, hU]
  have hw1 : ∀ j, weight1 y j = c * weight1 x j := by
    intro j
    rw [weight1_eq, weight1_eq, weight0_eq, weight0_eq, hw]
    simp only [hpix]
    split_ifs <;> simp
  have hl0 : lam0Sq y = lam0Sq x := by
    unfold lam0Sq
    rw [hr]
    cases y.lam0 with
    | some l => rfl
    | none =>
      simp only [hw1, ← Finset.mul_sum, mul_assoc, mul_eq_zero, hc, false_or, hl]
      split_ifs with h
      · rfl
      · field_simp
  have hraw : ∀ l p, fdfRaw y l p = fdfRaw x l p := by
    intro l p
    rw [fdfRaw_eq, fdfRaw_eq, hl0, weight0_eq', weight0_eq']
    have : pixPol y p = pixPol x p := funext (hpix p)
    rw [this, hl, hp]
    unfold SynthSpec.fdf weightSum
    simp only [hw]
    rw [← Finset.mul_sum]
    simp only [ofReal_mul, mul_assoc]
    rw [← Finset.mul_sum]
    rw [mul_div_mul_left _ _ (by exact_mod_cast hc)]
  unfold doRmsynthPlanes
  rw [hl0]
  congr 1
  funext l p
  unfold fdf
  simp only [hraw]

/-! ## C06: amplitude bound -/

/-- C06. `|F(φ)|` is at most the weighted mean of `|P|` over unflagged channels, hence at most any
bound on `|P|` in unflagged channels of positive weight. -/
theorem amplitude_bound (x : Input n m k) (l : Fin k) (p : Fin m)
    (hw : ∀ j, 0 ≤ effWeight x.weight j) :
    ‖value x l p‖ ≤
        (∑ j ∈ Finset.univ.filter (fun j => (spectrum x p j).isSome),
          effWeight x.weight j * ‖(spectrum x p j).getD 0‖) /
        weightSum (effWeight x.weight) (fun j => (spectrum x p j).isSome = true) ∧
    ∀ B : ℝ, 0 ≤ B → (∀ j z, spectrum x p j = some z → 0 < effWeight x.weight j → ‖z‖ ≤ B) →
      ‖value x l p‖ ≤ B := by
  have h1 : ‖value x l p‖ ≤
        (∑ j ∈ Finset.univ.filter (fun j => (spectrum x p j).isSome),
          effWeight x.weight j * ‖(spectrum x p j).getD 0‖) /
        weightSum (effWeight x.weight) (fun j => (spectrum x p j).isSome = true) := by
    rw [value_eq]
    unfold SynthSpec.fdf weightSum
    simp only [mul_assoc (ofReal (effWeight x.weight _))]
    refine (norm_weighted_le _ _ _ fun j _ => hw j).trans (le_of_eq ?_)
    congr 1
    apply Finset.sum_congr rfl
    intro j _
    rw [norm_mul, norm_kernel', mul_one]
  refine ⟨h1, fun B hB hb => h1.trans ?_⟩
  have hs : 0 ≤ weightSum (effWeight x.weight) (fun j => (spectrum x p j).isSome = true) :=
    Finset.sum_nonneg fun j _ => hw j
  rcases hs.eq_or_lt with h0 | h0
  · rw [← h0]; simpa using hB
  · apply weighted_mean_le _ _ _ _ (fun j _ => hw j) _ h0
    intro j hj hj0
    have : (spectrum x p j).isSome = true := by simpa using hj
    obtain ⟨z, hz⟩ := Option.isSome_iff_exists.mp this
    rw [hz]; exact hb j z hz hj0

/-! ## C07: reference wavelength -/

theorem sum_weight1_eq (x : Input n m k) :
    open Classical in
    ∑ j, weight1 x j = weightSum (effWeight x.weight)
      (fun j => ∃ p, (spectrum x p j).isSome = true) := by
  classical
  unfold weightSum
  rw [Finset.sum_filter]
  apply Finset.sum_congr rfl
  intro j _
  rw [weight1_eq, weight0_eq]
  rfl

/-- C07. When no reference is supplied the returned reference is the weighted mean of `λ²` over the
planes that are not completely flagged, and lies between any bounds for `λ²` on planes of positive
weight. -/
theorem refLamSq_mean (x : Input n m k) (hr : x.lam0 = none)
    (hs : open Classical in weightSum (effWeight x.weight)
      (fun j => ∃ p, (spectrum x p j).isSome = true) ≠ 0) :
    open Classical in
    refLamSq x = meanLamSq (effWeight x.weight) (fun j => ∃ p, (spectrum x p j).isSome = true)
      x.lamSq := by
  classical
  have hs : ∑ j, weight1 x j ≠ 0 := by
    rw [sum_weight1_eq]; exact hs
  unfold refLamSq doRmsynthPlanes lam0Sq meanLamSq weightSum
  rw [hr]
  dsimp only
  rw [if_neg hs]
  rw [Finset.sum_filter, Finset.sum_filter, mul_comm, mul_one_div]
  congr 1
  · apply Finset.sum_congr rfl
    intro j _
    rw [weight1_eq, weight0_eq]
    have : ∀ p, pixPol x p j = spectrum x p j := fun p => rfl
    simp only [this]
    split_ifs <;> simp
  · apply Finset.sum_congr rfl
    intro j _
    rw [weight1_eq, weight0_eq]
    rfl

theorem refLamSq_between (x : Input n m k) (hr : x.lam0 = none)
    (hw : ∀ j, 0 ≤ effWeight x.weight j)
    (hpos : ∃ j p, 0 < effWeight x.weight j ∧ (spectrum x p j).isSome = true) (lo hi : ℝ)
    (hlo : ∀ j, 0 < effWeight x.weight j → lo ≤ x.lamSq j)
    (hhi : ∀ j, 0 < effWeight x.weight j → x.lamSq j ≤ hi) :
    lo ≤ refLamSq x ∧ refLamSq x ≤ hi := by
  classical
  have hsum : 0 < ∑ j ∈ Finset.univ.filter (fun j => ∃ p, (spectrum x p j).isSome = true),
      effWeight x.weight j := by
    obtain ⟨j, p, hj, hp⟩ := hpos
    apply Finset.sum_pos' (fun i _ => hw i)
    exact ⟨j, by simpa using ⟨p, hp⟩, hj⟩
  have hw1 : weightSum (effWeight x.weight)
      (fun j => ∃ p, (spectrum x p j).isSome = true) ≠ 0 := by
    unfold weightSum; convert hsum.ne'
  have := refLamSq_mean x hr hw1
  have e : refLamSq x = (∑ j ∈ Finset.univ.filter (fun j => ∃ p, (spectrum x p j).isSome = true),
      effWeight x.weight j * x.lamSq j) /
      ∑ j ∈ Finset.univ.filter (fun j => ∃ p, (spectrum x p j).isSome = true),
      effWeight x.weight j := by
    rw [this]; unfold meanLamSq weightSum; congr!
  rw [e]
  exact ⟨le_weighted_mean _ _ _ _ (fun j _ => hw j) (fun j _ h => hlo j h) hsum,
    weighted_mean_le _ _ _ _ (fun j _ => hw j) (fun j _ h => hhi j h) hsum⟩

/-- Error branch of C07: with zero total weight the reference is reported as zero. -/
theorem refLamSq_no_weight (x : Input n m k) (hr : x.lam0 = none)
    (h : ∀ j, effWeight x.weight j = 0 ∨ ∀ p, spectrum x p j = none) : refLamSq x = 0 := by
  unfold refLamSq doRmsynthPlanes lam0Sq
  rw [hr]
  dsimp only
  rw [if_pos]
  apply Finset.sum_eq_zero
  intro j _
  rw [weight1_eq, weight0_eq]
  rcases h j with h | h
  · rw [h]; simp
  · rw [if_neg]
    rintro ⟨p, hp⟩
    have : pixPol x p j = none := h p
    rw [this] at hp; simp at hp

/-! ## C08: change of reference -/

/-- C08. Using reference `b` instead of `a` multiplies the value at depth `φ_l` by
`exp(2iφ_l(b-a))` (symmetric grids); the modulus does not change (any grid). -/
theorem change_reference (x : Input n m k) (a b : ℝ) (l : Fin k) (p : Fin m) :
    (SymGrid x.phi → value { x with lam0 := some b } l p =
      exp (2 * I * x.phi l * (b - a)) * value { x with lam0 := some a } l p) ∧
    ‖value { x with lam0 := some b } l p‖ = ‖value { x with lam0 := some a } l p‖ := by
  have key : value { x with lam0 := some b } l p =
      exp (2 * I * ((-(x.phi (Fin.rev l)) : ℝ) : ℂ) * (b - a)) *
        value { x with lam0 := some a } l p := by
    rw [value_eq, value_eq]
    exact fdf_reference (effWeight x.weight) (spectrum x p) x.lamSq a b (-(x.phi (Fin.rev l)))
  constructor
  · intro hs
    rw [key, hs l, neg_neg]
  · rw [key, norm_mul]
    have : 2 * I * ((-(x.phi (Fin.rev l)) : ℝ) : ℂ) * ((b : ℂ) - a) =
        ((2 * (-(x.phi (Fin.rev l))) * (b - a) : ℝ) : ℂ) * I := by push_cast; ring
    rw [this, norm_exp_ofReal_mul_I, one_mul]

/-! ## C09: thin source -/

/-- C09. For a Faraday-thin source (any flags), on a symmetric grid: the spectrum is the source's
polarisation at the reference wavelength times the RMSF at `φ - φ0`; its modulus is at most `|p|`,
and equals `|p|` at the source's own depth. -/
theorem thin_source (x : Input n m k) (hsym : SymGrid x.phi) (q : Fin m) (p psi phi0 : ℝ)
    (hw : ∀ j, 0 ≤ effWeight x.weight j)
    (hP : ∀ j, (spectrum x q j).isSome → spectrum x q j = some (thin p psi phi0 (x.lamSq j)))
    (hs : weightSum (effWeight x.weight) (fun j => (spectrum x q j).isSome = true) ≠ 0)
    (l : Fin k) :
    value x l q = thin p psi phi0 (refLamSq x) *
      SynthSpec.rmsf (effWeight x.weight) (fun j => (spectrum x q j).isSome = true) x.lamSq
        (refLamSq x) (x.phi l - phi0) ∧
    ‖value x l q‖ ≤ |p| ∧ (x.phi l = phi0 → value x l q = thin p psi phi0 (refLamSq x)
      ∧ ‖value x l q‖ = |p|) := by
  have h1 : value x l q = thin p psi phi0 (refLamSq x) *
      SynthSpec.rmsf (effWeight x.weight) (fun j => (spectrum x q j).isSome = true) x.lamSq
        (refLamSq x) (x.phi l - phi0) := by
    rw [value_sym x hsym]
    exact fdf_thin _ _ _ _ _ _ _ _ hP
  refine ⟨h1, ?_, ?_⟩
  · rw [h1, norm_mul, norm_thin]
    have := norm_rmsf_le (effWeight x.weight) (fun j => (spectrum x q j).isSome = true) x.lamSq
      (refLamSq x) (x.phi l - phi0) (fun j _ => hw j)
    nlinarith [abs_nonneg p]
  · intro h
    have h2 : value x l q = thin p psi phi0 (refLamSq x) := by
      rw [h1, h, sub_self, rmsf_zero _ _ _ _ hs, mul_one]
    exact ⟨h2, by rw [h2, norm_thin]⟩

/-- Instance of the hypotheses of `thin_source`: two channels, three depths, depth 1. -/
example : ∃ x : Input 2 1 3, SymGrid x.phi ∧ (∀ j, 0 ≤ effWeight x.weight j) ∧
    (∀ j, (spectrum x 0 j).isSome → spectrum x 0 j = some (thin 1 0 1 (x.lamSq j))) ∧
    weightSum (effWeight x.weight) (fun j => (spectrum x 0 j).isSome = true) ≠ 0 := by
  refine ⟨{ dataQ := fun j _ => some (thin 1 0 1 ((j : ℝ))).re,
            dataU := fun j _ => some (thin 1 0 1 ((j : ℝ))).im,
            lamSq := fun j => (j : ℝ), phi := ![-1, 0, 1], weight := none, lam0 := none },
    ?_, ?_, ?_, ?_⟩
  · intro l; fin_cases l <;> simp [Fin.rev]
  · intro j; simp [effWeight]
  · intro j _; simp [spectrum, pol]
  · simp [weightSum, effWeight, spectrum, pol]

/-! ## C11: pixels of a cube -/

/-- The input holding only pixel `p` of a cube. -/
def onePixel (x : Input n m k) (p : Fin m) : Input n 1 k where
  dataQ := fun j _ => x.dataQ j p
  dataU := fun j _ => x.dataU j p
  lamSq := x.lamSq
  phi := x.phi
  weight := x.weight
  lam0 := x.lam0

/-- C11. With a supplied reference, the spectrum of a pixel of a cube is exactly what RM synthesis
of that pixel alone gives (also for cubes with completely flagged planes). -/
theorem pixel_independent (x : Input n m k) (L : ℝ) (h : x.lam0 = some L) (p : Fin m) (l : Fin k) :
    (doRmsynthPlanes x).1 l p = (doRmsynthPlanes (onePixel x p)).1 l 0 := by
  have hl0 : ∀ {m' : ℕ} (y : Input n m' k), y.lam0 = some L → lam0Sq y = L := by
    intro m' y hy; unfold lam0Sq; rw [hy]
  have hraw : ∀ l, fdfRaw x l p = fdfRaw (onePixel x p) l 0 := by
    intro l
    rw [fdfRaw_eq, fdfRaw_eq, hl0 x h, hl0 (onePixel x p) h, weight0_eq', weight0_eq']
    rfl
  unfold doRmsynthPlanes fdf
  simp only [hraw]

/-- C11, without a supplied reference: the cube's reference may differ from the pixel's own, and
the two spectra differ exactly by the phase of that change of reference. -/
theorem pixel_independent_phase (x : Input n m k) (p : Fin m) (l : Fin k) (hs : SymGrid x.phi) :
    value x l p = exp (2 * I * x.phi l * (refLamSq x - refLamSq (onePixel x p))) *
      value (onePixel x p) l 0 := by
  rw [value_sym x hs, value_sym (onePixel x p) hs]
  exact fdf_reference _ _ _ _ _ _

end Verif.Synth
