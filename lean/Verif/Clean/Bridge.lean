import Verif.Clean.Props
import Verif.Rmsf.Props
import Verif.StokesI.Model
import Mathlib.Analysis.Real.Pi.Bounds

/-!
# CLEAN with the RMSF of `get_rmsf_planes`, and the Q/U model of the components (C22, C25, C35)
-/

open Complex

set_option linter.unusedSectionVars false

namespace Verif.Clean

open Verif.NumPy Verif.SynthSpec

variable {N n m : ℕ} [NeZero N] [NeZero (Axis.nPhi2 N)]

/-! ## The RMSF peaks at zero only -/

theorem re_kernel (t a b : ℝ) : (exp (-2 * I * t * (a - b))).re = Real.cos (2 * (t * (a - b))) := by
  have : -2 * I * (t : ℂ) * ((a : ℂ) - b) = ((-(2 * (t * (a - b))) : ℝ) : ℂ) * I := by
    push_cast; ring
  rw [this, Complex.exp_ofReal_mul_I_re, Real.cos_neg]

theorem rmsf_re (w : Fin n → ℝ) (good : Fin n → Prop) [DecidablePred good] (lamSq : Fin n → ℝ)
    (L t : ℝ) : (SynthSpec.rmsf w good lamSq L t).re =
      (∑ j ∈ Finset.univ.filter good, w j * Real.cos (2 * (t * (lamSq j - L)))) /
        weightSum w good := by
  unfold SynthSpec.rmsf
  rw [Complex.div_ofReal_re, Complex.re_sum]
  congr 1
  apply Finset.sum_congr rfl
  intro j _
  rw [Complex.re_ofReal_mul, re_kernel]

/-- Away from depth zero the real part of the RMSF is below one, as long as some two channels with
weight are close enough in `λ²` for the depth to be unambiguous. -/
theorem rmsf_re_lt (w : Fin n → ℝ) (good : Fin n → Prop) [DecidablePred good] (lamSq : Fin n → ℝ)
    (L t : ℝ) (hw : ∀ j, good j → 0 ≤ w j) (j j' : Fin n) (hj : good j) (hj' : good j')
    (hwj : 0 < w j) (hwj' : 0 < w j') (ht : t ≠ 0) (hne : lamSq j ≠ lamSq j')
    (hpi : |t| * |lamSq j - lamSq j'| < Real.pi) :
    (SynthSpec.rmsf w good lamSq L t).re < 1 := by
  rw [rmsf_re]
  have hmem : j ∈ Finset.univ.filter good := by simp [hj]
  have hmem' : j' ∈ Finset.univ.filter good := by simp [hj']
  have hW : 0 < weightSum w good := by
    unfold weightSum
    exact Finset.sum_pos' (fun i hi => hw i (by simpa using hi)) ⟨j, hmem, hwj⟩
  rw [div_lt_one hW]
  unfold weightSum
  have hle : ∀ i ∈ Finset.univ.filter good, w i * Real.cos (2 * (t * (lamSq i - L))) ≤ w i := by
    intro i hi
    have := hw i (by simpa using hi)
    nlinarith [Real.cos_le_one (2 * (t * (lamSq i - L)))]
  by_contra hcon
  rw [not_lt] at hcon
  have hsum := le_antisymm (Finset.sum_le_sum hle) hcon
  have hall := (Finset.sum_eq_sum_iff_of_le hle).mp hsum
  have key : ∀ i, good i → 0 < w i → ∃ a : ℤ, t * (lamSq i - L) = a * Real.pi := by
    intro i hi hwi
    have h1 := hall i (by simp [hi])
    have h2 : Real.cos (2 * (t * (lamSq i - L))) = 1 := by
      have : w i * (Real.cos (2 * (t * (lamSq i - L))) - 1) = 0 := by linarith
      rcases mul_eq_zero.mp this with h | h <;> linarith
    obtain ⟨a, ha⟩ := (Real.cos_eq_one_iff _).mp h2
    exact ⟨a, by linarith⟩
  obtain ⟨a, ha⟩ := key j hj hwj
  obtain ⟨b, hb⟩ := key j' hj' hwj'
  have hab : t * (lamSq j - lamSq j') = ((a - b : ℤ) : ℝ) * Real.pi := by push_cast; linarith
  have habs : |t| * |lamSq j - lamSq j'| = |((a - b : ℤ) : ℝ)| * Real.pi := by
    rw [← abs_mul, hab, abs_mul, abs_of_pos Real.pi_pos]
  rw [habs] at hpi
  have h1 : |((a - b : ℤ) : ℝ)| < 1 := by
    by_contra h
    rw [not_lt] at h
    nlinarith [Real.pi_pos]
  have h2 : a - b = 0 := by
    have : |a - b| < 1 := by exact_mod_cast h1
    rwa [Int.abs_lt_one_iff] at this
  rw [h2] at hab
  simp at hab
  rcases hab with h | h
  · exact ht h
  · exact hne (by linarith)

/-! ## C22, C25 -/

/-- The setting of the following theorems: a zero-centred axis of `2c+1` samples of spacing `d`, the
RMSF cube on its doubled axis, pixel `p` with non-negative weights, and two channels with weight
near enough in `λ²`: the doubled axis reaches depth `N d`. -/
structure Setting (x : Rmsf.Input n m (Axis.nPhi2 N)) (phi : Fin N → ℝ) (p : Fin m) (L : ℝ)
    (P : Params N (Axis.nPhi2 N)) : Prop where
  axis : ∃ (c : ℕ) (d : ℝ), N = 2 * c + 1 ∧ 1 ≤ c ∧ d ≠ 0 ∧ (∀ i, phi i = ((i : ℝ) - c) * d) ∧
    ∃ j j', x.msk j p = false ∧ x.msk j' p = false ∧ 0 < effWeight x.weight j ∧
      0 < effWeight x.weight j' ∧ x.lamSq j ≠ x.lamSq j' ∧
      (N : ℝ) * |d| * |x.lamSq j - x.lamSq j'| < Real.pi
  doubled : Axis.phi2 phi = some x.phi2
  reference : Rmsf.lam0Sq x = some L
  weights : ∀ j, 0 ≤ effWeight x.weight j
  rmsf : ∀ l, Rmsf.rmsf x l p = some (P.rmsf l)

/-- C25. What CLEAN subtracts for a component at sample `k` is the RMSF of the channel set (the
defining sum) at the exact difference of the Faraday depths. -/
theorem shifted_is_defining_sum (x : Rmsf.Input n m (Axis.nPhi2 N)) (phi : Fin N → ℝ) (p : Fin m)
    (L : ℝ) (P : Params N (Axis.nPhi2 N)) (hS : Setting x phi p L P) (k i : Fin N) :
    shifted P k i = SynthSpec.rmsf (effWeight x.weight) (fun j => x.msk j p = false) x.lamSq L
      (phi i - phi k) := by
  obtain ⟨c, d, hN, hc, hd, hphi, j, j', hj, hj', hwj, hwj', hne, hpi⟩ := hS.axis
  have hsymphi : SymGrid phi := by
    intro l
    rw [hphi, hphi]
    have : ((Fin.rev l : Fin N) : ℕ) = N - 1 - l := by simp [Fin.rev]; omega
    have hNc : (N : ℝ) = 2 * c + 1 := by rw [hN]; push_cast; ring
    rw [this, Nat.cast_sub (by omega), Nat.cast_sub (by omega), hNc]
    push_cast; ring
  have hsym : SymGrid x.phi2 := by
    obtain ⟨g, hg, -, -, -, -, hs⟩ := Axis.phi2_spec (by omega : 2 ≤ N) phi
    have : g = x.phi2 := by rw [hS.doubled] at hg; exact (Option.some.inj hg).symm
    rw [← this]; exact hs hsymphi
  have hw : Rmsf.pixelWeight x p ≠ 0 := by
    unfold Rmsf.pixelWeight weightSum
    exact (Finset.sum_pos' (fun i _ => hS.weights i) ⟨j, by simp [hj], hwj⟩).ne'
  have hR : ∀ l, P.rmsf l = SynthSpec.rmsf (effWeight x.weight) (fun j => x.msk j p = false)
      x.lamSq L (x.phi2 l) := by
    intro l
    have h1 := hS.rmsf l
    rw [Rmsf.rmsf_sym x hsym L hS.reference l p hw] at h1
    exact (Option.some.inj h1).symm
  have hbound : ∀ l, |x.phi2 l| ≤ (N : ℝ) * |d| := by
    intro l
    obtain ⟨g, hg, hsz, -, -, hlin, -⟩ := Axis.phi2_spec (by omega : 2 ≤ N) phi
    have hgx : g = x.phi2 := by rw [hS.doubled] at hg; exact (Option.some.inj hg).symm
    have := hlin (-(c : ℝ) * d) d (by intro i; rw [hphi]; ring) l
    rw [← hgx, this]
    have hl := l.isLt
    have e : (N + 1) / 2 = c + 1 := by omega
    rw [e] at hsz ⊢
    have : -(c : ℝ) * d + ((l : ℝ) - ((c + 1 : ℕ) : ℝ)) * d = ((l : ℝ) - N) * d := by
      have hNc : (N : ℝ) = 2 * c + 1 := by rw [hN]; push_cast; ring
      rw [hNc]; push_cast; ring
    rw [this, abs_mul]
    apply mul_le_mul_of_nonneg_right _ (abs_nonneg d)
    rw [abs_le]
    have h2 : ((l : ℕ) : ℝ) ≤ 2 * N := by
      have : (l : ℕ) ≤ 2 * N := by omega
      exact_mod_cast this
    constructor
    · have : (0 : ℝ) ≤ ((l : ℕ) : ℝ) := Nat.cast_nonneg _
      linarith
    · linarith
  refine shifted_is_rmsf c d hN hc hd phi hphi P rfl x.phi2 hS.doubled
    (SynthSpec.rmsf (effWeight x.weight) (fun j => x.msk j p = false) x.lamSq L) hR ?_ k i
  intro l hl
  have h0 : SynthSpec.rmsf (effWeight x.weight) (fun j => x.msk j p = false) x.lamSq L 0 = 1 :=
    rmsf_zero _ _ _ _ hw
  rw [h0, Complex.one_re]
  refine rmsf_re_lt _ _ _ _ _ (fun i _ => hS.weights i) j j' hj hj' hwj hwj' hl hne ?_
  exact (mul_le_mul_of_nonneg_right (hbound l) (abs_nonneg _)).trans_lt hpi

/-- C22. In this setting, the dirty spectrum is at all times the residual plus the components
convolved with the RMSF of the channel set. -/
theorem clean_conserves_rmsf (x : Rmsf.Input n m (Axis.nPhi2 N)) (phi : Fin N → ℝ) (p : Fin m)
    (L : ℝ) (P : Params N (Axis.nPhi2 N)) (hS : Setting x phi p L P) (dirty : Fin N → ℂ)
    (i : Fin N) :
    dirty i = (stage2 P dirty).resid i + ∑ k, (stage2 P dirty).cc k *
      SynthSpec.rmsf (effWeight x.weight) (fun j => x.msk j p = false) x.lamSq L
        (phi i - phi k) := by
  rw [(clean_conserves P dirty).2 i]
  congr 1
  apply Finset.sum_congr rfl
  intro k _
  rw [shifted_is_defining_sum x phi p L P hS]

/-! ## C35 -/

/-- Model of `calculate_QU_model` (`/repo/RMtools_1D/clean_model.py` 20-61), `c` the speed of light.
`none`: more than six Stokes I coefficients raise. -/
noncomputable def quModel (c : ℝ) (freq : Fin n → ℝ) (phi : Fin N → ℝ) (cc : Fin N → ℂ) (lam0 : ℝ)
    (Iparms : Option (List ℝ)) : Option (Fin n → ℂ) :=
  (StokesI.padParams (Iparms.getD [0, 0, 0, 0, 0, 1])).map fun par j =>
    ((StokesI.powerlawPoly5 par (freq j / (c / Real.sqrt lam0)) : ℝ) : ℂ) *
      ∑ k, cc k * exp (2 * I * (phi k * ((c / freq j) ^ 2 - lam0 : ℝ)))

/-- Synthesis of a sum of thin components. -/
theorem fdf_components (w : Fin n → ℝ) (S : Fin n → Option ℂ) (lamSq : Fin n → ℝ) (L t : ℝ)
    (phi : Fin N → ℝ) (cc : Fin N → ℂ)
    (hS : ∀ j, (S j).isSome → S j = some (∑ k, cc k * exp (2 * I * (phi k * (lamSq j - L : ℝ))))) :
    SynthSpec.fdf w S lamSq L t =
      ∑ k, cc k * SynthSpec.rmsf w (fun j => (S j).isSome = true) lamSq L (t - phi k) := by
  unfold SynthSpec.fdf SynthSpec.rmsf
  simp only [← mul_div_assoc]
  rw [← Finset.sum_div]
  congr 1
  simp only [Finset.mul_sum]
  rw [Finset.sum_comm]
  apply Finset.sum_congr rfl
  intro j hj
  rw [hS j (by simpa using hj)]
  simp only [Option.getD_some]
  rw [Finset.mul_sum, Finset.sum_mul]
  apply Finset.sum_congr rfl
  intro k _
  have : exp (-2 * I * ((t - phi k : ℝ) : ℂ) * (lamSq j - L)) =
      exp (2 * I * (phi k * (lamSq j - L : ℝ))) * exp (-2 * I * t * (lamSq j - L)) := by
    rw [← Complex.exp_add]
    congr 1
    push_cast; ring
  rw [this]
  ring

/-- Without Stokes I coefficients the model is the plain sum of components. -/
theorem quModel_none (c : ℝ) (hc : 0 < c) (freq : Fin n → ℝ) (hf : ∀ j, 0 < freq j)
    (phi : Fin N → ℝ) (cc : Fin N → ℂ) (lam0 : ℝ) (hl : 0 < lam0) :
    quModel c freq phi cc lam0 none =
      some fun j => ∑ k, cc k * exp (2 * I * (phi k * ((c / freq j) ^ 2 - lam0 : ℝ))) := by
  unfold quModel
  simp only [Option.getD_none]
  unfold StokesI.padParams
  simp only [List.length_cons, List.length_nil]
  norm_num
  funext j
  have hx : 0 < freq j / (c / Real.sqrt lam0) := by
    have := hf j
    have := Real.sqrt_pos.mpr hl
    positivity
  unfold StokesI.powerlawPoly5
  have := hx
  simp

/-- C35. The components found by CLEAN in a pixel, turned into a Q/U spectrum by
`calculate_QU_model` and put through RM synthesis with the same channels, flags, weights and
reference, give what CLEAN removed: dirty minus residual. -/
theorem component_model (c : ℝ) (hc : 0 < c) (freq : Fin n → ℝ) (hf : ∀ j, 0 < freq j)
    (x : Rmsf.Input n m (Axis.nPhi2 N)) (phi : Fin N → ℝ) (p : Fin m)
    (L : ℝ) (hL : 0 < L) (P : Params N (Axis.nPhi2 N)) (hS : Setting x phi p L P)
    (hlam : ∀ j, x.lamSq j = (c / freq j) ^ 2) (dirty : Fin N → ℂ)
    (qu : Fin n → ℂ) (hqu : quModel c freq phi (stage2 P dirty).cc L none = some qu)
    (z : Synth.Input n m N) (hz1 : z.lamSq = x.lamSq) (hz2 : z.weight = x.weight)
    (hz3 : z.phi = phi) (hz4 : Synth.refLamSq z = L)
    (hz5 : ∀ j, Synth.spectrum z p j = if x.msk j p then none else some (qu j)) (l : Fin N) :
    Synth.value z l p = dirty l - (stage2 P dirty).resid l := by
  have hsymphi : SymGrid z.phi := by
    obtain ⟨c, d, hN, hc, hd, hphi, -⟩ := hS.axis
    intro l
    rw [hz3, hphi, hphi]
    have : ((Fin.rev l : Fin N) : ℕ) = N - 1 - l := by simp [Fin.rev]; omega
    have hNc : (N : ℝ) = 2 * c + 1 := by rw [hN]; push_cast; ring
    rw [this, Nat.cast_sub (by omega), Nat.cast_sub (by omega), hNc]
    push_cast; ring
  rw [Synth.value_sym z hsymphi, hz4, hz1, hz2, hz3]
  rw [quModel_none c hc freq hf phi _ L hL] at hqu
  injection hqu with hqu
  have hsome : ∀ j, (Synth.spectrum z p j).isSome = true ↔ x.msk j p = false := by
    intro j; rw [hz5]; cases x.msk j p <;> simp
  rw [fdf_components (effWeight x.weight) (Synth.spectrum z p) x.lamSq L (phi l) phi
    (stage2 P dirty).cc]
  · rw [clean_conserves_rmsf x phi p L P hS dirty l, add_sub_cancel_left]
    apply Finset.sum_congr rfl
    intro k _
    congr 2
    funext j
    exact propext (hsome j)
  · intro j hj
    rw [hsome] at hj
    rw [hz5, hj, ← hqu]
    simp [hlam]

/-- The setting is not empty: two channels at `λ² = 0.1` and `0.2`, uniform weights, no flags, three
depths -1, 0, 1. -/
example : ∃ (x : Rmsf.Input 2 1 (Axis.nPhi2 3)) (P : Params 3 (Axis.nPhi2 3)),
    Setting x (fun i : Fin 3 => ((i : ℝ) - (1 : ℕ)) * 1) 0 0.15 P := by
  obtain ⟨g, hg, -, -, -, -, hs⟩ :=
    Axis.phi2_spec (by norm_num : 2 ≤ 3) (fun i : Fin 3 => ((i : ℝ) - (1 : ℕ)) * 1)
  let x : Rmsf.Input 2 1 (Axis.nPhi2 3) :=
    { lamSq := ![0.1, 0.2]
      phi2 := g
      weight := none
      msk := fun _ _ => false
      lam0 := some 0.15 }
  have hsg : SymGrid g := hs (by
    intro l
    have : ((Fin.rev l : Fin 3) : ℕ) = 2 - l := by simp [Fin.rev]
    simp only [this]
    rw [Nat.cast_sub (by omega)]
    push_cast; ring)
  have hw : Rmsf.pixelWeight x 0 ≠ 0 := by
    unfold Rmsf.pixelWeight weightSum
    simp [x, effWeight]
  let P : Params 3 (Axis.nPhi2 3) :=
    { phi := fun i : Fin 3 => ((i : ℝ) - (1 : ℕ)) * 1
      rmsf := fun l => SynthSpec.rmsf (effWeight x.weight) (fun j => x.msk j 0 = false) x.lamSq 0.15
        (x.phi2 l)
      fwhm := 1
      maxIter := 10
      gain := 1 / 10
      cutoff := 1
      window := none }
  refine ⟨x, P, ⟨⟨1, 1, by norm_num, by norm_num, by norm_num, fun i => rfl, 0, 1, rfl, rfl,
    by simp [x, effWeight], by simp [x, effWeight], by simp [x]; norm_num, ?_⟩, hg, rfl, ?_, ?_⟩⟩
  · simp only [x, Matrix.cons_val]
    norm_num [abs_of_neg]
    have := Real.pi_gt_three
    linarith
  · intro j; simp [x, effWeight]
  · intro l
    exact Rmsf.rmsf_sym x hsg 0.15 rfl l 0 hw

end Verif.Clean
