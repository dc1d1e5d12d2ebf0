import Verif.Peak.Props
import Verif.Synth.Props
import Verif.Clean.Bridge

/-! # The measured peak of a Faraday-thin source (C38), units (C77) and frame rotation (C78) -/

open Complex

namespace Verif.Peak

open Verif.NumPy Verif.SynthSpec

variable {M n m : ℕ}

/-! ## C38 -/

theorem rmsf_other_reference (w : Fin n → ℝ) (good : Fin n → Prop) [DecidablePred good]
    (lamSq : Fin n → ℝ) (L L' t : ℝ) :
    SynthSpec.rmsf w good lamSq L' t = SynthSpec.rmsf w good lamSq L t * exp (2 * I * t * (L' - L)) := by
  unfold SynthSpec.rmsf
  rw [div_mul_eq_mul_div, Finset.sum_mul]
  congr 1
  apply Finset.sum_congr rfl
  intro i _
  rw [mul_assoc (w i : ℂ), ← Complex.exp_add]
  congr 2
  ring

theorem npInterp_at_node (n : ℕ) (xp yp : ℕ → ℝ) (hx : ∀ i j, i < j → j ≤ n → xp i < xp j) {i : ℕ}
    (hi : i ≤ n) : npInterp n xp yp (xp i) = yp i := by
  classical
  unfold npInterp
  have h0 : ¬ xp i < xp 0 := by
    rw [not_lt]
    rcases Nat.eq_zero_or_pos i with rfl | h
    · exact le_rfl
    · exact (hx 0 i h hi).le
  rw [if_neg h0]
  have hj : Nat.findGreatest (fun j => xp j ≤ xp i) n = i := by
    apply le_antisymm
    · by_contra hcon
      rw [not_le] at hcon
      have h1 := Nat.findGreatest_spec (P := fun j => xp j ≤ xp i) hi le_rfl
      have h2 := hx _ _ hcon (Nat.findGreatest_le n)
      linarith
    · exact Nat.le_findGreatest hi le_rfl
  have hj' : @Nat.findGreatest (fun j => xp j ≤ xp i) (fun a => Classical.propDecidable _) n = i := by
    convert hj
  simp only [hj']
  split_ifs with h
  · rw [h]
  · ring

/-- Away from depth zero the modulus of the RMSF is below one, if some two channels with weight are
close enough in `λ²` for the depth to be unambiguous. -/
theorem norm_rmsf_lt (w : Fin n → ℝ) (good : Fin n → Prop) [DecidablePred good] (lamSq : Fin n → ℝ)
    (L t : ℝ) (hw : ∀ j, good j → 0 ≤ w j) (j j' : Fin n) (hj : good j) (hj' : good j')
    (hwj : 0 < w j) (hwj' : 0 < w j') (ht : t ≠ 0) (hne : lamSq j ≠ lamSq j')
    (hpi : |t| * |lamSq j - lamSq j'| < Real.pi) :
    ‖SynthSpec.rmsf w good lamSq L t‖ < 1 := by
  set R := SynthSpec.rmsf w good lamSq L t with hR
  set L' := L - Complex.arg R / (2 * t) with hL'
  have key := Clean.rmsf_re_lt w good lamSq L' t hw j j' hj hj' hwj hwj' ht hne hpi
  have : SynthSpec.rmsf w good lamSq L' t = (‖R‖ : ℂ) := by
    have h1 : SynthSpec.rmsf w good lamSq L' t = R * exp (-(Complex.arg R : ℂ) * I) := by
      rw [rmsf_other_reference w good lamSq L L' t, ← hR, hL']
      congr 2
      have ht' : (t : ℂ) ≠ 0 := by exact_mod_cast ht
      push_cast
      field_simp
      ring
    rw [h1]
    conv_lhs => rw [← Complex.norm_mul_exp_arg_mul_I R]
    rw [mul_assoc, ← Complex.exp_add]
    have : (Complex.arg (‖R‖ * exp (Complex.arg R * I)) : ℂ) = Complex.arg R := by
      rw [Complex.norm_mul_exp_arg_mul_I]
    rw [this]
    simp
  rw [this, Complex.ofReal_re] at key
  exact key

theorem npArgmax_unique {N : ℕ} [NeZero N] (f : Fin N → ℝ) (i : Fin N) (h : ∀ j, j ≠ i → f j < f i) :
    npArgmax f = i := by
  rw [npArgmax_eq_iff]
  refine ⟨fun j => ?_, fun j hj => h j hj.ne⟩
  by_cases hj : j = i
  · rw [hj]
  · exact (h j hj).le

/-- C38, for any spectrum with the shape of a thin source: `F(φ_i) = Z R(φ_i - φ_k)` with the RMSF
`R`, at a uniform axis, for an interior sample `k`: the measured depth is exactly `φ_k`, the amplitude
exactly `|Z|`, and the complex peak value `Z`. -/
theorem measure_thin (F : Fin (M + 3) → ℂ) (phi : Fin (M + 3) → ℝ) (fwhm a d : ℝ)
    (dFDF : Option ℝ) (lamSq' : Fin n → ℝ) (lam0 thr : ℝ) (hd : 0 < d)
    (hphi : ∀ i, phi i = a + (i : ℕ) * d) (k : Fin (M + 1)) (Z : ℂ) (hZ : Z ≠ 0) (R : ℝ → ℂ)
    (hF : ∀ i, F i = Z * R (phi i - phi (centre k))) (hR0 : R 0 = 1)
    (hherm : ∀ t, ‖R (-t)‖ = ‖R t‖) (hlt : ∀ i, i ≠ centre k → ‖R (phi i - phi (centre k))‖ < 1) :
    let r := measure F phi fwhm dFDF lamSq' lam0 thr
    r.phi = some (phi (centre k)) ∧ r.amp = some ‖Z‖ ∧ r.re = some Z.re ∧ r.im = some Z.im := by
  have hFk : F (centre k) = Z := by rw [hF, sub_self, hR0, mul_one]
  have hZ' : 0 < ‖Z‖ := norm_pos_iff.mpr hZ
  have hlt' : ∀ i, i ≠ centre k → ‖F i‖ < ‖Z‖ := by
    intro i hi
    rw [hF, norm_mul]
    calc ‖Z‖ * ‖R (phi i - phi (centre k))‖ < ‖Z‖ * 1 := mul_lt_mul_of_pos_left (hlt i hi) hZ'
      _ = ‖Z‖ := mul_one _
  have hcinj : ∀ j : Fin (M + 1), j ≠ k → centre j ≠ centre k := by
    intro j hj h
    apply hj
    have := congrArg Fin.val h
    rw [val_centre, val_centre] at this
    exact Fin.ext (by omega)
  have hk : interiorPeak F = k := by
    apply npArgmax_unique
    intro j hj
    show ‖F (centre j)‖ < ‖F (centre k)‖
    rw [hFk]
    exact hlt' _ (hcinj j hj)
  have e1 : phi (before k) = phi (centre k) - d := by
    rw [hphi, hphi, val_before, val_centre]; push_cast; ring
  have e2 : phi (after k) = phi (centre k) + d := by
    rw [hphi, hphi, val_after, val_centre]; push_cast; ring
  have hbne : before k ≠ centre k := by
    intro h
    have := congrArg Fin.val h
    rw [val_before, val_centre] at this
    omega
  have hsym : ‖F (before k)‖ = ‖F (after k)‖ := by
    rw [hF, hF, norm_mul, norm_mul, e1, e2]
    rw [show phi (centre k) - d - phi (centre k) = -d by ring,
      show phi (centre k) + d - phi (centre k) = d by ring, hherm]
  have hb := hlt' _ hbne
  have hv : vertex (phi (before k)) ‖F (before k)‖ (phi (centre k)) ‖F (centre k)‖ (phi (after k))
      ‖F (after k)‖ = some (phi (centre k), ‖Z‖) := by
    rw [e1, e2, ← hsym, hFk, vertex_equal _ _ _ _ _ hd.ne' hZ'.ne' (by linarith)]
    simp
  have hin : ¬ maxAbs phi < |phi (centre k)| := not_lt.mpr (le_npMax (fun i => |phi i|) (centre k))
  have hnode : ∀ f : Fin (M + 3) → ℝ, npInterp (M + 2) (at0 phi) (at0 f) (phi (centre k)) = f (centre k) := by
    intro f
    have h1 : phi (centre k) = at0 phi (centre k) := by rw [at0_of_lt phi (centre k).isLt]
    rw [h1, npInterp_at_node (M + 2) (at0 phi) (at0 f) ?_ (by have := (centre k).isLt; omega),
      at0_of_lt f (centre k).isLt]
    intro i j hij hj
    rw [at0_of_lt phi (by omega), at0_of_lt phi (by omega), hphi, hphi]
    have : ((i : ℕ) : ℝ) < ((j : ℕ) : ℝ) := by exact_mod_cast hij
    simp only []
    nlinarith
  refine ⟨?_, ?_, ?_, ?_⟩
  · simp only [measure]; rw [hk, hv]; simp [hin]
  · simp only [measure]; rw [hk, hv]; simp [hin]
  · simp only [measure]; rw [hk, hv]; simp [hin, hnode, hFk]
  · simp only [measure]; rw [hk, hv]; simp [hin, hnode, hFk]


/-- C38. A Faraday-thin source of amplitude `p > 0`, intrinsic angle `psi` (radians) and depth equal
to an interior sample `k` of the axis, measured from the spectrum computed by RM synthesis, with any
flags, non-negative weights and any reference wavelength: the reported depth is the depth of the
source, the amplitude is `p`, and the derotated angle is the intrinsic angle in `[0°, 180°)`, provided
that two channels with weight are close enough in `λ²` that the axis is unambiguous. -/
theorem thin_source_measured (x : Synth.Input n m (M + 3)) (q : Fin m) (p psi a d : ℝ) (k : Fin (M + 1))
    (fwhm : ℝ) (dFDF : Option ℝ) (thr : ℝ) (hp : 0 < p) (hd : 0 < d)
    (hphi : ∀ i, x.phi i = a + (i : ℕ) * d) (hsym : SymGrid x.phi)
    (hw : ∀ j, 0 ≤ effWeight x.weight j)
    (hP : ∀ j, (Synth.spectrum x q j).isSome →
      Synth.spectrum x q j = some (thin p psi (x.phi (centre k)) (x.lamSq j)))
    (j j' : Fin n) (hj : (Synth.spectrum x q j).isSome) (hj' : (Synth.spectrum x q j').isSome)
    (hwj : 0 < effWeight x.weight j) (hwj' : 0 < effWeight x.weight j')
    (hne : x.lamSq j ≠ x.lamSq j')
    (hpi : ((M + 2 : ℕ) : ℝ) * d * |x.lamSq j - x.lamSq j'| < Real.pi) :
    ∃ F : Fin (M + 3) → ℂ, (∀ l, (Synth.doRmsynthPlanes x).1 l q = some (F l)) ∧
      let r := measure F x.phi fwhm dFDF x.lamSq (Synth.doRmsynthPlanes x).2 thr
      r.phi = some (x.phi (centre k)) ∧ r.amp = some p ∧
        ∃ ang, r.polAngle0 = some ang ∧ IsPolAngle ang (exp (2 * I * psi)) := by
  set L := Synth.refLamSq x with hL
  set w := effWeight x.weight
  let good : Fin n → Prop := fun j => (Synth.spectrum x q j).isSome = true
  have hW : weightSum w good ≠ 0 := by
    unfold weightSum
    exact (Finset.sum_pos' (fun i _ => hw i) ⟨j, by simp [good, hj], hwj⟩).ne'
  set Z := thin p psi (x.phi (centre k)) L with hZdef
  have hnZ : ‖Z‖ = p := by rw [hZdef, norm_thin, abs_of_pos hp]
  have hZ : Z ≠ 0 := by intro h; rw [h, norm_zero] at hnZ; exact hp.ne hnZ
  let R : ℝ → ℂ := SynthSpec.rmsf w good x.lamSq L
  have hval : ∀ l, Synth.value x l q = Z * R (x.phi l - x.phi (centre k)) := fun l =>
    (Synth.thin_source x hsym q p psi _ hw hP hW l).1
  have hR0 : R 0 = 1 := rmsf_zero w good x.lamSq L hW
  have hherm : ∀ t, ‖R (-t)‖ = ‖R t‖ := by
    intro t
    have := rmsf_conj w good x.lamSq L t
    simp only [R]
    rw [this]
    exact RCLike.norm_conj _
  have hlt : ∀ i, i ≠ centre k → ‖R (x.phi i - x.phi (centre k))‖ < 1 := by
    intro i hi
    have hsub : x.phi i - x.phi (centre k) = (((i : ℕ) : ℝ) - ((centre k : ℕ) : ℝ)) * d := by
      rw [hphi, hphi]; ring
    have hne0 : ((i : ℕ) : ℝ) - ((centre k : ℕ) : ℝ) ≠ 0 := by
      intro h
      apply hi
      have : ((i : ℕ) : ℝ) = ((centre k : ℕ) : ℝ) := by linarith
      exact Fin.ext (by exact_mod_cast this)
    refine norm_rmsf_lt w good x.lamSq L _ (fun j _ => hw j) j j' hj hj' hwj hwj' ?_ hne ?_
    · rw [hsub]; exact mul_ne_zero hne0 hd.ne'
    · refine lt_of_le_of_lt ?_ hpi
      apply mul_le_mul_of_nonneg_right _ (abs_nonneg _)
      rw [hsub, abs_mul, abs_of_pos hd]
      apply mul_le_mul_of_nonneg_right _ hd.le
      have h1 : ((i : ℕ) : ℝ) ≤ ((M + 2 : ℕ) : ℝ) := by exact_mod_cast (by omega : (i : ℕ) ≤ M + 2)
      have h2 : ((centre k : ℕ) : ℝ) ≤ ((M + 2 : ℕ) : ℝ) := by
        exact_mod_cast (by have := (centre k).isLt; omega : (centre k : ℕ) ≤ M + 2)
      have h3 : (0 : ℝ) ≤ ((i : ℕ) : ℝ) := Nat.cast_nonneg _
      have h4 : (0 : ℝ) ≤ ((centre k : ℕ) : ℝ) := Nat.cast_nonneg _
      rw [abs_le]
      constructor <;> linarith
  have hsome : ∀ l, (Synth.doRmsynthPlanes x).1 l q = some (Synth.value x l q) := by
    apply (Synth.fdf_blank_iff x q).2
    refine ⟨centre k, ?_⟩
    rw [hval, sub_self, hR0, mul_one]
    exact hZ
  refine ⟨fun l => Synth.value x l q, hsome, ?_⟩
  obtain ⟨h1, h2, h3, h4⟩ := measure_thin (fun l => Synth.value x l q) x.phi fwhm a d dFDF x.lamSq
    (Synth.doRmsynthPlanes x).2 thr hd hphi k Z hZ R hval hR0 hherm hlt
  refine ⟨h1, by rw [h2, hnZ], ?_⟩
  rcases angles (fun l => Synth.value x l q) x.phi fwhm dFDF x.lamSq (Synth.doRmsynthPlanes x).2 thr with
    ⟨h5, -⟩ | ⟨x', re, im, b, b0, e1, e2, e3, e4, e5, -, e7⟩
  · rw [h1] at h5; simp at h5
  · refine ⟨b0, e5, ?_⟩
    rw [h1] at e1
    rw [h3] at e2
    rw [h4] at e3
    injection e1 with e1
    injection e2 with e2
    injection e3 with e3
    have hz : (⟨re, im⟩ : ℂ) = Z := by rw [← e2, ← e3]
    rw [hz, ← e1] at e7
    obtain ⟨g1, g2, g3⟩ := e7
    have hZe : Z * exp (-2 * I * ((x.phi (centre k) * (Synth.doRmsynthPlanes x).2 : ℝ) : ℂ)) =
        p * exp (2 * I * psi) := by
      have : (Synth.doRmsynthPlanes x).2 = L := rfl
      rw [this, hZdef]
      unfold thin
      rw [mul_assoc, ← Complex.exp_add]
      congr 2
      push_cast; ring
    rw [hZe] at g3
    have hn1 : ‖exp (2 * I * (psi : ℂ))‖ = 1 := by
      rw [show 2 * I * (psi : ℂ) = ((2 * psi : ℝ) : ℂ) * I by push_cast; ring]
      exact norm_exp_ofReal_mul_I _
    rw [norm_mul, hn1, mul_one, Complex.norm_real, Real.norm_of_nonneg hp.le] at g3
    refine ⟨g1, g2, ?_⟩
    rw [hn1]
    have hp' : (p : ℂ) ≠ 0 := by exact_mod_cast hp.ne'
    rw [mul_left_cancel₀ hp' g3]
    simp

/-- Instance of the hypotheses of `thin_source_measured`: two channels at `λ² = 0, 1`, three depths
-1, 0, 1, source at depth 0. -/
example : ∃ x : Synth.Input 2 1 (0 + 3), (∀ i, x.phi i = -1 + (i : ℕ) * 1) ∧ SymGrid x.phi ∧
    (∀ j, 0 ≤ effWeight x.weight j) ∧
    (∀ j, Synth.spectrum x 0 j = some (thin 1 0 (x.phi (centre 0)) (x.lamSq j))) ∧
    x.lamSq 0 ≠ x.lamSq 1 ∧ ((0 + 2 : ℕ) : ℝ) * 1 * |x.lamSq 0 - x.lamSq 1| < Real.pi := by
  refine ⟨{ dataQ := fun j _ => some (thin 1 0 0 ((j : ℝ))).re,
            dataU := fun j _ => some (thin 1 0 0 ((j : ℝ))).im,
            lamSq := fun j => (j : ℝ), phi := fun i => -1 + ((i : ℕ) : ℝ) * 1, weight := none,
            lam0 := none }, fun i => rfl, ?_, ?_, ?_, ?_, ?_⟩
  · intro l; fin_cases l <;> norm_num [Fin.rev]
  · intro j; simp [effWeight]
  · intro j; simp [Synth.spectrum, pol, centre]
  · simp
  · norm_num; linarith [Real.pi_gt_three]

/-! ## C77: units -/

theorem vertex_scale (c x1 y1 x2 y2 x3 y3 : ℝ) (hc : c ≠ 0) :
    vertex x1 (c * y1) x2 (c * y2) x3 (c * y3) =
      (vertex x1 y1 x2 y2 x3 y3).map fun r => (r.1, c * r.2) := by
  unfold vertex
  simp only [mul_div_mul_left _ _ hc, mul_eq_zero, hc, false_or]
  split_ifs with h
  · rfl
  · simp only [Option.map_some]
    congr 2
    ring

theorem npArgmax_scale {N : ℕ} [NeZero N] (f : Fin N → ℝ) (c : ℝ) (hc : 0 < c) :
    npArgmax (fun i => c * f i) = npArgmax f := by
  rw [npArgmax_eq_iff]
  exact ⟨fun j => mul_le_mul_of_nonneg_left (le_npArgmax f j) hc.le,
    fun j hj => mul_lt_mul_of_pos_left (npArgmax_first f j hj) hc⟩

theorem interiorPeak_norm (F G : Fin (M + 3) → ℂ) (c : ℝ) (hc : 0 < c) (h : ∀ i, ‖G i‖ = c * ‖F i‖) :
    interiorPeak G = interiorPeak F := by
  unfold interiorPeak
  simp only [h]
  exact npArgmax_scale _ c hc

theorem mad_reIm_scale (l : List ℂ) (c : ℝ) (hc : 0 < c) :
    Stats.mad (reIm (l.map fun z => (c : ℂ) * z)) = (Stats.mad (reIm l)).map fun v => c * v := by
  have : reIm (l.map fun z => (c : ℂ) * z) = (reIm l).map (Option.map fun x => c * x + 0) := by
    unfold reIm
    simp [List.map_map, Function.comp_def]
  rw [this, Stats.mad_affine, abs_of_pos hc]

theorem noiseMAD_scale (F : Fin (M + 3) → ℂ) (phi : Fin (M + 3) → ℝ) (fwhm c : ℝ) (hc : 0 < c) :
    noiseMAD (fun i => (c : ℂ) * F i) phi fwhm = (noiseMAD F phi fwhm).map fun v => c * v := by
  have hk : peakIdx (fun i => (c : ℂ) * F i) = peakIdx F := by
    unfold peakIdx
    rw [interiorPeak_norm F _ c hc]
    intro i
    rw [norm_mul, Complex.norm_real, Real.norm_of_nonneg hc.le]
  unfold noiseMAD
  rw [hk]
  dsimp only
  rw [List.length_map, List.length_map]
  split_ifs
  · rw [← mad_reIm_scale _ c hc, List.map_ofFn]; rfl
  · rw [← mad_reIm_scale _ c hc, List.map_map]; rfl

theorem npInterp_scale (n : ℕ) (xp yp : ℕ → ℝ) (c x : ℝ) :
    npInterp n xp (fun i => c * yp i) x = c * npInterp n xp yp x := by
  unfold npInterp
  split_ifs
  · rfl
  · dsimp only
    split_ifs
    · rfl
    · ring

theorem at0_scale {N : ℕ} (f : Fin N → ℝ) (c : ℝ) : at0 (fun i => c * f i) = fun i => c * at0 f i := by
  funext i
  unfold at0
  split_ifs <;> simp

theorem arctan2_scale (y x c : ℝ) (hc : 0 < c) : arctan2 (c * y) (c * x) = arctan2 y x := by
  unfold arctan2
  rw [show (⟨c * x, c * y⟩ : ℂ) = (c : ℂ) * ⟨x, y⟩ by apply Complex.ext <;> simp]
  exact Complex.arg_real_mul _ hc

theorem fdiv_scale (a b c : ℝ) (hc : c ≠ 0) : fdiv (c * a) (c * b) = fdiv a b := by
  unfold fdiv
  simp [hc, mul_div_mul_left]

theorem fsqrt_scale (a c : ℝ) (hc : 0 < c) : fsqrt (c ^ 2 * a) = (fsqrt a).map fun v => c * v := by
  unfold fsqrt
  have h : c ^ 2 * a < 0 ↔ a < 0 := by
    constructor
    · intro h
      by_contra h'
      rw [not_lt] at h'
      have : 0 ≤ c ^ 2 * a := by positivity
      linarith
    · intro h
      exact mul_neg_of_pos_of_neg (by positivity) h
  simp only [h]
  split_ifs
  · rfl
  · simp [Real.sqrt_mul (sq_nonneg c), Real.sqrt_sq hc.le]

theorem snrReaches_scale (a d t c : ℝ) (hc : 0 < c) : snrReaches (c * a) (c * d) t ↔ snrReaches a d t := by
  unfold snrReaches
  have h1 : c * d = 0 ↔ d = 0 := by simp [hc.ne']
  simp only [h1]
  split_ifs
  · constructor
    · intro h; exact pos_of_mul_pos_right h hc.le
    · intro h; positivity
  · rw [mul_div_mul_left _ _ hc.ne']

theorem dAngle0_scale (lamSq : Fin n → ℝ) (d a lam0 c : ℝ) (hc : 0 < c) :
    dAngle0 lamSq (c * d) (c * a) lam0 = dAngle0 lamSq d a lam0 := by
  unfold dAngle0
  have : fdiv ((c * d) ^ 2 * n) (4 * ((n : ℝ) - 2) * (c * a) ^ 2) =
      fdiv (d ^ 2 * n) (4 * ((n : ℝ) - 2) * a ^ 2) := by
    rw [← fdiv_scale (d ^ 2 * n) _ (c ^ 2) (by positivity)]
    congr 1 <;> ring
  rw [this]

/-- C77. Changing the flux unit (all values of the spectrum, and the noise if given, times `c > 0`)
multiplies the amplitudes and the noise by `c`, and changes neither the depth, its uncertainty, the
signal-to-noise ratio nor the angles and their uncertainties. -/
theorem measure_units (F : Fin (M + 3) → ℂ) (phi : Fin (M + 3) → ℝ) (fwhm : ℝ)
    (dFDF : Option ℝ) (lamSq : Fin n → ℝ) (lam0 thr c : ℝ) (hc : 0 < c) :
    let r := measure F phi fwhm dFDF lamSq lam0 thr
    let r' := measure (fun i => (c : ℂ) * F i) phi fwhm (dFDF.map fun v => c * v) lamSq lam0 thr
    r'.phi = r.phi ∧ r'.dPhi = r.dPhi ∧ r'.snr = r.snr ∧ r'.indx = r.indx ∧
      r'.polAngle = r.polAngle ∧ r'.dPolAngle = r.dPolAngle ∧ r'.polAngle0 = r.polAngle0 ∧
      r'.dPolAngle0 = r.dPolAngle0 ∧
      r'.amp = r.amp.map (c * ·) ∧ r'.ampEff = r.ampEff.map (c * ·) ∧ r'.dAmp = r.dAmp.map (c * ·) ∧
      r'.dFDFcorMAD = r.dFDFcorMAD.map (c * ·) ∧ r'.re = r.re.map (c * ·) ∧ r'.im = r.im.map (c * ·) := by
  have hnorm : ∀ i, ‖(c : ℂ) * F i‖ = c * ‖F i‖ := by
    intro i
    rw [norm_mul, Complex.norm_real, Real.norm_of_nonneg hc.le]
  have hk : interiorPeak (fun i => (c : ℂ) * F i) = interiorPeak F := interiorPeak_norm F _ c hc hnorm
  have hd : (dFDF.map fun v => c * v).or ((noiseMAD F phi fwhm).map fun v => c * v) =
      (dFDF.or (noiseMAD F phi fwhm)).map fun v => c * v := by
    cases dFDF <;> rfl
  have hre : (fun i => ((c : ℂ) * F i).re) = fun i => c * (F i).re := by funext i; simp
  have him : (fun i => ((c : ℂ) * F i).im) = fun i => c * (F i).im := by funext i; simp
  intro r r'
  simp only [r, r', measure, hk, hnorm, vertex_scale _ _ _ _ _ _ _ hc.ne', noiseMAD_scale F phi fwhm c hc,
    hd, hre, him, at0_scale]
  generalize dFDF.or (noiseMAD F phi fwhm) = D
  generalize vertex _ _ _ _ _ _ = V
  rcases V with _ | ⟨vx, vy⟩
  · rcases D with _ | d <;> simp
  by_cases hin : maxAbs phi < |vx|
  · rcases D with _ | d <;> simp [hin, fdiv_scale _ _ _ hc.ne']
  rcases D with _ | d
  · simp [hin, npInterp_scale, arctan2_scale _ _ _ hc]
  · have e1 : fdiv (fwhm * (c * d)) (2 * (c * vy)) = fdiv (fwhm * d) (2 * vy) := by
      rw [← fdiv_scale (fwhm * d) _ c hc.ne']; congr 1 <;> ring
    have e2 : fdiv (c * d) (2 * (c * vy)) = fdiv d (2 * vy) := by
      rw [← fdiv_scale d _ c hc.ne']; congr 1; ring
    have e3 : (c * vy) ^ 2 - 2.3 * (c * d) ^ 2 = c ^ 2 * (vy ^ 2 - 2.3 * d ^ 2) := by ring
    by_cases hs : snrReaches vy d thr
    · have hs' := (snrReaches_scale vy d thr c hc).mpr hs
      simp [hin, npInterp_scale, arctan2_scale _ _ _ hc, fdiv_scale _ _ _ hc.ne',
        dAngle0_scale _ _ _ _ _ hc, hs, hs', e1, e2, e3, fsqrt_scale _ _ hc]
    · have hs' : ¬ snrReaches (c * vy) (c * d) thr := fun h => hs ((snrReaches_scale vy d thr c hc).mp h)
      simp [hin, npInterp_scale, arctan2_scale _ _ _ hc, fdiv_scale _ _ _ hc.ne',
        dAngle0_scale _ _ _ _ _ hc, hs, hs', e1, e2]

/-! ## C78: rotation of the polarisation frame -/

theorem npInterp_lin (n : ℕ) (xp y z : ℕ → ℝ) (a b x : ℝ) :
    npInterp n xp (fun i => a * y i + b * z i) x = a * npInterp n xp y x + b * npInterp n xp z x := by
  unfold npInterp
  split_ifs
  · rfl
  · dsimp only
    split_ifs
    · rfl
    · ring

theorem at0_lin {N : ℕ} (f g : Fin N → ℝ) (a b : ℝ) :
    at0 (fun i => a * f i + b * g i) = fun i => a * at0 f i + b * at0 g i := by
  funext i
  unfold at0
  split_ifs <;> simp

/-- C78. Rotating the reference frame of the position angle by `θ` (radians; the spectrum is multiplied
by `exp(2iθ)`), with the noise given: depth, amplitude, corrected amplitude, signal-to-noise ratio and
uncertainties do not change, and the complex peak value is rotated by `exp(2iθ)`. Together with C37
this says that both angles change by `θ` modulo 180°. -/
theorem measure_rotation (F : Fin (M + 3) → ℂ) (phi : Fin (M + 3) → ℝ) (fwhm d : ℝ)
    (lamSq : Fin n → ℝ) (lam0 thr θ : ℝ) :
    let r := measure F phi fwhm (some d) lamSq lam0 thr
    let r' := measure (fun i => exp (2 * I * θ) * F i) phi fwhm (some d) lamSq lam0 thr
    r'.phi = r.phi ∧ r'.amp = r.amp ∧ r'.ampEff = r.ampEff ∧ r'.snr = r.snr ∧ r'.dPhi = r.dPhi ∧
      r'.dPolAngle = r.dPolAngle ∧ r'.dPolAngle0 = r.dPolAngle0 ∧
      ∀ re im, r.re = some re → r.im = some im → ∃ re' im', r'.re = some re' ∧ r'.im = some im' ∧
        (⟨re', im'⟩ : ℂ) = exp (2 * I * θ) * ⟨re, im⟩ := by
  have hE : exp (2 * I * (θ : ℂ)) = ⟨Real.cos (2 * θ), Real.sin (2 * θ)⟩ := by
    rw [show 2 * I * (θ : ℂ) = ((2 * θ : ℝ) : ℂ) * I by push_cast; ring]
    apply Complex.ext
    · rw [Complex.exp_ofReal_mul_I_re]
    · rw [Complex.exp_ofReal_mul_I_im]
  have hn1 : ‖exp (2 * I * (θ : ℂ))‖ = 1 := by
    rw [show 2 * I * (θ : ℂ) = ((2 * θ : ℝ) : ℂ) * I by push_cast; ring]
    exact norm_exp_ofReal_mul_I _
  have hnorm : ∀ i, ‖exp (2 * I * (θ : ℂ)) * F i‖ = ‖F i‖ := by
    intro i; rw [norm_mul, hn1, one_mul]
  have hk : interiorPeak (fun i => exp (2 * I * (θ : ℂ)) * F i) = interiorPeak F := by
    apply interiorPeak_norm F _ 1 one_pos
    intro i; rw [hnorm, one_mul]
  have hre : (fun i => (exp (2 * I * (θ : ℂ)) * F i).re) =
      fun i => Real.cos (2 * θ) * (F i).re + (-Real.sin (2 * θ)) * (F i).im := by
    funext i; rw [hE]; simp; ring
  have him : (fun i => (exp (2 * I * (θ : ℂ)) * F i).im) =
      fun i => Real.sin (2 * θ) * (F i).re + Real.cos (2 * θ) * (F i).im := by
    funext i; rw [hE]; simp; ring
  intro r r'
  simp only [r, r', measure, hk, hnorm, hre, him, at0_lin, Option.some_or]
  refine ⟨trivial, trivial, trivial, trivial, trivial, trivial, trivial, ?_⟩
  generalize (Option.map Prod.fst _ : Option ℝ) = V
  rcases V with _ | x
  · simp
  · intro re im h1 h2
    simp only [Option.map_some, Option.some.injEq] at h1 h2
    refine ⟨_, _, rfl, rfl, ?_⟩
    beta_reduce
    rw [npInterp_lin, npInterp_lin, h1, h2, hE]
    apply Complex.ext
    · simp; ring
    · simp; ring

end Verif.Peak
