import Verif.Peak.Thin

/-!
# Faraday rotation added to the data, and the sign of Stokes U (C222, C223)

Source: `/repo/RMutils/util_RM.py` 97-225 (`do_rmsynth_planes`), 980-1110 (`measure_FDF_parms`). The models are those of `Synth/Model` and
`Peak/Model`; here is nothing new of the code.
-/

namespace Verif.Peak

open Complex Verif.NumPy Verif.SynthSpec

variable {M n : ℕ}

/-! ## The measurement depends on three samples -/

/-- Linear interpolation between three samples at distance `d`, at distance `δ` from the middle one. -/
noncomputable def tri (d δ f1 f2 f3 : ℝ) : ℝ := if δ < 0 then f2 + (f2 - f1) / d * δ else f2 + (f3 - f2) / d * δ

theorem interp_local (phi : Fin (M + 3) → ℝ) (a d x : ℝ) (hd : 0 < d) (hphi : ∀ i, phi i = a + (i : ℕ) * d) (k : Fin (M + 1))
    (hx : |x - phi (centre k)| < d) (f : Fin (M + 3) → ℝ) :
    npInterp (M + 2) (at0 phi) (at0 f) x = tri d (x - phi (centre k)) (f (before k)) (f (centre k)) (f (after k)) := by
  classical
  have hat : ∀ i (hi : i < M + 3), at0 phi i = a + (i : ℕ) * d := by
    intro i hi
    unfold at0
    rw [dif_pos hi, hphi]
  have hc : phi (centre k) = a + ((k : ℕ) + 1) * d := by rw [hphi, val_centre]; push_cast; ring
  rw [hc] at hx ⊢
  rw [abs_lt] at hx
  have hk := k.isLt
  have hk0 : (0 : ℝ) ≤ (k : ℕ) := Nat.cast_nonneg _
  have h0 : ¬ x < at0 phi 0 := by
    rw [hat 0 (by omega), not_lt]
    push_cast
    nlinarith
  have fb : at0 f k = f (before k) := by unfold at0; rw [dif_pos (by omega)]; rfl
  have fc : at0 f (k + 1) = f (centre k) := by
    unfold at0; rw [dif_pos (by omega)]; congr 1
  have fa : at0 f (k + 2) = f (after k) := by
    unfold at0; rw [dif_pos (by omega)]; congr 1
  unfold npInterp
  rw [if_neg h0]
  dsimp only
  unfold tri
  have hmono : ∀ j, j ≤ M + 2 → ∀ t : ℕ, x < a + (t : ℝ) * d → at0 phi j ≤ x → j < t := by
    intro j hj t ht hle
    rw [hat j (by omega)] at hle
    by_contra hh
    push Not at hh
    have : (t : ℝ) ≤ j := by exact_mod_cast hh
    nlinarith
  by_cases hlt : x - (a + ((k : ℕ) + 1) * d) < 0
  · have hg : @Nat.findGreatest (fun j => at0 phi j ≤ x) (fun a => Classical.propDecidable _) (M + 2) = k := by
      rw [Nat.findGreatest_eq_iff]
      refine ⟨by omega, fun _ => ?_, fun j hj1 hj2 hle => ?_⟩
      · rw [hat k (by omega)]; linarith
      · have := hmono j hj2 (k + 1) (by push_cast; linarith) hle
        omega
    rw [hg, if_neg (by omega), if_pos hlt, fb, fc, hat k (by omega), hat (k + 1) (by omega)]
    push_cast
    have e1 : a + ((k : ℕ) + 1 : ℝ) * d - (a + (k : ℕ) * d) = d := by ring
    rw [e1]
    field_simp
    ring
  · have hg : @Nat.findGreatest (fun j => at0 phi j ≤ x) (fun a => Classical.propDecidable _) (M + 2) = k + 1 := by
      rw [Nat.findGreatest_eq_iff]
      refine ⟨by omega, fun _ => ?_, fun j hj1 hj2 hle => ?_⟩
      · rw [hat (k + 1) (by omega)]; push_cast; linarith
      · have := hmono j hj2 (k + 2) (by push_cast; linarith) hle
        omega
    rw [hg, if_neg (by omega), if_neg hlt, fc, fa, hat (k + 1) (by omega), hat (k + 1 + 1) (by omega)]
    push_cast
    have e1 : a + ((k : ℕ) + 1 + 1 : ℝ) * d - (a + ((k : ℕ) + 1) * d) = d := by ring
    rw [e1]

/-- Offset of the fitted depth from the largest sample, and the fitted amplitude. -/
noncomputable def fitOffset (d y1 y2 y3 : ℝ) : ℝ := d * (y1 - y3) / (2 * (y1 - 2 * y2 + y3))
noncomputable def fitHeight (y1 y2 y3 : ℝ) : ℝ := y2 - (y1 - y3) ^ 2 / (8 * (y1 - 2 * y2 + y3))

/-- The corrected amplitude as a function of fitted amplitude, noise and threshold. -/
noncomputable def effective (A e thr : ℝ) : Option ℝ :=
  open Classical in if snrReaches A e thr then fsqrt (A ^ 2 - 2.3 * e ^ 2) else some A

/-- What is measured on a spectrum with a single largest sample, in terms of this sample and its two neighbours. -/
theorem measure_local (F : Fin (M + 3) → ℂ) (phi : Fin (M + 3) → ℝ) (fwhm a d e : ℝ) (lamSq : Fin n → ℝ) (lam0 thr : ℝ) (hd : 0 < d)
    (hphi : ∀ i, phi i = a + (i : ℕ) * d) (k : Fin (M + 1)) (hmax : ∀ i, i ≠ centre k → ‖F i‖ < ‖F (centre k)‖) :
    ∃ δ A, δ = fitOffset d ‖F (before k)‖ ‖F (centre k)‖ ‖F (after k)‖ ∧ A = fitHeight ‖F (before k)‖ ‖F (centre k)‖ ‖F (after k)‖ ∧
      |δ| ≤ d / 2 ∧ ‖F (centre k)‖ ≤ A ∧
      let r := measure F phi fwhm (some e) lamSq lam0 thr
      r.phi = some (phi (centre k) + δ) ∧ r.amp = some A ∧
      r.re = some (tri d δ (F (before k)).re (F (centre k)).re (F (after k)).re) ∧
      r.im = some (tri d δ (F (before k)).im (F (centre k)).im (F (after k)).im) ∧
      r.dAmp = some e ∧ r.snr = fdiv A e ∧ r.ampEff = effective A e thr ∧ r.dPhi = fdiv (fwhm * e) (2 * A) ∧
      r.dPolAngle = (fdiv e (2 * A)).map degrees ∧ r.dPolAngle0 = dAngle0 lamSq e A lam0 := by
  have hbne : before k ≠ centre k := by
    intro h
    have := congrArg Fin.val h
    rw [val_before, val_centre] at this
    omega
  have hane : after k ≠ centre k := by
    intro h
    have := congrArg Fin.val h
    rw [val_after, val_centre] at this
    omega
  have hk : interiorPeak F = k := by
    apply npArgmax_unique
    intro j hj
    refine hmax (centre j) fun h => hj ?_
    have := congrArg Fin.val h
    rw [val_centre, val_centre] at this
    exact Fin.ext (by omega)
  have h1 := hmax _ hbne
  have h3 := hmax _ hane
  have h2 : 0 < ‖F (centre k)‖ := lt_of_le_of_lt (norm_nonneg _) h1
  have e1 : phi (before k) = phi (centre k) - d := by
    rw [hphi, hphi, val_before, val_centre]; push_cast; ring
  have e2 : phi (after k) = phi (centre k) + d := by
    rw [hphi, hphi, val_after, val_centre]; push_cast; ring
  have hv := vertex_equal (phi (centre k)) d ‖F (before k)‖ ‖F (centre k)‖ ‖F (after k)‖ hd.ne' h2.ne' (by linarith)
  obtain ⟨v, h, hvh, hnear, hhigh⟩ := vertex_near_peak (phi (centre k)) d ‖F (before k)‖ ‖F (centre k)‖ ‖F (after k)‖ hd.ne' h2 h1.le h3.le
    (Or.inl h1.ne)
  rw [hv] at hvh
  injection hvh with hvh
  injection hvh with hvx hvy
  set δ := fitOffset d ‖F (before k)‖ ‖F (centre k)‖ ‖F (after k)‖ with hδ
  set A := fitHeight ‖F (before k)‖ ‖F (centre k)‖ ‖F (after k)‖ with hA
  have hvx' : v = phi (centre k) + δ := hvx.symm
  have hvy' : h = A := hvy.symm
  rw [hvx', add_sub_cancel_left, abs_of_pos hd] at hnear
  rw [hvy'] at hhigh
  have hv' : vertex (phi (before k)) ‖F (before k)‖ (phi (centre k)) ‖F (centre k)‖ (phi (after k)) ‖F (after k)‖ =
      some (phi (centre k) + δ, A) := by rw [e1, e2]; exact hv
  have hin : ¬ maxAbs phi < |phi (centre k) + δ| := by
    rw [not_lt]
    have m1 := le_npMax (fun i => |phi i|) (before k)
    have m2 := le_npMax (fun i => |phi i|) (after k)
    rw [e1] at m1
    rw [e2] at m2
    have n1 := neg_abs_le (phi (centre k) - d)
    have n2 := le_abs_self (phi (centre k) + d)
    have := abs_le.1 hnear
    unfold maxAbs
    rw [abs_le]
    constructor <;> linarith
  have hnode : ∀ f : Fin (M + 3) → ℝ, npInterp (M + 2) (at0 phi) (at0 f) (phi (centre k) + δ) =
      tri d δ (f (before k)) (f (centre k)) (f (after k)) := by
    intro f
    rw [interp_local phi a d _ hd hphi k (by rw [add_sub_cancel_left]; linarith), add_sub_cancel_left]
  refine ⟨δ, A, rfl, rfl, hnear, hhigh, ?_⟩
  intro r
  refine ⟨?_, ?_, ?_, ?_, ?_, ?_, ?_, ?_, ?_, ?_⟩
  · simp only [r, measure]; rw [hk, hv']; simp [hin]
  · simp only [r, measure]; rw [hk, hv']; simp [hin]
  · simp only [r, measure]; rw [hk, hv']; simp [hin, hnode]
  · simp only [r, measure]; rw [hk, hv']; simp [hin, hnode]
  · simp only [r, measure]; simp
  · simp only [r, measure]; rw [hk, hv']; simp
  · simp only [r, measure]; rw [hk, hv']; simp [hin, effective]
  · simp only [r, measure]; rw [hk, hv']; simp [hin]
  · simp only [r, measure]; rw [hk, hv']; simp [hin]
  · simp only [r, measure]; rw [hk, hv']; simp [hin]

/-! ## Spectra of shifted and mirrored data -/

/-- Faraday rotation by `R` shifts the spectrum. -/
theorem fdf_shift (w : Fin n → ℝ) (P P' : Fin n → Option ℂ) (lamSq : Fin n → ℝ) (lam0 R phi : ℝ)
    (h : ∀ j, P' j = (P j).map fun z => exp (2 * I * R * lamSq j) * z) :
    SynthSpec.fdf w P' lamSq lam0 phi = exp (2 * I * R * lam0) * SynthSpec.fdf w P lamSq lam0 (phi - R) := by
  have hs : (fun j => (P' j).isSome) = fun j => (P j).isSome := by
    funext j; rw [h]; cases P j <;> rfl
  have hs' : ∀ j, (P' j).isSome = (P j).isSome := fun j => congrFun hs j
  unfold SynthSpec.fdf weightSum
  simp only [hs']
  rw [← mul_div_assoc, Finset.mul_sum]
  congr 1
  apply Finset.sum_congr rfl
  intro j hj
  obtain ⟨z, hz⟩ := Option.isSome_iff_exists.1 (Finset.mem_filter.1 hj).2
  rw [h, hz]
  simp only [Option.map_some, Option.getD_some]
  have : exp (2 * I * R * lamSq j) * exp (-2 * I * phi * (lamSq j - lam0)) =
      exp (2 * I * R * lam0) * exp (-2 * I * ((phi - R : ℝ) : ℂ) * (lamSq j - lam0)) := by
    rw [← Complex.exp_add, ← Complex.exp_add]
    congr 1
    push_cast
    ring
  linear_combination (w j : ℂ) * z * this

/-- Changing the sign of Stokes U mirrors the spectrum. -/
theorem fdf_mirror (w : Fin n → ℝ) (P P' : Fin n → Option ℂ) (lamSq : Fin n → ℝ) (lam0 phi : ℝ)
    (h : ∀ j, P' j = (P j).map (starRingEnd ℂ)) :
    SynthSpec.fdf w P' lamSq lam0 phi = starRingEnd ℂ (SynthSpec.fdf w P lamSq lam0 (-phi)) := by
  have hs' : ∀ j, (P' j).isSome = (P j).isSome := by
    intro j; rw [h]; cases P j <;> rfl
  unfold SynthSpec.fdf weightSum
  simp only [hs']
  rw [map_div₀, map_sum, Complex.conj_ofReal]
  congr 1
  apply Finset.sum_congr rfl
  intro j hj
  obtain ⟨z, hz⟩ := Option.isSome_iff_exists.1 (Finset.mem_filter.1 hj).2
  rw [h, hz]
  simp only [Option.map_some, Option.getD_some, map_mul, Complex.conj_ofReal, ← Complex.exp_conj, map_neg, map_sub, Complex.conj_I,
    map_ofNat]
  congr 2
  push_cast
  ring

/-- The reference depends on which channels are flagged only. -/
theorem refLamSq_flags {k : ℕ} (x x' : Synth.Input n 1 k) (hlam : x'.lamSq = x.lamSq) (hw : x'.weight = x.weight) (hl : x'.lam0 = x.lam0)
    (h : ∀ j, (Synth.spectrum x' 0 j).isSome = (Synth.spectrum x 0 j).isSome) : Synth.refLamSq x' = Synth.refLamSq x := by
  have hm : ∀ (y : Synth.Input n 1 k) j p, Synth.mskCube y j p = !(Synth.spectrum y 0 j).isSome := by
    intro y j p
    have hp : p = 0 := Subsingleton.elim _ _
    subst hp
    unfold Synth.mskCube Synth.pCubeRaw Synth.spectrum pol
    cases y.dataQ j 0 <;> cases y.dataU j 0 <;> rfl
  have h1 : ∀ j, Synth.weight1 x' j = Synth.weight1 x j := by
    intro j
    have h0 : Synth.weight0 x' j = Synth.weight0 x j := by
      rw [Synth.weight0_eq, Synth.weight0_eq, hw]
    have hc : Synth.planeCount x' j = Synth.planeCount x j := by
      unfold Synth.planeCount
      simp only [hm, h]
    unfold Synth.weight1
    rw [h0, hc]
  unfold Synth.refLamSq Synth.doRmsynthPlanes Synth.lam0Sq
  dsimp only
  rw [hl, hlam]
  simp only [h1]

/-! ## C222 -/

theorem tri_mul (d δ : ℝ) (Z a b c : ℂ) :
    (⟨tri d δ (Z * a).re (Z * b).re (Z * c).re, tri d δ (Z * a).im (Z * b).im (Z * c).im⟩ : ℂ) =
      Z * ⟨tri d δ a.re b.re c.re, tri d δ a.im b.im c.im⟩ := by
  unfold tri
  by_cases h : δ < 0
  · simp only [if_pos h]
    apply Complex.ext <;> simp <;> ring
  · simp only [if_neg h]
    apply Complex.ext <;> simp <;> ring

/-- **C222**. Let the data be turned by a Faraday rotation of `R`, a multiple of the step of the depth axis. If the largest sample of the spectrum
is the only one, also among the samples which come onto the axis, and stays inside the axis, then the reported depth changes by `R` and
the intensity, the corrected intensity, the signal-to-noise ratio, all errors and the derotated angle do not change. The noise is given, as
it always is in the program for single spectra. -/
theorem faraday_shift (x x' : Synth.Input n 1 (M + 3)) (a d e fwhm thr R : ℝ) (t : ℤ) (hR : R = t * d) (hd : 0 < d)
    (hphi : ∀ i, x.phi i = a + (i : ℕ) * d) (hsym : SymGrid x.phi)
    (hsame : x'.phi = x.phi ∧ x'.lamSq = x.lamSq ∧ x'.weight = x.weight ∧ x'.lam0 = x.lam0)
    (hP : ∀ j, Synth.spectrum x' 0 j = (Synth.spectrum x 0 j).map fun z => exp (2 * I * R * x.lamSq j) * z)
    (k k' : Fin (M + 1)) (hk : ((k' : ℕ) : ℤ) = (k : ℕ) + t)
    (hmax : ∀ i, i ≠ centre k → ‖Synth.value x i 0‖ < ‖Synth.value x (centre k) 0‖)
    (hmax' : ∀ i, i ≠ centre k' → ‖SynthSpec.fdf (effWeight x.weight) (Synth.spectrum x 0) x.lamSq (Synth.refLamSq x) (x.phi i - R)‖ <
      ‖Synth.value x (centre k) 0‖) :
    let r := measure (fun i => Synth.value x i 0) x.phi fwhm (some e) x.lamSq (Synth.refLamSq x) thr
    let r' := measure (fun i => Synth.value x' i 0) x'.phi fwhm (some e) x'.lamSq (Synth.refLamSq x') thr
    (∃ v, r.phi = some v ∧ r'.phi = some (v + R)) ∧ r'.amp = r.amp ∧ r'.ampEff = r.ampEff ∧ r'.snr = r.snr ∧ r'.dAmp = r.dAmp ∧
      r'.dPhi = r.dPhi ∧ r'.dPolAngle = r.dPolAngle ∧ r'.dPolAngle0 = r.dPolAngle0 ∧
      (r.re ≠ some 0 ∨ r.im ≠ some 0 → r'.polAngle0 = r.polAngle0) := by
  obtain ⟨hph, hlam, hw, hl⟩ := hsame
  have href : Synth.refLamSq x' = Synth.refLamSq x := by
    refine refLamSq_flags x x' hlam hw hl fun j => ?_
    rw [hP]; cases Synth.spectrum x 0 j <;> rfl
  set lam0 := Synth.refLamSq x with hlam0
  have hval : ∀ i, Synth.value x i 0 = SynthSpec.fdf (effWeight x.weight) (Synth.spectrum x 0) x.lamSq lam0 (x.phi i) :=
    fun i => Synth.value_sym x hsym i 0
  have hval' : ∀ i, Synth.value x' i 0 = exp (2 * I * R * lam0) *
      SynthSpec.fdf (effWeight x.weight) (Synth.spectrum x 0) x.lamSq lam0 (x.phi i - R) := by
    intro i
    rw [Synth.value_sym x' (by rw [hph]; exact hsym) i 0, href, hw, hlam, hph]
    exact fdf_shift _ _ _ _ _ _ _ hP
  have hZ : ‖exp (2 * I * R * lam0)‖ = 1 := by
    rw [show (2 * I * R * lam0 : ℂ) = ((2 * R * lam0 : ℝ) : ℂ) * I by push_cast; ring, norm_exp_ofReal_mul_I]
  have hkR : ((k' : ℕ) : ℝ) = (k : ℕ) + t := by exact_mod_cast hk
  have hloc : ∀ i i' : Fin (M + 3), ((i' : ℕ) : ℝ) = (i : ℕ) + t → Synth.value x' i' 0 = exp (2 * I * R * lam0) * Synth.value x i 0 := by
    intro i i' h
    rw [hval', hval, hphi, hphi, h, hR]
    congr 2
    ring
  have hb := hloc (before k) (before k') (by rw [val_before, val_before]; exact hkR)
  have hc := hloc (centre k) (centre k') (by rw [val_centre, val_centre]; push_cast; linarith)
  have ha := hloc (after k) (after k') (by rw [val_after, val_after]; push_cast; linarith)
  have hmx : ∀ i, i ≠ centre k' → ‖Synth.value x' i 0‖ < ‖Synth.value x' (centre k') 0‖ := by
    intro i hi
    rw [hc, hval', norm_mul, norm_mul, hZ, one_mul, one_mul]
    exact hmax' i hi
  have hphic : x'.phi (centre k') = x.phi (centre k) + R := by
    rw [hph, hphi, hphi, val_centre, val_centre, hR]
    push_cast
    rw [hkR]
    ring
  intro r r'
  obtain ⟨δ, A, hδ, hA, -, -, h1, h2, h3, h4, h5, h6, h7, h8, h9, h10⟩ :=
    measure_local (fun i => Synth.value x i 0) x.phi fwhm a d e x.lamSq lam0 thr hd hphi k hmax
  obtain ⟨δ', A', hδ', hA', -, -, h1', h2', h3', h4', h5', h6', h7', h8', h9', h10'⟩ :=
    measure_local (fun i => Synth.value x' i 0) x'.phi fwhm a d e x'.lamSq lam0 thr hd (by rw [hph]; exact hphi) k' hmx
  have nb : ‖Synth.value x' (before k') 0‖ = ‖Synth.value x (before k) 0‖ := by rw [hb, norm_mul, hZ, one_mul]
  have nc : ‖Synth.value x' (centre k') 0‖ = ‖Synth.value x (centre k) 0‖ := by rw [hc, norm_mul, hZ, one_mul]
  have na : ‖Synth.value x' (after k') 0‖ = ‖Synth.value x (after k) 0‖ := by rw [ha, norm_mul, hZ, one_mul]
  rw [nb, nc, na, ← hδ] at hδ'
  rw [nb, nc, na, ← hA] at hA'
  rw [hδ', hphic] at h1'
  rw [hδ'] at h3' h4'
  rw [hA'] at h2' h6' h7' h8' h9' h10'
  have hrr : r' = measure (fun i => Synth.value x' i 0) x'.phi fwhm (some e) x'.lamSq lam0 thr := by
    simp only [r', href]
  rw [← hrr] at h1' h2' h3' h4' h5' h6' h7' h8' h9' h10'
  rw [hlam] at h10'
  refine ⟨⟨_, h1, by rw [h1']; congr 1; ring⟩, h2'.trans h2.symm, h7'.trans h7.symm, h6'.trans h6.symm, h5'.trans h5.symm,
    h8'.trans h8.symm, h9'.trans h9.symm, h10'.trans h10.symm, ?_⟩
  intro hne
  have hang := angles (fun i => Synth.value x i 0) x.phi fwhm (some e) x.lamSq lam0 thr
  have hang' := angles (fun i => Synth.value x' i 0) x'.phi fwhm (some e) x'.lamSq lam0 thr
  rw [← hrr] at hang'
  rcases hang with ⟨hn, -⟩ | ⟨v, re, im, b, b0, g1, g2, g3, g4, g5, g6, g7⟩
  · rw [h1] at hn; cases hn
  rcases hang' with ⟨hn, -⟩ | ⟨v', re', im', b', b0', g1', g2', g3', g4', g5', g6', g7'⟩
  · rw [h1'] at hn; cases hn
  have e1 : v = x.phi (centre k) + δ := Option.some.inj (g1.symm.trans h1)
  have e2 := Option.some.inj (g2.symm.trans h3)
  have e3 := Option.some.inj (g3.symm.trans h4)
  have e1' : v' = x.phi (centre k) + R + δ := Option.some.inj (g1'.symm.trans h1')
  have e2' := Option.some.inj (g2'.symm.trans h3')
  have e3' := Option.some.inj (g3'.symm.trans h4')
  rw [hb, hc, ha] at e2' e3'
  have hz : (⟨re', im'⟩ : ℂ) = exp (2 * I * R * lam0) * ⟨re, im⟩ := by
    rw [e2', e3', e2, e3]
    exact tri_mul _ _ _ _ _ _
  have hsame : (⟨re', im'⟩ : ℂ) * exp (-2 * I * ((v' * lam0 : ℝ) : ℂ)) = ⟨re, im⟩ * exp (-2 * I * ((v * lam0 : ℝ) : ℂ)) := by
    rw [hz, e1', e1, mul_comm (exp _) (⟨re, im⟩ : ℂ), mul_assoc, ← Complex.exp_add]
    congr 2
    push_cast
    ring
  rw [hsame] at g7'
  have hz0 : (⟨re, im⟩ : ℂ) * exp (-2 * I * ((v * lam0 : ℝ) : ℂ)) ≠ 0 := by
    apply mul_ne_zero _ (Complex.exp_ne_zero _)
    intro h
    have h1 := congrArg Complex.re h
    have h2 := congrArg Complex.im h
    simp only [Complex.zero_re, Complex.zero_im] at h1 h2
    rcases hne with hne | hne
    · exact hne (by rw [show r.re = some re from g2, h1])
    · exact hne (by rw [show r.im = some im from g3, h2])
  rw [g5', show r.polAngle0 = some b0 from g5, isPolAngle_unique b0' b0 _ hz0 g7' g7]

/-! ## C223 -/

theorem tri_mirror (d δ f1 f2 f3 : ℝ) : tri d (-δ) f3 f2 f1 = tri d δ f1 f2 f3 := by
  unfold tri
  rcases lt_trichotomy δ 0 with h | h | h
  · rw [if_neg (by linarith), if_pos h]; ring
  · rw [h]; simp
  · rw [if_pos (by linarith), if_neg (by linarith)]; ring

theorem tri_neg (d δ f1 f2 f3 : ℝ) : tri d δ (-f1) (-f2) (-f3) = -tri d δ f1 f2 f3 := by
  unfold tri
  split_ifs <;> ring

theorem rev_centre (k : Fin (M + 1)) : Fin.rev (centre k) = centre (Fin.rev k) := by
  apply Fin.ext
  have := k.isLt
  rw [Fin.val_rev, val_centre, val_centre, Fin.val_rev]
  omega

theorem rev_before (k : Fin (M + 1)) : Fin.rev (before k) = after (Fin.rev k) := by
  apply Fin.ext
  have := k.isLt
  rw [Fin.val_rev, val_before, val_after, Fin.val_rev]
  omega

theorem rev_after (k : Fin (M + 1)) : Fin.rev (after k) = before (Fin.rev k) := by
  apply Fin.ext
  have := k.isLt
  rw [Fin.val_rev, val_before, val_after, Fin.val_rev]
  omega

/-- Angles of a vector and of its conjugate add up to 0 or 180 degrees. -/
theorem isPolAngle_conj (a b : ℝ) (z : ℂ) (hz : z ≠ 0) (ha : IsPolAngle a z) (hb : IsPolAngle b (starRingEnd ℂ z)) :
    b = if a = 0 then 0 else 180 - a := by
  have hz' : starRingEnd ℂ z ≠ 0 := by simpa using hz
  apply isPolAngle_unique _ _ _ hz' hb
  obtain ⟨h0, h1, h⟩ := ha
  have hconj : starRingEnd ℂ z = ‖starRingEnd ℂ z‖ * exp (2 * I * (-(a * Real.pi / 180) : ℝ)) := by
    conv_lhs => rw [h]
    rw [map_mul, Complex.conj_ofReal, ← Complex.exp_conj, Complex.norm_conj]
    congr 2
    simp only [map_mul, Complex.conj_ofReal, Complex.conj_I, map_ofNat]
    push_cast
    ring
  by_cases ha0 : a = 0
  · rw [if_pos ha0]
    refine ⟨le_refl _, by norm_num, ?_⟩
    rw [hconj, ha0]
    simp
  · rw [if_neg ha0]
    have hpos : 0 < a := lt_of_le_of_ne h0 (Ne.symm ha0)
    refine ⟨by linarith, by linarith, ?_⟩
    have : exp (2 * I * (((180 - a) * Real.pi / 180 : ℝ) : ℂ)) = exp (2 * I * (-(a * Real.pi / 180) : ℝ)) := by
      rw [show 2 * I * (((180 - a) * Real.pi / 180 : ℝ) : ℂ) = 2 * I * (-(a * Real.pi / 180) : ℝ) + 2 * Real.pi * I by push_cast; ring,
        Complex.exp_add, Complex.exp_two_pi_mul_I, mul_one]
    rw [this]
    exact hconj

/-- **C223 (partial)**. Changing the sign of Stokes U: if the largest sample is the only one, the reported depth changes its sign; intensity,
corrected intensity, signal-to-noise ratio and errors do not change, with the noise given; both angles `χ` become `180° - χ` (0 stays 0).
What is missing is the noise measured from the spectrum (`noise_mirror_wrong`). -/
theorem sign_of_U_partial (x x' : Synth.Input n 1 (M + 3)) (a d e fwhm thr : ℝ) (hd : 0 < d)
    (hphi : ∀ i, x.phi i = a + (i : ℕ) * d) (hsym : SymGrid x.phi)
    (hsame : x'.phi = x.phi ∧ x'.lamSq = x.lamSq ∧ x'.weight = x.weight ∧ x'.lam0 = x.lam0)
    (hQ : ∀ j, x'.dataQ j 0 = x.dataQ j 0) (hU : ∀ j, x'.dataU j 0 = (x.dataU j 0).map fun v => -v)
    (k : Fin (M + 1)) (hmax : ∀ i, i ≠ centre k → ‖Synth.value x i 0‖ < ‖Synth.value x (centre k) 0‖) :
    let r := measure (fun i => Synth.value x i 0) x.phi fwhm (some e) x.lamSq (Synth.refLamSq x) thr
    let r' := measure (fun i => Synth.value x' i 0) x'.phi fwhm (some e) x'.lamSq (Synth.refLamSq x') thr
    (∃ v, r.phi = some v ∧ r'.phi = some (-v)) ∧ r'.amp = r.amp ∧ r'.ampEff = r.ampEff ∧ r'.snr = r.snr ∧ r'.dAmp = r.dAmp ∧
      r'.dPhi = r.dPhi ∧ r'.dPolAngle = r.dPolAngle ∧ r'.dPolAngle0 = r.dPolAngle0 ∧
      (r.re ≠ some 0 ∨ r.im ≠ some 0 → r'.polAngle = r.polAngle.map (fun c => if c = 0 then 0 else 180 - c) ∧
        r'.polAngle0 = r.polAngle0.map fun c => if c = 0 then 0 else 180 - c) := by
  obtain ⟨hph, hlam, hw, hl⟩ := hsame
  have hP : ∀ j, Synth.spectrum x' 0 j = (Synth.spectrum x 0 j).map (starRingEnd ℂ) := by
    intro j
    unfold Synth.spectrum pol
    rw [hQ, hU]
    cases x.dataQ j 0 with
    | none => rfl
    | some q =>
      cases x.dataU j 0 with
      | none => rfl
      | some u => rfl
  have href : Synth.refLamSq x' = Synth.refLamSq x := by
    refine refLamSq_flags x x' hlam hw hl fun j => ?_
    rw [hP]; cases Synth.spectrum x 0 j <;> rfl
  set lam0 := Synth.refLamSq x with hlam0
  have hval : ∀ i, Synth.value x' i 0 = starRingEnd ℂ (Synth.value x (Fin.rev i) 0) := by
    intro i
    rw [Synth.value_sym x' (by rw [hph]; exact hsym) i 0, Synth.value_sym x hsym, href, hw, hlam, hph, hsym i]
    exact fdf_mirror _ _ _ _ _ _ hP
  have hb : Synth.value x' (before (Fin.rev k)) 0 = starRingEnd ℂ (Synth.value x (after k) 0) := by
    rw [hval, rev_before, Fin.rev_rev]
  have hc : Synth.value x' (centre (Fin.rev k)) 0 = starRingEnd ℂ (Synth.value x (centre k) 0) := by
    rw [hval, rev_centre, Fin.rev_rev]
  have ha : Synth.value x' (after (Fin.rev k)) 0 = starRingEnd ℂ (Synth.value x (before k) 0) := by
    rw [hval, rev_after, Fin.rev_rev]
  have hmx : ∀ i, i ≠ centre (Fin.rev k) → ‖Synth.value x' i 0‖ < ‖Synth.value x' (centre (Fin.rev k)) 0‖ := by
    intro i hi
    rw [hc, hval, Complex.norm_conj, Complex.norm_conj]
    apply hmax
    intro h
    apply hi
    rw [← rev_centre, ← h, Fin.rev_rev]
  have hphic : x'.phi (centre (Fin.rev k)) = -x.phi (centre k) := by
    rw [hph, ← rev_centre, hsym]
  intro r r'
  obtain ⟨δ, A, hδ, hA, -, -, h1, h2, h3, h4, h5, h6, h7, h8, h9, h10⟩ :=
    measure_local (fun i => Synth.value x i 0) x.phi fwhm a d e x.lamSq lam0 thr hd hphi k hmax
  obtain ⟨δ', A', hδ', hA', -, -, h1', h2', h3', h4', h5', h6', h7', h8', h9', h10'⟩ :=
    measure_local (fun i => Synth.value x' i 0) x'.phi fwhm a d e x'.lamSq lam0 thr hd (by rw [hph]; exact hphi) (Fin.rev k) hmx
  have hδδ : δ' = -δ := by
    rw [hδ', hδ, hb, hc, ha, Complex.norm_conj, Complex.norm_conj, Complex.norm_conj]
    unfold fitOffset
    rw [← neg_div]
    congr 1 <;> ring
  have hAA : A' = A := by
    rw [hA', hA, hb, hc, ha, Complex.norm_conj, Complex.norm_conj, Complex.norm_conj]
    unfold fitHeight
    congr 1
    congr 1 <;> ring
  rw [hδδ, hphic] at h1'
  rw [hδδ, hb, hc, ha] at h3' h4'
  rw [hAA] at h2' h6' h7' h8' h9' h10'
  have hrr : r' = measure (fun i => Synth.value x' i 0) x'.phi fwhm (some e) x'.lamSq lam0 thr := by
    simp only [r', href]
  rw [← hrr] at h1' h2' h3' h4' h5' h6' h7' h8' h9' h10'
  rw [hlam] at h10'
  refine ⟨⟨_, h1, by rw [h1']; congr 1; ring⟩, h2'.trans h2.symm, h7'.trans h7.symm, h6'.trans h6.symm, h5'.trans h5.symm,
    h8'.trans h8.symm, h9'.trans h9.symm, h10'.trans h10.symm, ?_⟩
  intro hne
  have hang := angles (fun i => Synth.value x i 0) x.phi fwhm (some e) x.lamSq lam0 thr
  have hang' := angles (fun i => Synth.value x' i 0) x'.phi fwhm (some e) x'.lamSq lam0 thr
  rw [← hrr] at hang'
  rcases hang with ⟨hn, -⟩ | ⟨v, re, im, b, b0, g1, g2, g3, g4, g5, g6, g7⟩
  · rw [h1] at hn; cases hn
  rcases hang' with ⟨hn, -⟩ | ⟨v', re', im', b', b0', g1', g2', g3', g4', g5', g6', g7'⟩
  · rw [h1'] at hn; cases hn
  have e1 : v = x.phi (centre k) + δ := Option.some.inj (g1.symm.trans h1)
  have e2 := Option.some.inj (g2.symm.trans h3)
  have e3 := Option.some.inj (g3.symm.trans h4)
  have e1' : v' = -x.phi (centre k) + -δ := Option.some.inj (g1'.symm.trans h1')
  have e2' := Option.some.inj (g2'.symm.trans h3')
  have e3' := Option.some.inj (g3'.symm.trans h4')
  simp only [Complex.conj_re, Complex.conj_im, tri_mirror, tri_neg] at e2' e3'
  have hz : (⟨re', im'⟩ : ℂ) = starRingEnd ℂ ⟨re, im⟩ := by
    rw [e2', e3', e2, e3]
    rfl
  have hsame : (⟨re', im'⟩ : ℂ) * exp (-2 * I * ((v' * lam0 : ℝ) : ℂ)) =
      starRingEnd ℂ ((⟨re, im⟩ : ℂ) * exp (-2 * I * ((v * lam0 : ℝ) : ℂ))) := by
    rw [hz, e1', e1, map_mul, ← Complex.exp_conj]
    congr 2
    simp only [map_mul, map_neg, Complex.conj_ofReal, Complex.conj_I, map_ofNat]
    push_cast
    ring
  have hz1 : (⟨re, im⟩ : ℂ) ≠ 0 := by
    intro h
    have h1 := congrArg Complex.re h
    have h2 := congrArg Complex.im h
    simp only [Complex.zero_re, Complex.zero_im] at h1 h2
    rcases hne with hne | hne
    · exact hne (by rw [show r.re = some re from g2, h1])
    · exact hne (by rw [show r.im = some im from g3, h2])
  rw [hsame] at g7'
  rw [hz] at g6'
  constructor
  · rw [g4', show r.polAngle = some b from g4, isPolAngle_conj b b' _ hz1 g6 g6']
    rfl
  · rw [g5', show r.polAngle0 = some b0 from g5, isPolAngle_conj b0 b0' _ (mul_ne_zero hz1 (Complex.exp_ne_zero _)) g7 g7']
    rfl

/-! ## The noise measured from the spectrum -/

/-- Changing the sign of a spectrum (turning the frame by 90 degrees) does not change the noise. -/
theorem mad_neg (l : List (Option ℝ)) : Stats.mad (l.map (Option.map fun v => -v)) = Stats.mad l := by
  have hu : Stats.unmasked (l.map (Option.map fun v => -v)) = (Stats.unmasked l).map fun v => -1 * v + 0 := by
    unfold Stats.unmasked
    rw [List.filterMap_map, List.map_filterMap]
    congr 1
    funext v
    cases v <;> simp
  unfold Stats.mad
  rw [hu, Stats.median_affine]
  cases Stats.median (Stats.unmasked l) with
  | none => rfl
  | some m =>
    simp only [Option.map_some, Option.bind_some, List.map_map]
    congr 1
    apply List.map_congr_left
    intro v _
    simp only [Function.comp]
    rw [show -1 * v + 0 - (-1 * m + 0) = -(v - m) by ring, abs_neg]

/-- **C224 (partial)**: the noise is the same for the spectrum turned by 180 degrees in the complex plane. -/
theorem noise_half_turn_partial (F : Fin (M + 3) → ℂ) (phi : Fin (M + 3) → ℝ) (fwhm : ℝ) :
    noiseMAD (fun i => -F i) phi fwhm = noiseMAD F phi fwhm := by
  have hk : peakIdx (fun i => -F i) = peakIdx F := by
    unfold peakIdx
    congr 1
    exact interiorPeak_norm F _ 1 one_pos fun i => by rw [norm_neg, one_mul]
  have hre : ∀ l : List ℂ, reIm (l.map fun z => -z) = (reIm l).map (Option.map fun v => -v) := by
    intro l
    simp [reIm, List.map_append, List.map_map, Function.comp_def]
  have hmap : ∀ l : List (Fin (M + 3)), l.map (fun i => -F i) = (l.map F).map fun z => -z := by
    intro l; rw [List.map_map]; rfl
  unfold noiseMAD
  simp only [hk, hmap, List.length_map, hre, mad_neg]
  rw [show List.ofFn (fun i => -F i) = (List.ofFn F).map fun z => -z by rw [List.map_ofFn]; rfl, hre, mad_neg]

theorem mad_same : Stats.mad [some 3, some 3, some 3, some 3, some 3, some 3] = some 0 := by
  unfold Stats.mad
  have h : Stats.unmasked [some (3 : ℝ), some 3, some 3, some 3, some 3, some 3] = [3, 3, 3, 3, 3, 3] := rfl
  rw [h, Stats.median_eq_mid _ [3, 3, 3, 3, 3, 3] (List.Perm.refl _) (by norm_num)]
  simp only [Stats.mid, List.length_cons, List.length_nil]
  norm_num
  rw [Stats.median_eq_mid _ [0, 0, 0, 0, 0, 0] (List.Perm.refl _) (by norm_num)]
  norm_num [Stats.mid]

theorem mad_mixed : Stats.mad [some 3, some 3, some 3, some (-3), some (-3), some (-3)] = some (3 / 0.6745) ∧
    Stats.mad [some (-3), some (-3), some (-3), some 3, some 3, some 3] = some (3 / 0.6745) := by
  have key : Stats.mad [some (-3), some (-3), some (-3), some 3, some 3, some 3] = some (3 / 0.6745) := by
    unfold Stats.mad
    have h : Stats.unmasked [some (-3 : ℝ), some (-3), some (-3), some 3, some 3, some 3] = [-3, -3, -3, 3, 3, 3] := rfl
    rw [h, Stats.median_eq_mid _ [-3, -3, -3, 3, 3, 3] (List.Perm.refl _) (by norm_num)]
    simp only [Stats.mid, List.length_cons, List.length_nil]
    norm_num
    rw [Stats.median_eq_mid _ [6000 / 1349, 6000 / 1349, 6000 / 1349, 6000 / 1349, 6000 / 1349, 6000 / 1349] (List.Perm.refl _) (by norm_num)]
    norm_num [Stats.mid]
  refine ⟨?_, key⟩
  rw [← mad_neg]
  simpa using key

/-- Two channels (`λ²` 1 and 2) of which the second is flagged, three depths. -/
noncomputable def flatInput (q u : ℝ) : Synth.Input 2 1 (0 + 3) where
  dataQ := fun j _ => if j = 0 then some q else none
  dataU := fun j _ => if j = 0 then some u else none
  lamSq := fun j => (j : ℕ) + 1
  phi := fun i => (i : ℕ) - 1
  weight := none
  lam0 := none

theorem flat_value (q u : ℝ) (i : Fin 3) : Synth.value (flatInput q u) i 0 = ⟨q, u⟩ := by
  have hsym : SymGrid (flatInput q u).phi := by
    intro l
    simp only [flatInput, Fin.val_rev]
    rw [Nat.cast_sub (by have := l.isLt; omega)]
    push_cast
    ring
  have h0 : Synth.spectrum (flatInput q u) 0 0 = some ⟨q, u⟩ := rfl
  have h1 : Synth.spectrum (flatInput q u) 0 1 = none := rfl
  have href : Synth.refLamSq (flatInput q u) = 1 := by
    have hw0 : Synth.weight1 (flatInput q u) 0 = 1 := by
      rw [Synth.weight1_of_unmasked _ 0 0 rfl]; rfl
    have hw1 : Synth.weight1 (flatInput q u) 1 = 0 := by
      unfold Synth.weight1
      rw [if_pos ((Synth.planeCount_eq_zero _ _).2 fun p => ?_), mul_zero]
      have hp : p = 0 := Subsingleton.elim _ _
      rw [hp]; rfl
    unfold Synth.refLamSq Synth.doRmsynthPlanes Synth.lam0Sq
    have : (flatInput q u).lam0 = none := rfl
    rw [this]
    simp only [Fin.sum_univ_two, hw0, hw1]
    simp [flatInput]
  rw [Synth.value_sym _ hsym, href]
  unfold SynthSpec.fdf weightSum
  simp only [Finset.sum_filter, Fin.sum_univ_two, h0, h1]
  simp [flatInput, effWeight]

theorem flat_noise (q u : ℝ) : noiseMAD (fun i => Synth.value (flatInput q u) i 0) (flatInput q u).phi 10 =
    Stats.mad [some q, some q, some q, some u, some u, some u] := by
  have hF : (fun i => Synth.value (flatInput q u) i 0) = fun _ => (⟨q, u⟩ : ℂ) := by funext i; exact flat_value q u i
  have hmin : minStep (flatInput q u).phi = 1 := minStep_uniform _ (-1) 1 fun i => by simp [flatInput]; ring
  unfold noiseMAD
  rw [hF]
  dsimp only
  have hall : ∀ i : Fin 3, blanked (0 + 3) (peakIdx (M := 0) fun _ => (⟨q, u⟩ : ℂ)) (widthChan (flatInput q u).phi 10) i := by
    intro i
    have hw : widthChan (flatInput q u).phi 10 = 10 := by unfold widthChan; rw [hmin]; norm_num
    rw [hw, blanked_iff _ _ _ (by norm_num) (peakIdx (M := 0) fun _ => (⟨q, u⟩ : ℂ)).isLt _ i.isLt]
    have := i.isLt
    have := (peakIdx (M := 0) fun _ => (⟨q, u⟩ : ℂ)).isLt
    omega
  have hnil : ((List.finRange (0 + 3)).filter fun i : Fin (0 + 3) =>
      decide ¬ blanked (0 + 3) (peakIdx (M := 0) fun _ => (⟨q, u⟩ : ℂ)) (widthChan (flatInput q u).phi 10) i) = [] := by
    rw [List.filter_eq_nil_iff]
    intro i _
    simpa using hall i
  rw [hnil, if_pos (by norm_num)]
  rfl

/-- **C223 refuted** for the noise measured from the spectrum, and **C224 refuted**: for `Q = U = 3` in the only unflagged channel the noise is 0;
with the sign of U changed it is `3/0.6745`, and so it is for the polarisation frame turned by 45 degrees (`Q = -3`, `U = 3`). -/
theorem noise_mirror_wrong :
    noiseMAD (fun i => Synth.value (flatInput 3 3) i 0) (flatInput 3 3).phi 10 = some 0 ∧
    noiseMAD (fun i => Synth.value (flatInput 3 (-3)) i 0) (flatInput 3 (-3)).phi 10 = some (3 / 0.6745) ∧
    noiseMAD (fun i => Synth.value (flatInput (-3) 3) i 0) (flatInput (-3) 3).phi 10 = some (3 / 0.6745) ∧
    (⟨-3, 3⟩ : ℂ) = exp (2 * I * (Real.pi / 4 : ℝ)) * ⟨3, 3⟩ := by
  refine ⟨(flat_noise 3 3).trans mad_same, (flat_noise 3 (-3)).trans mad_mixed.1, (flat_noise (-3) 3).trans mad_mixed.2, ?_⟩
  rw [show (2 * I * (Real.pi / 4 : ℝ) : ℂ) = (Real.pi : ℂ) / 2 * I by push_cast; ring, Complex.exp_pi_div_two_mul_I]
  apply Complex.ext <;> simp

/-! ## A case -/

/-- Two channels (`λ²` 1 and 2), a source of unit polarisation at depth `R`, depths `-π/4` to `π/4` in steps of `π/8`. -/
noncomputable def pairInput (R : ℝ) : Synth.Input 2 1 (2 + 3) where
  dataQ := fun j _ => some (exp (2 * I * R * ((j : ℕ) + 1))).re
  dataU := fun j _ => some (exp (2 * I * R * ((j : ℕ) + 1))).im
  lamSq := fun j => (j : ℕ) + 1
  phi := fun i => -(Real.pi / 4) + (i : ℕ) * (Real.pi / 8)
  weight := none
  lam0 := none

theorem pair_spectrum (R : ℝ) (j : Fin 2) : Synth.spectrum (pairInput R) 0 j = some (exp (2 * I * R * ((j : ℕ) + 1))) := rfl

theorem pair_sym (R : ℝ) : SymGrid (pairInput R).phi := by
  intro l
  simp only [pairInput, Fin.val_rev]
  rw [Nat.cast_sub (by have := l.isLt; omega)]
  push_cast
  ring

theorem pair_norm (R lam0 phi : ℝ) :
    ‖SynthSpec.fdf (effWeight (pairInput R).weight) (Synth.spectrum (pairInput R) 0) (pairInput R).lamSq lam0 phi‖ = |Real.cos (phi - R)| := by
  have h : SynthSpec.fdf (effWeight (pairInput R).weight) (Synth.spectrum (pairInput R) 0) (pairInput R).lamSq lam0 phi =
      exp (((3 * R - phi * (3 - 2 * lam0) : ℝ) : ℂ) * I) * ((Real.cos (phi - R) : ℝ) : ℂ) := by
    have e0 : effWeight (pairInput R).weight 0 = 1 := rfl
    have e1 : effWeight (pairInput R).weight 1 = 1 := rfl
    unfold SynthSpec.fdf weightSum
    simp only [Finset.sum_filter, Fin.sum_univ_two, pair_spectrum, Option.isSome_some, if_true, Option.getD_some, e0, e1]
    have l0 : (pairInput R).lamSq 0 = 1 := by simp [pairInput]
    have l1 : (pairInput R).lamSq 1 = 2 := by simp [pairInput]; norm_num
    rw [l0, l1, Complex.ofReal_cos, Complex.cos]
    have a1 : exp (2 * I * R * (((0 : Fin 2) : ℕ) + 1)) * exp (-2 * I * phi * (((1 : ℝ) : ℂ) - lam0)) =
        exp (((3 * R - phi * (3 - 2 * lam0) : ℝ) : ℂ) * I) * exp (((phi - R : ℝ) : ℂ) * I) := by
      rw [← Complex.exp_add, ← Complex.exp_add]
      congr 1
      rw [Fin.val_zero]
      push_cast
      ring
    have a2 : exp (2 * I * R * (((1 : Fin 2) : ℕ) + 1)) * exp (-2 * I * phi * (((2 : ℝ) : ℂ) - lam0)) =
        exp (((3 * R - phi * (3 - 2 * lam0) : ℝ) : ℂ) * I) * exp (-((phi - R : ℝ) : ℂ) * I) := by
      rw [← Complex.exp_add, ← Complex.exp_add]
      congr 1
      rw [Fin.val_one]
      push_cast
      ring
    push_cast at a1 a2 ⊢
    linear_combination (1 / 2 : ℂ) * a1 + (1 / 2 : ℂ) * a2
  rw [h, norm_mul, norm_exp_ofReal_mul_I, one_mul, Complex.norm_real, Real.norm_eq_abs]

theorem abs_cos_lt_one (t : ℝ) (h0 : t ≠ 0) (h1 : -Real.pi < t) (h2 : t < Real.pi) : |Real.cos t| < 1 := by
  have hs : Real.sin t ≠ 0 := by
    intro h
    exact h0 ((Real.sin_eq_zero_iff_of_lt_of_lt h1 h2).1 h)
  have hc := Real.sin_sq_add_cos_sq t
  have hp : 0 < Real.sin t ^ 2 := by positivity
  rw [← sq_lt_one_iff_abs_lt_one]
  linarith

/-- C222 and C223, a case: a source at depth zero, and the same with a rotation measure of one step of the axis, `π/8`, added. -/
theorem pair_case :
    (∀ j, Synth.spectrum (pairInput (Real.pi / 8)) 0 j =
      (Synth.spectrum (pairInput 0) 0 j).map fun z => exp (2 * I * (Real.pi / 8 : ℝ) * (pairInput 0).lamSq j) * z) ∧
    (∀ i, i ≠ centre 1 → ‖Synth.value (pairInput 0) i 0‖ < ‖Synth.value (pairInput 0) (centre 1) 0‖) ∧
    (∀ i, i ≠ centre 2 → ‖SynthSpec.fdf (effWeight (pairInput 0).weight) (Synth.spectrum (pairInput 0) 0) (pairInput 0).lamSq
      (Synth.refLamSq (pairInput 0)) ((pairInput 0).phi i - Real.pi / 8)‖ < ‖Synth.value (pairInput 0) (centre 1) 0‖) ∧
    (∀ i, i ≠ centre 2 → ‖Synth.value (pairInput (Real.pi / 8)) i 0‖ < ‖Synth.value (pairInput (Real.pi / 8)) (centre 2) 0‖) := by
  have hpi := Real.pi_pos
  have hval : ∀ R i, ‖Synth.value (pairInput R) i 0‖ = |Real.cos (-(Real.pi / 4) + (i : ℕ) * (Real.pi / 8) - R)| := by
    intro R i
    rw [Synth.value_sym _ (pair_sym R), pair_norm]
    rfl
  have hlt : ∀ (i : Fin (2 + 3)) (m : ℕ), (i : ℕ) ≠ m → m ≤ 4 → |Real.cos (((i : ℕ) - m : ℝ) * (Real.pi / 8))| < 1 := by
    intro i m him hm
    have hi := i.isLt
    have hi' : ((i : ℕ) : ℝ) ≤ 4 := by exact_mod_cast (by omega : (i : ℕ) ≤ 4)
    have hm' : ((m : ℕ) : ℝ) ≤ 4 := by exact_mod_cast hm
    have hi0 : (0 : ℝ) ≤ ((i : ℕ) : ℝ) := Nat.cast_nonneg _
    have hm0 : (0 : ℝ) ≤ ((m : ℕ) : ℝ) := Nat.cast_nonneg _
    apply abs_cos_lt_one
    · apply mul_ne_zero
      · intro h
        apply him
        have : ((i : ℕ) : ℝ) = m := by linarith
        exact_mod_cast this
      · positivity
    · nlinarith
    · nlinarith
  have hne : ∀ (i : Fin (2 + 3)) (c : Fin 3), i ≠ centre (M := 2) c → (i : ℕ) ≠ c + 1 := by
    intro i c h h'
    apply h
    apply Fin.ext
    rw [h', val_centre]
  refine ⟨?_, ?_, ?_, ?_⟩
  · intro j
    rw [pair_spectrum, pair_spectrum]
    simp [pairInput]
  · intro i hi
    rw [hval, hval, val_centre]
    have := hlt i 2 (hne i 1 hi) (by norm_num)
    have e2 : (-(Real.pi / 4) + (((1 : Fin 3) : ℕ) + 1 : ℕ) * (Real.pi / 8) - 0 : ℝ) = 0 := by norm_num; ring
    rw [e2, Real.cos_zero, abs_one]
    convert this using 3
    push_cast
    ring
  · intro i hi
    rw [hval, pair_norm, val_centre]
    have := hlt i 3 (hne i 2 hi) (by norm_num)
    have e2 : (-(Real.pi / 4) + (((1 : Fin 3) : ℕ) + 1 : ℕ) * (Real.pi / 8) - 0 : ℝ) = 0 := by norm_num; ring
    rw [e2, Real.cos_zero, abs_one]
    convert this using 3
    simp only [pairInput]
    push_cast
    ring
  · intro i hi
    rw [hval, hval, val_centre]
    have := hlt i 3 (hne i 2 hi) (by norm_num)
    have e2 : (-(Real.pi / 4) + (((2 : Fin 3) : ℕ) + 1 : ℕ) * (Real.pi / 8) - Real.pi / 8 : ℝ) = 0 := by norm_num; ring
    rw [e2, Real.cos_zero, abs_one]
    convert this using 3
    push_cast
    ring

end Verif.Peak
