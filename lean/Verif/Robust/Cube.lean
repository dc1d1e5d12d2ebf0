import Verif.Robust.Response
import Verif.Pipe3D.Props
import Verif.Cube.Peaks

/-!
# A source in noise in a cube: the peak maps (C218)

The maps of the peak that are written with a cube (`create_peak_maps`, model `Cube.peakOf`) for a pixel with a
Faraday-thin source and noise. The noise is any polarisation that is added to the source, and may be other emission.
-/

namespace Verif.Robust

open Complex Verif.SynthSpec Verif.Pipe3D

variable {n m k : ℕ}

/-- Samples of an axis of step `d` that covers `phi0`: one is within half a step. -/
theorem nearest_sample (a d phi0 : ℝ) (hd : 0 < d) (h1 : a ≤ phi0) (h2 : phi0 ≤ a + ((k : ℝ) - 1) * d) :
    ∃ l : Fin k, |a + ((l : ℕ) : ℝ) * d - phi0| ≤ d / 2 := by
  set u := (phi0 - a) / d + 1 / 2 with hu
  have hu0 : 0 ≤ u := by
    have := div_nonneg (sub_nonneg.2 h1) hd.le
    linarith
  have hu1 : u < k := by
    have : (phi0 - a) / d ≤ (k : ℝ) - 1 := by rw [div_le_iff₀ hd]; linarith
    linarith
  have hphi : phi0 = a + (u - 1 / 2) * d := by rw [hu]; field_simp; ring
  have hf1 := Nat.floor_le hu0
  have hf2 := Nat.lt_floor_add_one u
  refine ⟨⟨⌊u⌋₊, (Nat.floor_lt hu0).2 hu1⟩, ?_⟩
  dsimp only
  rw [hphi, abs_le]
  constructor <;> nlinarith

/-- The largest sample of the spectrum of a source in noise, any flags and weights. -/
theorem noisy_largest (x : Synth.Input n m k) (q : Fin m) (p psi phi0 a d L s η ε Δ : ℝ) (e : Fin n → ℂ)
    (hp : 0 < p) (hd : 0 < d) (hs : 0 ≤ s)
    (hphi : ∀ i, x.phi i = a + (i : ℕ) * d) (hsym : SymGrid x.phi) (hw : ∀ j, 0 ≤ effWeight x.weight j)
    (hW : 0 < weightSum (effWeight x.weight) (fun j => (Synth.spectrum x q j).isSome = true))
    (hP : ∀ j, (Synth.spectrum x q j).isSome → Synth.spectrum x q j = some (thin p psi phi0 (x.lamSq j) + e j))
    (hΔ0 : 0 ≤ Δ)
    (hΔ : ∀ i j, (Synth.spectrum x q i).isSome → (Synth.spectrum x q j).isSome → |x.lamSq i - x.lamSq j| ≤ Δ)
    (hdΔ : d / 2 * Δ ≤ Real.pi) (h1 : a ≤ phi0) (h2 : phi0 ≤ a + ((k : ℝ) - 1) * d)
    (hfar : ∀ t, L < |t| → |t| ≤ ((k : ℝ) - 1) * d →
      ‖rmsf (effWeight x.weight) (fun j => (Synth.spectrum x q j).isSome = true) x.lamSq 0 t‖ ≤ s)
    (hnear : ∀ phi, |phi - phi0| ≤ max L (d / 2) →
      ‖fdf (effWeight x.weight) (fun j => (Synth.spectrum x q j).map fun _ => e j) x.lamSq 0 phi‖ ≤ η)
    (hnoise : ∀ phi, ‖fdf (effWeight x.weight) (fun j => (Synth.spectrum x q j).map fun _ => e j) x.lamSq 0 phi‖ ≤ ε)
    (hη : η + ε < (Real.cos (d / 2 * Δ) - s) * p) :
    (∃ l, Synth.value x l q ≠ 0) ∧ ∀ j, (∀ l, ‖Synth.value x l q‖ ≤ ‖Synth.value x j q‖) →
      |x.phi j - phi0| ≤ L ∧ Real.cos (d / 2 * Δ) * p - η ≤ ‖Synth.value x j q‖ ∧ ‖Synth.value x j q‖ ≤ p + η := by
  set L0 := Synth.refLamSq x with hL0
  set R : ℝ → ℂ := rmsf (effWeight x.weight) (fun j => (Synth.spectrum x q j).isSome = true) x.lamSq L0 with hR
  set Z := thin p psi phi0 L0 with hZd
  have hnZ : ‖Z‖ = p := by rw [hZd, norm_thin, abs_of_pos hp]
  have hvaln : ∀ l, |x.phi l - phi0| ≤ max L (d / 2) → ‖Synth.value x l q - Z * R (x.phi l - phi0)‖ ≤ η := by
    intro l hl
    rw [Synth.value_sym x hsym, fdf_noisy _ _ _ _ _ p psi phi0 e hP, add_sub_cancel_left, norm_fdf_reference _ _ _ 0]
    exact hnear _ hl
  have hval : ∀ l, ‖Synth.value x l q - Z * R (x.phi l - phi0)‖ ≤ ε := by
    intro l
    rw [Synth.value_sym x hsym, fdf_noisy _ _ _ _ _ p psi phi0 e hP, add_sub_cancel_left, norm_fdf_reference _ _ _ 0]
    exact hnoise _
  have hε0 : 0 ≤ ε := le_trans (norm_nonneg _) (hnoise 0)
  have hcen : ∀ t, |t| ≤ d / 2 → Real.cos (d / 2 * Δ) ≤ ‖R t‖ := by
    intro t ht
    have b1 := mul_le_mul_of_nonneg_right ht hΔ0
    refine le_trans ?_ (response_ge _ _ x.lamSq L0 t Δ (fun j _ => hw j) hW hΔ (by linarith))
    exact Real.cos_le_cos_of_nonneg_of_le_pi (mul_nonneg (abs_nonneg _) hΔ0) hdΔ b1
  have hR1 : ∀ t, ‖R t‖ ≤ 1 := fun t => norm_rmsf_le _ _ _ _ _ fun j _ => hw j
  have hbound : ∀ l r, ‖Synth.value x l q - Z * R (x.phi l - phi0)‖ ≤ r →
      ‖R (x.phi l - phi0)‖ * p - r ≤ ‖Synth.value x l q‖ ∧ ‖Synth.value x l q‖ ≤ ‖R (x.phi l - phi0)‖ * p + r := by
    intro l r h
    have e1 : ‖Z * R (x.phi l - phi0)‖ = ‖R (x.phi l - phi0)‖ * p := by rw [norm_mul, hnZ, mul_comm]
    have c1 := abs_le.1 (le_trans (abs_norm_sub_norm_le (Synth.value x l q) (Z * R (x.phi l - phi0))) h)
    rw [e1] at c1
    constructor <;> linarith [c1.1, c1.2]
  obtain ⟨l0, hl0⟩ := nearest_sample a d phi0 hd h1 h2
  rw [← hphi] at hl0
  have hb0 := (hbound l0 η (hvaln l0 (le_trans hl0 (le_max_right _ _)))).1
  have hc0 := mul_le_mul_of_nonneg_right (hcen _ hl0) hp.le
  have hsp := mul_nonneg hs hp.le
  refine ⟨⟨l0, fun h0 => ?_⟩, ?_⟩
  · rw [h0, norm_zero] at hb0
    linarith
  · intro j hj
    have hj0 := hj l0
    have hin : |x.phi j - phi0| ≤ L := by
      by_contra hcon
      push Not at hcon
      have hb1 := (hbound j ε (hval j)).2
      have hrange : |x.phi j - phi0| ≤ ((k : ℝ) - 1) * d := by
        have hjk : ((j : ℕ) : ℝ) ≤ (k : ℝ) - 1 := by
          have : ((j : ℕ) : ℝ) + 1 ≤ k := by exact_mod_cast j.isLt
          linarith
        have := mul_le_mul_of_nonneg_right hjk hd.le
        have h3 : 0 ≤ ((j : ℕ) : ℝ) * d := by positivity
        rw [hphi, abs_le]
        constructor <;> linarith
      have hfr : ‖R (x.phi j - phi0)‖ ≤ s := by
        rw [hR, rmsf_reference _ _ _ 0]
        exact hfar _ hcon hrange
      have := mul_le_mul_of_nonneg_right hfr hp.le
      linarith
    have hb2 := (hbound j η (hvaln j (le_trans hin (le_max_left _ _)))).2
    have := mul_le_mul_of_nonneg_right (hR1 (x.phi j - phi0)) hp.le
    exact ⟨hin, by linarith, by linarith⟩

/-! ## Cubes -/

/-- The documented weight of a channel of a cube: one, or the inverse of the square of its noise (zero where the noise
is blank; one without a noise file). -/
noncomputable def cubeWeight (x : In n m) (variance : Bool) (j : Fin n) : ℝ :=
  match x.rms, variance with
  | some r, true => match r j with
    | some v => 1 / v ^ 2
    | none => 0
  | _, _ => 1

/-- The usable voxels of pixel `q` hold a Faraday-thin source of fraction `p`, angle `psi`, depth `rm`, and noise `e` (as a
fraction of Stokes I). -/
def IsNoisyPixel (x : In n m) (q : Fin m) (p psi rm : ℝ) (e : Fin n → ℂ) : Prop :=
  ∀ j a b s, x.q j q = some a → x.u j q = some b → intensity x j q = some s → s ≠ 0 →
    (a : ℂ) + b * I = s * (p * exp (2 * I * (psi + rm * (((299792458 / x.freq j) ^ 2 : ℝ) : ℂ))) + e j)

open Classical in
/-- The response of pixel `q` to a source, at distance `t` in depth (modulus). -/
noncomputable def pixelResponse (x : In n m) (variance : Bool) (q : Fin m) (t : ℝ) : ℝ :=
  ‖(∑ j ∈ Finset.univ.filter (fun j => Usable x j q), (cubeWeight x variance j : ℂ) *
      exp (-2 * I * t * (((299792458 / x.freq j) ^ 2 : ℝ) : ℂ))) /
    ((∑ j ∈ Finset.univ.filter (fun j => Usable x j q), cubeWeight x variance j : ℝ) : ℂ)‖

open Classical in
/-- The Faraday depth spectrum of the noise of pixel `q`, as a fraction of Stokes I (modulus). -/
noncomputable def pixelNoise (x : In n m) (variance : Bool) (q : Fin m) (e : Fin n → ℂ) (phi : ℝ) : ℝ :=
  ‖(∑ j ∈ Finset.univ.filter (fun j => Usable x j q), (cubeWeight x variance j : ℂ) * e j *
      exp (-2 * I * phi * (((299792458 / x.freq j) ^ 2 : ℝ) : ℂ))) /
    ((∑ j ∈ Finset.univ.filter (fun j => Usable x j q), cubeWeight x variance j : ℝ) : ℂ)‖

theorem cubeWeight_eq (x : In n m) (o : Pipe1D.Opts) :
    effWeight (some (weight x o)) = cubeWeight x o.variance := by
  funext j
  unfold effWeight weight cubeWeight Pipe1D.weight
  cases x.rms with
  | none => cases o.variance <;> rfl
  | some r =>
    cases o.variance
    · simp
    · cases h : r j <;> simp [h]

theorem cubeWeight_nonneg (x : In n m) (variance : Bool) (j : Fin n) : 0 ≤ cubeWeight x variance j := by
  unfold cubeWeight
  split
  · split
    · positivity
    · exact le_rfl
  · exact zero_le_one

/-- The noise in the spectrum of a pixel is not larger than its largest noise in a usable channel. -/
theorem pixelNoise_le (x : In n m) (variance : Bool) (q : Fin m) (e : Fin n → ℂ) (phi ε : ℝ) (hε : 0 ≤ ε)
    (he : ∀ j, Usable x j q → ‖e j‖ ≤ ε) : pixelNoise x variance q e phi ≤ ε := by
  classical
  have hw := cubeWeight_nonneg x variance
  unfold pixelNoise
  simp only [mul_assoc]
  refine le_trans (norm_weighted_le _ _ _ fun j _ => hw j) ?_
  have hk : ∀ j, ‖e j * exp (-2 * (I * (phi * (((299792458 / x.freq j) ^ 2 : ℝ) : ℂ))))‖ = ‖e j‖ := by
    intro j
    rw [norm_mul]
    have := norm_kernel phi ((299792458 / x.freq j) ^ 2)
    rw [show -2 * I * (phi : ℂ) * (((299792458 / x.freq j) ^ 2 : ℝ) : ℂ) =
      -2 * (I * (phi * (((299792458 / x.freq j) ^ 2 : ℝ) : ℂ))) by ring] at this
    rw [this, mul_one]
  simp only [hk]
  rcases (Finset.sum_nonneg fun j (_ : j ∈ Finset.univ.filter (fun j => Usable x j q)) => hw j).eq_or_lt with h | h
  · rw [← h, div_zero]
    exact hε
  · exact weighted_mean_le _ _ _ ε (fun j _ => hw j) (fun j hj _ => he j (by simpa using hj)) h

theorem spectrum_noisy [NeZero n] (x : In n m) (o : Pipe1D.Opts) (q : Fin m) (p psi rm : ℝ) (e : Fin n → ℂ)
    (hx : IsNoisyPixel x q p psi rm e) (j : Fin n)
    (h : (Synth.spectrum (synthInput x o) q j).isSome = true) :
    Synth.spectrum (synthInput x o) q j = some (thin p psi rm ((synthInput x o).lamSq j) + e j) := by
  obtain ⟨a, b, s, ha, hb, hi, hs⟩ := (spectrum_isSome x o j q).mp h
  have hx' := hx j a b s ha hb hi hs
  unfold Synth.spectrum synthInput
  dsimp only
  rw [divided_eq, divided_eq, ha, hb, hi]
  simp only [StokesI.divNaN, Option.bind_some, if_neg hs, pol, Option.map_some]
  congr 1
  have hz : (s : ℂ) ≠ 0 := by exact_mod_cast hs
  apply mul_left_cancel₀ hz
  rw [show (thin p psi rm (Pipe1D.lamSq x.freq j) + e j) =
    (p * exp (2 * I * (psi + rm * (((299792458 / x.freq j) ^ 2 : ℝ) : ℂ))) + e j) by
      unfold thin Pipe1D.lamSq Pipe1D.c; rfl, ← hx']
  apply Complex.ext
  · simp; field_simp
  · simp; field_simp

/-- C218. The peak maps of a cube, in a pixel with a Faraday-thin source of fraction `p` and depth `rm` and with noise; any
channels, flags, weights and options. Let the response of the pixel be at most `s` further than `L` from its centre, and the
spectrum of the noise at most `η` near the source and `ε` elsewhere, with `η + ε` less than `(cos (Δ d / 2) - s) p`, where `Δ` is
the width of the usable band in wavelength squared and `d` the step of the axis, which covers the source. Then the peak RM of
the pixel is within `L` of the source and the peak intensity between `(cos (Δ d / 2) p - η) S` and `(p + η) S`, with `S` the
Stokes I by which the pixel is multiplied. -/
theorem peak_noisy_source [NeZero n] (x : In n m) (o : Pipe1D.Opts) (hreg : Regular x o) (q : Fin m) (S p psi rm L s η ε Δ : ℝ) (e : Fin n → ℂ)
    (hS : scale x o q = some (some S)) (hS0 : 0 < S) (hp : 0 < p) (hd : 0 < (axisParams x o).1) (hs : 0 ≤ s)
    (hx : IsNoisyPixel x q p psi rm e) (hgood : ∃ j, Usable x j q ∧ 0 < cubeWeight x o.variance j)
    (hΔ : ∀ i j, Usable x i q → Usable x j q → |(299792458 / x.freq i) ^ 2 - (299792458 / x.freq j) ^ 2| ≤ Δ)
    (hdΔ : (axisParams x o).1 / 2 * Δ ≤ Real.pi)
    (hl : ∃ l, |rm| ≤ Axis.phiAxis (axisParams x o).2 (axisParams x o).1 l)
    (hfar : ∀ t, L < |t| → |t| ≤ ((nPhi x o : ℝ) - 1) * (axisParams x o).1 → pixelResponse x o.variance q t ≤ s)
    (hnear : ∀ phi, |phi - rm| ≤ max L ((axisParams x o).1 / 2) → pixelNoise x o.variance q e phi ≤ η)
    (hnoise : ∀ phi, pixelNoise x o.variance q e phi ≤ ε)
    (hη : η + ε < (Real.cos ((axisParams x o).1 / 2 * Δ) - s) * p)
    (ph : ℕ → ℝ) (hph : ∀ l : Fin (nPhi x o), ph l = Axis.phiAxis (axisParams x o).2 (axisParams x o).1 l) :
    ∃ F : Fin (nPhi x o) → ℂ, (∀ l, fdfCube x o l q = some (some (F l))) ∧
      ∃ A v, Cube.peakOf ph ((List.ofFn F).map some) = some (some A, some v) ∧ |v - rm| ≤ L ∧
        (Real.cos ((axisParams x o).1 / 2 * Δ) * p - η) * S ≤ A ∧ A ≤ (p + η) * S := by
  classical
  obtain ⟨cc, hN, hform, hsym, -⟩ := Axis.phiAxis_spec (axisParams x o).2 (axisParams x o).1 hd
  set inp := synthInput x o with hinp
  set d := (axisParams x o).1 with hdd
  have hN' : nPhi x o = 2 * cc + 1 := hN
  have hphi : ∀ i, inp.phi i = -(cc : ℝ) * d + ((i : ℕ) : ℝ) * d := by
    intro i
    show Axis.phiAxis _ _ i = _
    rw [hform i]
    ring
  have hNr : ((nPhi x o : ℕ) : ℝ) = 2 * cc + 1 := by rw [hN']; push_cast; ring
  have hrm : |rm| ≤ cc * d := by
    obtain ⟨l, hl⟩ := hl
    rw [hform l] at hl
    have h2 : ((l : ℕ) : ℝ) ≤ 2 * cc := by
      have := l.isLt
      exact_mod_cast (by omega : (l : ℕ) ≤ 2 * cc)
    nlinarith
  have hrm' := abs_le.1 hrm
  have hwe : effWeight inp.weight = cubeWeight x o.variance := cubeWeight_eq x o
  have hgd : ∀ i, (Synth.spectrum inp q i).isSome = true ↔ Usable x i q := fun i => spectrum_isSome x o i q
  have hfilt : Finset.univ.filter (fun i => (Synth.spectrum inp q i).isSome = true) =
      Finset.univ.filter (fun j => Usable x j q) := by
    ext i
    simp [hgd]
  have hw0 : ∀ i, 0 ≤ effWeight inp.weight i := weight_nonneg x o
  have hW : 0 < weightSum (effWeight inp.weight) (fun i => (Synth.spectrum inp q i).isSome = true) := by
    obtain ⟨j, hj, hwj⟩ := hgood
    unfold weightSum
    refine Finset.sum_pos' (fun i _ => hw0 i) ⟨j, by simpa using (hgd j).2 hj, ?_⟩
    rw [hwe]; exact hwj
  have hfdf : ∀ phi, ‖fdf (effWeight inp.weight) (fun j => (Synth.spectrum inp q j).map fun _ => e j) inp.lamSq 0 phi‖ =
      pixelNoise x o.variance q e phi := by
    intro phi
    rw [hwe]
    unfold fdf weightSum pixelNoise
    simp only [Option.isSome_map]
    rw [hfilt]
    congr 2
    apply Finset.sum_congr rfl
    intro i hi
    obtain ⟨z, hz⟩ := Option.isSome_iff_exists.mp ((hgd i).mpr (by simpa using hi))
    rw [hz, Option.map_some, Option.getD_some]
    congr 2
    show _ = -2 * I * (phi : ℂ) * (((299792458 / x.freq i) ^ 2 : ℝ) : ℂ)
    rw [show inp.lamSq i = (299792458 / x.freq i) ^ 2 from rfl]
    push_cast
    ring
  have hresp : ∀ t, ‖rmsf (effWeight inp.weight) (fun j => (Synth.spectrum inp q j).isSome = true) inp.lamSq 0 t‖ =
      pixelResponse x o.variance q t := by
    intro t
    rw [hwe]
    unfold rmsf weightSum pixelResponse
    rw [hfilt]
    congr 2
    apply Finset.sum_congr rfl
    intro i _
    congr 2
    rw [show inp.lamSq i = (299792458 / x.freq i) ^ 2 from rfl]
    push_cast
    ring
  have hΔ0 : 0 ≤ Δ := by
    obtain ⟨j, hj, -⟩ := hgood
    exact le_trans (abs_nonneg _) (hΔ j j hj hj)
  obtain ⟨hne, hmax⟩ := noisy_largest inp q p psi rm (-(cc : ℝ) * d) d L s η ε Δ e hp hd hs hphi hsym hw0 hW
    (spectrum_noisy x o q p psi rm e hx) hΔ0
    (fun i j hi hj => hΔ i j ((hgd i).1 hi) ((hgd j).1 hj)) hdΔ (by linarith [hrm'.1]) (by rw [hNr]; linarith [hrm'.2])
    (fun t t1 t2 => by rw [hresp]; exact hfar t t1 t2) (fun phi h => by rw [hfdf]; exact hnear phi h)
    (fun phi => by rw [hfdf]; exact hnoise phi) hη
  refine ⟨fun l => Synth.value inp l q * (S : ℂ), ?_, ?_⟩
  · intro l
    unfold fdfCube
    rw [if_pos hreg, hS]
    have hv : Synth.fdf inp l q = some (Synth.value inp l q) := (Synth.fdf_blank_iff inp q).2 hne l
    simp only [Option.map_some, Option.bind_some, ← hinp, hv]
  · have hnS : ‖(S : ℂ)‖ = S := by rw [Complex.norm_real, Real.norm_of_nonneg hS0.le]
    obtain ⟨j, A, h1, ⟨h2, h3, -⟩, h4, h5⟩ := Cube.peak_maps ph (List.ofFn fun l => Synth.value inp l q * (S : ℂ)) (by
      intro hc
      have := congrArg List.length hc
      rw [List.length_ofFn, List.length_nil] at this
      omega)
    have hjn : j < nPhi x o := by simpa using h4
    obtain ⟨g1, g2, g3⟩ := hmax ⟨j, hjn⟩ (by
      intro l
      have := h3 l (by simp)
      simp only [List.getElem_map, List.getElem_ofFn, norm_mul, hnS] at this
      exact le_of_mul_le_mul_right this hS0)
    rw [List.getElem_ofFn, norm_mul, hnS] at h5
    refine ⟨A, ph j, h1, ?_, ?_, ?_⟩
    · rw [hph ⟨j, hjn⟩]
      exact g1
    · rw [h5]
      exact mul_le_mul_of_nonneg_right g2 hS0.le
    · rw [h5]
      exact mul_le_mul_of_nonneg_right g3 hS0.le

/-! ### The hypotheses can be met -/

/-- Two channels at wavelengths squared 1 and 4, one pixel: a source of fraction 1 at depth 1/10, and noise 1/20. -/
noncomputable def demoCube : In 2 1 where
  q := fun j _ => some ((exp (2 * I * (0 + (1 / 10 : ℝ) * (((299792458 / ![299792458, 149896229] j) ^ 2 : ℝ) : ℂ))) + (1 / 20 : ℝ)).re)
  u := fun j _ => some ((exp (2 * I * (0 + (1 / 10 : ℝ) * (((299792458 / ![299792458, 149896229] j) ^ 2 : ℝ) : ℂ))) + (1 / 20 : ℝ)).im)
  i := none
  freq := ![299792458, 149896229]
  rms := none

/-- Depths -1/4, 0, 1/4. -/
noncomputable def demoOpts : Pipe1D.Opts where
  variance := true
  superRes := false
  dPhi := some (1 / 4)
  phiMax := some (1 / 4)
  nSamples := 10

theorem demo_usable (j : Fin 2) : Usable demoCube j 0 := ⟨_, _, 1, rfl, rfl, rfl, one_ne_zero⟩

theorem demo_lamSq : (299792458 / demoCube.freq 0) ^ 2 = 1 ∧ (299792458 / demoCube.freq 1) ^ 2 = 4 := by
  constructor
  · show ((299792458 : ℝ) / 299792458) ^ 2 = 1
    norm_num
  · show ((299792458 : ℝ) / 149896229) ^ 2 = 4
    norm_num

theorem demo_regular : Regular demoCube demoOpts := by
  refine ⟨fun j => ?_, ⟨0, 1, ?_⟩, (by norm_num : (1 / 4 : ℝ) ≠ 0), fun r h => by simp [demoCube] at h⟩
  · fin_cases j
    · show (0 : ℝ) < 299792458
      norm_num
    · show (0 : ℝ) < 149896229
      norm_num
  · show (299792458 : ℝ) ≠ 149896229
    norm_num

theorem demo_response (t : ℝ) : pixelResponse demoCube true 0 t = |Real.cos (3 * t)| := by
  classical
  unfold pixelResponse
  have hf : Finset.univ.filter (fun j => Usable demoCube j 0) = Finset.univ := by
    ext j; simp [demo_usable]
  rw [hf, Fin.sum_univ_two, Fin.sum_univ_two, demo_lamSq.1, demo_lamSq.2]
  have hw : ∀ j, cubeWeight demoCube true j = 1 := fun j => rfl
  rw [hw, hw]
  have e1 : (((1 : ℝ) : ℂ) * exp (-2 * I * t * ((1 : ℝ) : ℂ)) + ((1 : ℝ) : ℂ) * exp (-2 * I * t * ((4 : ℝ) : ℂ))) / (((1 + 1 : ℝ)) : ℂ) =
      exp (((-5 * t : ℝ) : ℂ) * I) * ((Real.cos (3 * t) : ℝ) : ℂ) := by
    rw [Complex.ofReal_cos, Complex.cos, mul_div_assoc', mul_add, ← Complex.exp_add, ← Complex.exp_add]
    push_cast
    rw [show (1 : ℂ) + 1 = 2 by norm_num, one_mul, one_mul]
    congr 3 <;> ring
  rw [e1, norm_mul, Complex.norm_exp_ofReal_mul_I, one_mul, Complex.norm_real, Real.norm_eq_abs]

/-- C218, a case: depths -1/4, 0 and 1/4, source at 1/10, the peak is within 1/4 of the source although noise is added. -/
theorem demo_peak (ph : ℕ → ℝ)
    (hph : ∀ l : Fin (nPhi demoCube demoOpts), ph l = Axis.phiAxis (axisParams demoCube demoOpts).2 (axisParams demoCube demoOpts).1 l) :
    ∃ F : Fin (nPhi demoCube demoOpts) → ℂ, (∀ l, fdfCube demoCube demoOpts l 0 = some (some (F l))) ∧
      ∃ A v, Cube.peakOf ph ((List.ofFn F).map some) = some (some A, some v) ∧ |v - 1 / 10| ≤ 1 / 4 ∧ 7 / 8 ≤ A ∧ A ≤ 21 / 20 := by
  have ha1 : (axisParams demoCube demoOpts).1 = 1 / 4 := rfl
  have ha2 : (axisParams demoCube demoOpts).2 = 1 / 4 := rfl
  obtain ⟨c, h1, h2, -, h4⟩ := Axis.phiAxis_spec (1 / 4) (1 / 4) (by norm_num)
  have hc : c = 1 := by
    rw [abs_of_pos (by norm_num : (0 : ℝ) < 1 / 4)] at h4
    obtain ⟨h5, h6⟩ := abs_le.1 h4
    have h7 : (c : ℝ) < 2 := by linarith
    have h8 : (0 : ℝ) < c := by linarith
    have h7' : c < 2 := by exact_mod_cast h7
    have h8' : 0 < c := by exact_mod_cast h8
    omega
  subst hc
  have hN : nPhi demoCube demoOpts = 3 := h1
  have hcos1 := Real.one_sub_sq_div_two_le_cos (x := 1 / 4 / 2 * 3)
  have hcos2 : Real.cos (3 / 4) ≤ 37 / 50 := by
    have := Real.cos_bound (x := 3 / 4) (by rw [abs_of_pos] <;> norm_num)
    rw [abs_of_pos (by norm_num : (0 : ℝ) < 3 / 4)] at this
    have := (abs_le.1 this).2
    norm_num at this ⊢
    linarith
  have hnoise : ∀ phi, pixelNoise demoCube demoOpts.variance 0 (fun _ => ((1 / 20 : ℝ) : ℂ)) phi ≤ 1 / 20 := by
    intro phi
    refine pixelNoise_le _ _ _ _ _ _ (by norm_num) fun j _ => ?_
    rw [Complex.norm_real, Real.norm_of_nonneg (by norm_num)]
  obtain ⟨F, hF, A, v, g1, g2, g3, g4⟩ := peak_noisy_source demoCube demoOpts demo_regular 0 1 1 0 (1 / 10) (1 / 4) (37 / 50) (1 / 20) (1 / 20) 3
    (fun _ => ((1 / 20 : ℝ) : ℂ)) rfl one_pos one_pos (by rw [ha1]; norm_num) (by norm_num)
    (by
      intro j a b s ha hb hi _
      have hs : (1 : ℝ) = s := Option.some.inj hi
      have ha' := Option.some.inj ha
      have hb' := Option.some.inj hb
      rw [← ha', ← hb', ← hs, Complex.re_add_im]
      push_cast
      rw [one_mul, one_mul]
      rfl)
    ⟨0, demo_usable 0, one_pos⟩
    (by
      intro i j _ _
      have h0 := demo_lamSq.1
      have h1 := demo_lamSq.2
      fin_cases i <;> fin_cases j <;> simp only [Fin.zero_eta, Fin.mk_one, h0, h1] <;> norm_num)
    (by rw [ha1]; have := Real.pi_gt_three; linarith)
    ⟨⟨2, by rw [ha1, ha2, h1]; norm_num⟩, by
      refine le_trans ?_ (le_of_eq (h2 ⟨2, by rw [h1]; norm_num⟩).symm)
      rw [abs_of_pos] <;> norm_num⟩
    (by
      intro t t1 t2
      rw [hN, ha1] at t2
      rw [show demoOpts.variance = true from rfl, demo_response, abs_le]
      norm_num at t2
      have e3 : Real.cos (3 * t) = Real.cos (3 * |t|) := by
        rw [← Real.cos_abs (3 * t), abs_mul, abs_of_pos (by norm_num : (0 : ℝ) < 3)]
      have hpi := Real.pi_gt_three
      have hpos : 0 ≤ Real.cos (3 * |t|) := Real.cos_nonneg_of_neg_pi_div_two_le_of_le (by linarith) (by linarith)
      have hle : Real.cos (3 * |t|) ≤ Real.cos (3 / 4) :=
        Real.cos_le_cos_of_nonneg_of_le_pi (by norm_num) (by linarith) (by linarith)
      rw [e3]
      constructor <;> linarith)
    (fun phi _ => hnoise phi) hnoise
    (by rw [ha1]; norm_num at hcos1 ⊢; linarith) ph hph
  refine ⟨F, hF, A, v, g1, g2, ?_, by linarith⟩
  rw [ha1] at g3
  norm_num at hcos1 g3
  linarith

end Verif.Robust
