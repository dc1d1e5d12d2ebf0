import Verif.Clean.Bridge
import Mathlib.Topology.Algebra.InfiniteSum.Real
import Mathlib.Analysis.Normed.Group.InfiniteSum
import Mathlib.Topology.Algebra.InfiniteSum.NatInt

/-!
# Convergence of RM-CLEAN (C137, C138)

The specification is the misfit of a list of components to the measured polarised spectrum. Each
iteration lowers it by `gain (2 - gain) |peak|²`; this bounds the number of iterations.
-/

open Complex

set_option linter.unusedSectionVars false

namespace Verif.Clean

open Verif.NumPy Verif.SynthSpec

variable {n m N : ℕ} [NeZero N]

/-- The polarised spectrum of thin components `cc k` at depths `phi k`, with angles referred to the
reference `L`. -/
noncomputable def compSpec (lamSq : Fin n → ℝ) (L : ℝ) (phi : Fin N → ℝ) (cc : Fin N → ℂ)
    (j : Fin n) : ℂ :=
  ∑ k, cc k * exp (2 * I * (phi k * (lamSq j - L : ℝ)))

/-- Specification: weighted mean square difference of data and component spectrum over the unflagged
channels. -/
noncomputable def misfit (w : Fin n → ℝ) (S : Fin n → Option ℂ) (lamSq : Fin n → ℝ) (L : ℝ)
    (phi : Fin N → ℝ) (cc : Fin N → ℂ) : ℝ :=
  (∑ j ∈ Finset.univ.filter (fun j => (S j).isSome),
      w j * ‖(S j).getD 0 - compSpec lamSq L phi cc j‖ ^ 2) /
    weightSum w (fun j => (S j).isSome = true)

/-- The data with the component spectrum taken off. -/
noncomputable def remaining (S : Fin n → Option ℂ) (lamSq : Fin n → ℝ) (L : ℝ) (phi : Fin N → ℝ)
    (cc : Fin N → ℂ) (j : Fin n) : Option ℂ :=
  (S j).map fun v => v - compSpec lamSq L phi cc j

theorem isSome_remaining (S : Fin n → Option ℂ) (lamSq : Fin n → ℝ) (L : ℝ) (phi : Fin N → ℝ)
    (cc : Fin N → ℂ) (j : Fin n) : (remaining S lamSq L phi cc j).isSome = (S j).isSome := by
  simp [remaining]

/-- Synthesis of the remaining spectrum. -/
theorem fdf_remaining (w : Fin n → ℝ) (S : Fin n → Option ℂ) (lamSq : Fin n → ℝ) (L t : ℝ)
    (phi : Fin N → ℝ) (cc : Fin N → ℂ) :
    fdf w (remaining S lamSq L phi cc) lamSq L t =
      (∑ j ∈ Finset.univ.filter (fun j => (S j).isSome),
        (w j : ℂ) * ((S j).getD 0 - compSpec lamSq L phi cc j) *
          exp (-2 * I * t * (lamSq j - L))) /
      (weightSum w (fun j => (S j).isSome = true) : ℝ) := by
  unfold fdf
  simp only [isSome_remaining]
  congr 1
  apply Finset.sum_congr rfl
  intro j hj
  obtain ⟨v, hv⟩ := Option.isSome_iff_exists.mp (by simpa using hj : (S j).isSome = true)
  simp [remaining, hv]

/-- Adding to one component adds a thin source to the spectrum. -/
theorem compSpec_add (lamSq : Fin n → ℝ) (L : ℝ) (phi : Fin N → ℝ) (s : State N) (idx : Fin N)
    (CC : ℂ) (j : Fin n) :
    compSpec lamSq L phi (fun i => if i = idx then s.cc i + CC else s.cc i) j =
      compSpec lamSq L phi s.cc j + CC * exp (2 * I * (phi idx * (lamSq j - L : ℝ))) :=
  sum_step s idx (fun k => exp (2 * I * (phi k * (lamSq j - L : ℝ)))) CC

/-- Invariant: the residual is the synthesis of the remaining spectrum. -/
def Tracks (w : Fin n → ℝ) (S : Fin n → Option ℂ) (lamSq : Fin n → ℝ) (L : ℝ) (phi : Fin N → ℝ)
    (s : State N) : Prop :=
  ∀ l, s.resid l = fdf w (remaining S lamSq L phi s.cc) lamSq L (phi l)

theorem step_tracks {N2 : ℕ} [NeZero N2] (w : Fin n → ℝ) (S : Fin n → Option ℂ) (lamSq : Fin n → ℝ)
    (L : ℝ) (phi : Fin N → ℝ) (P : Params N N2)
    (hP : ∀ k i, shifted P k i = rmsf w (fun j => (S j).isSome = true) lamSq L (phi i - phi k))
    (s : State N) (idx : Fin N) (h : Tracks w S lamSq L phi s) :
    Tracks w S lamSq L phi (step P s idx) := by
  intro l
  have h1 := h l
  rw [fdf_remaining] at h1
  rw [fdf_remaining]
  change s.resid l - (P.gain : ℂ) * s.resid idx * shifted P idx l = _
  have h2 : ∀ j, compSpec lamSq L phi (step P s idx).cc j = compSpec lamSq L phi s.cc j +
      (P.gain : ℂ) * s.resid idx * exp (2 * I * (phi idx * (lamSq j - L : ℝ))) :=
    fun j => compSpec_add lamSq L phi s idx _ j
  simp only [h2]
  generalize (P.gain : ℂ) * s.resid idx = CC
  rw [h1, hP]
  unfold rmsf
  rw [← mul_div_assoc, ← sub_div, Finset.mul_sum, ← Finset.sum_sub_distrib]
  congr 1
  apply Finset.sum_congr rfl
  intro j _
  have : exp (-2 * I * ((phi l - phi idx : ℝ) : ℂ) * (lamSq j - L)) =
      exp (2 * I * (phi idx * (lamSq j - L : ℝ))) * exp (-2 * I * phi l * (lamSq j - L)) := by
    rw [← Complex.exp_add]; congr 1; push_cast; ring
  rw [this]
  ring

theorem norm_phase (a : ℝ) : ‖exp (2 * I * (a : ℂ))‖ = 1 := by
  have : (2 * I * (a : ℂ)) = ((2 * a : ℝ) : ℂ) * I := by push_cast; ring
  rw [this, Complex.norm_exp_ofReal_mul_I]

theorem conj_phase (a : ℝ) : (starRingEnd ℂ) (exp (2 * I * (a : ℂ))) = exp (-2 * I * (a : ℂ)) := by
  rw [← Complex.exp_conj]
  congr 1
  rw [map_mul, map_mul, Complex.conj_I, Complex.conj_ofReal, Complex.conj_ofNat]
  ring

/-- One iteration lowers the misfit by `gain (2 - gain) |peak|²`. -/
theorem misfit_step {N2 : ℕ} [NeZero N2] (w : Fin n → ℝ) (S : Fin n → Option ℂ) (lamSq : Fin n → ℝ)
    (L : ℝ) (phi : Fin N → ℝ) (P : Params N N2)
    (hW : weightSum w (fun j => (S j).isSome = true) ≠ 0)
    (s : State N) (idx : Fin N) (h : Tracks w S lamSq L phi s) :
    misfit w S lamSq L phi (step P s idx).cc =
      misfit w S lamSq L phi s.cc - P.gain * (2 - P.gain) * ‖s.resid idx‖ ^ 2 := by
  set r := s.resid idx with hr
  set g := P.gain with hg
  set W := weightSum w (fun j => (S j).isSome = true) with hWd
  set G := Finset.univ.filter (fun j => (S j).isSome) with hG
  have h1 : r * W = ∑ j ∈ G, (w j : ℂ) * ((S j).getD 0 - compSpec lamSq L phi s.cc j) *
      exp (-2 * I * phi idx * (lamSq j - L)) := by
    have := h idx
    rw [fdf_remaining] at this
    rw [hr, this, div_mul_cancel₀]
    exact_mod_cast hW
  have h2 : ∀ j, ‖(S j).getD 0 - compSpec lamSq L phi (step P s idx).cc j‖ ^ 2 =
      ‖(S j).getD 0 - compSpec lamSq L phi s.cc j‖ ^ 2 + g ^ 2 * ‖r‖ ^ 2 -
        2 * g * ((starRingEnd ℂ) r * (((S j).getD 0 - compSpec lamSq L phi s.cc j) *
          exp (-2 * I * phi idx * (lamSq j - L)))).re := by
    intro j
    have e : compSpec lamSq L phi (step P s idx).cc j = compSpec lamSq L phi s.cc j +
        (g : ℂ) * r * exp (2 * I * (phi idx * (lamSq j - L : ℝ))) :=
      compSpec_add lamSq L phi s idx _ j
    rw [e, ← sub_sub]
    generalize (S j).getD 0 - compSpec lamSq L phi s.cc j = v
    have e1 : (-2 * I * phi idx * (lamSq j - L) : ℂ) =
      -2 * I * ((phi idx * (lamSq j - L) : ℝ) : ℂ) := by push_cast; ring
    have e2 : (2 * I * (phi idx * (lamSq j - L : ℝ)) : ℂ) =
      2 * I * ((phi idx * (lamSq j - L) : ℝ) : ℂ) := by push_cast; ring
    rw [e1, e2, ← conj_phase]
    generalize phi idx * (lamSq j - L) = a
    have hn := norm_phase a
    generalize exp (2 * I * (a : ℂ)) = z at hn
    have hz : normSq z = 1 := by rw [Complex.normSq_eq_norm_sq, hn]; norm_num
    simp only [← Complex.normSq_eq_norm_sq] at *
    rw [Complex.normSq_sub, map_mul, map_mul, hz, mul_one]
    have e3 : (v * (starRingEnd ℂ) ((g : ℂ) * r * z)).re =
        g * ((starRingEnd ℂ) r * (v * (starRingEnd ℂ) z)).re := by
      rw [map_mul, map_mul, Complex.conj_ofReal]
      have : v * ((g : ℂ) * (starRingEnd ℂ) r * (starRingEnd ℂ) z) =
        (g : ℂ) * ((starRingEnd ℂ) r * (v * (starRingEnd ℂ) z)) := by ring
      rw [this, Complex.re_ofReal_mul]
    rw [e3, Complex.normSq_ofReal]
    ring
  have h3 : ∑ j ∈ G, w j * ((starRingEnd ℂ) r * (((S j).getD 0 - compSpec lamSq L phi s.cc j) *
      exp (-2 * I * phi idx * (lamSq j - L)))).re = ‖r‖ ^ 2 * W := by
    have : ((starRingEnd ℂ) r * (r * W)).re = ‖r‖ ^ 2 * W := by
      rw [← mul_assoc, mul_comm ((starRingEnd ℂ) r), Complex.mul_conj, Complex.normSq_eq_norm_sq,
        ← Complex.ofReal_mul, Complex.ofReal_re]
    rw [← this, h1, Finset.mul_sum, Complex.re_sum]
    apply Finset.sum_congr rfl
    intro j _
    rw [← Complex.re_ofReal_mul]
    congr 1; ring
  have h4 : ∑ j ∈ G, w j = W := rfl
  unfold misfit
  rw [← hG, ← hWd]
  have h5 : ∑ j ∈ G, w j * ‖(S j).getD 0 - compSpec lamSq L phi (step P s idx).cc j‖ ^ 2 =
      ∑ j ∈ G, w j * ‖(S j).getD 0 - compSpec lamSq L phi s.cc j‖ ^ 2 -
        g * (2 - g) * ‖r‖ ^ 2 * W := by
    have : ∀ j ∈ G, w j * ‖(S j).getD 0 - compSpec lamSq L phi (step P s idx).cc j‖ ^ 2 =
        w j * ‖(S j).getD 0 - compSpec lamSq L phi s.cc j‖ ^ 2 + w j * (g ^ 2 * ‖r‖ ^ 2) -
        2 * g * (w j * ((starRingEnd ℂ) r * (((S j).getD 0 - compSpec lamSq L phi s.cc j) *
          exp (-2 * I * phi idx * (lamSq j - L)))).re) := by
      intro j _
      rw [h2 j]; ring
    rw [Finset.sum_congr rfl this, Finset.sum_sub_distrib, Finset.sum_add_distrib, ← Finset.sum_mul,
      ← Finset.mul_sum, h3, h4]
    ring
  rw [h5]
  field_simp

/-- The peak of the residual reaches the bound of the loop condition. -/
theorem peak_ge {N2 : ℕ} (P : Params N N2) (s : State N) (b : ℝ) (hbc : b ≤ P.cutoff ∨ b = 0)
    (hc : P.cutoff ≤ npMax (fun i => ‖s.resid i‖)) :
    b ≤ ‖s.resid (npArgmax fun i => ‖s.resid i‖)‖ := by
  rcases hbc with h | h
  · exact h.trans hc
  · rw [h]; exact norm_nonneg _

/-- What the first stage does to the misfit: each iteration takes off at least
`gain (2 - gain) cutoff²`. -/
theorem loop1_misfit {N2 : ℕ} [NeZero N2] (w : Fin n → ℝ) (S : Fin n → Option ℂ) (lamSq : Fin n → ℝ)
    (L : ℝ) (phi : Fin N → ℝ) (P : Params N N2) (hg : 0 ≤ P.gain) (hg2 : P.gain ≤ 2)
    (hW : weightSum w (fun j => (S j).isSome = true) ≠ 0)
    (hP : ∀ k i, shifted P k i = rmsf w (fun j => (S j).isSome = true) lamSq L (phi i - phi k))
    (b : ℝ) (hb : 0 ≤ b) (hbc : b ≤ P.cutoff ∨ b = 0)
    (fuel : ℕ) (s : State N) (h : Tracks w S lamSq L phi s) :
    Tracks w S lamSq L phi (loop1 P fuel s) ∧
    misfit w S lamSq L phi (loop1 P fuel s).cc +
      P.gain * (2 - P.gain) * b ^ 2 * (((loop1 P fuel s).iter : ℝ) - (s.iter : ℝ)) ≤
      misfit w S lamSq L phi s.cc := by
  induction fuel generalizing s with
  | zero => exact ⟨h, by simp [loop1]⟩
  | succ f ih =>
    unfold loop1
    split_ifs with hc
    · have hpk := peak_ge P s b hbc hc
      revert hpk
      generalize (npArgmax fun i => ‖s.resid i‖) = idx
      intro hpk
      obtain ⟨h1, h2⟩ := ih (step P s idx) (step_tracks w S lamSq L phi P hP s idx h)
      refine ⟨h1, ?_⟩
      rw [misfit_step w S lamSq L phi P hW s idx h] at h2
      have e : ((step P s idx).iter : ℝ) = s.iter + 1 := by
        change ((s.iter + 1 : ℕ) : ℝ) = _; push_cast; ring
      rw [e] at h2
      have hk : 0 ≤ P.gain * (2 - P.gain) := mul_nonneg hg (by linarith)
      have := mul_le_mul_of_nonneg_left (pow_le_pow_left₀ hb hpk 2) hk
      linarith
    · exact ⟨h, by simp⟩

/-- The same for the second stage and its threshold. -/
theorem loop2_misfit {N2 : ℕ} [NeZero N2] (w : Fin n → ℝ) (S : Fin n → Option ℂ) (lamSq : Fin n → ℝ)
    (L : ℝ) (phi : Fin N → ℝ) (P : Params N N2) (hg : 0 ≤ P.gain) (hg2 : P.gain ≤ 2)
    (hW : weightSum w (fun j => (S j).isSome = true) ≠ 0)
    (hP : ∀ k i, shifted P k i = rmsf w (fun j => (S j).isSome = true) lamSq L (phi i - phi k))
    (b : ℝ) (hb : 0 ≤ b) (hbc : (∀ v, P.window = some v → b ≤ v) ∨ b = 0) (M : Fin N → Prop)
    (fuel : ℕ) (s : State N) (h : Tracks w S lamSq L phi s) :
    Tracks w S lamSq L phi (loop2 P M fuel s) ∧
    misfit w S lamSq L phi (loop2 P M fuel s).cc +
      P.gain * (2 - P.gain) * b ^ 2 * (((loop2 P M fuel s).iter : ℝ) - (s.iter : ℝ)) ≤
      misfit w S lamSq L phi s.cc := by
  induction fuel generalizing s with
  | zero => exact ⟨h, by simp [loop2]⟩
  | succ f ih =>
    unfold loop2
    split_ifs with hc
    · have hpk : b ≤ ‖s.resid (npArgmax (maskedAbs M s.resid))‖ := by
        rcases hbc with hv | hv
        · rw [cond2_iff] at hc
          obtain ⟨v, hw, i, hi, hle⟩ := hc
          have h1 := le_npArgmax (maskedAbs M s.resid) i
          rw [maskedAbs_pos hi, maskedAbs_pos (npMax_maskedAbs_mem M s.resid ⟨i, hi⟩),
            WithBot.coe_le_coe] at h1
          exact (hv v hw).trans (hle.trans h1)
        · rw [hv]; exact norm_nonneg _
      revert hpk
      generalize (npArgmax (maskedAbs M s.resid)) = idx
      intro hpk
      obtain ⟨h1, h2⟩ := ih (step P s idx) (step_tracks w S lamSq L phi P hP s idx h)
      refine ⟨h1, ?_⟩
      rw [misfit_step w S lamSq L phi P hW s idx h] at h2
      have e : ((step P s idx).iter : ℝ) = s.iter + 1 := by
        change ((s.iter + 1 : ℕ) : ℝ) = _; push_cast; ring
      rw [e] at h2
      have hk : 0 ≤ P.gain * (2 - P.gain) := mul_nonneg hg (by linarith)
      have := mul_le_mul_of_nonneg_left (pow_le_pow_left₀ hb hpk 2) hk
      linarith
    · exact ⟨h, by simp⟩

theorem misfit_nonneg (w : Fin n → ℝ) (hw : ∀ j, 0 ≤ w j) (S : Fin n → Option ℂ) (lamSq : Fin n → ℝ)
    (L : ℝ) (phi : Fin N → ℝ) (cc : Fin N → ℂ) : 0 ≤ misfit w S lamSq L phi cc := by
  unfold misfit weightSum
  exact div_nonneg (Finset.sum_nonneg fun j _ => mul_nonneg (hw j) (by positivity))
    (Finset.sum_nonneg fun j _ => hw j)

/-- One iteration of the first stage without its condition. -/
noncomputable def peakStep {N2 : ℕ} [NeZero N2] (P : Params N N2) (s : State N) : State N :=
  step P s (npArgmax fun i => ‖s.resid i‖)

/-- Without a cutoff the first stage makes every iteration allowed. -/
theorem stage1_nocutoff {N2 : ℕ} [NeZero N2] (P : Params N N2) (hc : P.cutoff ≤ 0)
    (dirty : Fin N → ℂ) (t : ℕ) :
    stage1 { P with maxIter := t } dirty = (peakStep P)^[t] (start dirty) := by
  have : ∀ t T s, loop1 { P with maxIter := T } t s = (peakStep P)^[t] s := by
    intro t T
    induction t with
    | zero => intro s; rfl
    | succ t ih =>
      intro s
      unfold loop1
      rw [if_pos (hc.trans ((norm_nonneg (s.resid 0)).trans (le_npMax (fun i => ‖s.resid i‖) 0))), ih]
      rfl
  exact this t t _

/-- The data of the theorems below: pixel `p` of a synthesis `z` with the channels, weights, flags,
reference and depths of the RMSF. -/
structure SameData (x : Rmsf.Input n m (Axis.nPhi2 N)) (phi : Fin N → ℝ) (p : Fin m) (L : ℝ)
    (z : Synth.Input n m N) : Prop where
  lamSq : z.lamSq = x.lamSq
  weight : z.weight = x.weight
  phi : z.phi = phi
  reference : Synth.refLamSq z = L
  flags : ∀ j, (Synth.spectrum z p j).isSome = true ↔ x.msk j p = false

/-- The misfit of components to the data of pixel `p`. -/
noncomputable def pixelMisfit (z : Synth.Input n m N) (p : Fin m) (cc : Fin N → ℂ) : ℝ :=
  misfit (effWeight z.weight) (Synth.spectrum z p) z.lamSq (Synth.refLamSq z) z.phi cc

section Setting

variable [NeZero (Axis.nPhi2 N)]
  (x : Rmsf.Input n m (Axis.nPhi2 N)) (phi : Fin N → ℝ) (p : Fin m) (L : ℝ)
  (P : Params N (Axis.nPhi2 N)) (hS : Setting x phi p L P) (z : Synth.Input n m N)
  (hz : SameData x phi p L z)

include hS hz

theorem setting_weight :
    0 < weightSum (effWeight z.weight) (fun j => (Synth.spectrum z p j).isSome = true) := by
  obtain ⟨c, d, hN, hc, hd, hphi, j, j', hj, hj', hwj, -⟩ := hS.axis
  unfold weightSum
  rw [hz.weight]
  exact Finset.sum_pos' (fun i _ => hS.weights i) ⟨j, by simp [(hz.flags j).2 hj], hwj⟩

theorem setting_shifted (k i : Fin N) : shifted P k i =
    rmsf (effWeight z.weight) (fun j => (Synth.spectrum z p j).isSome = true) z.lamSq
      (Synth.refLamSq z) (z.phi i - z.phi k) := by
  rw [shifted_is_defining_sum x phi p L P hS, hz.lamSq, hz.weight, hz.reference, hz.phi]
  congr 1
  funext j
  exact (propext (hz.flags j)).symm

theorem setting_start : Tracks (effWeight z.weight) (Synth.spectrum z p) z.lamSq (Synth.refLamSq z)
    z.phi (start fun l => Synth.value z l p) := by
  have hsymphi : SymGrid z.phi := by
    obtain ⟨c, d, hN, hc, hd, hphi, -⟩ := hS.axis
    intro l
    rw [hz.phi, hphi, hphi]
    have : ((Fin.rev l : Fin N) : ℕ) = N - 1 - l := by simp [Fin.rev]; omega
    have hNc : (N : ℝ) = 2 * c + 1 := by rw [hN]; push_cast; ring
    rw [this, Nat.cast_sub (by omega), Nat.cast_sub (by omega), hNc]
    push_cast; ring
  intro l
  change Synth.value z l p = _
  rw [Synth.value_sym z hsymphi, fdf_remaining]
  simp [compSpec, start, fdf]

theorem setting_nonneg (cc : Fin N → ℂ) : 0 ≤ pixelMisfit z p cc :=
  misfit_nonneg _ (by rw [hz.weight]; exact hS.weights) _ _ _ _ _

/-- C137. CLEAN with a gain between 0 and 2 never makes the fit to the data worse, in either stage. -/
theorem clean_misfit (hg : 0 ≤ P.gain) (hg2 : P.gain ≤ 2) :
    pixelMisfit z p (stage2 P fun l => Synth.value z l p).cc ≤
      pixelMisfit z p (stage1 P fun l => Synth.value z l p).cc ∧
    pixelMisfit z p (stage1 P fun l => Synth.value z l p).cc ≤ pixelMisfit z p 0 := by
  have hW := (setting_weight x phi p L P hS z hz).ne'
  have hP := setting_shifted x phi p L P hS z hz
  obtain ⟨h1, h2⟩ := loop1_misfit _ _ _ _ _ P hg hg2 hW hP 0 le_rfl (Or.inr rfl) P.maxIter _
    (setting_start x phi p L P hS z hz)
  obtain ⟨h3, h4⟩ := loop2_misfit _ _ _ _ _ P hg hg2 hW hP 0 le_rfl (Or.inr rfl)
    (mask P (stage1 P fun l => Synth.value z l p))
    (P.maxIter - (stage1 P fun l => Synth.value z l p).iter) _ h1
  simp only [ne_eq, OfNat.ofNat_ne_zero, not_false_eq_true, zero_pow, mul_zero, zero_mul, add_zero]
    at h2 h4
  exact ⟨h4, h2⟩

/-- C137. The number of iterations is bounded by the data: each stage makes at most (mean square
polarised intensity) / (gain (2 - gain) threshold²) iterations, whatever `maxIter` is. -/
theorem clean_iterations (hg : 0 < P.gain) (hg2 : P.gain < 2) :
    (0 < P.cutoff → ((stage1 P fun l => Synth.value z l p).iter : ℝ) ≤
      pixelMisfit z p 0 / (P.gain * (2 - P.gain) * P.cutoff ^ 2)) ∧
    (∀ v, P.window = some v → 0 < v → ((stage2 P fun l => Synth.value z l p).iter : ℝ) -
      (stage1 P fun l => Synth.value z l p).iter ≤
      pixelMisfit z p (stage1 P fun l => Synth.value z l p).cc /
        (P.gain * (2 - P.gain) * v ^ 2)) := by
  have hW := (setting_weight x phi p L P hS z hz).ne'
  have hP := setting_shifted x phi p L P hS z hz
  have hk : 0 < P.gain * (2 - P.gain) := mul_pos hg (by linarith)
  obtain ⟨h1, -⟩ := loop1_misfit _ _ _ _ _ P hg.le hg2.le hW hP 0 le_rfl (Or.inr rfl) P.maxIter _
    (setting_start x phi p L P hS z hz)
  constructor
  · intro hc
    obtain ⟨-, h2⟩ := loop1_misfit _ _ _ _ _ P hg.le hg2.le hW hP P.cutoff hc.le (Or.inl le_rfl)
      P.maxIter _ (setting_start x phi p L P hS z hz)
    have h3 := setting_nonneg x phi p L P hS z hz (stage1 P fun l => Synth.value z l p).cc
    rw [le_div_iff₀ (by positivity)]
    have e : ((start fun l => Synth.value z l p).iter : ℝ) = 0 := by simp [start]
    rw [e, sub_zero] at h2
    have e2 : pixelMisfit z p 0 = misfit (effWeight z.weight) (Synth.spectrum z p) z.lamSq
      (Synth.refLamSq z) z.phi (start fun l => Synth.value z l p).cc := rfl
    rw [e2]
    unfold pixelMisfit at h3
    unfold stage1 at h3 ⊢
    linarith
  · intro v hv hv0
    obtain ⟨-, h4⟩ := loop2_misfit _ _ _ _ _ P hg.le hg2.le hW hP v hv0.le
      (Or.inl (by intro v' h'; rw [hv] at h'; injection h' with h'; exact h'.le))
      (mask P (stage1 P fun l => Synth.value z l p))
      (P.maxIter - (stage1 P fun l => Synth.value z l p).iter) _ h1
    have h3 := setting_nonneg x phi p L P hS z hz (stage2 P fun l => Synth.value z l p).cc
    rw [le_div_iff₀ (by positivity)]
    unfold pixelMisfit at h3 ⊢
    unfold stage2 at h3 ⊢
    dsimp only at h3 ⊢
    unfold stage1 at *
    linarith

/-- C137. So CLEAN reaches any positive cutoff: with enough iterations allowed, the residual ends
below the cutoff at every depth, and the components convolved with the RMSF reproduce the dirty
spectrum to better than the cutoff. -/
theorem clean_converges (hg : 0 < P.gain) (hg2 : P.gain < 2) (hc : 0 < P.cutoff)
    (hmax : pixelMisfit z p 0 / (P.gain * (2 - P.gain) * P.cutoff ^ 2) < P.maxIter) (i : Fin N) :
    ‖(stage1 P fun l => Synth.value z l p).resid i‖ < P.cutoff ∧
    ‖Synth.value z i p - ∑ k, (stage1 P fun l => Synth.value z l p).cc k *
      SynthSpec.rmsf (effWeight x.weight) (fun j => x.msk j p = false) x.lamSq L
        (phi i - phi k)‖ < P.cutoff := by
  have h1 := (clean_iterations x phi p L P hS z hz hg hg2).1 hc
  have h2 : (stage1 P fun l => Synth.value z l p).iter < P.maxIter := by
    exact_mod_cast h1.trans_lt hmax
  have h3 := (clean_stops P fun l => Synth.value z l p).2.2.1 h2 i
  refine ⟨h3, ?_⟩
  have h4 := (stage2_induct P (fun l => Synth.value z l p) (fun s => ∀ i, Synth.value z i p =
      s.resid i + ∑ k, s.cc k * SynthSpec.rmsf (effWeight x.weight) (fun j => x.msk j p = false)
        x.lamSq L (phi i - phi k)) (by intro i; simp [start]) (by
      intro s idx h i
      rw [h i]
      have := sum_step s idx (fun k => SynthSpec.rmsf (effWeight x.weight)
        (fun j => x.msk j p = false) x.lamSq L (phi i - phi k)) ((P.gain : ℂ) * s.resid idx)
      change _ = (s.resid i - (P.gain : ℂ) * s.resid idx * shifted P idx i) +
        ∑ k, (if k = idx then s.cc k + (P.gain : ℂ) * s.resid idx else s.cc k) * _
      rw [this, shifted_is_defining_sum x phi p L P hS]
      ring)).1 i
  rw [h4, add_sub_cancel_right]
  exact h3

/-- C138. Without a cutoff the residual tends to zero as more iterations are allowed. -/
theorem clean_limit (hg : 0 < P.gain) (hg2 : P.gain < 2) (hc : P.cutoff ≤ 0) (i : Fin N) :
    Filter.Tendsto (fun t => ‖(stage1 { P with maxIter := t } fun l => Synth.value z l p).resid i‖)
      Filter.atTop (nhds 0) := by
  have hW := (setting_weight x phi p L P hS z hz).ne'
  have hP := setting_shifted x phi p L P hS z hz
  have hk : 0 < P.gain * (2 - P.gain) := mul_pos hg (by linarith)
  set dirty := fun l => Synth.value z l p with hd
  have htr : ∀ t, Tracks (effWeight z.weight) (Synth.spectrum z p) z.lamSq (Synth.refLamSq z)
      z.phi ((peakStep P)^[t] (start dirty)) := by
    intro t
    induction t with
    | zero => exact setting_start x phi p L P hS z hz
    | succ t ih =>
      rw [Function.iterate_succ_apply']
      exact step_tracks _ _ _ _ _ P hP _ _ ih
  have hstep : ∀ t, pixelMisfit z p ((peakStep P)^[t + 1] (start dirty)).cc =
      pixelMisfit z p ((peakStep P)^[t] (start dirty)).cc - P.gain * (2 - P.gain) *
        (npMax fun i => ‖((peakStep P)^[t] (start dirty)).resid i‖) ^ 2 := by
    intro t
    rw [Function.iterate_succ_apply']
    exact misfit_step _ _ _ _ _ P hW _ _ (htr t)
  have hsum : ∀ T, ∑ t ∈ Finset.range T,
      (npMax fun i => ‖((peakStep P)^[t] (start dirty)).resid i‖) ^ 2 =
      (pixelMisfit z p 0 - pixelMisfit z p ((peakStep P)^[T] (start dirty)).cc) /
        (P.gain * (2 - P.gain)) := by
    intro T
    induction T with
    | zero => simp [start]
    | succ T ih =>
      rw [Finset.sum_range_succ, ih, hstep T]
      have h1 : P.gain ≠ 0 := hg.ne'
      have h2 : 2 - P.gain ≠ 0 := by linarith
      field_simp
      ring
  have hsq : Filter.Tendsto (fun t => (npMax fun i =>
      ‖((peakStep P)^[t] (start dirty)).resid i‖) ^ 2) Filter.atTop (nhds 0) := by
    apply Summable.tendsto_atTop_zero
    refine summable_of_sum_range_le (c := pixelMisfit z p 0 / (P.gain * (2 - P.gain)))
      (fun t => by positivity) (fun T => ?_)
    rw [hsum T]
    have := setting_nonneg x phi p L P hS z hz ((peakStep P)^[T] (start dirty)).cc
    exact div_le_div_of_nonneg_right (by linarith) hk.le
  have hrt := hsq.sqrt
  rw [Real.sqrt_zero] at hrt
  refine squeeze_zero (fun t => norm_nonneg _) (fun t => ?_) hrt
  rw [stage1_nocutoff P hc]
  apply Real.le_sqrt_of_sq_le
  exact pow_le_pow_left₀ (norm_nonneg _)
    (le_npMax (fun i => ‖((peakStep P)^[t] (start dirty)).resid i‖) i) 2

/-- C138. A gain above 2 makes the residual grow: all iterations allowed are spent and the peak grows
at least by the factor `gain - 1` in each. -/
theorem clean_diverges (hg : 2 < P.gain) (dirty : Fin N → ℂ) (i : Fin N)
    (hi : P.cutoff ≤ ‖dirty i‖) :
    (stage1 P dirty).iter = P.maxIter ∧
      ∃ l, (P.gain - 1) ^ P.maxIter * ‖dirty i‖ ≤ ‖(stage1 P dirty).resid l‖ := by
  have h1 : ∀ k, shifted P k k = 1 := by
    intro k
    rw [setting_shifted x phi p L P hS z hz, sub_self]
    exact rmsf_zero _ _ _ _ (setting_weight x phi p L P hS z hz).ne'
  have : ∀ fuel (s : State N) (b : ℝ), P.cutoff ≤ b → 0 ≤ b → (∃ l, b ≤ ‖s.resid l‖) →
      (loop1 P fuel s).iter = s.iter + fuel ∧
        ∃ l, (P.gain - 1) ^ fuel * b ≤ ‖(loop1 P fuel s).resid l‖ := by
    intro fuel
    induction fuel with
    | zero => rintro s b - - ⟨l, hl⟩; exact ⟨rfl, l, by simpa [loop1] using hl⟩
    | succ f ih =>
      rintro s b hb hb0 ⟨l, hl⟩
      have hmax : b ≤ npMax (fun i => ‖s.resid i‖) := hl.trans (le_npMax (fun i => ‖s.resid i‖) l)
      unfold loop1
      rw [if_pos (hb.trans hmax)]
      have hbig : b ≤ (P.gain - 1) * b := by nlinarith
      obtain ⟨h2, l', h3⟩ := ih (step P s (npArgmax fun i => ‖s.resid i‖)) ((P.gain - 1) * b)
        (hb.trans hbig) (hb0.trans hbig) ⟨npArgmax fun i => ‖s.resid i‖, by
          change _ ≤ ‖s.resid _ - (P.gain : ℂ) * s.resid _ * shifted P _ _‖
          rw [h1, mul_one, ← one_sub_mul, norm_mul]
          have : ‖(1 : ℂ) - (P.gain : ℂ)‖ = P.gain - 1 := by
            rw [← Complex.ofReal_one, ← Complex.ofReal_sub, Complex.norm_real, Real.norm_eq_abs,
              abs_of_neg (by linarith)]
            ring
          rw [this]
          exact mul_le_mul_of_nonneg_left hmax (by linarith)⟩
      refine ⟨h2.trans ?_, l', ?_⟩
      · change s.iter + 1 + f = _; omega
      · rw [pow_succ, mul_assoc]; exact h3
  obtain ⟨h2, h3⟩ := this P.maxIter (start dirty) ‖dirty i‖ hi (norm_nonneg _) ⟨i, le_rfl⟩
  refine ⟨?_, h3⟩
  have e : (start dirty).iter = 0 := rfl
  rw [e, Nat.zero_add] at h2
  exact h2

end Setting

/-- Concrete case of C137: two channels with `P = 1` and `P = i` (not a thin source at any sampled
depth), gain 0.1, cutoff 0.1: 1000 iterations are enough. -/
example : ∃ (x : Rmsf.Input 2 1 (Axis.nPhi2 3)) (P : Params 3 (Axis.nPhi2 3))
    (z : Synth.Input 2 1 3), Setting x (fun i : Fin 3 => ((i : ℝ) - (1 : ℕ)) * 1) 0 0.15 P ∧
    SameData x (fun i : Fin 3 => ((i : ℝ) - (1 : ℕ)) * 1) 0 0.15 z ∧ P.gain = 0.1 ∧
    P.cutoff = 0.1 ∧ pixelMisfit z 0 0 = 1 ∧
    pixelMisfit z 0 0 / (P.gain * (2 - P.gain) * P.cutoff ^ 2) < P.maxIter := by
  obtain ⟨g, hg, -, -, -, -, hs⟩ :=
    Axis.phi2_spec (by norm_num : 2 ≤ 3) (fun i : Fin 3 => ((i : ℝ) - (1 : ℕ)) * 1)
  let x : Rmsf.Input 2 1 (Axis.nPhi2 3) :=
    { lamSq := ![0.1, 0.2]
      phi2 := g
      weight := none
      msk := fun _ _ => false
      lam0 := some 0.15 }
  have hsg : SymGrid g := hs (by
    intro l
    have : ((Fin.rev l : Fin 3) : ℕ) = 2 - l := by simp [Fin.rev]
    simp only [this]
    rw [Nat.cast_sub (by omega)]
    push_cast; ring)
  have hw : Rmsf.pixelWeight x 0 ≠ 0 := by
    unfold Rmsf.pixelWeight weightSum
    simp [x, effWeight]
  let P : Params 3 (Axis.nPhi2 3) :=
    { phi := fun i : Fin 3 => ((i : ℝ) - (1 : ℕ)) * 1
      rmsf := fun l => SynthSpec.rmsf (effWeight x.weight) (fun j => x.msk j 0 = false) x.lamSq 0.15
        (x.phi2 l)
      fwhm := 1
      maxIter := 1000
      gain := 0.1
      cutoff := 0.1
      window := none }
  let z : Synth.Input 2 1 3 :=
    { dataQ := fun j _ => some (![1, 0] j)
      dataU := fun j _ => some (![0, 1] j)
      lamSq := x.lamSq
      phi := fun i => ((i : ℝ) - (1 : ℕ)) * 1
      weight := none
      lam0 := some 0.15 }
  have hsp : ∀ j, Synth.spectrum z 0 j = some (⟨![1, 0] j, ![0, 1] j⟩ : ℂ) := by
    intro j; simp [Synth.spectrum, SynthSpec.pol, z]
  have hm : pixelMisfit z 0 0 = 1 := by
    unfold pixelMisfit misfit weightSum
    simp only [hsp, Option.isSome_some, Finset.filter_true, Fin.sum_univ_two, Option.getD_some]
    simp [compSpec, effWeight, z, ← Complex.normSq_eq_norm_sq, Complex.normSq_apply]
  refine ⟨x, P, z, ⟨⟨1, 1, by norm_num, by norm_num, by norm_num, fun i => rfl, 0, 1, rfl, rfl,
    by simp [x, effWeight], by simp [x, effWeight], by simp [x]; norm_num, ?_⟩, hg, rfl, ?_, ?_⟩,
    ⟨rfl, rfl, rfl, rfl, ?_⟩, rfl, rfl, hm, ?_⟩
  · simp only [x, Matrix.cons_val]
    norm_num [abs_of_neg]
    have := Real.pi_gt_three
    linarith
  · intro j; simp [x, effWeight]
  · intro l
    exact Rmsf.rmsf_sym x hsg 0.15 rfl l 0 hw
  · intro j; simp [hsp, x]
  · rw [hm]; norm_num [P]

end Verif.Clean
