import Verif.Clean.Lemmas
import Mathlib.Analysis.SpecificLimits.Basic

/-!
# Properties of RM-CLEAN on one spectrum (C22 - C28, C33)

`stage1` is the state after the first `while` loop, `stage2` the state returned by `_cleanloop`.
Taking another `maxIter` gives the states in between, so the statements hold at every iteration.
-/

open Complex

set_option linter.unusedSectionVars false

namespace Verif.Clean

open Verif.NumPy

variable {N N2 : ℕ} [NeZero N] [NeZero N2]

/-! ## C22, C24 -/

/-- C22. In every state of either stage the dirty spectrum is the residual plus the components each
times the RMSF shifted to its sample. (`shifted_is_rmsf` says that the shifted RMSF is the RMSF at
the difference of Faraday depths.) -/
theorem clean_conserves (P : Params N N2) (dirty : Fin N → ℂ) :
    (∀ i, dirty i = (stage1 P dirty).resid i + ∑ k, (stage1 P dirty).cc k * shifted P k i) ∧
    (∀ i, dirty i = (stage2 P dirty).resid i + ∑ k, (stage2 P dirty).cc k * shifted P k i) := by
  refine stage2_induct P dirty
    (fun s => ∀ i, dirty i = s.resid i + ∑ k, s.cc k * shifted P k i) ?_ ?_
  · intro i; simp [start]
  · intro s idx hs i
    rw [hs i]
    simp only [step]
    rw [sum_step s idx (fun k => shifted P k i)]
    ring

/-- The Gaussian restoring beam of unit peak and full width at half maximum `fwhm`. -/
noncomputable def beam (fwhm d : ℝ) : ℝ := Real.exp (-(4 * Real.log 2) * (d / fwhm) ^ 2)

theorem beam_zero (fwhm : ℝ) : beam fwhm 0 = 1 := by simp [beam]

/-- The name "full width at half maximum" is earned. -/
theorem beam_half (fwhm : ℝ) (h : fwhm ≠ 0) : beam fwhm (fwhm / 2) = 1 / 2 := by
  unfold beam
  have : -(4 * Real.log 2) * (fwhm / 2 / fwhm) ^ 2 = - Real.log 2 := by field_simp; norm_num
  rw [this, Real.exp_neg, Real.exp_log (by norm_num)]
  norm_num

theorem gauss1D_eq (a : ℂ) (mean fwhm x : ℝ) : gauss1D a mean fwhm x = a * (beam fwhm (x - mean) : ℂ) := by
  unfold gauss1D beam
  dsimp only
  congr 3
  have h2 : 0 < Real.log 2 := Real.log_pos (by norm_num)
  have hs : (2 * Real.sqrt (2 * Real.log 2)) ^ 2 = 8 * Real.log 2 := by
    rw [mul_pow, Real.sq_sqrt (by positivity)]; ring
  rw [div_pow, hs]
  by_cases hf : fwhm = 0
  · subst hf; simp
  · field_simp
    ring

/-- C24. What `_cleanloop` returns as clean spectrum is the sum of all components, each times the
unit-peak Gaussian of the given FWHM centred on its depth (`do_rmclean_hogbom` then adds the
residual, see `Hogbom`). -/
theorem clean_restores (P : Params N N2) (dirty : Fin N → ℂ) (i : Fin N) :
    (stage2 P dirty).clean i =
      ∑ k, (stage2 P dirty).cc k * (beam P.fwhm (P.phi i - P.phi k) : ℂ) := by
  refine (stage2_induct P dirty
    (fun s => ∀ i, s.clean i = ∑ k, s.cc k * (beam P.fwhm (P.phi i - P.phi k) : ℂ)) ?_ ?_).2 i
  · intro i; simp [start]
  · intro s idx hs i
    simp only [step]
    rw [sum_step s idx (fun k => (beam P.fwhm (P.phi i - P.phi k) : ℂ)), hs i, gauss1D_eq]

/-! ## C23 -/

/-- C23. Bounds and stopping rules of both stages. -/
theorem clean_stops (P : Params N N2) (dirty : Fin N → ℂ) :
    (stage1 P dirty).iter ≤ (stage2 P dirty).iter ∧ (stage2 P dirty).iter ≤ P.maxIter ∧
    ((stage1 P dirty).iter < P.maxIter → ∀ i, ‖(stage1 P dirty).resid i‖ < P.cutoff) ∧
    ((stage2 P dirty).iter < P.maxIter → ∀ w, P.window = some w →
      ∀ i, mask P (stage1 P dirty) i → ‖(stage2 P dirty).resid i‖ < w) ∧
    (P.window = none → stage2 P dirty = stage1 P dirty) := by
  obtain ⟨a1, a2, a3⟩ := loop1_iter P P.maxIter (start dirty)
  have e0 : (start dirty).iter = 0 := rfl
  rw [e0, Nat.zero_add] at a2 a3
  change (stage1 P dirty).iter ≤ _ at a2
  obtain ⟨b1, b2, b3⟩ := loop2_iter P (mask P (stage1 P dirty)) (P.maxIter - (stage1 P dirty).iter)
    (stage1 P dirty)
  rw [Nat.add_sub_of_le a2] at b2 b3
  refine ⟨b1, b2, ?_, ?_, ?_⟩
  · intro h i
    exact (le_npMax (fun i => ‖(stage1 P dirty).resid i‖) i).trans_lt (a3 h)
  · intro h w hw i hi
    have := b3 h
    rw [cond2_iff] at this
    by_contra hc
    exact this ⟨w, hw, i, hi, not_lt.mp hc⟩
  · intro h
    have : ∀ fuel, loop2 P (mask P (stage1 P dirty)) fuel (stage1 P dirty) = stage1 P dirty := by
      intro fuel
      cases fuel with
      | zero => rfl
      | succ f =>
        unfold loop2
        rw [if_neg]
        rw [cond2_iff, h]
        simp
    exact this _

/-- C23. The first stage never iterates without need: before each iteration it made, the peak of the
residual was at or above the cutoff. (The state after `t` iterations is `loop1 P t (start dirty)`.) -/
theorem clean_no_extra_iteration (P : Params N N2) (dirty : Fin N → ℂ) (t : ℕ)
    (ht : t < (stage1 P dirty).iter) :
    (loop1 P t (start dirty)).iter = t ∧ ∃ i, P.cutoff ≤ ‖(loop1 P t (start dirty)).resid i‖ := by
  have := loop1_prefix P P.maxIter (start dirty) t (by
    have : (start dirty).iter = 0 := rfl
    rw [this, Nat.zero_add]; exact ht)
  refine ⟨by rw [this.1]; simp [start], ?_⟩
  exact ⟨_, this.2⟩

/-! ## C25 -/

/-- C25. On a zero-centred axis of `2c+1` samples with spacing `d`, its doubled axis, and an RMSF
sampled from `R` whose real part is largest only at depth zero: the RMSF subtracted for a component
at sample `k` is `R(φ_i - φ_k)` at every sample `i`; nothing is wrapped around. -/
theorem shifted_is_rmsf (c : ℕ) (d : ℝ) (hN : N = 2 * c + 1) (hc : 1 ≤ c) (hd : d ≠ 0)
    (phi : Fin N → ℝ) (hphi : ∀ i, phi i = ((i : ℝ) - c) * d) (P : Params N N2)
    (hN2 : N2 = Axis.nPhi2 N) (g : Fin (Axis.nPhi2 N) → ℝ) (hg : Axis.phi2 phi = some g)
    (R : ℝ → ℂ) (hR : ∀ l, P.rmsf l = R (g (Fin.cast hN2 l)))
    (hpk : ∀ l, g l ≠ 0 → (R (g l)).re < (R 0).re) (k i : Fin N) :
    shifted P k i = R (phi i - phi k) := by
  subst hN2
  have hn2 : 2 ≤ N := by omega
  have hval : ∀ l : Fin (Axis.nPhi2 N), g l = ((l : ℝ) - N) * d := by
    intro l
    obtain ⟨g', hg', hform⟩ := Axis.phi2_eq hn2 phi
    have : g = g' := by rw [hg] at hg'; exact Option.some.inj hg'
    subst this
    have hat : ∀ j, j < N → at0 phi j = ((j : ℝ) - c) * d := by
      intro j hj; unfold at0; rw [dif_pos hj, hphi]
    have he : Axis.nExt N = c + 1 := by unfold Axis.nExt; omega
    have hl := l.isLt
    have hsz : Axis.nPhi2 N = 2 * Axis.nExt N + N := rfl
    rw [hform, he]
    rw [he] at hsz
    have hNc : (N : ℝ) = 2 * c + 1 := by rw [hN]; push_cast; ring
    split_ifs with h1 h2
    · rw [hat 0 (by omega), hat 1 (by omega), hNc]; push_cast; ring
    · rw [hat _ (by omega), Nat.cast_sub (by omega), hNc]; push_cast; ring
    · rw [hat _ (by omega), hat _ (by omega), Nat.cast_sub (by omega : 1 ≤ N),
        Nat.cast_sub (by omega : 2 ≤ N), hNc]
      push_cast; ring
  have hsz : Axis.nPhi2 N = 2 * N + 1 := by unfold Axis.nPhi2 Axis.nExt; omega
  have hcen : N < Axis.nPhi2 N := by omega
  have hgc : g ⟨N, hcen⟩ = 0 := by rw [hval]; simp
  have hmax : indMax P = ⟨N, hcen⟩ := by
    apply indMax_eq
    intro l hl
    rw [hR, hR]
    simp only [Fin.cast_eq_self]
    rw [hgc]
    apply hpk
    rw [hval]
    refine mul_ne_zero (sub_ne_zero.mpr ?_) hd
    intro h
    apply hl
    ext
    exact_mod_cast h
  obtain ⟨h, hs⟩ := shifted_nowrap P (by rw [hmax]; simp) (by rw [hmax]; simp; omega) k i
  rw [hs, hR, hval, hphi, hphi]
  congr 1
  have hi := i.isLt
  have hk := k.isLt
  simp only [Fin.cast_eq_self, hmax]
  rw [Nat.cast_sub (by omega)]
  push_cast
  ring

/-- Instance of the hypotheses of `shifted_is_rmsf`, `clean_single_source`: three samples, a perfect
(delta function) RMSF on the doubled axis of seven samples. -/
example : ∃ (P : Params 3 7) (k : Fin 3) (dirty : Fin 3 → ℂ) (A : ℂ), A ≠ 0 ∧ 0 < P.cutoff ∧
    (∀ i, dirty i = A * shifted P k i) ∧ shifted P k k = 1 ∧ ∀ i, i ≠ k → ‖shifted P k i‖ < 1 := by
  obtain ⟨g, hg, -⟩ := Axis.phi2_eq (n := 3) (by norm_num) (fun i : Fin 3 => ((i : ℝ) - (1 : ℕ)) * 1)
  set R : ℝ → ℂ := fun t => if t = 0 then 1 else 0 with hR
  let P : Params 3 7 :=
    { phi := fun i : Fin 3 => ((i : ℝ) - (1 : ℕ)) * 1
      rmsf := fun l => R (g l)
      fwhm := 1
      maxIter := 10
      gain := 1 / 10
      cutoff := 1
      window := none }
  have hs := shifted_is_rmsf (N := 3) (N2 := 7) 1 1 (by norm_num) (by norm_num) (by norm_num)
    (fun i : Fin 3 => ((i : ℝ) - (1 : ℕ)) * 1) (fun i => rfl) P rfl g hg R (fun l => rfl)
    (by intro l hl; simp [hR, hl])
  refine ⟨P, 2, fun i => 2 * shifted P 2 i, 2, by norm_num, by norm_num [P], fun i => rfl, ?_, ?_⟩
  · rw [hs]; simp [hR]
  · intro i hi
    rw [hs]
    have : ¬ ((((i : ℕ) : ℝ) - (1 : ℕ)) * 1 - ((((2 : Fin 3) : ℕ) : ℝ) - (1 : ℕ)) * 1 = 0) := by
      intro h
      apply hi
      have : ((i : ℕ) : ℝ) = (((2 : Fin 3) : ℕ) : ℝ) := by linarith
      ext
      exact_mod_cast this
    simp only [hR]
    rw [if_neg this]; simp

/-- The pad of the doubled axis is always usable, for every axis length (also even ones). -/
theorem doubled_axis_padOk (n : ℕ) (hn : 1 ≤ n) : PadOk n (Axis.nPhi2 n) := by
  unfold PadOk nPad Axis.nPhi2 Axis.nExt
  omega

/-- Error branch: an RMSF axis of at least twice the FDF axis, which the input checks accept, but
with an odd length difference, makes the first subtraction raise. -/
theorem odd_pad_raises (P : Params N N2) (dirty : Fin N → ℂ) (hodd : Odd (N2 - N))
    (henter : enters P dirty) : cleanLoop P dirty = none := by
  unfold cleanLoop
  split_ifs with h1 h2
  · rfl
  · rfl
  · exfalso
    apply h2
    refine ⟨henter, ?_⟩
    unfold PadOk nPad
    obtain ⟨r, hr⟩ := hodd
    rw [hr]
    omega

/-! ## C26 -/

/-- C26. A single on-grid source: `dirty = A·RMSF(φ - φ_k)` with the RMSF strictly largest at its
peak. All components land in sample `k`; after `m` iterations the residual is `(1-gain)^m` times the
dirty spectrum; `m` is the first count for which this is below the cutoff, or `maxIter`. -/
theorem clean_single_source (P : Params N N2) (k : Fin N) (A : ℂ) (dirty : Fin N → ℂ)
    (hd : ∀ i, dirty i = A * shifted P k i) (h1 : shifted P k k = 1)
    (hlt : ∀ i, i ≠ k → ‖shifted P k i‖ < 1) (hcut : 0 < P.cutoff) :
    ∃ m ≤ P.maxIter, (stage1 P dirty).iter = m ∧
      (∀ i, (stage1 P dirty).resid i = (1 - P.gain : ℂ) ^ m * dirty i) ∧
      (∀ i, (stage1 P dirty).cc i = if i = k then A * (1 - (1 - P.gain : ℂ) ^ m) else 0) ∧
      (m < P.maxIter → |1 - P.gain| ^ m * ‖A‖ < P.cutoff) ∧
      (∀ t < m, P.cutoff ≤ |1 - P.gain| ^ t * ‖A‖) := by
  -- state after `m` iterations
  set Good : ℕ → State N → Prop := fun m s => s.iter = m ∧
      (∀ i, s.resid i = (1 - P.gain : ℂ) ^ m * dirty i) ∧
      (∀ i, s.cc i = if i = k then A * (1 - (1 - P.gain : ℂ) ^ m) else 0) ∧
      (∀ t < m, P.cutoff ≤ |1 - P.gain| ^ t * ‖A‖) with hGood
  have hnorm : ∀ m, ‖(1 - P.gain : ℂ) ^ m‖ = |1 - P.gain| ^ m := by
    intro m
    rw [norm_pow]
    congr 1
    rw [← ofReal_one, ← ofReal_sub, norm_real, Real.norm_eq_abs]
  have hmaxv : ∀ m (s : State N), Good m s →
      npMax (fun i => ‖s.resid i‖) = |1 - P.gain| ^ m * ‖A‖ := by
    rintro m s ⟨-, hr, -, -⟩
    apply le_antisymm
    · unfold npMax
      simp only [hr, norm_mul, hnorm, hd]
      apply mul_le_mul_of_nonneg_left _ (by positivity)
      by_cases hi : npArgmax (fun i => |1 - P.gain| ^ m * (‖A‖ * ‖shifted P k i‖)) = k
      · rw [hi, h1]; simp
      · have := hlt _ hi
        nlinarith [norm_nonneg A]
    · refine le_trans (le_of_eq ?_) (le_npMax (fun i => ‖s.resid i‖) k)
      rw [hr, norm_mul, hnorm, hd, h1, mul_one]
  have hstep : ∀ m (s : State N), Good m s → P.cutoff ≤ npMax (fun i => ‖s.resid i‖) →
      Good (m + 1) (step P s (npArgmax fun i => ‖s.resid i‖)) := by
    intro m s hs hc
    have hmx := hmaxv m s hs
    obtain ⟨hit, hr, hcc, ht⟩ := hs
    rw [hmx] at hc
    have hpos : 0 < |1 - P.gain| ^ m * ‖A‖ := hcut.trans_le hc
    have harg : npArgmax (fun i => ‖s.resid i‖) = k := by
      by_contra hne
      have a1 := le_npArgmax (fun i => ‖s.resid i‖) k
      simp only [hr, norm_mul, hnorm, hd, h1, mul_one] at a1 hne
      have := hlt _ hne
      nlinarith
    rw [harg]
    refine ⟨by simp [step, hit], ?_, ?_, ?_⟩
    · intro i
      simp only [step]
      rw [hr, hr, hd, hd, h1, pow_succ]
      ring
    · intro i
      simp only [step]
      rw [hcc, hr, hd, h1, pow_succ]
      split_ifs <;> ring
    · intro t htm
      rcases Nat.lt_succ_iff_lt_or_eq.mp htm with h | h
      · exact ht t h
      · rw [h]; exact hc
  have hloop : ∀ fuel m (s : State N), Good m s → ∃ m', m' ≤ m + fuel ∧
      Good m' (loop1 P fuel s) := by
    intro fuel
    induction fuel with
    | zero => intro m s hs; exact ⟨m, le_refl _, hs⟩
    | succ f ih =>
      intro m s hs
      unfold loop1
      split_ifs with hc
      · obtain ⟨m', hm', hg⟩ := ih (m + 1) _ (hstep m s hs hc)
        exact ⟨m', by omega, hg⟩
      · exact ⟨m, by omega, hs⟩
  have h0 : Good 0 (start dirty) := by
    refine ⟨rfl, ?_, ?_, ?_⟩
    · intro i; simp [start]
    · intro i; simp [start]
    · intro t ht; omega
  obtain ⟨m, hm, hg⟩ := hloop P.maxIter 0 (start dirty) h0
  rw [Nat.zero_add] at hm
  refine ⟨m, hm, hg.1, hg.2.1, hg.2.2.1, ?_, hg.2.2.2⟩
  intro hlt'
  have hmx := hmaxv m _ hg
  rw [← hmx]
  have := (loop1_iter P P.maxIter (start dirty)).2.2
  apply this
  rw [hg.1]
  simpa [start] using hlt'

/-- C26. For `0 < gain ≤ 1` and any positive cutoff there is a number of iterations, the same for
every `maxIter`, beyond which the first stage never goes; with a larger `maxIter` it ends with the
residual below the cutoff. -/
theorem clean_single_source_terminates (A : ℂ) (gain cutoff : ℝ) (hg0 : 0 < gain) (hg1 : gain ≤ 1)
    (hcut : 0 < cutoff) :
    ∃ m0 : ℕ, ∀ (P : Params N N2) (k : Fin N) (dirty : Fin N → ℂ), P.gain = gain →
      P.cutoff = cutoff → (∀ i, dirty i = A * shifted P k i) → shifted P k k = 1 →
      (∀ i, i ≠ k → ‖shifted P k i‖ < 1) →
      (stage1 P dirty).iter ≤ m0 ∧
      (m0 < P.maxIter → ∀ i, ‖(stage1 P dirty).resid i‖ < cutoff) := by
  have hlim : ∃ m0 : ℕ, |1 - gain| ^ m0 * ‖A‖ < cutoff := by
    have h1 : |1 - gain| < 1 := by rw [abs_lt]; constructor <;> linarith
    have ht := (tendsto_pow_atTop_nhds_zero_of_lt_one (abs_nonneg _) h1).mul_const ‖A‖
    rw [zero_mul] at ht
    exact (ht.eventually (gt_mem_nhds hcut)).exists
  obtain ⟨m0, hm0⟩ := hlim
  refine ⟨m0, ?_⟩
  intro P k dirty hgain hcutoff hd h1 hlt
  obtain ⟨m, -, hit, -, -, -, ht⟩ := clean_single_source P k A dirty hd h1 hlt (by rw [hcutoff]; exact hcut)
  have hle : m ≤ m0 := by
    by_contra hc
    have := ht m0 (not_le.mp hc)
    rw [hgain, hcutoff] at this
    linarith
  refine ⟨by rw [hit]; exact hle, ?_⟩
  intro hmax i
  rw [← hcutoff]
  exact (clean_stops P dirty).2.2.1 (by rw [hit]; omega) i

/-! ## C27, C28 -/

/-- C27. The second stage changes components only inside its mask, and every masked-in sample `j` is
a first-stage component or lies within half an RMSF width (in samples, rounded up to the next sample
on the left) of one: `i - fwhm/2 - 1 < j < i + fwhm/2`. -/
theorem window_respected (P : Params N N2) (dirty : Fin N → ℂ) (hf : 0 ≤ fwhmPix P) (j : Fin N)
    (hj : (stage2 P dirty).cc j ≠ (stage1 P dirty).cc j) :
    mask P (stage1 P dirty) j ∧
    ∃ i, (stage1 P dirty).cc i ≠ 0 ∧
      (j = i ∨ ((i : ℝ) - fwhmPix P / 2 - 1 < (j : ℝ) ∧ (j : ℝ) < (i : ℝ) + fwhmPix P / 2)) := by
  set M := mask P (stage1 P dirty) with hM
  have hin : M j := by
    by_contra hn
    apply hj
    have key : ∀ fuel (s : State N), (loop2 P M fuel s).cc j = s.cc j := by
      intro fuel
      induction fuel with
      | zero => intro s; rfl
      | succ f ih =>
        intro s
        unfold loop2
        split_ifs with hc
        · rw [ih]
          have hmem := npMax_maskedAbs_mem M s.resid (by
            rw [cond2_iff] at hc
            obtain ⟨w, -, i, hi, -⟩ := hc
            exact ⟨i, hi⟩)
          simp only [step]
          rw [if_neg]
          rintro rfl
          exact hn hmem
        · rfl
    exact key _ _
  refine ⟨hin, ?_⟩
  rcases hin with h | ⟨i, hi, hsl⟩
  · exact ⟨j, h, Or.inl rfl⟩
  · refine ⟨i, hi, Or.inr ?_⟩
    unfold inSlice sliceBound at hsl
    obtain ⟨ha, hb⟩ := hsl
    have hjN := j.isLt
    constructor
    · -- left end
      by_cases hneg : (i : ℝ) - fwhmPix P / 2 < 0
      · have : (0 : ℝ) ≤ (j : ℝ) := Nat.cast_nonneg _
        linarith
      · push Not at hneg
        have e : pyInt ((i : ℝ) - fwhmPix P / 2) = ⌊(i : ℝ) - fwhmPix P / 2⌋ := by
          unfold pyInt; rw [if_pos hneg]
        rw [e] at ha
        have h0 : 0 ≤ ⌊(i : ℝ) - fwhmPix P / 2⌋ := Int.floor_nonneg.mpr hneg
        rw [if_neg (not_lt.mpr h0)] at ha
        have hle : ⌊(i : ℝ) - fwhmPix P / 2⌋ ≤ (j : ℤ) := by omega
        have := Int.lt_floor_add_one ((i : ℝ) - fwhmPix P / 2)
        have h' : ((⌊(i : ℝ) - fwhmPix P / 2⌋ : ℤ) : ℝ) ≤ ((j : ℤ) : ℝ) := by exact_mod_cast hle
        push_cast at h'
        linarith
    · have hpos : (0 : ℝ) ≤ (i : ℝ) + fwhmPix P / 2 := by positivity
      have e : pyInt ((i : ℝ) + fwhmPix P / 2) = ⌊(i : ℝ) + fwhmPix P / 2⌋ := by
        unfold pyInt; rw [if_pos hpos]
      rw [e] at hb
      have h0 : 0 ≤ ⌊(i : ℝ) + fwhmPix P / 2⌋ := Int.floor_nonneg.mpr hpos
      rw [if_neg (not_lt.mpr h0)] at hb
      have hlt : (j : ℤ) + 1 ≤ ⌊(i : ℝ) + fwhmPix P / 2⌋ := by omega
      have h' : (((j : ℤ) + 1 : ℤ) : ℝ) ≤ ((⌊(i : ℝ) + fwhmPix P / 2⌋ : ℤ) : ℝ) := by
        exact_mod_cast hlt
      have := Int.floor_le ((i : ℝ) + fwhmPix P / 2)
      push_cast at h'
      linarith

/-- C28, the part that holds: around a component at least half a width away from the left end, the
mask contains every sample from `i - fwhm/2` up to one sample before `i + fwhm/2`. Missing for the
full claim: components near the left end (`window_left_edge`) and the last samples on the right
(`window_right_short`). -/
theorem window_covers_partial (P : Params N N2) (s : State N) (i j : Fin N) (hi : s.cc i ≠ 0)
    (hf : 0 ≤ fwhmPix P) (hleft : fwhmPix P / 2 ≤ (i : ℝ))
    (h1 : (i : ℝ) - fwhmPix P / 2 ≤ (j : ℝ)) (h2 : (j : ℝ) ≤ (i : ℝ) + fwhmPix P / 2 - 1) :
    mask P s j := by
  refine Or.inr ⟨i, hi, ?_⟩
  have hneg : (0 : ℝ) ≤ (i : ℝ) - fwhmPix P / 2 := by linarith
  have hpos : (0 : ℝ) ≤ (i : ℝ) + fwhmPix P / 2 := by positivity
  have hjN := j.isLt
  unfold inSlice sliceBound
  constructor
  · rw [show pyInt ((i : ℝ) - fwhmPix P / 2) = ⌊(i : ℝ) - fwhmPix P / 2⌋ by
      unfold pyInt; rw [if_pos hneg]]
    rw [if_neg (not_lt.mpr (Int.floor_nonneg.mpr hneg))]
    have : ⌊(i : ℝ) - fwhmPix P / 2⌋ ≤ (j : ℤ) := by
      have h := Int.floor_le_floor h1
      rwa [Int.floor_natCast] at h
    omega
  · rw [show pyInt ((i : ℝ) + fwhmPix P / 2) = ⌊(i : ℝ) + fwhmPix P / 2⌋ by
      unfold pyInt; rw [if_pos hpos]]
    rw [if_neg (not_lt.mpr (Int.floor_nonneg.mpr hpos))]
    have : (j : ℤ) + 1 ≤ ⌊(i : ℝ) + fwhmPix P / 2⌋ := by
      rw [Int.le_floor]; push_cast; linarith
    omega

/-- C28 fails near the left end of the axis: a component nearer than half a width (by at least one
sample) to the left end, whose window does not span nearly the whole axis, contributes **no** sample
to the mask at all, apart from itself: the negative start of the slice counts from the end. -/
theorem window_left_edge (P : Params N N2) (i j : Fin N)
    (h1 : (i : ℝ) - fwhmPix P / 2 ≤ -1)
    (h2 : ⌊(i : ℝ) + fwhmPix P / 2⌋ ≤ N + ⌈(i : ℝ) - fwhmPix P / 2⌉) :
    ¬ inSlice N (pyInt ((i : ℝ) - fwhmPix P / 2)) (pyInt ((i : ℝ) + fwhmPix P / 2)) j := by
  rintro ⟨ha, hb⟩
  have hf : 0 ≤ fwhmPix P := by
    have : (0 : ℝ) ≤ (i : ℝ) := Nat.cast_nonneg _
    linarith
  have hpos : (0 : ℝ) ≤ (i : ℝ) + fwhmPix P / 2 := by positivity
  have e1 : pyInt ((i : ℝ) - fwhmPix P / 2) = ⌈(i : ℝ) - fwhmPix P / 2⌉ := by
    unfold pyInt; rw [if_neg (by linarith)]
  have e2 : pyInt ((i : ℝ) + fwhmPix P / 2) = ⌊(i : ℝ) + fwhmPix P / 2⌋ := by
    unfold pyInt; rw [if_pos hpos]
  have hc : ⌈(i : ℝ) - fwhmPix P / 2⌉ ≤ -1 := by
    rw [Int.ceil_le]; push_cast; linarith
  have hfl : 0 ≤ ⌊(i : ℝ) + fwhmPix P / 2⌋ := Int.floor_nonneg.mpr hpos
  rw [e1] at ha
  rw [e2] at hb
  unfold sliceBound at ha hb
  rw [if_pos (by omega)] at ha
  rw [if_neg (by omega)] at hb
  omega

/-- C28 fails at the right end of every window: a sample at a distance of at most half a width to
the right, but not below `⌊i + fwhm/2⌋`, is not covered by the component's slice. -/
theorem window_right_short (P : Params N N2) (i j : Fin N) (hf : 0 ≤ fwhmPix P)
    (h2 : ⌊(i : ℝ) + fwhmPix P / 2⌋ ≤ (j : ℤ)) :
    ¬ inSlice N (pyInt ((i : ℝ) - fwhmPix P / 2)) (pyInt ((i : ℝ) + fwhmPix P / 2)) j := by
  rintro ⟨-, hb⟩
  have hpos : (0 : ℝ) ≤ (i : ℝ) + fwhmPix P / 2 := by positivity
  have e2 : pyInt ((i : ℝ) + fwhmPix P / 2) = ⌊(i : ℝ) + fwhmPix P / 2⌋ := by
    unfold pyInt; rw [if_pos hpos]
  have hfl : 0 ≤ ⌊(i : ℝ) + fwhmPix P / 2⌋ := Int.floor_nonneg.mpr hpos
  rw [e2] at hb
  unfold sliceBound at hb
  rw [if_neg (by omega)] at hb
  omega

/-- Concrete refutation of C28 on both sides: 21 samples of spacing 1, RMSF width 4, components at
samples 1 and 10 only. Sample 0 is one sample left of the component at 1, sample 12 two samples
(half the width) right of the component at 10; neither is in the mask. -/
example :
    let P : Params 21 43 := 
      { phi := fun i => (i : ℝ) - 10
        rmsf := fun _ => 0
        fwhm := 4
        maxIter := 100
        gain := 1 / 10
        cutoff := 1
        window := some 1 }
    let s : State 21 := 
      { resid := 0
        cc := fun i => if i = 1 ∨ i = 10 then 1 else 0
        clean := 0
        iter := 2 }
    ¬ mask P s 0 ∧ ¬ mask P s 12 := by
  intro P s
  have hf : fwhmPix P = 4 := by
    unfold fwhmPix at0
    simp only [P]
    norm_num
  have hcc : ∀ i, s.cc i ≠ 0 → i = 1 ∨ i = 10 := by
    intro i h
    by_contra hc
    apply h
    simp only [s, if_neg hc]
  constructor
  · rintro (h | ⟨i, hi, hsl⟩)
    · rcases hcc _ h with h | h <;> simp [Fin.ext_iff] at h
    · rcases hcc _ hi with h | h
      · subst h
        refine window_left_edge P 1 0 ?_ ?_ hsl
        · rw [hf]; norm_num
        · rw [hf]; norm_num
      · subst h
        unfold inSlice at hsl
        rw [hf] at hsl
        have e : pyInt ((((10 : Fin 21) : ℕ) : ℝ) - 4 / 2) = 8 := by
          have : ((((10 : Fin 21) : ℕ) : ℝ) - 4 / 2) = ((8 : ℤ) : ℝ) := by
            norm_num
          rw [this]; unfold pyInt; simp
        rw [e] at hsl
        simp [sliceBound] at hsl
  · rintro (h | ⟨i, hi, hsl⟩)
    · rcases hcc _ h with h | h <;> simp [Fin.ext_iff] at h
    · rcases hcc _ hi with h | h
      · subst h
        refine window_right_short P 1 12 (by rw [hf]; norm_num) ?_ hsl
        rw [hf, show (((1 : Fin 21) : ℕ) : ℝ) + 4 / 2 = ((3 : ℤ) : ℝ) by norm_num, Int.floor_intCast]
        decide
      · subst h
        refine window_right_short P 10 12 (by rw [hf]; norm_num) ?_ hsl
        rw [hf, show (((10 : Fin 21) : ℕ) : ℝ) + 4 / 2 = ((12 : ℤ) : ℝ) by norm_num, Int.floor_intCast]
        decide

/-! ## C33 -/

/-- Scale a state by a complex number. -/
def scale (z : ℂ) (s : State N) : State N :=
  { resid := fun i => z * s.resid i, cc := fun i => z * s.cc i, clean := fun i => z * s.clean i,
    iter := s.iter }

/-- C33. Multiplying the dirty spectrum by `z ≠ 0` and both thresholds by `|z|` multiplies
components, residual and clean spectrum by `z`, and changes no iteration count. -/
theorem clean_equivariant (P : Params N N2) (z : ℂ) (hz : z ≠ 0) (dirty : Fin N → ℂ) :
    stage2 { P with cutoff := ‖z‖ * P.cutoff, window := P.window.map (‖z‖ * ·) }
      (fun i => z * dirty i) = scale z (stage2 P dirty) := by
  set P' : Params N N2 := { P with cutoff := ‖z‖ * P.cutoff, window := P.window.map (‖z‖ * ·) } with hP'
  have hzp : 0 < ‖z‖ := norm_pos_iff.mpr hz
  have hsh : ∀ k i, shifted P' k i = shifted P k i := fun k i => rfl
  have hstep : ∀ (s : State N) (idx : Fin N), step P' (scale z s) idx = scale z (step P s idx) := by
    intro s idx
    unfold step scale
    simp only [hsh]
    congr 1
    · funext i
      change z * s.resid i - P.gain * (z * s.resid idx) * shifted P idx i = _
      ring
    · funext i
      change (if i = idx then z * s.cc i + P.gain * (z * s.resid idx) else z * s.cc i) = _
      split_ifs <;> ring
    · funext i
      rw [gauss1D_eq, gauss1D_eq]
      change z * s.clean i + P.gain * (z * s.resid idx) * _ = _
      ring
  have hargmax : ∀ s : State N, npArgmax (fun i => ‖(scale z s).resid i‖) =
      npArgmax (fun i => ‖s.resid i‖) := by
    intro s
    rw [npArgmax_eq_iff]
    constructor
    · intro j
      simp only [scale, norm_mul]
      exact mul_le_mul_of_nonneg_left (le_npArgmax (fun i => ‖s.resid i‖) j) hzp.le
    · intro j hj
      simp only [scale, norm_mul]
      exact mul_lt_mul_of_pos_left (npArgmax_first (fun i => ‖s.resid i‖) j hj) hzp
  have hcond1 : ∀ s : State N, P'.cutoff ≤ npMax (fun i => ‖(scale z s).resid i‖) ↔
      P.cutoff ≤ npMax (fun i => ‖s.resid i‖) := by
    intro s
    unfold npMax
    rw [hargmax]
    change ‖z‖ * P.cutoff ≤ ‖z * s.resid _‖ ↔ _
    rw [norm_mul]
    exact mul_le_mul_iff_right₀ hzp
  have hloop1 : ∀ fuel (s : State N), loop1 P' fuel (scale z s) = scale z (loop1 P fuel s) := by
    intro fuel
    induction fuel with
    | zero => intro s; rfl
    | succ f ih =>
      intro s
      unfold loop1
      by_cases h : P.cutoff ≤ npMax (fun i => ‖s.resid i‖)
      · rw [if_pos h, if_pos ((hcond1 s).mpr h), hargmax, hstep, ih]
      · rw [if_neg h, if_neg (fun hh => h ((hcond1 s).mp hh))]
  have hmask : ∀ s : State N, mask P' (scale z s) = mask P s := by
    intro s
    funext j
    unfold mask
    have : ∀ i, (scale z s).cc i ≠ 0 ↔ s.cc i ≠ 0 := by
      intro i; simp [scale, hz]
    simp only [this]
    rfl
  have hmabs : ∀ (M : Fin N → Prop) (s : State N) (i j : Fin N),
      (maskedAbs M (scale z s).resid i ≤ maskedAbs M (scale z s).resid j ↔
        maskedAbs M s.resid i ≤ maskedAbs M s.resid j) := by
    intro M s i j
    unfold maskedAbs
    split_ifs
    · rw [WithBot.coe_le_coe, WithBot.coe_le_coe]
      simp only [scale, norm_mul]
      exact mul_le_mul_iff_right₀ hzp
    · simp
    · simp
    · simp
  have hargmax2 : ∀ (M : Fin N → Prop) (s : State N), npArgmax (maskedAbs M (scale z s).resid) =
      npArgmax (maskedAbs M s.resid) := by
    intro M s
    rw [npArgmax_eq_iff]
    constructor
    · intro j
      rw [hmabs]; exact le_npArgmax _ j
    · intro j hj
      rw [← not_le, hmabs, not_le]
      exact npArgmax_first _ j hj
  have hcond2 : ∀ (M : Fin N → Prop) (s : State N), cond2 P' M (scale z s) ↔ cond2 P M s := by
    intro M s
    rw [cond2_iff, cond2_iff]
    have hw : P'.window = P.window.map (‖z‖ * ·) := rfl
    rw [hw]
    cases P.window with
    | none => simp
    | some w =>
      simp only [Option.map_some, Option.some.injEq, exists_eq_left']
      have : ∀ i, (‖z‖ * w ≤ ‖(scale z s).resid i‖) ↔ w ≤ ‖s.resid i‖ := by
        intro i
        simp only [scale, norm_mul]
        exact mul_le_mul_iff_right₀ hzp
      simp only [this]
  have hloop2 : ∀ (M : Fin N → Prop) fuel (s : State N),
      loop2 P' M fuel (scale z s) = scale z (loop2 P M fuel s) := by
    intro M fuel
    induction fuel with
    | zero => intro s; rfl
    | succ f ih =>
      intro s
      unfold loop2
      by_cases h : cond2 P M s
      · rw [if_pos h, if_pos ((hcond2 M s).mpr h), hargmax2, hstep, ih]
      · rw [if_neg h, if_neg (fun hh => h ((hcond2 M s).mp hh))]
  have hstart : start (fun i => z * dirty i) = scale z (start dirty) := by
    unfold start scale
    congr 1 <;> (funext i; simp)
  have h1 : stage1 P' (fun i => z * dirty i) = scale z (stage1 P dirty) := by
    unfold stage1
    rw [hstart, hloop1]
  unfold stage2
  dsimp only
  rw [h1, hmask, hloop2]
  rfl

end Verif.Clean
