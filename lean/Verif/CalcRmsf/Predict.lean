import Verif.CalcRmsf.Props
import Verif.Pipe3D.Props
import Verif.Rmsf.Props
import Mathlib.Tactic

/-!
# C290: the calculator predicts the RMSF of a run

`rmtools_calcRMSF` gets channels and weights and no data. The theorems compare its RMSF with the one
`rmtools_synth1d` and `rmtools_synth3d` compute with the data. The weights given to the calculator are those the run
uses, with zero (or NaN) for the channels flagged in the line of sight.
-/

namespace Verif.CalcRmsf

open Complex Verif.SynthSpec

variable {n m k : ℕ}

/-- Specification: the weights `w` are those of a line of sight: zero where `flagged`, otherwise the weights `v`
of the run. NaN counts as zero. -/
def WeightsOf (w : Fin n → Option ℝ) (flagged : Fin n → Prop) (v : Fin n → Option ℝ) : Prop :=
  ∀ j, (flagged j → (w j).getD 0 = 0) ∧ (¬ flagged j → (w j).getD 0 = (v j).getD 0)

/-- The weighted mean of `λ²`. -/
noncomputable def meanOf (w : Fin n → ℝ) (lam : Fin n → ℝ) : ℝ := (∑ j, w j * lam j) / ∑ j, w j

/-- The RMSF does not depend on whether a channel is flagged or has weight zero. -/
theorem rmsf_zeros (w v : Fin n → ℝ) (good : Fin n → Prop) [DecidablePred good] (lam : Fin n → ℝ) (L t : ℝ)
    (h : ∀ j, w j = if good j then v j else 0) : SynthSpec.rmsf w (fun _ => True) lam L t = SynthSpec.rmsf v good lam L t := by
  unfold SynthSpec.rmsf weightSum
  rw [Finset.sum_filter, Finset.sum_filter, Finset.sum_filter, Finset.sum_filter]
  congr 1
  · refine Finset.sum_congr rfl fun j _ => ?_
    rw [if_pos trivial, h j]
    split_ifs <;> simp
  · congr 1
    refine Finset.sum_congr rfl fun j _ => ?_
    rw [if_pos trivial, h j]

/-- Another reference wavelength is a phase factor. -/
theorem rmsf_phase (w : Fin n → ℝ) (good : Fin n → Prop) [DecidablePred good] (lam : Fin n → ℝ) (L L' t : ℝ) :
    SynthSpec.rmsf w good lam L t = exp (((2 * t * (L - L') : ℝ) : ℂ) * I) * SynthSpec.rmsf w good lam L' t := by
  unfold SynthSpec.rmsf
  rw [← mul_div_assoc, Finset.mul_sum]
  congr 1
  refine Finset.sum_congr rfl fun j _ => ?_
  rw [mul_left_comm, ← exp_add]
  congr 2
  push_cast
  ring

theorem rmsf_norm (w : Fin n → ℝ) (good : Fin n → Prop) [DecidablePred good] (lam : Fin n → ℝ) (L L' t : ℝ) :
    ‖SynthSpec.rmsf w good lam L t‖ = ‖SynthSpec.rmsf w good lam L' t‖ := by
  rw [rmsf_phase w good lam L L' t, norm_mul, norm_exp_ofReal_mul_I, one_mul]

/-- The calculator has no flags. -/
theorem calc_do1D [NeZero n] (c : In n) (g : Fin (Axis.nPhi2 c.nPhi) → ℝ) : Rmsf.do1D (c.rmsfIn g) := by
  intro j
  left
  simp [Rmsf.xySum, In.rmsfIn]

theorem calc_weight1 [NeZero n] (c : In n) (g : Fin (Axis.nPhi2 c.nPhi) → ℝ) (j : Fin n) :
    Rmsf.weight1 (c.rmsfIn g) j = (c.weight j).getD 0 := by
  have h : Rmsf.xySum (c.rmsfIn g) j = 0 := by simp [Rmsf.xySum, In.rmsfIn]
  unfold Rmsf.weight1
  rw [h, if_neg (by norm_num), mul_one]
  unfold Rmsf.weight0 In.rmsfIn
  dsimp only
  cases c.weight j <;> rfl

/-- The reference wavelength of the calculator. -/
noncomputable def calcRef (c : In n) : ℝ :=
  if c.superRes then 0 else meanOf (fun j => (c.weight j).getD 0) c.lamSq

theorem calc_ref [NeZero n] (c : In n) (g : Fin (Axis.nPhi2 c.nPhi) → ℝ) (hs : ∑ j, (c.weight j).getD 0 ≠ 0) :
    Rmsf.lam0Sq (c.rmsfIn g) = some (calcRef c) := by
  unfold Rmsf.lam0Sq calcRef
  have e : (c.rmsfIn g).lam0 = if c.superRes then some 0 else none := rfl
  rw [e]
  cases c.superRes with
  | true => rfl
  | false =>
    simp only [Bool.false_eq_true, if_false]
    simp only [calc_weight1]
    rw [if_neg hs]
    unfold meanOf
    rw [one_div, div_eq_inv_mul]
    rfl

theorem calc_value [NeZero n] (c : In n) (g : Fin (Axis.nPhi2 c.nPhi) → ℝ) (hs : ∑ j, (c.weight j).getD 0 ≠ 0)
    (l : Fin (Axis.nPhi2 c.nPhi)) :
    Rmsf.rmsf (c.rmsfIn g) l 0 = some (SynthSpec.rmsf (fun j => (c.weight j).getD 0) (fun _ => True) c.lamSq (calcRef c) (g l)) := by
  have hw : Rmsf.pixelWeight (c.rmsfIn g) 0 ≠ 0 := by
    unfold Rmsf.pixelWeight weightSum
    rw [Finset.filter_true_of_mem (by intro j _; rfl)]
    exact hs
  rw [Rmsf.rmsf_do1D (c.rmsfIn g) (calc_do1D c g) (calcRef c) (calc_ref c g hs) l 0 hw]
  congr 1

/-- A line of sight of a call of `get_rmsf_planes` with data. -/
theorem values_meet [NeZero n] (c : In n) (g : Fin (Axis.nPhi2 c.nPhi) → ℝ) (y : Rmsf.Input n m k) (p : Fin m) (v : Fin n → Option ℝ)
    (hl : y.lamSq = c.lamSq) (hv : y.weight = some v) (hw : WeightsOf c.weight (fun j => y.msk j p = true) v)
    (hs : ∑ j, (c.weight j).getD 0 ≠ 0) (hsym : SymGrid y.phi2 ∨ Rmsf.do1D y) (L : ℝ) (hL : y.lam0 = some L)
    (l : Fin (Axis.nPhi2 c.nPhi)) (l' : Fin k) (h : y.phi2 l' = g l) :
    ∃ z z', Rmsf.rmsf (c.rmsfIn g) l 0 = some z ∧ Rmsf.rmsf y l' p = some z' ∧ ‖z‖ = ‖z'‖ ∧
      z = exp (((2 * g l * (calcRef c - L) : ℝ) : ℂ) * I) * z' := by
  have hw' : ∀ j, (c.weight j).getD 0 = if y.msk j p = false then effWeight y.weight j else 0 := by
    intro j
    by_cases hm : y.msk j p = true
    · rw [if_neg (by rw [hm]; decide), (hw j).1 hm]
    · rw [if_pos (by simpa using hm), (hw j).2 hm, hv]
      rfl
  have hpw : Rmsf.pixelWeight y p ≠ 0 := by
    unfold Rmsf.pixelWeight weightSum
    rw [Finset.sum_filter]
    rwa [← Finset.sum_congr rfl fun j _ => hw' j]
  have hL' : Rmsf.lam0Sq y = some L := by
    unfold Rmsf.lam0Sq
    rw [hL]
  have hy : Rmsf.rmsf y l' p = some (SynthSpec.rmsf (effWeight y.weight) (fun j => y.msk j p = false) y.lamSq L (y.phi2 l')) := by
    rcases hsym with hsym | h1
    · exact Rmsf.rmsf_sym y hsym L hL' l' p hpw
    · exact Rmsf.rmsf_do1D y h1 L hL' l' p hpw
  refine ⟨_, _, calc_value c g hs l, hy, ?_, ?_⟩
  · rw [rmsf_zeros _ (effWeight y.weight) (fun j => y.msk j p = false) _ _ _ hw', h, hl]
    exact rmsf_norm _ _ _ _ _ _
  · rw [rmsf_zeros _ (effWeight y.weight) (fun j => y.msk j p = false) _ _ _ hw', h, hl]
    exact rmsf_phase _ _ _ _ _ _

theorem inf_eq [NeZero n] (f : Fin n → ℝ) : Finset.univ.inf' Finset.univ_nonempty f = Pipe1D.arrMin f := by
  apply le_antisymm
  · unfold Pipe1D.arrMin NumPy.npMax
    rw [neg_neg]
    exact Finset.inf'_le f (Finset.mem_univ _)
  · refine Finset.le_inf' _ _ fun j _ => ?_
    unfold Pipe1D.arrMin
    have := NumPy.le_npMax (fun i => -f i) j
    linarith

theorem sup_eq [NeZero n] (f : Fin n → ℝ) : Finset.univ.sup' Finset.univ_nonempty f = Pipe1D.arrMax f := by
  apply le_antisymm
  · exact Finset.sup'_le _ _ fun j _ => NumPy.le_npMax f j
  · exact Finset.le_sup' f (Finset.mem_univ _)

/-- What the calculator reports. -/
theorem determine_some [NeZero n] (c : In n) (r : Report (Axis.nPhi2 c.nPhi)) (h : determine c = some r) :
    r.fwhmTheory = 3.8 / (Pipe1D.arrMax c.lamSq - Pipe1D.arrMin c.lamSq) ∧ Pipe1D.arrMax c.lamSq - Pipe1D.arrMin c.lamSq ≠ 0 ∧
      r.rmsf = fun l => Rmsf.rmsf (c.rmsfIn r.phi2) l 0 := by
  unfold determine at h
  split_ifs at h with h1
  rw [Option.bind_eq_some_iff] at h
  obtain ⟨d, -, h⟩ := h
  split_ifs at h with h2
  rw [Option.map_eq_some_iff] at h
  obtain ⟨g, hg, rfl⟩ := h
  push Not at h1
  refine ⟨?_, ?_, rfl⟩
  · dsimp only
    unfold In.hi In.lo
    rw [inf_eq, sup_eq]
  · have := h1.1
    unfold In.hi In.lo at this
    rwa [inf_eq, sup_eq] at this

/-- **C290.** The width the calculator prints is the analytical width with which a run without super-resolution
chooses its depth axis. -/
theorem width_predicted_partial [NeZero n] (c : In n) (r : Report (Axis.nPhi2 c.nPhi)) (h : determine c = some r) (freq : Fin n → ℝ)
    (hl : c.lamSq = Pipe1D.lamSq freq) :
    r.fwhmTheory = Pipe1D.fwhmTheory false (Pipe1D.arrMin (Pipe1D.lamSq freq)) (Pipe1D.arrMax (Pipe1D.lamSq freq)) := by
  rw [(determine_some c r h).1, hl]
  rfl

/-- **C290, refuted for super-resolution.** The calculator prints the width without super-resolution also if
super-resolution is asked for. That is more than the width such a run uses, at least 1.9 times. -/
theorem width_super_wrong [NeZero n] (c : In n) (r : Report (Axis.nPhi2 c.nPhi)) (h : determine c = some r) (freq : Fin n → ℝ)
    (hf : ∀ j, 0 < freq j) (hl : c.lamSq = Pipe1D.lamSq freq) :
    1.9 * Pipe1D.fwhmTheory true (Pipe1D.arrMin (Pipe1D.lamSq freq)) (Pipe1D.arrMax (Pipe1D.lamSq freq)) < r.fwhmTheory := by
  obtain ⟨e, hne, -⟩ := determine_some c r h
  rw [e, hl]
  rw [hl] at hne
  have hlo : 0 < Pipe1D.arrMin (Pipe1D.lamSq freq) := by
    rw [← inf_eq, Finset.lt_inf'_iff]
    intro j _
    have := hf j
    unfold Pipe1D.lamSq Pipe1D.c
    positivity
  have hle : Pipe1D.arrMin (Pipe1D.lamSq freq) ≤ Pipe1D.arrMax (Pipe1D.lamSq freq) := by
    rw [← inf_eq, ← sup_eq]
    exact (Finset.inf'_le _ (Finset.mem_univ (0 : Fin n))).trans (Finset.le_sup' _ (Finset.mem_univ (0 : Fin n)))
  have hpos : 0 < Pipe1D.arrMax (Pipe1D.lamSq freq) - Pipe1D.arrMin (Pipe1D.lamSq freq) :=
    lt_of_le_of_ne (by linarith) (Ne.symm hne)
  unfold Pipe1D.fwhmTheory
  rw [if_pos rfl, show (1.9 : ℝ) * (2 / (Pipe1D.arrMax (Pipe1D.lamSq freq) + Pipe1D.arrMin (Pipe1D.lamSq freq))) =
    3.8 / (Pipe1D.arrMax (Pipe1D.lamSq freq) + Pipe1D.arrMin (Pipe1D.lamSq freq)) by ring]
  exact div_lt_div_of_pos_left (by norm_num) hpos (by linarith)

/-- The reference wavelength of RM synthesis with data. -/
theorem synth_ref (c : In n) (y : Synth.Input n m k) (v : Fin n → Option ℝ) (hl : y.lamSq = c.lamSq) (hv : y.weight = some v)
    (hL : y.lam0 = if c.superRes then some 0 else none)
    (hw : WeightsOf c.weight (fun j => ∀ p, Synth.pixPol y p j = none) v) (hs : ∑ j, (c.weight j).getD 0 ≠ 0) :
    Synth.lam0Sq y = calcRef c := by
  classical
  have h1 : ∀ j, Synth.weight1 y j = (c.weight j).getD 0 := by
    intro j
    rw [Synth.weight1_eq, Synth.weight0_eq, hv]
    by_cases hp : ∃ p, (Synth.pixPol y p j).isSome = true
    · rw [if_pos hp, (hw j).2 (by
        intro h
        obtain ⟨p, hp⟩ := hp
        rw [h p] at hp
        simp at hp)]
      rfl
    · rw [if_neg hp, (hw j).1 (by
        intro p
        by_contra h
        exact hp ⟨p, Option.isSome_iff_ne_none.mpr h⟩)]
  unfold Synth.lam0Sq calcRef
  rw [hL]
  cases c.superRes with
  | true => rfl
  | false =>
    simp only [Bool.false_eq_true, if_false]
    simp only [h1]
    rw [if_neg hs, hl]
    unfold meanOf
    rw [one_div, div_eq_inv_mul]

/-- **C290, one spectrum.** At every depth on both axes the calculator and the run of `rmtools_synth1d` have the same
complex RMSF, if the calculator gets the channels of the run, its weights (zero where flagged) and the same choice of
super-resolution. A channel is flagged in both parts of the fractional polarisation or in none. -/
theorem predicts_1d [NeZero n] (x : StokesI.FracIn n) (fit : Option StokesI.FitResult) (o : Pipe1D.Opts)
    (g2 : Fin (Axis.nPhi2 (Axis.nChanRM (Pipe1D.stage x fit o).phiMax (Pipe1D.stage x fit o).dPhi)) → ℝ)
    (hqu : ∀ j, (Pipe1D.stage x fit o).frac.q j = none ↔ (Pipe1D.stage x fit o).frac.u j = none)
    (c : In n) (r : Report (Axis.nPhi2 c.nPhi)) (hr : determine c = some r) (hl : c.lamSq = Pipe1D.lamSq x.freq)
    (hsr : c.superRes = o.superRes)
    (hw : WeightsOf c.weight (fun j => (Pipe1D.stage x fit o).frac.q j = none) (Pipe1D.stage x fit o).weight)
    (hs : ∑ j, (c.weight j).getD 0 ≠ 0) :
    ∀ l l', g2 l' = r.phi2 l → ∃ z, r.rmsf l = some z ∧ Rmsf.rmsf (Pipe3D.rmsfInput1D x fit o g2) l' 0 = some z := by
  intro l l' h
  have hq : ∀ j p, Synth.pixPol (Pipe1D.synthInput x fit o) p j = none ↔ (Pipe1D.stage x fit o).frac.q j = none := by
    intro j p
    have := hqu j
    unfold Synth.pixPol SynthSpec.pol Pipe1D.synthInput
    dsimp only
    cases hj : (Pipe1D.stage x fit o).frac.q j with
    | none => simp
    | some a =>
      rw [hj] at this
      cases hu : (Pipe1D.stage x fit o).frac.u j with
      | none => exact absurd (this.mpr hu) (by simp)
      | some b => simp
  have href : Synth.lam0Sq (Pipe1D.synthInput x fit o) = calcRef c := by
    refine synth_ref c _ (Pipe1D.stage x fit o).weight hl.symm rfl ?_ ?_ hs
    · rw [hsr]
      rfl
    · intro j
      refine ⟨fun h => (hw j).1 ((hq j 0).mp (h 0)), fun h => (hw j).2 fun h' => h fun p => (hq j p).mpr h'⟩
  obtain ⟨z, z', h1, h2, -, h3⟩ := values_meet c r.phi2 (Pipe3D.rmsfInput1D x fit o g2) 0 (Pipe1D.stage x fit o).weight hl.symm rfl
    (by
      intro j
      refine ⟨fun h => (hw j).1 (Option.isNone_iff_eq_none.mp h), fun h => (hw j).2 fun h' => h ?_⟩
      exact Option.isNone_iff_eq_none.mpr h') hs
    (Or.inr (by
      intro j
      unfold Rmsf.xySum
      rw [Fin.sum_univ_one]
      split_ifs
      · right; rfl
      · left; rfl)) _ rfl l l' h
  rw [href, sub_self, mul_zero, ofReal_zero, zero_mul, exp_zero, one_mul] at h3
  subst h3
  rw [(determine_some c r hr).2.2]
  exact ⟨z, h1, h2⟩

/-- **C290, cubes.** For every pixel the calculator predicts the modulus of the RMSF of `rmtools_synth3d` at every
depth on both axes, from the weights of the run, zero where the pixel's Stokes Q is flagged. The phase is that of the
difference of the reference wavelengths: none in super-resolution; otherwise the run has one reference for all pixels. -/
theorem predicts_cube [NeZero n] (x : Pipe3D.In n m) (o : Pipe1D.Opts) (R : Fin (Axis.nPhi2 (Pipe3D.nPhi x o)) → Fin m → Option ℂ)
    (hR : Pipe3D.rmsfCube x o = some R) (hd : 0 < (Pipe3D.axisParams x o).1)
    (c : In n) (r : Report (Axis.nPhi2 c.nPhi)) (hr : determine c = some r) (hl : c.lamSq = Pipe1D.lamSq x.freq)
    (hsr : c.superRes = o.superRes) (p : Fin m) (hw : WeightsOf c.weight (fun j => x.q j p = none) (Pipe3D.weight x o))
    (hs : ∑ j, (c.weight j).getD 0 ≠ 0) :
    ∃ g2, Axis.phi2 (Pipe3D.synthInput x o).phi = some g2 ∧ ∀ l l', g2 l' = r.phi2 l → ∃ z z', r.rmsf l = some z ∧ R l' p = some z' ∧
      ‖z‖ = ‖z'‖ ∧ (o.superRes = true → z = z') ∧
      ((∀ j, x.q j p = none ↔ ∀ p', ¬ Pipe3D.Usable x j p') → z = z') := by
  unfold Pipe3D.rmsfCube at hR
  split_ifs at hR with hreg
  rw [Option.map_eq_some_iff] at hR
  obtain ⟨g2, hg2, rfl⟩ := hR
  refine ⟨g2, hg2, fun l l' h => ?_⟩
  have hsym : SymGrid g2 := by
    have h2 : 2 ≤ Pipe3D.nPhi x o := by
      by_contra h
      rw [Axis.phi2_short (by omega)] at hg2
      simp at hg2
    obtain ⟨g, hg, -, -, -, -, hs2⟩ := Axis.phi2_spec h2 (Pipe3D.synthInput x o).phi
    rw [hg2, Option.some.injEq] at hg
    subst hg
    obtain ⟨-, -, -, hsym, -⟩ := Axis.phiAxis_spec (Pipe3D.axisParams x o).2 (Pipe3D.axisParams x o).1 hd
    exact hs2 hsym
  obtain ⟨z, z', h1, h2, h3, h4⟩ := values_meet c r.phi2 (Pipe3D.rmsfInput x o g2) p (Pipe3D.weight x o) hl.symm rfl
    (by
      intro j
      refine ⟨fun h => (hw j).1 (Option.isNone_iff_eq_none.mp h), fun h => (hw j).2 fun h' => h ?_⟩
      exact Option.isNone_iff_eq_none.mpr h') hs (Or.inl hsym) _ rfl l l' h
  have key : Synth.lam0Sq (Pipe3D.synthInput x o) = calcRef c → z = z' := by
    intro e
    rw [e, sub_self, mul_zero, ofReal_zero, zero_mul, exp_zero, one_mul] at h4
    exact h4
  rw [(determine_some c r hr).2.2]
  refine ⟨z, z', h1, h2, h3, ?_, ?_⟩
  · intro ho
    apply key
    unfold calcRef Synth.lam0Sq Pipe3D.synthInput
    rw [hsr, ho]
    rfl
  · intro hu
    apply key
    refine synth_ref c _ (Pipe3D.weight x o) hl.symm rfl ?_ ?_ hs
    · rw [hsr]
      rfl
    · intro j
      have e : (∀ p', Synth.pixPol (Pipe3D.synthInput x o) p' j = none) ↔ x.q j p = none := by
        rw [hu j]
        refine forall_congr' fun p' => ?_
        rw [← Pipe3D.spectrum_isSome x o j p', Bool.not_eq_true, Option.isSome_eq_false_iff, Option.isNone_iff_eq_none]
        rfl
      exact ⟨fun h => (hw j).1 (e.mp h), fun h => (hw j).2 fun h' => h (e.mpr h')⟩

/-- Wavelengths squared 1 and 2 with the default axis. -/
noncomputable def pairIn (w : Fin 2 → Option ℝ) : In 2 := ⟨![1, 2], w, none, none, false⟩

theorem pair_case (w : Fin 2 → Option ℝ) :
    ∃ r, determine (pairIn w) = some r ∧ Axis.nPhi2 (pairIn w).nPhi = 203 ∧ ∀ i, r.phi2 i = ((i : ℝ) - 101) * (0.1 * 2 * Real.sqrt 3) := by
  have hlo : (pairIn w).lo = 1 := by
    unfold In.lo
    rw [inf_eq]
    unfold Pipe1D.arrMin
    rw [neg_eq_iff_eq_neg]
    apply le_antisymm
    · unfold NumPy.npMax
      generalize NumPy.npArgmax (fun i => -(pairIn w).lamSq i) = i
      fin_cases i <;> simp [pairIn]
    · exact NumPy.le_npMax (fun i => -(pairIn w).lamSq i) 0
  have hhi : (pairIn w).hi = 2 := by
    unfold In.hi
    rw [sup_eq]
    apply le_antisymm
    · unfold Pipe1D.arrMax NumPy.npMax
      generalize NumPy.npArgmax (pairIn w).lamSq = i
      fin_cases i <;> simp [pairIn]
    · exact NumPy.le_npMax (pairIn w).lamSq 1
  have hdl : (pairIn w).dl2 = some 1 := by
    unfold In.dl2
    have : (diff (List.ofFn (pairIn w).lamSq)).map (fun d => |d|) = [1] := by
      simp only [pairIn, List.ofFn_succ, List.ofFn_zero, diff, List.map]
      norm_num
    rw [this]
    simp [Stats.median, Stats.mid]
  have hd : (pairIn w).dPhiUsed = 0.1 * 2 * Real.sqrt 3 := by
    unfold In.dPhiUsed
    rw [hlo, hhi]
    simp only [pairIn, Option.getD_none]
    norm_num
  obtain ⟨hN, g, hg, hgi, -⟩ := default_axis (pairIn w) rfl rfl (by rw [hlo, hhi]; norm_num) (by rw [hlo, hhi]; norm_num)
  have h3 : (0 : ℝ) < Real.sqrt 3 := by positivity
  have hno : ¬ ((pairIn w).hi - (pairIn w).lo = 0 ∨ (pairIn w).dPhiUsed = 0 ∨ (pairIn w).lo = 0) := by
    rw [hlo, hhi, hd]
    norm_num
  unfold determine
  rw [if_neg hno, hdl]
  simp only [Option.bind_some, one_ne_zero, if_false, hg, Option.map_some]
  refine ⟨_, rfl, hN, ?_⟩
  intro i
  dsimp only
  rw [hgi, hd]

/-- Two channels and two pixels; the second channel is flagged in the second pixel. -/
noncomputable def pairCube : Pipe3D.In 2 2 where
  q := fun j p => if j = 1 ∧ p = 1 then none else some 1
  u := fun j p => if j = 1 ∧ p = 1 then none else some 1
  i := none
  freq := Pipe3D.wFreq
  rms := none

/-- The sampling of the calculator's default. -/
noncomputable def pairOpts : Pipe1D.Opts where
  variance := false
  superRes := false
  dPhi := some (0.1 * 2 * Real.sqrt 3)
  phiMax := some (0.1 * 2 * Real.sqrt 3)
  nSamples := 10

/-- **C290, refuted for the phase.** Two channels, the second flagged in the second of two pixels: all hypotheses of
`predicts_cube` hold, and the complex values differ. The reference of the run is the mean of both channels, that of
the calculator the first channel. -/
theorem phase_wrong : ∃ R r, Pipe3D.rmsfCube pairCube pairOpts = some R ∧ 0 < (Pipe3D.axisParams pairCube pairOpts).1 ∧
    determine (pairIn ![some 1, none]) = some r ∧ (pairIn ![some 1, none]).lamSq = Pipe1D.lamSq pairCube.freq ∧
    (pairIn ![some 1, none]).superRes = pairOpts.superRes ∧
    WeightsOf (pairIn ![some 1, none]).weight (fun j => pairCube.q j 1 = none) (Pipe3D.weight pairCube pairOpts) ∧
    ∑ j, ((pairIn ![some 1, none]).weight j).getD 0 ≠ 0 ∧
    ∃ g2 l l' z z', Axis.phi2 (Pipe3D.synthInput pairCube pairOpts).phi = some g2 ∧ g2 l' = r.phi2 l ∧ r.rmsf l = some z ∧ R l' 1 = some z' ∧
      z ≠ z' := by
  have h3 : (0 : ℝ) < Real.sqrt 3 := by positivity
  have h3' : Real.sqrt 3 < 2 := by
    rw [Real.sqrt_lt' (by norm_num)]; norm_num
  set d : ℝ := 0.1 * 2 * Real.sqrt 3 with hdd
  have hd : 0 < d := by rw [hdd]; positivity
  have hax : Pipe3D.axisParams pairCube pairOpts = (d, d) := rfl
  have hreg : Pipe3D.Regular pairCube pairOpts := by
    refine ⟨Pipe3D.wFreq_pos, ⟨0, 1, Pipe3D.wFreq_ne⟩, ?_, ?_⟩
    · rw [hax]; exact hd.ne'
    · intro r hr; exact absurd hr (by simp [pairCube])
  obtain ⟨e, he, hphi, -, hcov⟩ := Axis.phiAxis_spec d d hd
  have he1 : 1 ≤ e := by
    by_contra hc
    have h0 : e = 0 := by omega
    rw [h0] at hcov
    simp [abs_of_pos hd] at hcov
    linarith
  have hlam : (pairIn ![some 1, none]).lamSq = Pipe1D.lamSq pairCube.freq := by
    funext j
    fin_cases j
    · exact Pipe3D.wFreq_lamSq.1.symm
    · exact Pipe3D.wFreq_lamSq.2.symm
  obtain ⟨g2, hg2, hsym, hsh⟩ := Pipe3D.shift_on_axis d d hd (by omega)
  obtain ⟨l', hl'⟩ := hsh ⟨e + 1, by omega⟩ ⟨e, by omega⟩
  rw [hphi, hphi] at hl'
  have hl'' : g2 l' = d := by
    rw [hl']
    push_cast
    ring
  obtain ⟨r, hr, hN, hri⟩ := pair_case ![some 1, none]
  have hl : r.phi2 ⟨102, by omega⟩ = d := by
    rw [hri]
    push_cast
    ring
  have hw : WeightsOf (pairIn ![some 1, none]).weight (fun j => pairCube.q j 1 = none) (Pipe3D.weight pairCube pairOpts) := by
    intro j
    fin_cases j <;> simp [pairIn, pairCube, Pipe3D.weight]
  have hs : ∑ j, ((pairIn ![some 1, none]).weight j).getD 0 ≠ 0 := by simp [Fin.sum_univ_two, pairIn]
  refine ⟨Rmsf.rmsf (Pipe3D.rmsfInput pairCube pairOpts g2), r, ?_, ?_, hr, hlam, rfl, hw, hs, g2, ⟨102, by omega⟩, l', ?_⟩
  · unfold Pipe3D.rmsfCube
    rw [if_pos hreg]
    rw [show Axis.phi2 (Pipe3D.synthInput pairCube pairOpts).phi = some g2 from hg2]
    rfl
  · rw [hax]; exact hd
  have href : calcRef (pairIn ![some 1, none]) = 1 := by
    simp [calcRef, pairIn, meanOf, Fin.sum_univ_two]
  have hrun : Synth.lam0Sq (Pipe3D.synthInput pairCube pairOpts) = 3 / 2 := by
    have h1 : ∀ j, Synth.weight1 (Pipe3D.synthInput pairCube pairOpts) j = 1 := by
      intro j
      rw [Synth.weight1_eq, if_pos ⟨0, by
        unfold Synth.pixPol Pipe3D.synthInput Pipe3D.divided pairCube
        simp [SynthSpec.pol]⟩, Synth.weight0_eq]
      rfl
    unfold Synth.lam0Sq
    rw [show (Pipe3D.synthInput pairCube pairOpts).lam0 = none from rfl]
    dsimp only
    simp only [h1]
    rw [show (Pipe3D.synthInput pairCube pairOpts).lamSq = Pipe1D.lamSq pairCube.freq from rfl, ← hlam]
    simp [Fin.sum_univ_two, pairIn]
    norm_num
  obtain ⟨z, z', h1, h2, -, h4⟩ := values_meet (pairIn ![some 1, none]) r.phi2 (Pipe3D.rmsfInput pairCube pairOpts g2) 1
    (Pipe3D.weight pairCube pairOpts) hlam.symm rfl (by
      intro j
      refine ⟨fun h => (hw j).1 (Option.isNone_iff_eq_none.mp h), fun h => (hw j).2 fun h' => h ?_⟩
      exact Option.isNone_iff_eq_none.mpr h') hs (Or.inl hsym) _ rfl ⟨102, by omega⟩ l' (hl''.trans hl.symm)
  refine ⟨z, z', hg2, hl''.trans hl.symm, ?_, h2, ?_⟩
  · rw [(determine_some _ r hr).2.2]
    exact h1
  · intro e
    have hz : z = 1 := by
      rw [calc_value _ _ hs, href, Option.some.injEq] at h1
      rw [← h1]
      simp [SynthSpec.rmsf, weightSum, pairIn, Fin.sum_univ_two]
    rw [← e, hz, mul_one, href, hrun, hl] at h4
    have hre := congrArg Complex.re h4
    rw [exp_ofReal_mul_I_re, one_re] at hre
    have hlt : Real.cos (2 * d * (1 - 3 / 2)) < 1 := by
      rw [show 2 * d * (1 - 3 / 2) = -d by ring, Real.cos_neg, ← Real.cos_zero]
      apply Real.cos_lt_cos_of_nonneg_of_le_pi le_rfl _ hd
      have := Real.pi_gt_three
      rw [hdd]
      linarith
    linarith

/-- A spectrum of two channels, the second flagged, unit noise, with a given Stokes I of 2. -/
noncomputable def pairSpec : StokesI.FracIn 2 where
  freq := Pipe3D.wFreq
  q := ![some 1, none]
  u := ![some 1, none]
  dI := fun _ => some 1
  dQ := fun _ => some 1
  dU := fun _ => some 1
  polyOrd := 0
  fn := .log
  modI := some fun _ => some 2

/-- The hypotheses of `predicts_1d` hold for it with variance weights (4 and 0). -/
example : let o : Pipe1D.Opts := ⟨true, false, none, none, 10⟩
    (∀ j, (Pipe1D.stage pairSpec none o).frac.q j = none ↔ (Pipe1D.stage pairSpec none o).frac.u j = none) ∧
    (∃ r, determine (pairIn ![some 4, none]) = some r) ∧ (pairIn ![some 4, none]).lamSq = Pipe1D.lamSq pairSpec.freq ∧
    WeightsOf (pairIn ![some 4, none]).weight (fun j => (Pipe1D.stage pairSpec none o).frac.q j = none) (Pipe1D.stage pairSpec none o).weight ∧
    ∑ j, ((pairIn ![some 4, none]).weight j).getD 0 ≠ 0 := by
  refine ⟨?_, ?_, ?_, ?_, ?_⟩
  · intro j
    fin_cases j <;> simp [Pipe1D.stage, StokesI.createFrac, pairSpec, StokesI.divNaN]
  · obtain ⟨r, hr, -⟩ := pair_case ![some 4, none]
    exact ⟨r, hr⟩
  · funext j
    fin_cases j
    · exact Pipe3D.wFreq_lamSq.1.symm
    · exact Pipe3D.wFreq_lamSq.2.symm
  · intro j
    fin_cases j
    · simp [Pipe1D.stage, StokesI.createFrac, pairSpec, StokesI.divNaN, pairIn, Pipe1D.weight, Pipe1D.dqu]
      norm_num [abs_of_pos]
    · simp [Pipe1D.stage, StokesI.createFrac, pairSpec, StokesI.divNaN, pairIn]
  · simp [Fin.sum_univ_two, pairIn]

end Verif.CalcRmsf
