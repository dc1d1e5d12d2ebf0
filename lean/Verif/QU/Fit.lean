import Verif.QU.FitModel
import Verif.QU.Nest
import Verif.Stats.Props

/-!
# Properties of the fitting around the QU models (C68-C70, C88-C91)
-/

namespace Verif.QU

open Verif.Stats ProbabilityTheory

variable {n : ℕ}

/-! ### C68: wrapping -/

theorem npMod_range (a b : ℝ) (hb : 0 < b) : 0 ≤ npMod a b ∧ npMod a b < b := by
  have h1 := Int.floor_le (a / b)
  have h2 := Int.lt_floor_add_one (a / b)
  rw [le_div_iff₀ hb] at h1
  rw [div_lt_iff₀ hb] at h2
  unfold npMod
  constructor <;> nlinarith

/-- **C68**. Every sample of a wrapped column differs from the input by a whole number of periods and is in
the window of one period centred on the best fit; the other columns are unchanged. -/
theorem wrap_chains_spec {N K : ℕ} (chains : Fin N → Fin K → ℝ) (wraps : Fin K → Bool)
    (lo hi p : Fin K → ℝ) (r : Fin N) (i : Fin K) :
    (wraps i = true → lo i < hi i → ∃ v, wrapChains chains wraps lo hi p r i = some v ∧
      (∃ k : ℤ, v = chains r i + k * (hi i - lo i)) ∧
      p i - (hi i - lo i) / 2 ≤ v ∧ v < p i + (hi i - lo i) / 2) ∧
    (wraps i = false → wrapChains chains wraps lo hi p r i = some (chains r i)) := by
  constructor
  · intro hw hlt
    have hr : 0 < hi i - lo i := by linarith
    refine ⟨_, by simp only [wrapChains, hw, if_true, hr.ne', if_false]; rfl, ?_, ?_, ?_⟩
    · refine ⟨-⌊(chains r i - (lo i + (p i - (lo i + (hi i - lo i) / 2)))) / (hi i - lo i)⌋, ?_⟩
      unfold npMod
      push_cast
      ring
    · have := (npMod_range (chains r i - (lo i + (p i - (lo i + (hi i - lo i) / 2)))) _ hr).1
      linarith
    · have := (npMod_range (chains r i - (lo i + (p i - (lo i + (hi i - lo i) / 2)))) _ hr).2
      linarith
  · intro hw
    simp [wrapChains, hw]

/-- The representative is the only one in the window: wrapping forgets nothing but the period. -/
theorem wrap_chains_unique {N K : ℕ} (chains : Fin N → Fin K → ℝ) (wraps : Fin K → Bool)
    (lo hi p : Fin K → ℝ) (r : Fin N) (i : Fin K) (hw : wraps i = true) (hlt : lo i < hi i) (v : ℝ)
    (hk : ∃ k : ℤ, v = chains r i + k * (hi i - lo i)) (h1 : p i - (hi i - lo i) / 2 ≤ v)
    (h2 : v < p i + (hi i - lo i) / 2) : wrapChains chains wraps lo hi p r i = some v := by
  obtain ⟨w, hw', ⟨j, hj⟩, hw1, hw2⟩ := (wrap_chains_spec chains wraps lo hi p r i).1 hw hlt
  obtain ⟨k, hk⟩ := hk
  rw [hw']
  have hr : 0 < hi i - lo i := by linarith
  have hd : ((j - k : ℤ) : ℝ) * (hi i - lo i) = w - v := by rw [hj, hk]; push_cast; ring
  have hlt1 : ((j - k : ℤ) : ℝ) < 1 := by
    by_contra h
    push Not at h
    have := mul_le_mul_of_nonneg_right h hr.le
    linarith
  have hgt1 : (-1 : ℝ) < ((j - k : ℤ) : ℝ) := by
    by_contra h
    push Not at h
    have := mul_le_mul_of_nonneg_right h hr.le
    linarith
  have h0 : j - k = 0 := by
    have a : j - k < 1 := by exact_mod_cast hlt1
    have b : -1 < j - k := by exact_mod_cast hgt1
    omega
  have : j = k := by omega
  rw [hj, hk, this]

/-! ### C69: the likelihood -/

/-- The logarithm of the normal density with mean `m` and standard deviation `s` at `x`. -/
noncomputable def logNormal (x m s : ℝ) : ℝ := Real.log (gaussianPDFReal m (s ^ 2).toNNReal x)

/-- Specification: the log likelihood of independent normal errors, over the entries that are not NaN. -/
noncomputable def logGauss (D : Data n) (m : Fin n → ℂ) : ℝ :=
  ∑ i, (((D.q i).bind fun x => (D.dq i).map fun s => logNormal x (m i).re s).getD 0 +
    ((D.u i).bind fun x => (D.du i).map fun s => logNormal x (m i).im s).getD 0)

/-- The errors are positive where they are not NaN. -/
def PosErr (D : Data n) : Prop := ∀ i s, D.dq i = some s ∨ D.du i = some s → 0 < s

theorem logNormal_eq (x m s : ℝ) (hs : 0 < s) :
    logNormal x m s = -(Real.log (2 * Real.pi)) / 2 - Real.log s - ((x - m) / s) ^ 2 / 2 := by
  unfold logNormal gaussianPDFReal
  have hpi : 0 < 2 * Real.pi := by positivity
  have h2 : 0 < 2 * Real.pi * s ^ 2 := by positivity
  rw [Real.coe_toNNReal _ (sq_nonneg s), Real.log_mul (by positivity) (Real.exp_ne_zero _), Real.log_inv,
    Real.log_sqrt h2.le, Real.log_exp, Real.log_mul hpi.ne' (by positivity), Real.log_pow]
  have : s ≠ 0 := hs.ne'
  field_simp
  push_cast
  ring

/-- **C69**, what holds. For any data, flagged entries included, the code's log likelihood differs from the
normal one by a number that depends on the data only: ratios of likelihoods are right. What is missing is the
normalisation. -/
theorem likelihood_partial (D : Data n) (hD : PosErr D) (m m' : Fin n → ℂ) :
    lnLike D (fun i => some (m i)) - lnLike D (fun i => some (m' i)) = logGauss D m - logGauss D m' := by
  have key : ∀ (x e : Option ℝ) (a b : ℝ), (∀ s, e = some s → 0 < s) →
      (x.bind fun x => e.map fun s => logNormal x a s).getD 0 -
      (x.bind fun x => e.map fun s => logNormal x b s).getD 0 =
      -((resid2 x (some a) e).getD 0) / 2 + ((resid2 x (some b) e).getD 0) / 2 := by
    intro x e a b he
    cases x with
    | none => simp [resid2]
    | some x =>
      cases e with
      | none => simp [resid2]
      | some s =>
        simp only [Option.bind_some, Option.map_some, Option.getD_some, resid2]
        rw [logNormal_eq _ _ _ (he s rfl), logNormal_eq _ _ _ (he s rfl)]
        ring
  unfold lnLike logGauss nansum
  simp only [Option.map_some]
  have hq : ∀ i, _ := fun i => key (D.q i) (D.dq i) (m i).re (m' i).re fun s hs => hD i s (Or.inl hs)
  have hu : ∀ i, _ := fun i => key (D.u i) (D.du i) (m i).im (m' i).im fun s hs => hD i s (Or.inr hs)
  rw [← Finset.sum_sub_distrib]
  have h : ∀ i, (((D.q i).bind fun x => (D.dq i).map fun s => logNormal x (m i).re s).getD 0 +
      ((D.u i).bind fun x => (D.du i).map fun s => logNormal x (m i).im s).getD 0) -
      (((D.q i).bind fun x => (D.dq i).map fun s => logNormal x (m' i).re s).getD 0 +
      ((D.u i).bind fun x => (D.du i).map fun s => logNormal x (m' i).im s).getD 0) =
      -((resid2 (D.q i) (some (m i).re) (D.dq i)).getD 0) / 2 +
      ((resid2 (D.q i) (some (m' i).re) (D.dq i)).getD 0) / 2 +
      (-((resid2 (D.u i) (some (m i).im) (D.du i)).getD 0) / 2 +
      ((resid2 (D.u i) (some (m' i).im) (D.du i)).getD 0) / 2) := by
    intro i
    rw [← hq i, ← hu i]
    ring
  rw [Finset.sum_congr rfl fun i _ => h i]
  simp only [Finset.sum_add_distrib, ← Finset.sum_div, Finset.sum_neg_distrib]
  ring

/-- Data without flagged entries. -/
def full (q u dq du : Fin n → ℝ) : Data n :=
  ⟨fun i => some (q i), fun i => some (u i), fun i => some (dq i), fun i => some (du i)⟩

/-- The error of the normalisation for data without flagged entries. -/
theorem likelihood_offset (q u dq du : Fin n → ℝ) (hq : ∀ i, 0 < dq i) (hu : ∀ i, 0 < du i)
    (m : Fin n → ℂ) :
    lnLike (full q u dq du) (fun i => some (m i)) = logGauss (full q u dq du) m -
      ∑ i, Real.log ((dq i ^ 2 + du i ^ 2) / (dq i * du i)) := by
  have h1 : ∀ i, Real.log (Real.sqrt (dq i ^ 2 + du i ^ 2)) * 2 = Real.log (dq i ^ 2 + du i ^ 2) := by
    intro i
    rw [Real.log_sqrt (by positivity)]
    ring
  have h2 : ∀ i, Real.log ((dq i ^ 2 + du i ^ 2) / (dq i * du i)) =
      Real.log (dq i ^ 2 + du i ^ 2) - (Real.log (dq i) + Real.log (du i)) := by
    intro i
    have a := hq i
    have b := hu i
    rw [Real.log_div (by positivity) (by positivity), Real.log_mul a.ne' b.ne']
  have h3 : ∀ i, (logNormal (q i) (m i).re (dq i) + logNormal (u i) (m i).im (du i)) =
      -Real.log (2 * Real.pi) - (Real.log (dq i) + Real.log (du i)) -
        ((q i - (m i).re) / dq i) ^ 2 / 2 - ((u i - (m i).im) / du i) ^ 2 / 2 := by
    intro i
    rw [logNormal_eq _ _ _ (hq i), logNormal_eq _ _ _ (hu i)]
    ring
  simp only [lnLike, logGauss, full, nansum, resid2, logErr, Option.map_some, Option.bind_some,
    Option.getD_some, h2, h3]
  simp only [Finset.sum_sub_distrib, Finset.sum_const, Finset.card_univ, Fintype.card_fin, nsmul_eq_mul,
    ← Finset.sum_div, Finset.mul_sum]
  simp only [mul_comm (2 : ℝ) (Real.log _), h1]
  ring

/-- **C69 is false for the code**, for all data without flagged entries and all models: the log likelihood
is too low by at least `ln 2` per channel, and by more if the errors of `q` and `u` differ. -/
theorem likelihood_wrong (q u dq du : Fin n → ℝ) (hq : ∀ i, 0 < dq i) (hu : ∀ i, 0 < du i)
    (m : Fin n → ℂ) :
    lnLike (full q u dq du) (fun i => some (m i)) + n * Real.log 2 ≤ logGauss (full q u dq du) m ∧
    (lnLike (full q u dq du) (fun i => some (m i)) + n * Real.log 2 = logGauss (full q u dq du) m ↔
      ∀ i, dq i = du i) := by
  have hle : ∀ i, Real.log 2 ≤ Real.log ((dq i ^ 2 + du i ^ 2) / (dq i * du i)) := by
    intro i
    have a := hq i
    have b := hu i
    apply Real.log_le_log (by norm_num)
    rw [le_div_iff₀ (by positivity)]
    nlinarith [sq_nonneg (dq i - du i)]
  have hsum : (n : ℝ) * Real.log 2 = ∑ _i : Fin n, Real.log 2 := by simp
  rw [likelihood_offset q u dq du hq hu m, hsum]
  have hs := Finset.sum_le_sum fun i (_ : i ∈ Finset.univ) => hle i
  refine ⟨by linarith, ?_⟩
  constructor
  · intro h
    have heq : ∑ _i : Fin n, Real.log 2 = ∑ i, Real.log ((dq i ^ 2 + du i ^ 2) / (dq i * du i)) := by linarith
    have hall := (Finset.sum_eq_sum_iff_of_le fun i _ => hle i).1 heq
    intro i
    have hi := hall i (Finset.mem_univ i)
    have a := hq i
    have b := hu i
    have := Real.log_injOn_pos (Set.mem_Ioi.2 (by norm_num : (0 : ℝ) < 2))
      (Set.mem_Ioi.2 (by positivity)) hi
    rw [eq_div_iff (by positivity)] at this
    have : (dq i - du i) ^ 2 = 0 := by nlinarith
    have := (pow_eq_zero_iff two_ne_zero).1 this
    linarith
  · intro h
    have : ∀ i, (dq i ^ 2 + du i ^ 2) / (dq i * du i) = 2 := by
      intro i
      have b := hu i
      rw [h i]
      field_simp
      ring
    simp [this]

/-! ### C70: information criteria -/

/-- **C70 is false for the code**: the corrected criterion is the uncorrected one with the penalty `2 k`
left out, whatever the data. -/
theorem aicc_wrong (n k : ℕ) (L c : ℝ) (hk : 0 < k) (g : Goodness) (h : goodness n k L c = some g) :
    g.AICc ≠ -2 * L + 2 * k + 2 * (k : ℝ) * (k + 1) / (2 * (n : ℝ) - k - 1) := by
  unfold goodness at h
  split at h
  · cases h
  · cases h
    dsimp only
    intro heq
    have : (0 : ℝ) < k := by exact_mod_cast hk
    linarith

/-- It can prefer the wrong model: here two models of one and two parameters. -/
theorem aicc_ranking_wrong : ∃ (n k k' : ℕ) (L L' c : ℝ) (g g' : Goodness),
    goodness n k L c = some g ∧ goodness n k' L' c = some g' ∧ g'.AICc < g.AICc ∧
    -2 * L + 2 * k + 2 * (k : ℝ) * (k + 1) / (2 * (n : ℝ) - k - 1) <
      -2 * L' + 2 * k' + 2 * (k' : ℝ) * (k' + 1) / (2 * (n : ℝ) - k' - 1) := by
  refine ⟨100, 1, 2, 0, 1 / 2, 0, _, _, by rw [goodness, if_neg (by norm_num)],
    by rw [goodness, if_neg (by norm_num)], ?_, ?_⟩ <;> norm_num

/-- **C70**, what holds: the uncorrected criterion and the Bayesian one are as defined, with `2 n` data
points for `n` channels, and the correction term itself is right. -/
theorem aicc_partial (n k : ℕ) (L c : ℝ) (g : Goodness) (h : goodness n k L c = some g) :
    g.AIC = -2 * L + 2 * k ∧ g.BIC = -2 * L + k * Real.log (2 * n) ∧
    g.AICc + 2 * k = -2 * L + 2 * k + 2 * (k : ℝ) * (k + 1) / (2 * (n : ℝ) - k - 1) := by
  unfold goodness at h
  split at h
  · cases h
  · cases h
    refine ⟨?_, ?_, ?_⟩ <;> dsimp only <;> ring

/-- The case of `k + 1` data points raises. -/
theorem goodness_none_iff (n k : ℕ) (L c : ℝ) : goodness n k L c = none ↔ 2 * n = k + 1 := by
  unfold goodness
  split
  · rename_i h
    simp only [true_iff]
    have : (2 * n : ℝ) = k + 1 := by linarith
    exact_mod_cast this
  · rename_i h
    simp only [reduceCtorEq, false_iff]
    intro heq
    apply h
    have : (2 * n : ℝ) = k + 1 := by exact_mod_cast heq
    linarith

/-- **C90 is false for the code**: the number of degrees of freedom is one less than the number of data
points minus the number of free parameters. -/
theorem dof_wrong (n k : ℕ) (L c : ℝ) (g : Goodness) (h : goodness n k L c = some g) :
    g.dof ≠ 2 * n - k := by
  unfold goodness at h
  split at h
  · cases h
  · cases h
    dsimp only
    intro heq
    linarith

/-- **C90**, what holds: the reduced chi-squared is the chi-squared divided by the reported degrees of
freedom, which are those of a fit with one parameter more. -/
theorem dof_partial (n k : ℕ) (L c : ℝ) (g : Goodness) (h : goodness n k L c = some g) :
    g.dof = 2 * n - (k + 1 : ℕ) ∧ g.chiSqRed * g.dof = c := by
  unfold goodness at h
  split at h
  · cases h
  · rename_i hne
    cases h
    dsimp only
    refine ⟨by push_cast; ring, div_mul_cancel₀ _ hne⟩

/-! ### C88: undefined models -/

theorem resid2_nonneg (x m e : Option ℝ) : 0 ≤ (resid2 x m e).getD 0 := by
  cases x <;> cases m <;> cases e <;> simp [resid2]
  positivity

/-- Where the model is NaN in every channel, the likelihood is the greatest there is. -/
theorem undefined_max (D : Data n) (_hD : PosErr D) (m : Fin n → Option ℂ) : lnLike D m ≤ lnLike D fun _ => none := by
  unfold lnLike nansum
  have h1 : 0 ≤ ∑ i, (resid2 (D.q i) ((m i).map Complex.re) (D.dq i)).getD 0 :=
    Finset.sum_nonneg fun i _ => resid2_nonneg _ _ _
  have h2 : 0 ≤ ∑ i, (resid2 (D.u i) ((m i).map Complex.im) (D.du i)).getD 0 :=
    Finset.sum_nonneg fun i _ => resid2_nonneg _ _ _
  have h3 : ∀ x e, (resid2 x none e).getD 0 = 0 := by
    intro x e
    cases x <;> simp [resid2]
  simp only [Option.map_none, h3, Finset.sum_const_zero, zero_div, sub_zero]
  linarith

/-- **C88 is false for the code**: for every data set, (errors positive or NaN) the slab of width zero, which is inside the prior and
for which the model is NaN, has at least the likelihood of any other parameters of any model. -/
theorem undefined_wins (D : Data n) (hD : PosErr D) (l : Fin n → ℝ) :
    Within bounds5 (lowest bounds5) ∧ (∀ i, m5 (lowest bounds5) (l i) = none) ∧
    ∀ m : Fin n → Option ℂ, lnLike D m ≤ lnLike D fun i => m5 (lowest bounds5) (l i) := by
  obtain ⟨⟨h1, h2⟩, -⟩ := slab_prior_wrong
  refine ⟨h1, fun i => h2 _, fun m => ?_⟩
  have : (fun i => m5 (lowest bounds5) (l i)) = fun _ => none := funext fun i => h2 _
  rw [this]
  exact undefined_max D hD m

/-- **C88**, what holds: among the parameters for which the model is defined, the likelihood is greatest
exactly where the model is nearest to the data. What is missing is the treatment of undefined models. -/
theorem undefined_partial (q u dq du : Fin n → ℝ) (_hq : ∀ i, 0 < dq i) (_hu : ∀ i, 0 < du i) (m m' : Fin n → ℂ) :
    lnLike (full q u dq du) (fun i => some (m i)) ≤ lnLike (full q u dq du) (fun i => some (m' i)) ↔
    ∑ i, (((q i - (m' i).re) / dq i) ^ 2 + ((u i - (m' i).im) / du i) ^ 2) ≤
      ∑ i, (((q i - (m i).re) / dq i) ^ 2 + ((u i - (m i).im) / du i) ^ 2) := by
  simp only [lnLike, full, nansum, resid2, Option.map_some, Option.bind_some, Option.getD_some,
    Finset.sum_add_distrib]
  constructor <;> intro h <;> linarith

/-! ### C89: chi-squared and likelihood -/

/-- **C89**, what holds: if `q` and `u` are flagged in the same channels, the reported chi-squared is, up to
a number that depends on the data only, minus twice the log likelihood. -/
theorem chisq_partial (D : Data n) (_hD : PosErr D)
    (hflag : ∀ i, (D.q i = none ∨ D.dq i = none) ↔ (D.u i = none ∨ D.du i = none))
    (m m' : Fin n → Option ℂ) :
    chiSq D m - chiSq D m' = -2 * (lnLike D m - lnLike D m') := by
  have key : ∀ (m : Fin n → Option ℂ) i, (addNaN (resid2 (D.q i) ((m i).map Complex.re) (D.dq i))
      (resid2 (D.u i) ((m i).map Complex.im) (D.du i))).getD 0 =
      (resid2 (D.q i) ((m i).map Complex.re) (D.dq i)).getD 0 +
      (resid2 (D.u i) ((m i).map Complex.im) (D.du i)).getD 0 := by
    intro m i
    have := hflag i
    cases hq : D.q i <;> cases hdq : D.dq i <;> cases hu : D.u i <;> cases hdu : D.du i <;>
      cases hm : m i <;> simp_all [resid2, addNaN]
  unfold chiSq lnLike nansum
  simp only [key, Finset.sum_add_distrib]
  ring

/-- **C89 is false for the code**: with `q` flagged and `u` not, two models of different likelihood have the
same chi-squared. -/
theorem chisq_wrong : ∃ (D : Data 1) (m m' : Fin 1 → Option ℂ), PosErr D ∧ chiSq D m = chiSq D m' ∧
    lnLike D m ≠ lnLike D m' := by
  refine ⟨⟨fun _ => none, fun _ => some 0, fun _ => some 1, fun _ => some 1⟩, fun _ => some 0,
    fun _ => some Complex.I, ?_, ?_, ?_⟩
  · intro i s h
    rcases h with h | h <;> cases h <;> norm_num
  · simp [chiSq, nansum, resid2, addNaN]
  · simp [lnLike, nansum, resid2]
    intro h
    linarith

/-! ### C91: the reported angle -/

theorem rotSample_range (s : ℝ) (h0 : 0 ≤ s) (h1 : s ≤ 180) : 0 ≤ rotSample s ∧ rotSample s < 180 := by
  unfold rotSample
  split <;> constructor <;> linarith

/-- The median of an odd number of samples is one of them. -/
theorem median_mem (l : List ℝ) (h : l.length % 2 = 1) (m : ℝ) (hm : median l = some m) : m ∈ l := by
  obtain ⟨s, hp, hs⟩ := sorted_arrangement l
  rw [median_eq_mid l s hp hs, mid] at hm
  have hlen := hp.length_eq
  rw [if_neg (by omega), if_pos (by omega)] at hm
  cases hm
  rw [← hp.mem_iff, List.getD_eq_getElem _ _ (by omega)]
  exact List.getElem_mem _

/-- The median is between any bounds of the samples. -/
theorem median_between (l : List ℝ) (a b : ℝ) (h : ∀ x ∈ l, a ≤ x ∧ x < b) (m : ℝ)
    (hm : median l = some m) : a ≤ m ∧ m < b := by
  obtain ⟨s, hp, hs⟩ := sorted_arrangement l
  rw [median_eq_mid l s hp hs, mid] at hm
  have hs' : ∀ i (hi : i < s.length), a ≤ s.getD i 0 ∧ s.getD i 0 < b := by
    intro i hi
    rw [List.getD_eq_getElem _ _ hi]
    exact h _ (hp.mem_iff.1 (List.getElem_mem _))
  split at hm
  · cases hm
  · split at hm
    · cases hm
      exact hs' _ (by omega)
    · cases hm
      have h1 := hs' (s.length / 2 - 1) (by omega)
      have h2 := hs' (s.length / 2) (by omega)
      constructor <;> linarith

/-- **C91**, first part: the reported angle is in `[0, 180)` for samples in `[0, 180]`. -/
theorem angle_range (ss : List ℝ) (h : ∀ s ∈ ss, 0 ≤ s ∧ s ≤ 180) (v : ℝ) (hv : angleFit ss = some v) :
    0 ≤ v ∧ v < 180 := by
  unfold angleFit at hv
  cases hm : median ss with
  | none => rw [hm] at hv; cases hv
  | some m =>
    rw [hm, Option.bind_some] at hv
    split at hv
    · cases hm' : median (ss.map rotSample) with
      | none => rw [hm'] at hv; cases hv
      | some m' =>
        rw [hm'] at hv
        cases hv
        have hb := median_between (ss.map rotSample) 0 180 (by
          intro x hx
          obtain ⟨s, hs, rfl⟩ := List.mem_map.1 hx
          exact rotSample_range s (h s hs).1 (h s hs).2) m' hm'
        dsimp only
        split <;> constructor <;> linarith
    · rename_i hc
      push Not at hc
      cases hv
      constructor <;> linarith

/-- `a` and `b` are within `w` degrees of each other as angles of polarisation. -/
def Near (w a b : ℝ) : Prop := ∃ k : ℤ, |a - b - 180 * k| ≤ w

/-- **C91 is false for the code**: two samples within 10 degrees of the angle zero, and the reported angle is
90. -/
theorem angle_wrong : angleFit [10, 170] = some 90 ∧ (∀ s ∈ [(10 : ℝ), 170], Near 10 s 0) ∧
    ¬ Near 10 90 0 := by
  refine ⟨?_, ?_, ?_⟩
  · have h : median [10, 170] = some 90 := by
      rw [median_eq_mid [10, 170] [10, 170] (List.Perm.refl _) (by norm_num), mid]
      norm_num
    rw [angleFit, h, Option.bind_some, if_neg (by norm_num)]
  · intro s hs
    simp only [List.mem_cons, List.not_mem_nil, or_false] at hs
    rcases hs with rfl | rfl
    · exact ⟨0, by norm_num⟩
    · exact ⟨1, by norm_num [abs_le]⟩
  · rintro ⟨k, hk⟩
    rw [abs_le] at hk
    have h1 : (180 : ℝ) * k ≤ 100 := by linarith
    have h2 : (80 : ℝ) ≤ 180 * k := by linarith
    have h1' : 180 * k ≤ 100 := by exact_mod_cast h1
    have h2' : 80 ≤ 180 * k := by exact_mod_cast h2
    omega

/-- **C91**, what holds: for an odd number of samples the reported angle is that of one of them, so that it
is near every angle that all of them are near. What is missing is an even number of samples, half of which
are on each side of the wrap. -/
theorem angle_partial (ss : List ℝ) (hodd : ss.length % 2 = 1) (v : ℝ) (hv : angleFit ss = some v) :
    (∃ s ∈ ss, ∃ k : ℤ, v = s + 180 * k) ∧
    ∀ w θ, (∀ s ∈ ss, Near w s θ) → Near w v θ := by
  have h1 : ∃ s ∈ ss, ∃ k : ℤ, v = s + 180 * k := by
    unfold angleFit at hv
    cases hm : median ss with
    | none => rw [hm] at hv; cases hv
    | some m =>
      rw [hm, Option.bind_some] at hv
      split at hv
      · cases hm' : median (ss.map rotSample) with
        | none => rw [hm'] at hv; cases hv
        | some m' =>
          rw [hm'] at hv
          cases hv
          obtain ⟨s, hs, rfl⟩ := List.mem_map.1 (median_mem _ (by simpa using hodd) m' hm')
          refine ⟨s, hs, ?_⟩
          unfold rotSample
          dsimp only
          split <;> split
          · exact ⟨0, by push_cast; ring⟩
          · exact ⟨-1, by push_cast; ring⟩
          · exact ⟨1, by push_cast; ring⟩
          · exact ⟨0, by push_cast; ring⟩
      · cases hv
        exact ⟨v, median_mem ss hodd v hm, 0, by simp⟩
  refine ⟨h1, ?_⟩
  intro w θ hall
  obtain ⟨s, hs, k, rfl⟩ := h1
  obtain ⟨j, hj⟩ := hall s hs
  refine ⟨j + k, ?_⟩
  have : s + 180 * (k : ℝ) - θ - 180 * ((j + k : ℤ) : ℝ) = s - θ - 180 * j := by push_cast; ring
  rwa [this]

/-- A concrete case: three samples around zero. -/
example : ∃ v, angleFit [5, 170, 175] = some v ∧ Near 10 v 0 := by
  have h : ∃ v, angleFit [5, 170, 175] = some v := by
    have h1 : median [5, 170, 175] = some 170 := by
      rw [median_eq_mid _ [5, 170, 175] (List.Perm.refl _) (by norm_num), mid]
      norm_num
    rw [angleFit, h1, Option.bind_some, if_pos (by norm_num)]
    cases hm : median ([5, 170, 175].map rotSample) with
    | none => rw [median_none_iff] at hm; cases hm
    | some m => exact ⟨_, rfl⟩
  obtain ⟨v, hv⟩ := h
  refine ⟨v, hv, (angle_partial _ (by rfl) v hv).2 10 0 ?_⟩
  intro s hs
  simp only [List.mem_cons, List.not_mem_nil, or_false] at hs
  rcases hs with rfl | rfl | rfl
  · exact ⟨0, by norm_num⟩
  · exact ⟨1, by norm_num [abs_le]⟩
  · exact ⟨1, by norm_num [abs_le]⟩

end Verif.QU
