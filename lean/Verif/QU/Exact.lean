import Verif.QU.Identify

/-!
# The best fit to exact data (C209)

Data without noise that come from a source of the fitted model: the likelihood is greatest at the parameters of the source and only there.
-/

namespace Verif.QU

variable {n : ℕ}

/-- The data are the values `m` wherever they are not NaN. -/
def Exact (D : Data n) (m : Fin n → ℂ) : Prop :=
  ∀ i, (∀ x, D.q i = some x → x = (m i).re) ∧ ∀ x, D.u i = some x → x = (m i).im

/-- A channel in which nothing is NaN. -/
def Present (D : Data n) (i : Fin n) : Prop :=
  (D.q i).isSome ∧ (D.u i).isSome ∧ (D.dq i).isSome ∧ (D.du i).isSome

theorem resid2_exact (x e : Option ℝ) (a : ℝ) (h : ∀ v, x = some v → v = a) : (resid2 x (some a) e).getD 0 = 0 := by
  cases x <;> cases e <;> simp [resid2]
  left
  rw [h _ rfl, sub_self]

/-- At exact data no model has a greater likelihood than the one of the source. -/
theorem lnLike_le_exact (D : Data n) (m0 : Fin n → ℂ) (hD : Exact D m0) (m : Fin n → Option ℂ) :
    lnLike D m ≤ lnLike D fun i => some (m0 i) := by
  have h1 : nansum (fun i => resid2 (D.q i) ((some (m0 i)).map Complex.re) (D.dq i)) = 0 :=
    Finset.sum_eq_zero fun i _ => resid2_exact _ _ _ (hD i).1
  have h2 : nansum (fun i => resid2 (D.u i) ((some (m0 i)).map Complex.im) (D.du i)) = 0 :=
    Finset.sum_eq_zero fun i _ => resid2_exact _ _ _ (hD i).2
  have h3 : 0 ≤ nansum (fun i => resid2 (D.q i) ((m i).map Complex.re) (D.dq i)) :=
    Finset.sum_nonneg fun i _ => resid2_nonneg _ _ _
  have h4 : 0 ≤ nansum (fun i => resid2 (D.u i) ((m i).map Complex.im) (D.du i)) :=
    Finset.sum_nonneg fun i _ => resid2_nonneg _ _ _
  unfold lnLike
  rw [h1, h2]
  linarith

/-- A model with the same likelihood has the values of the source in all channels without NaN. -/
theorem lnLike_eq_exact (D : Data n) (hE : PosErr D) (m0 : Fin n → ℂ) (hD : Exact D m0) (m : Fin n → ℂ)
    (h : (lnLike D fun i => some (m0 i)) ≤ lnLike D fun i => some (m i)) (i : Fin n) (hi : Present D i) : m i = m0 i := by
  have h1 : nansum (fun i => resid2 (D.q i) ((some (m0 i)).map Complex.re) (D.dq i)) = 0 :=
    Finset.sum_eq_zero fun i _ => resid2_exact _ _ _ (hD i).1
  have h2 : nansum (fun i => resid2 (D.u i) ((some (m0 i)).map Complex.im) (D.du i)) = 0 :=
    Finset.sum_eq_zero fun i _ => resid2_exact _ _ _ (hD i).2
  have h3 : 0 ≤ nansum (fun i => resid2 (D.q i) ((some (m i)).map Complex.re) (D.dq i)) :=
    Finset.sum_nonneg fun i _ => resid2_nonneg _ _ _
  have h4 : 0 ≤ nansum (fun i => resid2 (D.u i) ((some (m i)).map Complex.im) (D.du i)) :=
    Finset.sum_nonneg fun i _ => resid2_nonneg _ _ _
  unfold lnLike at h
  rw [h1, h2] at h
  have e1 : nansum (fun i => resid2 (D.q i) ((some (m i)).map Complex.re) (D.dq i)) = 0 := by linarith
  have e2 : nansum (fun i => resid2 (D.u i) ((some (m i)).map Complex.im) (D.du i)) = 0 := by linarith
  have e1' := (Finset.sum_eq_zero_iff_of_nonneg fun i _ => resid2_nonneg _ _ _).mp e1 i (Finset.mem_univ i)
  have e2' := (Finset.sum_eq_zero_iff_of_nonneg fun i _ => resid2_nonneg _ _ _).mp e2 i (Finset.mem_univ i)
  obtain ⟨hq, hu, hdq, hdu⟩ := hi
  obtain ⟨q, hq⟩ := Option.isSome_iff_exists.mp hq
  obtain ⟨u, hu⟩ := Option.isSome_iff_exists.mp hu
  obtain ⟨s, hs⟩ := Option.isSome_iff_exists.mp hdq
  obtain ⟨t, ht⟩ := Option.isSome_iff_exists.mp hdu
  have hs0 := (hE i s (Or.inl hs)).ne'
  have ht0 := (hE i t (Or.inr ht)).ne'
  rw [hq, hs] at e1'
  rw [hu, ht] at e2'
  simp only [resid2, Option.map_some, Option.bind_some, Option.getD_some, ne_eq, OfNat.ofNat_ne_zero, not_false_eq_true,
    pow_eq_zero_iff, div_eq_zero_iff, hs0, ht0, or_false] at e1' e2'
  refine Complex.ext ?_ ?_
  · rw [← (hD i).1 q hq]
    linarith
  · rw [← (hD i).2 u hu]
    linarith

/-- **C209**, the fit. The data are those of a polarised source of the model `m2`, without noise but with any positive errors and any flagged
values. Parameters within the bounds that are as likely as those of the source are those of the source, if two channels without flagged values are
near each other. -/
theorem exact_fit_m2 (D : Data n) (hE : PosErr D) (lam : Fin n → ℝ) (hl : ∀ i, 0 ≤ lam i) (d e : Dict) (hd : Within bounds2 d)
    (he : Within bounds2 e) (hp : 0 < d "fracPol") (m0 : Fin n → ℂ) (hm : ∀ i, m2 d (lam i) = some (m0 i)) (hD : Exact D m0)
    (i j : Fin n) (hi : Present D i) (hj : Present D j) (hij : lam i < lam j) (hnear : 2200 * (lam j - lam i) < Real.pi)
    (hbest : (lnLike D fun k => m2 d (lam k)) ≤ lnLike D fun k => m2 e (lam k)) :
    SamePol (d "fracPol") (d "psi0_deg") (e "fracPol") (e "psi0_deg") ∧ d "RM_radm2" = e "RM_radm2" ∧
      d "sigmaRM_radm2" = e "sigmaRM_radm2" := by
  have hme : ∀ k, ∃ z, m2 e (lam k) = some z := fun k => ⟨_, rfl⟩
  choose m hme using hme
  have h := lnLike_eq_exact D hE m0 hD m (by simpa only [hm, hme] using hbest)
  refine identify_two_channels d e hd he hp (lam i) (lam j) (hl i) hij hnear ?_ ?_
  · rw [hm, hme, h i hi]
  · rw [hm, hme, h j hj]

/-- **C209**, the fit of the simplest model. -/
theorem exact_fit_m1 (D : Data n) (hE : PosErr D) (lam : Fin n → ℝ) (hl : ∀ i, 0 ≤ lam i) (d e : Dict) (hd : Within bounds1 d)
    (he : Within bounds1 e) (hp : 0 < d "fracPol") (m0 : Fin n → ℂ) (hm : ∀ i, m1 d (lam i) = some (m0 i)) (hD : Exact D m0)
    (i j : Fin n) (hi : Present D i) (hj : Present D j) (hij : lam i < lam j) (hnear : 2200 * (lam j - lam i) < Real.pi)
    (hbest : (lnLike D fun k => m1 d (lam k)) ≤ lnLike D fun k => m1 e (lam k)) :
    SamePol (d "fracPol") (d "psi0_deg") (e "fracPol") (e "psi0_deg") ∧ d "RM_radm2" = e "RM_radm2" := by
  have hme : ∀ k, ∃ z, m1 e (lam k) = some z := fun k => ⟨_, rfl⟩
  choose m hme using hme
  have h := lnLike_eq_exact D hE m0 hD m (by simpa only [hm, hme] using hbest)
  refine identify_thin d e hd he hp (lam i) (lam j) (hl i) hij hnear ?_ ?_
  · rw [hm, hme, h i hi]
  · rw [hm, hme, h j hj]

/-! ### Cases -/

/-- A source: 10 percent polarised, rotation measure 30 rad m⁻², dispersion 2 rad m⁻². -/
noncomputable def source : Dict := fun k => if k = "fracPol" then 1 / 10 else if k = "RM_radm2" then 30 else if k = "sigmaRM_radm2" then 2 else 0

theorem source_vals : source "fracPol" = 1 / 10 ∧ source "psi0_deg" = 0 ∧ source "RM_radm2" = 30 ∧ source "sigmaRM_radm2" = 2 := by
  simp [source]

theorem source_within : Within bounds2 source := by
  obtain ⟨h1, h2, h3, h4⟩ := source_vals
  simp only [Within, bounds2, bounds1, List.cons_append, List.nil_append, List.mem_cons, List.not_mem_nil, or_false,
    forall_eq_or_imp, forall_eq, h1, h2, h3, h4]
  norm_num

/-- Channels at squared wavelengths of 0.04 m² and 0.041 m², the second one observed three times with `Q` flagged in the third. -/
noncomputable def obsData : Data 3 where
  q := ![(m2 source (4 / 100)).map Complex.re, (m2 source (41 / 1000)).map Complex.re, none]
  u := ![(m2 source (4 / 100)).map Complex.im, (m2 source (41 / 1000)).map Complex.im, (m2 source (41 / 1000)).map Complex.im]
  dq := ![some 1, some 2, some 1]
  du := ![some 1, some 1, some 3]

/-- The hypotheses of `exact_fit_m2` can be met. -/
example : PosErr obsData ∧ Within bounds2 source ∧ 0 < source "fracPol" ∧
    (∃ m0 : Fin 3 → ℂ, (∀ i, m2 source (![4 / 100, 41 / 1000, 41 / 1000] i) = some (m0 i)) ∧ Exact obsData m0) ∧
    Present obsData 0 ∧ Present obsData 1 ∧ (2200 * (41 / 1000 - 4 / 100) : ℝ) < Real.pi := by
  refine ⟨?_, source_within, by rw [source_vals.1]; norm_num, ⟨fun i => (m2 source (![4 / 100, 41 / 1000, 41 / 1000] i)).get rfl, ?_, ?_⟩,
    ⟨rfl, rfl, rfl, rfl⟩, ⟨rfl, rfl, rfl, rfl⟩, ?_⟩
  · intro i s h
    fin_cases i <;> simp only [obsData] at h <;> rcases h with h | h <;> injection h with h <;> rw [← h] <;> norm_num
  · intro i
    exact (Option.some_get _).symm
  · intro i
    fin_cases i <;> refine ⟨?_, ?_⟩ <;> intro x hx <;> simp [obsData, m2] at hx ⊢ <;> exact hx.symm
  · have := Real.pi_gt_three
    linarith

end Verif.QU
