import Verif.QU.Identify

/-!
# Different parameters give different spectra: slabs (C209, C210)
-/

open Complex

namespace Verif.QU

/-- What a slab with internal dispersion behind a screen is, times `2 l (σ² l - i δ)`. -/
theorem m12_value (d : Dict) (l : ℝ) (z : ℂ) (h : m12 d l = some z) :
    z * (2 * l * (l * (d "sigmaRM_radm2" ^ 2 : ℝ) - I * d "deltaRM_radm2")) = ampOf (d "fracPol") (d "psi0_deg") *
      (term (d "sigmaRM_radm2_FG" ^ 2, 0, d "RM_screen") l -
        term (d "sigmaRM_radm2_FG" ^ 2 + d "sigmaRM_radm2" ^ 2, 0, d "RM_screen" + d "deltaRM_radm2") l) := by
  unfold m12 cdiv at h
  split at h
  · cases h
  · rename_i hS
    rw [Option.map_some, Option.some.injEq] at h
    have hS' : (2 * l * (l * (d "sigmaRM_radm2" ^ 2 : ℝ) - I * d "deltaRM_radm2") : ℂ) =
        paraS (d "sigmaRM_radm2") (d "deltaRM_radm2") l := by
      unfold paraS
      push_cast
      ring
    rw [hS', ← h]
    have e2 : term (d "sigmaRM_radm2_FG" ^ 2 + d "sigmaRM_radm2" ^ 2, 0, d "RM_screen" + d "deltaRM_radm2") l =
        term (d "sigmaRM_radm2_FG" ^ 2, 0, d "RM_screen") l * exp (-1 * paraS (d "sigmaRM_radm2") (d "deltaRM_radm2") l) := by
      unfold term paraS
      simp only [pow_zero, one_mul]
      rw [← exp_add]
      congr 1
      push_cast
      ring
    have e1 : (d "fracPol" : ℂ) * rot (d "psi0_deg") (d "RM_screen") l * depol (d "sigmaRM_radm2_FG") l =
      ampOf (d "fracPol") (d "psi0_deg") * term (d "sigmaRM_radm2_FG" ^ 2, 0, d "RM_screen") l := comp_eq _ _ _ _ _
    rw [e2]
    generalize exp (-1 * paraS (d "sigmaRM_radm2") (d "deltaRM_radm2") l) = E
    field_simp
    linear_combination (1 - E) * e1

/-- `l * term`. -/
theorem term_succ (s r : ℝ) (l : ℂ) : l * term (s, 0, r) l = term (s, 1, r) l := by
  unfold term
  simp

/-- The combination to which the equality of two slabs is brought. -/
noncomputable def slabComb (A : ℂ) (F r s dl s' dl' : ℝ) : Key →₀ ℂ :=
  Finsupp.single (F, 1, r) (A * s') + Finsupp.single (F, 0, r) (-(A * I * dl')) +
    Finsupp.single (F + s, 1, r + dl) (-(A * s')) + Finsupp.single (F + s, 0, r + dl) (A * I * dl')

theorem comb_slab (A : ℂ) (F r s dl s' dl' l : ℝ) :
    comb (slabComb A F r s dl s' dl') l = A * (term (F, 0, r) l - term (F + s, 0, r + dl) l) * (l * s' - I * dl') := by
  unfold slabComb
  simp only [comb_add, comb_single, ← term_succ]
  ring

theorem slabComb_one (A : ℂ) (F r s dl s' dl' f x : ℝ) : slabComb A F r s dl s' dl' (f, 1, x) =
    (if F = f ∧ r = x then A * s' else 0) - (if F + s = f ∧ r + dl = x then A * s' else 0) := by
  unfold slabComb
  simp only [Finsupp.add_apply, Finsupp.single_apply, Prod.mk.injEq, zero_ne_one, false_and, and_false, if_false, add_zero, true_and]
  split_ifs <;> ring

theorem slabComb_zero (A : ℂ) (F r s dl s' dl' f x : ℝ) : slabComb A F r s dl s' dl' (f, 0, x) =
    (if F + s = f ∧ r + dl = x then A * I * dl' else 0) - (if F = f ∧ r = x then A * I * dl' else 0) := by
  unfold slabComb
  simp only [Finsupp.add_apply, Finsupp.single_apply, Prod.mk.injEq, one_ne_zero, false_and, and_false, if_false, zero_add, true_and,
    add_zero]
  split_ifs <;> ring

/-- Squares of dispersions `s`, `s'`, widths `dl`, `dl'`. -/
theorem slab_inj {A A' : ℂ} {F r s dl F' r' s' dl' : ℝ} (hA : A ≠ 0) (hs : 0 ≤ s) (hs' : 0 ≤ s') (hd : 0 ≤ dl) (hd' : 0 ≤ dl')
    (hne : s ≠ 0 ∨ dl ≠ 0) (hne' : s' ≠ 0 ∨ dl' ≠ 0)
    (h : slabComb A F r s dl s' dl' = slabComb A' F' r' s' dl' s dl) :
    A = A' ∧ F = F' ∧ r = r' ∧ s = s' ∧ dl = dl' := by
  have h1 : ∀ f x, ((if F = f ∧ r = x then A * (s' : ℂ) else 0) - (if F + s = f ∧ r + dl = x then A * s' else 0)) =
      (if F' = f ∧ r' = x then A' * (s : ℂ) else 0) - (if F' + s' = f ∧ r' + dl' = x then A' * s else 0) := by
    intro f x
    rw [← slabComb_one A F r s dl s' dl' f x, ← slabComb_one A' F' r' s' dl' s dl f x, h]
  have h0 : ∀ f x, ((if F + s = f ∧ r + dl = x then A * I * (dl' : ℂ) else 0) - (if F = f ∧ r = x then A * I * dl' else 0)) =
      (if F' + s' = f ∧ r' + dl' = x then A' * I * (dl : ℂ) else 0) - (if F' = f ∧ r' = x then A' * I * dl else 0) := by
    intro f x
    rw [← slabComb_zero A F r s dl s' dl' f x, ← slabComb_zero A' F' r' s' dl' s dl f x, h]
  clear h
  -- the ends of a slab are different keys
  have hk : ¬ (F + s = F ∧ r + dl = r) := by
    rintro ⟨a, b⟩
    rcases hne with c | c
    · exact c (by linarith)
    · exact c (by linarith)
  have hk' : ¬ (F' + s' = F' ∧ r' + dl' = r') := by
    rintro ⟨a, b⟩
    rcases hne' with c | c
    · exact c (by linarith)
    · exact c (by linarith)
  have hk2 : ¬ (F = F + s ∧ r = r + dl) := fun c => hk ⟨c.1.symm, c.2.symm⟩
  have hk2' : ¬ (F' = F' + s' ∧ r' = r' + dl') := fun c => hk' ⟨c.1.symm, c.2.symm⟩
  -- a common argument for the two ends
  have ends : ∀ B B' : ℂ, B ≠ 0 →
      (∀ f x, ((if F = f ∧ r = x then B else 0) - (if F + s = f ∧ r + dl = x then B else 0)) =
        (if F' = f ∧ r' = x then B' else 0) - (if F' + s' = f ∧ r' + dl' = x then B' else 0)) →
      B = B' ∧ F = F' ∧ r = r' ∧ s = s' ∧ dl = dl' := by
    intro B B' hB hb
    have e1 := hb F r
    have e2 := hb (F + s) (r + dl)
    rw [if_pos ⟨rfl, rfl⟩, if_neg hk, sub_zero] at e1
    rw [if_neg hk2, if_pos ⟨rfl, rfl⟩, zero_sub] at e2
    by_cases a : F' = F ∧ r' = r
    · have b : ¬ (F' + s' = F ∧ r' + dl' = r) := by
        rintro ⟨b1, b2⟩
        exact hk' ⟨b1.trans a.1.symm, b2.trans a.2.symm⟩
      rw [if_pos a, if_neg b, sub_zero] at e1
      have c : ¬ (F' = F + s ∧ r' = r + dl) := by
        rintro ⟨c1, c2⟩
        exact hk ⟨c1.symm.trans a.1, c2.symm.trans a.2⟩
      rw [if_neg c, zero_sub] at e2
      by_cases f : F' + s' = F + s ∧ r' + dl' = r + dl
      · exact ⟨e1, a.1.symm, a.2.symm, by linarith [f.1, a.1], by linarith [f.2, a.2]⟩
      · rw [if_neg f, neg_zero] at e2
        exact absurd (neg_eq_zero.1 e2) hB
    · rw [if_neg a, zero_sub] at e1
      by_cases b : F' + s' = F ∧ r' + dl' = r
      · have c : ¬ (F' + s' = F + s ∧ r' + dl' = r + dl) := by
          rintro ⟨c1, c2⟩
          exact hk ⟨c1.symm.trans b.1, c2.symm.trans b.2⟩
        rw [if_neg c, sub_zero] at e2
        by_cases f : F' = F + s ∧ r' = r + dl
        · exfalso
          have g1 : s = 0 := by linarith [f.1, b.1]
          have g2 : dl = 0 := by linarith [f.2, b.2]
          exact hk ⟨by linarith, by linarith⟩
        · rw [if_neg f] at e2
          exact absurd (neg_eq_zero.1 e2) hB
      · rw [if_neg b, neg_zero] at e1
        exact absurd e1 hB
  by_cases hs0 : s' = 0
  · have hd0 : dl' ≠ 0 := hne'.resolve_left (not_not.2 hs0)
    have := ends (A * I * dl') (A' * I * dl) (mul_ne_zero (mul_ne_zero hA I_ne_zero) (ofReal_ne_zero.2 hd0)) (by
      intro f x
      have := h0 f x
      linear_combination -this)
    obtain ⟨a, b, c, e, f⟩ := this
    refine ⟨?_, b, c, e, f⟩
    rw [f] at a
    exact mul_right_cancel₀ I_ne_zero (mul_right_cancel₀ (ofReal_ne_zero.2 hd0) a)
  · have := ends (A * s') (A' * s) (mul_ne_zero hA (ofReal_ne_zero.2 hs0)) h1
    obtain ⟨a, b, c, e, f⟩ := this
    refine ⟨?_, b, c, e, f⟩
    rw [e] at a
    exact mul_right_cancel₀ (ofReal_ne_zero.2 hs0) a

/-- A slab with internal dispersion behind a dispersing screen, with what is needed of the bounds. -/
theorem identify_slab (d e : Dict) (hd : 0 ≤ d "deltaRM_radm2" ∧ 0 ≤ d "sigmaRM_radm2" ∧ 0 ≤ d "sigmaRM_radm2_FG")
    (he : 0 ≤ e "fracPol" ∧ 0 ≤ e "deltaRM_radm2" ∧ 0 ≤ e "sigmaRM_radm2" ∧ 0 ≤ e "sigmaRM_radm2_FG") (hp : 0 < d "fracPol")
    (hslab : d "deltaRM_radm2" ≠ 0 ∨ d "sigmaRM_radm2" ≠ 0) (x y : ℝ) (hx : 0 ≤ x) (hxy : x < y)
    (h : ∀ l ∈ Set.Ioo x y, m12 d l = m12 e l) :
    SamePol (d "fracPol") (d "psi0_deg") (e "fracPol") (e "psi0_deg") ∧ d "RM_screen" = e "RM_screen" ∧
      d "sigmaRM_radm2_FG" = e "sigmaRM_radm2_FG" ∧ d "sigmaRM_radm2" = e "sigmaRM_radm2" ∧
      d "deltaRM_radm2" = e "deltaRM_radm2" := by
  obtain ⟨hd1, hd2, hd3⟩ := hd
  obtain ⟨he0, he1, he2, he3⟩ := he
  have hslab' : e "deltaRM_radm2" ≠ 0 ∨ e "sigmaRM_radm2" ≠ 0 := by
    have hl : ((x + y) / 2) ∈ Set.Ioo x y := ⟨by linarith, by linarith⟩
    have hl0 : (x + y) / 2 ≠ 0 := by have := hl.1; linarith
    have h1 := (defined_iff d ((x + y) / 2) hl0).2.2.2.2 hslab
    rw [h _ hl] at h1
    exact (defined_iff e ((x + y) / 2) hl0).2.2.2.1 h1
  have hc := comb_inj
    (slabComb (ampOf (d "fracPol") (d "psi0_deg")) (d "sigmaRM_radm2_FG" ^ 2) (d "RM_screen") (d "sigmaRM_radm2" ^ 2) (d "deltaRM_radm2")
      (e "sigmaRM_radm2" ^ 2) (e "deltaRM_radm2"))
    (slabComb (ampOf (e "fracPol") (e "psi0_deg")) (e "sigmaRM_radm2_FG" ^ 2) (e "RM_screen") (e "sigmaRM_radm2" ^ 2) (e "deltaRM_radm2")
      (d "sigmaRM_radm2" ^ 2) (d "deltaRM_radm2")) x y hxy (by
    intro l hl
    have hl0 : l ≠ 0 := by have := hl.1; linarith
    obtain ⟨z, hz⟩ := Option.ne_none_iff_exists'.1 ((defined_iff d l hl0).2.2.2.2 hslab)
    have v1 := m12_value d l z hz
    have v2 := m12_value e l z (by rw [← h l hl, hz])
    rw [comb_slab, comb_slab, ← v1, ← v2]
    push_cast
    ring)
  obtain ⟨a1, a2, a3, a4, a5⟩ := slab_inj (ampOf_ne_zero hp.ne') (sq_nonneg _) (sq_nonneg _) hd1 he1
    (by rcases hslab with c | c
        · exact Or.inr c
        · exact Or.inl (pow_ne_zero 2 c))
    (by rcases hslab' with c | c
        · exact Or.inr c
        · exact Or.inl (pow_ne_zero 2 c)) hc
  exact ⟨ampOf_inj hp he0 a1, a3, (pow_left_inj₀ hd3 he3 two_ne_zero).1 a2, (pow_left_inj₀ hd2 he2 two_ne_zero).1 a4, a5⟩

/-- **C209**, a slab with internal dispersion behind a dispersing screen (`m12`). The slab has a width or a dispersion, so that the model
is defined. -/
theorem identify_m12 (d e : Dict) (hd : Within bounds12 d) (he : Within bounds12 e) (hp : 0 < d "fracPol")
    (hslab : d "deltaRM_radm2" ≠ 0 ∨ d "sigmaRM_radm2" ≠ 0) (x y : ℝ) (hx : 0 ≤ x) (hxy : x < y)
    (h : ∀ l ∈ Set.Ioo x y, m12 d l = m12 e l) :
    SamePol (d "fracPol") (d "psi0_deg") (e "fracPol") (e "psi0_deg") ∧ d "RM_screen" = e "RM_screen" ∧
      d "sigmaRM_radm2_FG" = e "sigmaRM_radm2_FG" ∧ d "sigmaRM_radm2" = e "sigmaRM_radm2" ∧
      d "deltaRM_radm2" = e "deltaRM_radm2" := by
  simp only [Within, bounds12, List.mem_cons, List.not_mem_nil, or_false, forall_eq_or_imp, forall_eq] at hd he
  exact identify_slab d e (by tauto) (by tauto) hp hslab x y hx hxy h

/-- **C209**, a slab with internal dispersion (`m7`). -/
theorem identify_m7 (d e : Dict) (hd : Within bounds7 d) (he : Within bounds7 e) (hp : 0 < d "fracPol")
    (hslab : d "deltaRM_radm2" ≠ 0 ∨ d "sigmaRM_radm2" ≠ 0) (x y : ℝ) (hx : 0 ≤ x) (hxy : x < y)
    (h : ∀ l ∈ Set.Ioo x y, m7 d l = m7 e l) :
    SamePol (d "fracPol") (d "psi0_deg") (e "fracPol") (e "psi0_deg") ∧ d "RM_radm2" = e "RM_radm2" ∧
      d "sigmaRM_radm2" = e "sigmaRM_radm2" ∧ d "deltaRM_radm2" = e "deltaRM_radm2" := by
  let g : Dict → Dict := fun d => with0 (with0 d "sigmaRM_radm2_FG" 0) "RM_screen" (d "RM_radm2")
  have hm : ∀ (d : Dict) l, m12 (g d) l = m7 d l := by
    intro d l
    rw [nest_m12_m7 _ _ (by simp [g, with0]) (by simp [g, with0])]
    simp [m7, g, with0]
  have hv : ∀ d : Dict, g d "fracPol" = d "fracPol" ∧ g d "psi0_deg" = d "psi0_deg" ∧ g d "deltaRM_radm2" = d "deltaRM_radm2" ∧
      g d "sigmaRM_radm2" = d "sigmaRM_radm2" ∧ g d "sigmaRM_radm2_FG" = 0 ∧ g d "RM_screen" = d "RM_radm2" := by
    intro d
    simp [g, with0]
  simp only [Within, bounds7, bounds1, List.cons_append, List.nil_append, List.mem_cons, List.not_mem_nil, or_false, forall_eq_or_imp,
    forall_eq] at hd he
  obtain ⟨v1, v2, v3, v4, v5, v6⟩ := hv d
  obtain ⟨w1, w2, w3, w4, w5, w6⟩ := hv e
  have := identify_slab (g d) (g e) ⟨by rw [v3]; exact hd.2.2.2.1.1, by rw [v4]; exact hd.2.2.2.2.1, v5.ge⟩
    ⟨by rw [w1]; exact he.1.1, by rw [w3]; exact he.2.2.2.1.1, by rw [w4]; exact he.2.2.2.2.1, w5.ge⟩
    (by rw [v1]; exact hp) (by rw [v3, v4]; exact hslab) x y hx hxy (fun l hl => by rw [hm, hm, h l hl])
  rw [v1, v2, v3, v4, v6, w1, w2, w3, w4, w6] at this
  exact ⟨this.1, this.2.1, this.2.2.2.1, this.2.2.2.2⟩

/-- **C209**, a slab (`m5`). -/
theorem identify_m5 (d e : Dict) (hd : Within bounds5 d) (he : Within bounds5 e) (hp : 0 < d "fracPol") (hslab : d "deltaRM_radm2" ≠ 0)
    (x y : ℝ) (hx : 0 ≤ x) (hxy : x < y) (h : ∀ l ∈ Set.Ioo x y, m5 d l = m5 e l) :
    SamePol (d "fracPol") (d "psi0_deg") (e "fracPol") (e "psi0_deg") ∧ d "RM_radm2" = e "RM_radm2" ∧
      d "deltaRM_radm2" = e "deltaRM_radm2" := by
  let g : Dict → Dict := fun d => with0 d "sigmaRM_radm2" 0
  have hm : ∀ (d : Dict) l, m7 (g d) l = m5 d l := by
    intro d l
    rw [nest_m7_m5 _ _ (by simp [g, with0])]
    simp [m5, g, with0]
  have hw : ∀ d, Within bounds5 d → Within bounds7 (g d) := by
    intro d hd
    simp only [Within, bounds5, bounds7, bounds1, List.cons_append, List.nil_append, List.mem_cons, List.not_mem_nil, or_false,
      forall_eq_or_imp, forall_eq, g, with0, String.reduceEq, if_true, if_false] at hd ⊢
    norm_num
    tauto
  have := identify_m7 (g d) (g e) (hw d hd) (hw e he) (by simpa [g, with0] using hp) (by simpa [g, with0] using hslab) x y hx hxy
    (fun l hl => by rw [hm, hm, h l hl])
  simp only [g, with0, String.reduceEq, if_false] at this
  tauto

/-! ### Two slabs -/

/-- A slab is the difference of two rotations, those of its ends. -/
theorem slab_value (p psi rm w l : ℝ) (z : ℂ) (h : slab p psi rm w l = some z) :
    z * (2 * I * l) = ampOf p psi / w * (term (0, 0, rm + w) l - term (0, 0, rm) l) := by
  unfold slab cdiv at h
  split at h
  · cases h
  · rename_i hS
    rw [Option.some.injEq] at h
    push_cast at hS
    obtain ⟨hw, hl⟩ := mul_ne_zero_iff.1 hS
    have e1 : term (0, 0, rm + w) l = exp (2 * I * ((0.5 * w + rm : ℝ) : ℂ) * l) * exp (w * l * I) := by
      unfold term
      simp only [pow_zero, one_mul]
      rw [← exp_add]
      congr 1
      push_cast
      ring
    have e2 : term (0, 0, rm) l = exp (2 * I * ((0.5 * w + rm : ℝ) : ℂ) * l) * exp (-(w * l) * I) := by
      unfold term
      simp only [pow_zero, one_mul]
      rw [← exp_add]
      congr 1
      push_cast
      ring
    rw [e1, e2, ← h, rot_split, ofReal_sin, Complex.sin]
    unfold ampOf
    push_cast
    generalize exp (2 * I * (0.5 * (w : ℂ) + rm) * l) = R
    generalize exp (2 * I * (radians psi : ℂ)) = Q
    generalize exp (-(w * l : ℂ) * I) = E
    generalize exp ((w * l : ℂ) * I) = E'
    field_simp
    linear_combination (p * Q * R * (E - E') * 1) * I_sq

theorem slab_none (p psi rm w l : ℝ) (hl : l ≠ 0) : slab p psi rm w l ≠ none ↔ w ≠ 0 := by
  unfold slab cdiv
  split
  · rename_i h
    simpa [hl] using h
  · rename_i h
    simpa [hl] using h

theorem m6_value (d : Dict) (l : ℝ) (z : ℂ) (h : m6 d l = some z) :
    z * (2 * I * l) = ampOf (d "fracPol1") (d "psi01_deg") / d "deltaRM1_radm2" *
        (term (0, 0, d "RM1_radm2" + d "deltaRM1_radm2") l - term (0, 0, d "RM1_radm2") l) +
      ampOf (d "fracPol2") (d "psi02_deg") / d "deltaRM2_radm2" *
        (term (0, 0, d "RM2_radm2" + d "deltaRM2_radm2") l - term (0, 0, d "RM2_radm2") l) := by
  unfold m6 cadd at h
  rw [Option.bind_eq_some_iff] at h
  obtain ⟨z1, h1, h2⟩ := h
  rw [Option.map_eq_some_iff] at h2
  obtain ⟨z2, h2, rfl⟩ := h2
  rw [add_mul, slab_value _ _ _ _ _ _ h1, slab_value _ _ _ _ _ _ h2]

/-- Two slabs from 10 to 40 and from 0 to 20. -/
noncomputable def overlapping : Dict := fun k =>
  if k = "fracPol1" then 0.3 else if k = "fracPol2" then 0.2 else if k = "RM1_radm2" then 10
  else if k = "deltaRM1_radm2" then 30 else if k = "deltaRM2_radm2" then 20 else 0

/-- Two slabs from 10 to 20 and from 0 to 40. -/
noncomputable def nested : Dict := fun k =>
  if k = "fracPol1" then 0.1 else if k = "fracPol2" then 0.4 else if k = "RM1_radm2" then 10
  else if k = "deltaRM1_radm2" then 10 else if k = "deltaRM2_radm2" then 40 else 0

theorem overlapping_vals : overlapping "fracPol1" = 0.3 ∧ overlapping "fracPol2" = 0.2 ∧ overlapping "psi01_deg" = 0 ∧
    overlapping "psi02_deg" = 0 ∧ overlapping "RM1_radm2" = 10 ∧ overlapping "RM2_radm2" = 0 ∧ overlapping "deltaRM1_radm2" = 30 ∧
    overlapping "deltaRM2_radm2" = 20 := by simp [overlapping]

theorem nested_vals : nested "fracPol1" = 0.1 ∧ nested "fracPol2" = 0.4 ∧ nested "psi01_deg" = 0 ∧
    nested "psi02_deg" = 0 ∧ nested "RM1_radm2" = 10 ∧ nested "RM2_radm2" = 0 ∧ nested "deltaRM1_radm2" = 10 ∧
    nested "deltaRM2_radm2" = 40 := by simp [nested]

/-- **C210 is false for the code.** Two slabs of the same brightness per rotation measure and the same angle that overlap, and the two slabs with
the ends exchanged, of which one is inside the other, have the same spectrum at all wavelengths. Both are within the bounds and fulfil
the constraints. -/
theorem two_slabs_wrong : Within bounds6 overlapping ∧ Within bounds6 nested ∧ constraintTwo overlapping ∧ constraintTwo nested ∧
    (∀ l, m6 overlapping l = m6 nested l) ∧ (∀ l, l ≠ 0 → m6 overlapping l ≠ none) ∧
    overlapping "fracPol1" ≠ nested "fracPol1" ∧ overlapping "fracPol2" ≠ nested "fracPol2" ∧
    overlapping "deltaRM1_radm2" ≠ nested "deltaRM1_radm2" ∧ overlapping "deltaRM2_radm2" ≠ nested "deltaRM2_radm2" := by
  obtain ⟨a1, a2, a3, a4, a5, a6, a7, a8⟩ := overlapping_vals
  obtain ⟨b1, b2, b3, b4, b5, b6, b7, b8⟩ := nested_vals
  refine ⟨?_, ?_, ?_, ?_, ?_, ?_, ?_⟩
  · simp only [Within, bounds6, boundsTwo, List.cons_append, List.nil_append, List.mem_cons, List.not_mem_nil, or_false, forall_eq_or_imp,
      forall_eq, a1, a2, a3, a4, a5, a6, a7, a8]
    norm_num
  · simp only [Within, bounds6, boundsTwo, List.cons_append, List.nil_append, List.mem_cons, List.not_mem_nil, or_false, forall_eq_or_imp,
      forall_eq, b1, b2, b3, b4, b5, b6, b7, b8]
    norm_num
  · rw [constraintTwo, a1, a2, a5, a6]
    norm_num
  · rw [constraintTwo, b1, b2, b5, b6]
    norm_num
  · intro l
    by_cases hl : l = 0
    · simp [m6, slab, cdiv, cadd, hl]
    obtain ⟨z, hz⟩ := Option.ne_none_iff_exists'.1 ((defined_iff overlapping l hl).2.1.2 (by rw [a7, a8]; norm_num))
    obtain ⟨w, hw⟩ := Option.ne_none_iff_exists'.1 ((defined_iff nested l hl).2.1.2 (by rw [b7, b8]; norm_num))
    rw [hz, hw]
    have v1 := m6_value overlapping l z hz
    have v2 := m6_value nested l w hw
    have hne : (2 * I * l : ℂ) ≠ 0 := by simp [hl]
    congr 1
    refine mul_right_cancel₀ hne ?_
    rw [v1, v2, a1, a2, a3, a4, a5, a6, a7, a8, b1, b2, b3, b4, b5, b6, b7, b8]
    unfold ampOf
    norm_num
    ring
  · intro l hl
    exact (defined_iff overlapping l hl).2.1.2 (by rw [a7, a8]; norm_num)
  · rw [a1, a2, a7, a8, b1, b2, b7, b8]
    norm_num

theorem four_inj {a b a' b' : ℂ} {x1 y1 x2 y2 u1 v1 u2 v2 : ℝ} (ha : a ≠ 0) (hb : b ≠ 0) (hab : a ≠ b) (hab' : a ≠ -b)
    (h1 : y1 < x1) (h2 : y2 < x2) (h12 : y2 < y1) (hx : x1 ≠ x2) (hxy : x2 ≠ y1) (k1 : v1 < u1) (k2 : v2 < u2) (k12 : v2 < v1)
    (h : (Finsupp.single ((0, 0, x1) : Key) a + Finsupp.single (0, 0, y1) (-a) + Finsupp.single (0, 0, x2) b +
        Finsupp.single (0, 0, y2) (-b)) =
      Finsupp.single ((0, 0, u1) : Key) a' + Finsupp.single (0, 0, v1) (-a') + Finsupp.single (0, 0, u2) b' +
        Finsupp.single (0, 0, v2) (-b')) :
    a = a' ∧ b = b' ∧ x1 = u1 ∧ y1 = v1 ∧ x2 = u2 ∧ y2 = v2 := by
  have hv : ∀ t : ℝ, ((if x1 = t then a else 0) + (if y1 = t then -a else 0) + (if x2 = t then b else 0) + if y2 = t then -b else 0) =
      (if u1 = t then a' else 0) + (if v1 = t then -a' else 0) + (if u2 = t then b' else 0) + if v2 = t then -b' else 0 := by
    intro t
    have := DFunLike.congr_fun h ((0, 0, t) : Key)
    simpa only [Finsupp.add_apply, Finsupp.single_apply, Prod.mk.injEq, true_and] using this
  clear h
  have n1 : x1 ≠ y1 := h1.ne'
  have n2 : x2 ≠ y2 := h2.ne'
  have n3 : y1 ≠ y2 := h12.ne'
  have n4 : x1 ≠ y2 := (h12.trans h1).ne'
  -- the values at the four ends
  have f1 := hv x1
  have f2 := hv y1
  have f3 := hv x2
  have f4 := hv y2
  simp only [n1, n1.symm, n2, n2.symm, n3, n3.symm, n4, n4.symm, hx, hx.symm, hxy, hxy.symm, if_true, if_false, add_zero,
    zero_add] at f1 f2 f3 f4
  -- the four ends are among the four others, hence the same set
  have hsub : ∀ t c, c ≠ 0 → c = (if u1 = t then a' else 0) + (if v1 = t then -a' else 0) + (if u2 = t then b' else 0) +
      (if v2 = t then -b' else 0) → t ∈ ({u1, v1, u2, v2} : Finset ℝ) := by
    intro t c hc he
    by_contra hn
    simp only [Finset.mem_insert, Finset.mem_singleton, not_or] at hn
    rw [if_neg (Ne.symm hn.1), if_neg (Ne.symm hn.2.1), if_neg (Ne.symm hn.2.2.1), if_neg (Ne.symm hn.2.2.2)] at he
    simp only [add_zero] at he
    exact hc he
  have hset : ({x1, y1, x2, y2} : Finset ℝ) ⊆ {u1, v1, u2, v2} := by
    intro t ht
    simp only [Finset.mem_insert, Finset.mem_singleton] at ht
    rcases ht with rfl | rfl | rfl | rfl
    · exact hsub _ _ ha f1
    · exact hsub _ _ (neg_ne_zero.2 ha) f2
    · exact hsub _ _ hb f3
    · exact hsub _ _ (neg_ne_zero.2 hb) f4
  have hcard : ({x1, y1, x2, y2} : Finset ℝ).card = 4 := by
    rw [Finset.card_insert_of_notMem, Finset.card_insert_of_notMem, Finset.card_insert_of_notMem, Finset.card_singleton]
    · simpa using n2
    · simp [hxy.symm, n3]
    · simp [n1, hx, n4]
  have heq : ({x1, y1, x2, y2} : Finset ℝ) = {u1, v1, u2, v2} :=
    Finset.eq_of_subset_of_card_le hset (by rw [hcard]; exact Finset.card_le_four)
  have hcard' : ({u1, v1, u2, v2} : Finset ℝ).card = 4 := by rw [← heq, hcard]
  have hdist : u1 ≠ u2 ∧ v1 ≠ u2 := by
    constructor
    · rintro rfl
      have : ({u1, v1, u1, v2} : Finset ℝ) = {u1, v1, v2} := by ext t; simp; tauto
      rw [this] at hcard'
      have := Finset.card_le_three (a := u1) (b := v1) (c := v2)
      omega
    · rintro rfl
      have : ({u1, v1, v1, v2} : Finset ℝ) = {u1, v1, v2} := by ext t; simp
      rw [this] at hcard'
      have := Finset.card_le_three (a := u1) (b := v1) (c := v2)
      omega
  obtain ⟨m1, m2⟩ := hdist
  have m3 : u1 ≠ v1 := k1.ne'
  have m4 : u2 ≠ v2 := k2.ne'
  have m5 : v1 ≠ v2 := k12.ne'
  have m6 : u1 ≠ v2 := (k12.trans k1).ne'
  have g1 := hv u1
  have g2 := hv v1
  have g3 := hv u2
  have g4 := hv v2
  simp only [m1, m1.symm, m2, m2.symm, m3, m3.symm, m4, m4.symm, m5, m5.symm, m6, m6.symm, if_true, if_false, add_zero,
    zero_add] at g1 g2 g3 g4
  have mem : ∀ t, t ∈ ({u1, v1, u2, v2} : Finset ℝ) →
      (t = x1 ∧ ((if x1 = t then a else 0) + (if y1 = t then -a else 0) + (if x2 = t then b else 0) + if y2 = t then -b else 0) = a) ∨
      (t = y1 ∧ ((if x1 = t then a else 0) + (if y1 = t then -a else 0) + (if x2 = t then b else 0) + if y2 = t then -b else 0) = -a) ∨
      (t = x2 ∧ ((if x1 = t then a else 0) + (if y1 = t then -a else 0) + (if x2 = t then b else 0) + if y2 = t then -b else 0) = b) ∨
      (t = y2 ∧ ((if x1 = t then a else 0) + (if y1 = t then -a else 0) + (if x2 = t then b else 0) + if y2 = t then -b else 0) = -b) := by
    intro t ht
    rw [← heq] at ht
    simp only [Finset.mem_insert, Finset.mem_singleton] at ht
    rcases ht with rfl | rfl | rfl | rfl
    · left; simp [n1.symm, hx.symm, n4.symm]
    · right; left; simp [n1, hxy, n3.symm]
    · right; right; left; simp [hx, hxy.symm, n2.symm]
    · right; right; right; simp [n4, n3, n2]
  have na : a ≠ -a := fun c => ha (self_eq_neg.1 c)
  have nb : b ≠ -b := fun c => hb (self_eq_neg.1 c)
  -- a pair of opposite values is one of the two slabs
  have pair : ∀ u v : ℝ, ∀ c : ℂ, v < u → u ∈ ({u1, v1, u2, v2} : Finset ℝ) → v ∈ ({u1, v1, u2, v2} : Finset ℝ) →
      ((if x1 = u then a else 0) + (if y1 = u then -a else 0) + (if x2 = u then b else 0) + if y2 = u then -b else 0) = c →
      ((if x1 = v then a else 0) + (if y1 = v then -a else 0) + (if x2 = v then b else 0) + if y2 = v then -b else 0) = -c →
      (u = x1 ∧ v = y1 ∧ c = a) ∨ (u = x2 ∧ v = y2 ∧ c = b) := by
    intro u v c huv hu hvv hcu hcv
    rcases mem u hu with ⟨e1, q1⟩ | ⟨e1, q1⟩ | ⟨e1, q1⟩ | ⟨e1, q1⟩ <;> rcases mem v hvv with ⟨e2, q2⟩ | ⟨e2, q2⟩ | ⟨e2, q2⟩ | ⟨e2, q2⟩ <;>
      rw [q1] at hcu <;> rw [q2] at hcv <;> subst hcu
    · exact absurd hcv na
    · exact Or.inl ⟨e1, e2, rfl⟩
    · exact absurd (by rw [hcv, neg_neg] : a = -b) hab'
    · exact absurd (neg_injective hcv).symm hab
    · rw [e1, e2] at huv; exact absurd huv h1.not_gt
    · rw [neg_neg] at hcv; exact absurd hcv.symm na
    · rw [neg_neg] at hcv; exact absurd hcv.symm hab
    · rw [neg_neg] at hcv; exact absurd hcv.symm hab'
    · exact absurd hcv hab'
    · exact absurd (neg_injective hcv) hab
    · exact absurd hcv nb
    · exact Or.inr ⟨e1, e2, rfl⟩
    · rw [neg_neg] at hcv; exact absurd hcv hab
    · rw [neg_neg] at hcv; exact absurd (by rw [← hcv, neg_neg] : a = -b) hab'
    · rw [e1, e2] at huv; exact absurd huv h2.not_gt
    · rw [neg_neg] at hcv; exact absurd hcv.symm nb
  rcases pair u1 v1 a' k1 (by simp) (by simp) g1 g2 with ⟨r1, r2, r3⟩ | ⟨r1, r2, r3⟩ <;>
    rcases pair u2 v2 b' k2 (by simp) (by simp) g3 g4 with ⟨t1, t2, t3⟩ | ⟨t1, t2, t3⟩
  · exact absurd (r1.trans t1.symm) m1
  · exact ⟨r3.symm, t3.symm, r1.symm, r2.symm, t1.symm, t2.symm⟩
  · rw [r2, t2] at k12
    exact absurd k12 h12.not_gt
  · exact absurd (r1.trans t1.symm) m1

/-- **C210**, what holds: if the brightnesses per rotation measure of the two slabs (complex, with the angles) are neither equal nor opposite,
and their ends are different, then the spectrum determines the parameters. The missing cases are ambiguous: see `two_slabs_wrong`. -/
theorem two_slabs_partial (d e : Dict) (hd : Within bounds6 d) (he : Within bounds6 e) (hcd : constraintTwo d) (hce : constraintTwo e)
    (hp1 : 0 < d "fracPol1") (hp2 : 0 < d "fracPol2") (hw1 : d "deltaRM1_radm2" ≠ 0) (hw2 : d "deltaRM2_radm2" ≠ 0)
    (hne : ampOf (d "fracPol1") (d "psi01_deg") / d "deltaRM1_radm2" ≠ ampOf (d "fracPol2") (d "psi02_deg") / d "deltaRM2_radm2")
    (hne' : ampOf (d "fracPol1") (d "psi01_deg") / d "deltaRM1_radm2" ≠ -(ampOf (d "fracPol2") (d "psi02_deg") / d "deltaRM2_radm2"))
    (hends : d "RM1_radm2" + d "deltaRM1_radm2" ≠ d "RM2_radm2" + d "deltaRM2_radm2")
    (hends' : d "RM2_radm2" + d "deltaRM2_radm2" ≠ d "RM1_radm2") (x y : ℝ) (hx : 0 ≤ x) (hxy : x < y)
    (h : ∀ l ∈ Set.Ioo x y, m6 d l = m6 e l) :
    SamePol (d "fracPol1") (d "psi01_deg") (e "fracPol1") (e "psi01_deg") ∧
      SamePol (d "fracPol2") (d "psi02_deg") (e "fracPol2") (e "psi02_deg") ∧ d "RM1_radm2" = e "RM1_radm2" ∧
      d "RM2_radm2" = e "RM2_radm2" ∧ d "deltaRM1_radm2" = e "deltaRM1_radm2" ∧ d "deltaRM2_radm2" = e "deltaRM2_radm2" := by
  have hb := two_within (fun x hx => he x (by unfold bounds6; exact List.mem_append_left _ hx))
  have hd1 := (hd ("deltaRM1_radm2", 0, 100) (by simp [bounds6])).1
  have hd2 := (hd ("deltaRM2_radm2", 0, 100) (by simp [bounds6])).1
  have he1 := (he ("deltaRM1_radm2", 0, 100) (by simp [bounds6])).1
  have he2 := (he ("deltaRM2_radm2", 0, 100) (by simp [bounds6])).1
  have hew : e "deltaRM1_radm2" ≠ 0 ∧ e "deltaRM2_radm2" ≠ 0 := by
    have hl : ((x + y) / 2) ∈ Set.Ioo x y := ⟨by linarith, by linarith⟩
    have hl0 : (x + y) / 2 ≠ 0 := by have := hl.1; linarith
    have h1 := (defined_iff d ((x + y) / 2) hl0).2.1.2 ⟨hw1, hw2⟩
    rw [h _ hl] at h1
    exact (defined_iff e ((x + y) / 2) hl0).2.1.1 h1
  dsimp only at hd1 hd2 he1 he2
  have hc := comb_inj
    (Finsupp.single (0, 0, d "RM1_radm2" + d "deltaRM1_radm2") (ampOf (d "fracPol1") (d "psi01_deg") / d "deltaRM1_radm2") +
      Finsupp.single (0, 0, d "RM1_radm2") (-(ampOf (d "fracPol1") (d "psi01_deg") / d "deltaRM1_radm2")) +
      Finsupp.single (0, 0, d "RM2_radm2" + d "deltaRM2_radm2") (ampOf (d "fracPol2") (d "psi02_deg") / d "deltaRM2_radm2") +
      Finsupp.single (0, 0, d "RM2_radm2") (-(ampOf (d "fracPol2") (d "psi02_deg") / d "deltaRM2_radm2")))
    (Finsupp.single (0, 0, e "RM1_radm2" + e "deltaRM1_radm2") (ampOf (e "fracPol1") (e "psi01_deg") / e "deltaRM1_radm2") +
      Finsupp.single (0, 0, e "RM1_radm2") (-(ampOf (e "fracPol1") (e "psi01_deg") / e "deltaRM1_radm2")) +
      Finsupp.single (0, 0, e "RM2_radm2" + e "deltaRM2_radm2") (ampOf (e "fracPol2") (e "psi02_deg") / e "deltaRM2_radm2") +
      Finsupp.single (0, 0, e "RM2_radm2") (-(ampOf (e "fracPol2") (e "psi02_deg") / e "deltaRM2_radm2"))) x y hxy (by
    intro l hl
    have hl0 : l ≠ 0 := by have := hl.1; linarith
    obtain ⟨z, hz⟩ := Option.ne_none_iff_exists'.1 ((defined_iff d l hl0).2.1.2 ⟨hw1, hw2⟩)
    have v1 := m6_value d l z hz
    have v2 := m6_value e l z (by rw [← h l hl, hz])
    simp only [comb_add, comb_single]
    linear_combination v2 - v1)
  have hA : ∀ p psi w : ℝ, 0 < p → w ≠ 0 → ampOf p psi / (w : ℂ) ≠ 0 := fun p psi w hp hw =>
    div_ne_zero (ampOf_ne_zero hp.ne') (ofReal_ne_zero.2 hw)
  obtain ⟨a1, a2, a3, a4, a5, a6⟩ := four_inj (hA _ _ _ hp1 hw1) (hA _ _ _ hp2 hw2) hne hne'
    (lt_add_of_pos_right _ (lt_of_le_of_ne hd1 hw1.symm)) (lt_add_of_pos_right _ (lt_of_le_of_ne hd2 hw2.symm))
    (by have := hcd.1; linarith) hends hends' (lt_add_of_pos_right _ (lt_of_le_of_ne he1 hew.1.symm))
    (lt_add_of_pos_right _ (lt_of_le_of_ne he2 hew.2.symm)) (by have := hce.1; linarith) hc
  have w1 : d "deltaRM1_radm2" = e "deltaRM1_radm2" := by linarith
  have w2 : d "deltaRM2_radm2" = e "deltaRM2_radm2" := by linarith
  rw [w1, div_left_inj' (ofReal_ne_zero.2 hew.1)] at a1
  rw [w2, div_left_inj' (ofReal_ne_zero.2 hew.2)] at a2
  exact ⟨ampOf_inj hp1 hb.1 a1, ampOf_inj hp2 hb.2 a2, a4, a6, w1, w2⟩

/-! ### Cases -/

/-- Parameters for all the models: components of 20, 30 and 10 percent at 50, 10 and -40 rad m⁻². -/
noncomputable def rich : Dict := fun k =>
  if k = "fracPol" ∨ k = "fracPol1" then 2 / 10 else if k = "fracPol2" then 3 / 10 else if k = "fracPol3" then 1 / 10
  else if k = "psi02_deg" then 30 else if k = "RM_radm2" ∨ k = "RM1_radm2" ∨ k = "RM_screen" then 50 else if k = "RM2_radm2" then 10
  else if k = "RM3_radm2" then -40 else if k = "sigmaRM_radm2" ∨ k = "sigmaRM1_radm2" then 3 else if k = "sigmaRM2_radm2" then 5
  else if k = "deltaRM_radm2" ∨ k = "deltaRM1_radm2" then 4 else if k = "deltaRM2_radm2" then 2 else if k = "sigmaRM_radm2_FG" then 1 else 0

theorem rich_vals : (rich "fracPol" = 2 / 10 ∧ rich "fracPol1" = 2 / 10 ∧ rich "fracPol2" = 3 / 10 ∧ rich "fracPol3" = 1 / 10) ∧
    (rich "psi0_deg" = 0 ∧ rich "psi01_deg" = 0 ∧ rich "psi02_deg" = 30 ∧ rich "psi03_deg" = 0) ∧
    (rich "RM_radm2" = 50 ∧ rich "RM1_radm2" = 50 ∧ rich "RM2_radm2" = 10 ∧ rich "RM3_radm2" = -40 ∧ rich "RM_screen" = 50) ∧
    (rich "sigmaRM_radm2" = 3 ∧ rich "sigmaRM1_radm2" = 3 ∧ rich "sigmaRM2_radm2" = 5 ∧ rich "sigmaRM_radm2_FG" = 1) ∧
    (rich "deltaRM_radm2" = 4 ∧ rich "deltaRM1_radm2" = 4 ∧ rich "deltaRM2_radm2" = 2) := by
  simp [rich]

/-- `rich` meets the conditions on the parameters of all the theorems above. -/
example : Within bounds3 rich ∧ Within bounds4 rich ∧ Within bounds5 rich ∧ Within bounds6 rich ∧ Within bounds7 rich ∧
    Within bounds11 rich ∧ Within bounds111 rich ∧ Within bounds12 rich ∧ constraintTwo rich ∧ constraintThree rich := by
  obtain ⟨⟨a1, a2, a3, a4⟩, ⟨b1, b2, b3, b4⟩, ⟨c1, c2, c3, c4, c5⟩, ⟨s1, s2, s3, s4⟩, ⟨w1, w2, w3⟩⟩ := rich_vals
  simp only [Within, bounds3, bounds4, bounds5, bounds6, bounds7, bounds11, bounds111, bounds12, boundsTwo, bounds1, constraintTwo,
    constraintThree, List.cons_append, List.nil_append, List.mem_cons, List.not_mem_nil, or_false, forall_eq_or_imp, forall_eq,
    a1, a2, a3, a4, b1, b2, b3, b4, c1, c2, c3, c4, c5, s1, s2, s3, s4, w1, w2, w3]
  norm_num

/-- The two slabs of `rich` differ in brightness per rotation measure and end at different rotation measures. -/
example : ampOf (rich "fracPol1") (rich "psi01_deg") / rich "deltaRM1_radm2" ≠ ampOf (rich "fracPol2") (rich "psi02_deg") / rich "deltaRM2_radm2" ∧
    ampOf (rich "fracPol1") (rich "psi01_deg") / rich "deltaRM1_radm2" ≠ -(ampOf (rich "fracPol2") (rich "psi02_deg") / rich "deltaRM2_radm2") ∧
    rich "RM1_radm2" + rich "deltaRM1_radm2" ≠ rich "RM2_radm2" + rich "deltaRM2_radm2" ∧
    rich "RM2_radm2" + rich "deltaRM2_radm2" ≠ rich "RM1_radm2" := by
  obtain ⟨⟨a1, a2, a3, a4⟩, ⟨b1, b2, b3, b4⟩, ⟨c1, c2, c3, c4, c5⟩, ⟨s1, s2, s3, s4⟩, ⟨w1, w2, w3⟩⟩ := rich_vals
  rw [a2, a3, b2, b3, c2, c3, w2, w3]
  have h1 : ‖ampOf (2 / 10) 0 / ((4 : ℝ) : ℂ)‖ = 1 / 20 := by
    rw [norm_div, norm_ampOf _ _ (by norm_num), Complex.norm_real]
    norm_num
  have h2 : ‖ampOf (3 / 10) 30 / ((2 : ℝ) : ℂ)‖ = 3 / 20 := by
    rw [norm_div, norm_ampOf _ _ (by norm_num), Complex.norm_real]
    norm_num
  refine ⟨fun h => ?_, fun h => ?_, by norm_num, by norm_num⟩
  · rw [h, h2] at h1
    norm_num at h1
  · rw [h, norm_neg, h2] at h1
    norm_num at h1

end Verif.QU
