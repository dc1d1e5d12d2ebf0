import Verif.QU.Independent
import Verif.QU.Nest
import Verif.QU.Fit

/-!
# Different parameters give different spectra (C209, C210)

The models are those of `Verif.QU.Model`. "Spectrum" is the model as a function of `λ²`, on any interval of positive `λ²`; for the two
simplest models two channels are enough.
-/

open Complex

namespace Verif.QU

/-- The same fraction and the same angle, up to half turns. -/
def SamePol (p psi p' psi' : ℝ) : Prop := p = p' ∧ ∃ k : ℤ, psi = psi' + 180 * k

/-- Fraction and angle as a complex number. -/
noncomputable def ampOf (p psi : ℝ) : ℂ := p * exp (2 * I * radians psi)

theorem norm_ampOf (p psi : ℝ) (hp : 0 ≤ p) : ‖ampOf p psi‖ = p := by
  unfold ampOf
  have : (2 * I * (radians psi : ℂ)) = ((2 * radians psi : ℝ) : ℂ) * I := by push_cast; ring
  rw [norm_mul, this, norm_exp_ofReal_mul_I, mul_one, norm_real, Real.norm_of_nonneg hp]

theorem ampOf_ne_zero {p psi : ℝ} (hp : p ≠ 0) : ampOf p psi ≠ 0 :=
  mul_ne_zero (ofReal_ne_zero.2 hp) (exp_ne_zero _)

theorem angle_of_exp {a b : ℝ} (h : exp (2 * I * (radians a : ℂ)) = exp (2 * I * (radians b : ℂ))) :
    ∃ k : ℤ, a = b + 180 * k := by
  rw [exp_eq_exp_iff_exists_int] at h
  obtain ⟨n, hn⟩ := h
  refine ⟨n, ?_⟩
  have h2 : (2 * I) * (radians a : ℂ) = (2 * I) * ((radians b + n * Real.pi : ℝ) : ℂ) := by
    push_cast
    linear_combination hn
  have h3 : radians a = radians b + n * Real.pi := by exact_mod_cast mul_left_cancel₀ (by simp) h2
  unfold radians at h3
  have hpi := Real.pi_pos.ne'
  field_simp at h3
  linarith

theorem ampOf_inj {p psi p' psi' : ℝ} (hp : 0 < p) (hp' : 0 ≤ p') (h : ampOf p psi = ampOf p' psi') :
    SamePol p psi p' psi' := by
  have h1 : p = p' := by rw [← norm_ampOf p psi hp.le, h, norm_ampOf p' psi' hp']
  subst h1
  refine ⟨rfl, angle_of_exp ?_⟩
  exact mul_left_cancel₀ (ofReal_ne_zero.2 hp.ne') h

theorem rot_split (psi rm l : ℝ) : rot psi rm l = exp (2 * I * (radians psi : ℂ)) * exp (2 * I * rm * l) := by
  unfold rot
  rw [← exp_add]
  push_cast
  ring_nf

/-- A component with a dispersion. -/
theorem comp_eq (p psi rm s l : ℝ) : (p : ℂ) * rot psi rm l * depol s l = ampOf p psi * term (s ^ 2, 0, rm) l := by
  rw [term_eq, rot_split]
  unfold depol ampOf envelope
  push_cast
  ring_nf

/-! ### One component: two channels are enough -/

/-- **C209**, one component with or without external dispersion (`m2`). Two channels determine the parameters, if they are so close that the
angle cannot turn by 180 degrees between them. -/
theorem identify_two_channels (d e : Dict) (hd : Within bounds2 d) (he : Within bounds2 e) (hp : 0 < d "fracPol") (a b : ℝ) (ha : 0 ≤ a)
    (hab : a < b) (hnear : 2200 * (b - a) < Real.pi) (h1 : m2 d a = m2 e a) (h2 : m2 d b = m2 e b) :
    SamePol (d "fracPol") (d "psi0_deg") (e "fracPol") (e "psi0_deg") ∧ d "RM_radm2" = e "RM_radm2" ∧
      d "sigmaRM_radm2" = e "sigmaRM_radm2" := by
  simp only [Within, bounds2, bounds1, List.cons_append, List.nil_append, List.mem_cons, List.not_mem_nil, or_false,
    forall_eq_or_imp, forall_eq] at hd he
  obtain ⟨-, -, hdr, hds⟩ := hd
  obtain ⟨⟨hep, -⟩, -, her, hes⟩ := he
  simp only [m2, Option.some.injEq] at h1 h2
  generalize d "fracPol" = p at *
  generalize e "fracPol" = p' at *
  generalize d "RM_radm2" = r at *
  generalize e "RM_radm2" = r' at *
  generalize d "sigmaRM_radm2" = s at *
  generalize e "sigmaRM_radm2" = s' at *
  generalize d "psi0_deg" = c at *
  generalize e "psi0_deg" = c' at *
  have hn : ∀ p c r s l : ℝ, 0 ≤ p → ‖(p : ℂ) * rot c r l * depol s l‖ = p * Real.exp (-2 * s ^ 2 * l ^ 2) := by
    intro p c r s l hp
    rw [norm_mul, norm_thinTerm p c r l hp, depol, ← ofReal_exp, norm_real, Real.norm_of_nonneg (Real.exp_pos _).le]
  have n1 := congrArg norm h1
  have n2 := congrArg norm h2
  rw [hn _ _ _ _ _ hp.le, hn _ _ _ _ _ hep] at n1 n2
  have hp' : 0 < p' := by
    rcases hep.lt_or_eq with h | h
    · exact h
    · rw [← h, zero_mul] at n1
      exact absurd n1 (mul_pos hp (Real.exp_pos _)).ne'
  have l1 := congrArg Real.log n1
  have l2 := congrArg Real.log n2
  rw [Real.log_mul hp.ne' (Real.exp_pos _).ne', Real.log_mul hp'.ne' (Real.exp_pos _).ne', Real.log_exp, Real.log_exp] at l1 l2
  have hs : s = s' := by
    have h : (s ^ 2 - s' ^ 2) * (b ^ 2 - a ^ 2) = 0 := by linarith
    have hba : b ^ 2 - a ^ 2 ≠ 0 := by nlinarith
    have h3 := (mul_eq_zero.1 h).resolve_right hba
    exact (pow_left_inj₀ hds.1 hes.1 two_ne_zero).1 (by linarith)
  subst hs
  have hpp : p = p' := mul_right_cancel₀ (Real.exp_pos _).ne' n1
  subst hpp
  have hz : ∀ l, depol s l ≠ 0 := fun l => exp_ne_zero _
  have q1 := mul_left_cancel₀ (ofReal_ne_zero.2 hp.ne') (mul_right_cancel₀ (hz a) h1)
  have q2 := mul_left_cancel₀ (ofReal_ne_zero.2 hp.ne') (mul_right_cancel₀ (hz b) h2)
  have q1' := q1
  unfold rot at q1 q2
  rw [exp_eq_exp_iff_exists_int] at q1 q2
  obtain ⟨n, hn1⟩ := q1
  obtain ⟨m, hm1⟩ := q2
  have hr : (r - r') * (b - a) = (m - n : ℤ) * Real.pi := by
    have h2 : (2 * I) * (((r - r') * (b - a) : ℝ) : ℂ) = (2 * I) * (((m - n : ℤ) * Real.pi : ℝ) : ℂ) := by
      push_cast at hn1 hm1 ⊢
      linear_combination hm1 - hn1
    exact_mod_cast mul_left_cancel₀ (by simp) h2
  have hk : m - n = 0 := by
    by_contra hk
    have h1 : (1 : ℝ) ≤ |((m - n : ℤ) : ℝ)| := by exact_mod_cast Int.one_le_abs hk
    have h2 : |(r - r') * (b - a)| < Real.pi := by
      rw [abs_mul, abs_of_pos (sub_pos.2 hab)]
      have : |r - r'| ≤ 2200 := by rw [abs_le]; constructor <;> linarith [hdr.1, hdr.2, her.1, her.2]
      have := mul_le_mul_of_nonneg_right this (sub_pos.2 hab).le
      linarith
    rw [hr, abs_mul, abs_of_pos Real.pi_pos] at h2
    nlinarith [Real.pi_pos]
  have hrr : r = r' := by
    rw [hk, Int.cast_zero, zero_mul] at hr
    have := (mul_eq_zero.1 hr).resolve_right (sub_pos.2 hab).ne'
    linarith
  subst hrr
  refine ⟨⟨rfl, angle_of_exp ?_⟩, rfl, rfl⟩
  rw [rot_split, rot_split] at q1'
  exact mul_right_cancel₀ (exp_ne_zero _) q1'

/-- The dictionary with one more entry. -/
def with0 (d : Dict) (k : String) (v : ℝ) : Dict := fun j => if j = k then v else d j

/-- **C209**, the simplest model (`m1`): the same. -/
theorem identify_thin (d e : Dict) (hd : Within bounds1 d) (he : Within bounds1 e) (hp : 0 < d "fracPol") (a b : ℝ) (ha : 0 ≤ a)
    (hab : a < b) (hnear : 2200 * (b - a) < Real.pi) (h1 : m1 d a = m1 e a) (h2 : m1 d b = m1 e b) :
    SamePol (d "fracPol") (d "psi0_deg") (e "fracPol") (e "psi0_deg") ∧ d "RM_radm2" = e "RM_radm2" := by
  have hw : ∀ d, Within bounds1 d → Within bounds2 (with0 d "sigmaRM_radm2" 0) := by
    intro d hd
    simp only [Within, bounds2, bounds1, List.cons_append, List.nil_append, List.mem_cons, List.not_mem_nil, or_false,
      forall_eq_or_imp, forall_eq, with0, String.reduceEq, if_true, if_false] at hd ⊢
    exact ⟨hd.1, hd.2.1, hd.2.2, by norm_num⟩
  have hm : ∀ (d : Dict) l, m2 (with0 d "sigmaRM_radm2" 0) l = m1 d l := by
    intro d l
    rw [nest_m2_m1 _ _ (by simp [with0])]
    simp [m1, with0]
  have := identify_two_channels _ _ (hw d hd) (hw e he) (by simpa [with0] using hp) a b ha hab hnear
    (by rw [hm, hm, h1]) (by rw [hm, hm, h2])
  simp only [with0, String.reduceEq, if_false] at this
  exact ⟨this.1, this.2.1⟩

/-- Channels that are further apart do not determine the parameters: if the spacing of equidistant channels is more than `π / 2200`, then two
rotation measures within the bounds give the same values in all of them. -/
theorem identify_far_wrong (a w : ℝ) (hw : Real.pi < 2200 * w) :
    ∃ d e : Dict, Within bounds1 d ∧ Within bounds1 e ∧ 0 < d "fracPol" ∧ (∀ j : ℤ, m1 d (a + j * w) = m1 e (a + j * w)) ∧
      d "RM_radm2" ≠ e "RM_radm2" := by
  have hpi := Real.pi_pos
  have hw0 : 0 < w := by linarith
  set t := Int.fract (-a / w) with ht
  have ht0 : 0 ≤ t := Int.fract_nonneg _
  have ht1 : t < 1 := Int.fract_lt_one _
  have h1 : Real.pi / w < 2200 := by rw [div_lt_iff₀ hw0]; exact hw
  refine ⟨fun k => if k = "fracPol" then 1 / 2 else if k = "RM_radm2" then -1100 else 0,
    fun k => if k = "fracPol" then 1 / 2 else if k = "RM_radm2" then -1100 + Real.pi / w else 180 * t, ?_, ?_, ?_, ?_, ?_⟩
  · simp only [Within, bounds1, List.mem_cons, List.not_mem_nil, or_false, forall_eq_or_imp, forall_eq, String.reduceEq, if_true, if_false]
    norm_num
  · simp only [Within, bounds1, List.mem_cons, List.not_mem_nil, or_false, forall_eq_or_imp, forall_eq, String.reduceEq, if_true, if_false]
    have : 0 < Real.pi / w := by positivity
    refine ⟨by norm_num, ⟨by linarith, by linarith⟩, by linarith, by linarith⟩
  · simp
  · intro j
    simp only [m1, String.reduceEq, if_true, if_false]
    congr 2
    unfold rot radians
    rw [exp_eq_exp_iff_exists_int]
    refine ⟨⌊-a / w⌋ - j, ?_⟩
    have : (0 * Real.pi / 180 + -1100 * (a + j * w) : ℝ) =
        180 * t * Real.pi / 180 + (-1100 + Real.pi / w) * (a + j * w) + ((⌊-a / w⌋ - j : ℤ) : ℝ) * Real.pi := by
      have e : t = -a / w - ⌊-a / w⌋ := rfl
      rw [e]
      push_cast
      field_simp
      ring
    rw [this]
    push_cast
    ring
  · simp only [String.reduceEq, if_true, if_false]
    have : 0 < Real.pi / w := by positivity
    intro h
    linarith

/-! ### Two and three components -/

theorem two_inj {k1 k2 k1' k2' : Key} {A1 A2 B1 B2 : ℂ} (h1 : A1 ≠ 0) (h2 : A2 ≠ 0) (hk : k2.2.2 < k1.2.2)
    (hk' : k2'.2.2 < k1'.2.2)
    (h : Finsupp.single k1 A1 + Finsupp.single k2 A2 = Finsupp.single k1' B1 + Finsupp.single k2' B2) :
    k1 = k1' ∧ k2 = k2' ∧ A1 = B1 ∧ A2 = B2 := by
  have hne : k1 ≠ k2 := by rintro rfl; exact lt_irrefl _ hk
  have hne' : k1' ≠ k2' := by rintro rfl; exact lt_irrefl _ hk'
  have e1 := DFunLike.congr_fun h k1
  have e2 := DFunLike.congr_fun h k2
  simp only [Finsupp.add_apply, Finsupp.single_apply, hne, hne.symm, if_true, if_false, add_zero, zero_add] at e1 e2
  by_cases a : k1' = k1
  · have c : k2' ≠ k1 := fun c => hne' (a.trans c.symm)
    have a' : k1' ≠ k2 := fun c => hne (a.symm.trans c)
    rw [if_pos a, if_neg c, add_zero] at e1
    rw [if_neg a', zero_add] at e2
    by_cases b : k2' = k2
    · rw [if_pos b] at e2
      exact ⟨a.symm, b.symm, e1, e2⟩
    · rw [if_neg b] at e2
      exact absurd e2 h2
  · rw [if_neg a, zero_add] at e1
    by_cases b : k2' = k1
    · have c : k2' ≠ k2 := fun c => hne (b.symm.trans c)
      rw [if_neg c, add_zero] at e2
      by_cases f : k1' = k2
      · rw [b, f] at hk'
        exact absurd hk' hk.not_gt
      · rw [if_neg f] at e2
        exact absurd e2 h2
    · rw [if_neg b] at e1
      exact absurd e1 h1

theorem two_within {d : Dict} (h : Within boundsTwo d) : 0 ≤ d "fracPol1" ∧ 0 ≤ d "fracPol2" := by
  simp only [Within, boundsTwo, List.mem_cons, List.not_mem_nil, or_false, forall_eq_or_imp, forall_eq] at h
  exact ⟨h.1.1, h.2.1.1⟩

/-- **C209**, two components with their own dispersions (`m4`). -/
theorem identify_m4 (d e : Dict) (he : Within bounds4 e) (hds : 0 ≤ d "sigmaRM1_radm2" ∧ 0 ≤ d "sigmaRM2_radm2")
    (hcd : constraintTwo d) (hce : constraintTwo e) (hp1 : 0 < d "fracPol1") (hp2 : 0 < d "fracPol2") (x y : ℝ) (hxy : x < y)
    (h : ∀ l ∈ Set.Ioo x y, m4 d l = m4 e l) :
    SamePol (d "fracPol1") (d "psi01_deg") (e "fracPol1") (e "psi01_deg") ∧
      SamePol (d "fracPol2") (d "psi02_deg") (e "fracPol2") (e "psi02_deg") ∧ d "RM1_radm2" = e "RM1_radm2" ∧
      d "RM2_radm2" = e "RM2_radm2" ∧ d "sigmaRM1_radm2" = e "sigmaRM1_radm2" ∧ d "sigmaRM2_radm2" = e "sigmaRM2_radm2" := by
  have hb := two_within (fun x hx => he x (by unfold bounds4; exact List.mem_append_left _ hx))
  have hs1 := (he ("sigmaRM1_radm2", 0, 100) (by simp [bounds4])).1
  have hs2 := (he ("sigmaRM2_radm2", 0, 100) (by simp [bounds4])).1
  have hc := comb_inj
    (Finsupp.single (d "sigmaRM1_radm2" ^ 2, 0, d "RM1_radm2") (ampOf (d "fracPol1") (d "psi01_deg")) +
      Finsupp.single (d "sigmaRM2_radm2" ^ 2, 0, d "RM2_radm2") (ampOf (d "fracPol2") (d "psi02_deg")))
    (Finsupp.single (e "sigmaRM1_radm2" ^ 2, 0, e "RM1_radm2") (ampOf (e "fracPol1") (e "psi01_deg")) +
      Finsupp.single (e "sigmaRM2_radm2" ^ 2, 0, e "RM2_radm2") (ampOf (e "fracPol2") (e "psi02_deg"))) x y hxy (by
    intro l hl
    rw [comb_add, comb_add, comb_single, comb_single, comb_single, comb_single, ← comp_eq, ← comp_eq, ← comp_eq, ← comp_eq]
    exact Option.some.inj (h l hl))
  obtain ⟨k1, k2, a1, a2⟩ := two_inj (ampOf_ne_zero hp1.ne') (ampOf_ne_zero hp2.ne') (by have := hcd.1; dsimp only; linarith)
    (by have := hce.1; dsimp only; linarith) hc
  simp only [Prod.mk.injEq, true_and] at k1 k2
  exact ⟨ampOf_inj hp1 hb.1 a1, ampOf_inj hp2 hb.2 a2, k1.2, k2.2, (pow_left_inj₀ hds.1 hs1 two_ne_zero).1 k1.1,
    (pow_left_inj₀ hds.2 hs2 two_ne_zero).1 k2.1⟩

/-- **C209**, two components behind a common dispersion (`m3`). -/
theorem identify_m3 (d e : Dict) (he : Within bounds3 e) (hds : 0 ≤ d "sigmaRM_radm2")
    (hcd : constraintTwo d) (hce : constraintTwo e) (hp1 : 0 < d "fracPol1") (hp2 : 0 < d "fracPol2") (x y : ℝ) (hxy : x < y)
    (h : ∀ l ∈ Set.Ioo x y, m3 d l = m3 e l) :
    SamePol (d "fracPol1") (d "psi01_deg") (e "fracPol1") (e "psi01_deg") ∧
      SamePol (d "fracPol2") (d "psi02_deg") (e "fracPol2") (e "psi02_deg") ∧ d "RM1_radm2" = e "RM1_radm2" ∧
      d "RM2_radm2" = e "RM2_radm2" ∧ d "sigmaRM_radm2" = e "sigmaRM_radm2" := by
  let g : Dict → Dict := fun d => with0 (with0 d "sigmaRM1_radm2" (d "sigmaRM_radm2")) "sigmaRM2_radm2" (d "sigmaRM_radm2")
  have hm : ∀ (d : Dict) l, m4 (g d) l = m3 d l := by
    intro d l
    rw [nest_m4_m3 _ _ (by simp [g, with0]) (by simp [g, with0])]
    simp [m3, g, with0]
  have hw : Within bounds4 (g e) := by
    simp only [Within, bounds3, bounds4, boundsTwo, List.cons_append, List.nil_append, List.mem_cons, List.not_mem_nil, or_false,
      forall_eq_or_imp, forall_eq, g, with0, String.reduceEq, if_true, if_false] at he ⊢
    tauto
  have := identify_m4 (g d) (g e) hw (by simpa [g, with0] using hds) (by simpa [constraintTwo, g, with0] using hcd)
    (by simpa [constraintTwo, g, with0] using hce) (by simpa [g, with0] using hp1) (by simpa [g, with0] using hp2) x y hxy
    (fun l hl => by rw [hm, hm, h l hl])
  simp only [g, with0, String.reduceEq, if_true, if_false] at this
  tauto

/-- **C209**, two thin components (`m11`). -/
theorem identify_m11 (d e : Dict) (he : Within bounds11 e)
    (hcd : constraintTwo d) (hce : constraintTwo e) (hp1 : 0 < d "fracPol1") (hp2 : 0 < d "fracPol2") (x y : ℝ) (hxy : x < y)
    (h : ∀ l ∈ Set.Ioo x y, m11 d l = m11 e l) :
    SamePol (d "fracPol1") (d "psi01_deg") (e "fracPol1") (e "psi01_deg") ∧
      SamePol (d "fracPol2") (d "psi02_deg") (e "fracPol2") (e "psi02_deg") ∧ d "RM1_radm2" = e "RM1_radm2" ∧
      d "RM2_radm2" = e "RM2_radm2" := by
  let g : Dict → Dict := fun d => with0 d "sigmaRM_radm2" 0
  have hm : ∀ (d : Dict) l, m3 (g d) l = m11 d l := by
    intro d l
    rw [nest_m3_m11 _ _ (by simp [g, with0])]
    simp [m11, g, with0]
  have hw : Within bounds3 (g e) := by
    simp only [Within, bounds3, bounds11, boundsTwo, List.cons_append, List.nil_append, List.mem_cons, List.not_mem_nil, or_false,
      forall_eq_or_imp, forall_eq, g, with0, String.reduceEq, if_true, if_false] at he ⊢
    norm_num
    tauto
  have := identify_m3 (g d) (g e) hw (by simp [g, with0]) (by simpa [constraintTwo, g, with0] using hcd)
    (by simpa [constraintTwo, g, with0] using hce) (by simpa [g, with0] using hp1) (by simpa [g, with0] using hp2) x y hxy
    (fun l hl => by rw [hm, hm, h l hl])
  simp only [g, with0, String.reduceEq, if_true, if_false] at this
  tauto

theorem three_inj {k1 k2 k3 j1 j2 j3 : Key} {A1 A2 A3 B1 B2 B3 : ℂ} (h1 : A1 ≠ 0) (h2 : A2 ≠ 0) (h3 : A3 ≠ 0)
    (hk : k2.2.2 < k1.2.2) (hk2 : k3.2.2 < k2.2.2) (hj : j2.2.2 < j1.2.2) (hj2 : j3.2.2 < j2.2.2)
    (h : Finsupp.single k1 A1 + Finsupp.single k2 A2 + Finsupp.single k3 A3 =
      Finsupp.single j1 B1 + Finsupp.single j2 B2 + Finsupp.single j3 B3) :
    (k1 = j1 ∧ A1 = B1) ∧ (k2 = j2 ∧ A2 = B2) ∧ (k3 = j3 ∧ A3 = B3) := by
  have n12 : k1 ≠ k2 := by rintro rfl; exact lt_irrefl _ hk
  have n23 : k2 ≠ k3 := by rintro rfl; exact lt_irrefl _ hk2
  have n13 : k1 ≠ k3 := by rintro rfl; exact lt_irrefl _ (hk.trans hk2)
  have m12 : j1 ≠ j2 := by rintro rfl; exact lt_irrefl _ hj
  have m23 : j2 ≠ j3 := by rintro rfl; exact lt_irrefl _ hj2
  have m13 : j1 ≠ j3 := by rintro rfl; exact lt_irrefl _ (hj.trans hj2)
  have e1 := DFunLike.congr_fun h k1
  have e2 := DFunLike.congr_fun h k2
  have e3 := DFunLike.congr_fun h k3
  simp only [Finsupp.add_apply, Finsupp.single_apply, n12, n12.symm, n23, n23.symm, n13, n13.symm, if_true, if_false, add_zero,
    zero_add] at e1 e2 e3
  have key : ∀ k A, A ≠ 0 → A = ((if j1 = k then B1 else 0) + if j2 = k then B2 else 0) + (if j3 = k then B3 else 0) →
      (k = j1 ∧ A = B1) ∨ (k = j2 ∧ A = B2) ∨ (k = j3 ∧ A = B3) := by
    intro k A hA hk
    by_cases a : j1 = k
    · rw [if_pos a, if_neg (fun b => m12 (a.trans b.symm)), if_neg (fun b => m13 (a.trans b.symm))] at hk
      simp only [add_zero] at hk
      exact Or.inl ⟨a.symm, hk⟩
    · rw [if_neg a] at hk
      by_cases b : j2 = k
      · rw [if_pos b, if_neg (fun c => m23 (b.trans c.symm))] at hk
        simp only [add_zero, zero_add] at hk
        exact Or.inr (Or.inl ⟨b.symm, hk⟩)
      · rw [if_neg b] at hk
        by_cases c : j3 = k
        · rw [if_pos c] at hk
          simp only [zero_add] at hk
          exact Or.inr (Or.inr ⟨c.symm, hk⟩)
        · rw [if_neg c] at hk
          simp only [add_zero] at hk
          exact absurd hk hA
  rcases key k1 A1 h1 e1 with a | a | a <;> rcases key k2 A2 h2 e2 with b | b | b <;> rcases key k3 A3 h3 e3 with c | c | c <;>
    first
    | exact ⟨a, b, c⟩
    | (exfalso; have a' := congrArg (fun k : Key => k.2.2) a.1; have b' := congrArg (fun k : Key => k.2.2) b.1;
       have c' := congrArg (fun k : Key => k.2.2) c.1; linarith)

/-- **C209**, three thin components (`m111`). -/
theorem identify_m111 (d e : Dict) (he : Within bounds111 e) (hcd : constraintThree d) (hce : constraintThree e)
    (hp1 : 0 < d "fracPol1") (hp2 : 0 < d "fracPol2") (hp3 : 0 < d "fracPol3") (x y : ℝ) (hxy : x < y)
    (h : ∀ l ∈ Set.Ioo x y, m111 d l = m111 e l) :
    SamePol (d "fracPol1") (d "psi01_deg") (e "fracPol1") (e "psi01_deg") ∧
      SamePol (d "fracPol2") (d "psi02_deg") (e "fracPol2") (e "psi02_deg") ∧
      SamePol (d "fracPol3") (d "psi03_deg") (e "fracPol3") (e "psi03_deg") ∧ d "RM1_radm2" = e "RM1_radm2" ∧
      d "RM2_radm2" = e "RM2_radm2" ∧ d "RM3_radm2" = e "RM3_radm2" := by
  have hb := two_within (fun x hx => he x (by unfold bounds111; exact List.mem_append_left _ hx))
  have hb3 := (he ("fracPol3", 0, 1) (by simp [bounds111])).1
  have ht : ∀ p psi rm l : ℝ, (p : ℂ) * rot psi rm l = ampOf p psi * term (0, 0, rm) l := by
    intro p psi rm l
    rw [← zero_pow two_ne_zero (M₀ := ℝ), ← comp_eq, depol_zero, mul_one]
  have hc := comb_inj
    (Finsupp.single (0, 0, d "RM1_radm2") (ampOf (d "fracPol1") (d "psi01_deg")) +
      Finsupp.single (0, 0, d "RM2_radm2") (ampOf (d "fracPol2") (d "psi02_deg")) +
      Finsupp.single (0, 0, d "RM3_radm2") (ampOf (d "fracPol3") (d "psi03_deg")))
    (Finsupp.single (0, 0, e "RM1_radm2") (ampOf (e "fracPol1") (e "psi01_deg")) +
      Finsupp.single (0, 0, e "RM2_radm2") (ampOf (e "fracPol2") (e "psi02_deg")) +
      Finsupp.single (0, 0, e "RM3_radm2") (ampOf (e "fracPol3") (e "psi03_deg"))) x y hxy (by
    intro l hl
    simp only [comb_add, comb_single, ← ht]
    exact Option.some.inj (h l hl))
  obtain ⟨k1, k2, k3⟩ := three_inj (ampOf_ne_zero hp1.ne') (ampOf_ne_zero hp2.ne') (ampOf_ne_zero hp3.ne')
    (by have := hcd.1; dsimp only; linarith) (by have := hcd.2.2.1; dsimp only; linarith)
    (by have := hce.1; dsimp only; linarith) (by have := hce.2.2.1; dsimp only; linarith) hc
  simp only [Prod.mk.injEq, true_and] at k1 k2 k3
  exact ⟨ampOf_inj hp1 hb.1 k1.2, ampOf_inj hp2 hb.2 k2.2, ampOf_inj hp3 hb3 k3.2, k1.1, k2.1, k3.1⟩

end Verif.QU
