import Verif.QU.Props

/-!
# Nesting, bounds, periodicity and definedness of the QU-fitting models (C64-C67, C87)
-/

set_option linter.unusedSectionVars false

namespace Verif.QU

open Complex MeasureTheory ProbabilityTheory

/-! ### C64: nesting -/

theorem depol_zero (l : ℝ) : depol 0 l = 1 := by simp [depol]

/-- **C64**: no external dispersion gives the Faraday thin model. -/
theorem nest_m2_m1 (d : Dict) (l : ℝ) (h : d "sigmaRM_radm2" = 0) : m2 d l = m1 d l := by
  rw [m2, m1, h, depol_zero, mul_one]

/-- **C64**: no common dispersion gives two thin components. -/
theorem nest_m3_m11 (d : Dict) (l : ℝ) (h : d "sigmaRM_radm2" = 0) : m3 d l = m11 d l := by
  rw [m3, m11, h, depol_zero, mul_one]

/-- **C64**: equal dispersions are a common dispersion. -/
theorem nest_m4_m3 (d : Dict) (l : ℝ) (h1 : d "sigmaRM1_radm2" = d "sigmaRM_radm2")
    (h2 : d "sigmaRM2_radm2" = d "sigmaRM_radm2") : m4 d l = m3 d l := by
  rw [m4, m3, h1, h2, add_mul]

/-- **C64**: a mixed slab without internal dispersion is the Burn slab, NaN included. -/
theorem nest_m7_m5 (d : Dict) (l : ℝ) (h : d "sigmaRM_radm2" = 0) : m7 d l = m5 d l := by
  by_cases hd : d "deltaRM_radm2" * l = 0
  · have h1 : paraS 0 (d "deltaRM_radm2") l = 0 := by
      rw [paraS_zero_iff]
      exact ⟨mul_zero _, by rw [mul_comm]; exact hd⟩
    rw [m7, h, cdiv, if_pos h1, m5, slab, cdiv, if_pos (by rw [hd]; rfl)]
  · rw [m5_spec d l hd, m7_spec d l (Or.inr (by rwa [mul_comm]))]
    unfold mixed
    congr 1
    apply intervalIntegral.integral_congr
    intro t _
    beta_reduce
    rw [h, zero_pow two_ne_zero, mul_zero, thin_screen]

/-- **C64**: without a foreground screen the last model is the mixed slab. -/
theorem nest_m12_m7 (d : Dict) (l : ℝ) (h : d "sigmaRM_radm2_FG" = 0)
    (h' : d "RM_screen" = d "RM_radm2") : m12 d l = m7 d l := by
  rw [m12, m7, h, h']
  unfold cdiv
  split
  · rfl
  · rw [Option.map_some, depol_zero, mul_one, mul_div_assoc]

/-- **C64**: a component of fraction zero is absent. `e` is the dictionary of the smaller model. -/
theorem nest_m11_m1 (d e : Dict) (l : ℝ) (h : d "fracPol2" = 0) (h1 : e "fracPol" = d "fracPol1")
    (h2 : e "psi0_deg" = d "psi01_deg") (h3 : e "RM_radm2" = d "RM1_radm2") : m11 d l = m1 e l := by
  rw [m11, m1, h, h1, h2, h3, ofReal_zero, zero_mul, add_zero]

theorem nest_m111_m11 (d : Dict) (l : ℝ) (h : d "fracPol3" = 0) : m111 d l = m11 d l := by
  rw [m111, m11, h, ofReal_zero, zero_mul, add_zero]

theorem nest_m3_m2 (d e : Dict) (l : ℝ) (h : d "fracPol2" = 0) (h1 : e "fracPol" = d "fracPol1")
    (h2 : e "psi0_deg" = d "psi01_deg") (h3 : e "RM_radm2" = d "RM1_radm2")
    (h4 : e "sigmaRM_radm2" = d "sigmaRM_radm2") : m3 d l = m2 e l := by
  rw [m3, m2, h, h1, h2, h3, h4, ofReal_zero, zero_mul, add_zero]

theorem nest_m4_m2 (d e : Dict) (l : ℝ) (h : d "fracPol2" = 0) (h1 : e "fracPol" = d "fracPol1")
    (h2 : e "psi0_deg" = d "psi01_deg") (h3 : e "RM_radm2" = d "RM1_radm2")
    (h4 : e "sigmaRM_radm2" = d "sigmaRM1_radm2") : m4 d l = m2 e l := by
  rw [m4, m2, h, h1, h2, h3, h4, ofReal_zero, zero_mul, zero_mul, add_zero]

/-- **C64**: for two slabs the second must have a width, or all is NaN. -/
theorem nest_m6_m5 (d e : Dict) (l : ℝ) (h : d "fracPol2" = 0) (h1 : e "fracPol" = d "fracPol1")
    (h2 : e "psi0_deg" = d "psi01_deg") (h3 : e "RM_radm2" = d "RM1_radm2")
    (h4 : e "deltaRM_radm2" = d "deltaRM1_radm2") (h5 : d "deltaRM2_radm2" * l ≠ 0) :
    m6 d l = m5 e l := by
  rw [m6, m5, h, h1, h2, h3, h4]
  have : slab 0 (d "psi02_deg") (d "RM2_radm2") (d "deltaRM2_radm2") l = some 0 := by
    rw [slab, cdiv, if_neg (ofReal_ne_zero.2 h5), ofReal_zero]
    simp
  rw [this]
  cases slab (d "fracPol1") (d "psi01_deg") (d "RM1_radm2") (d "deltaRM1_radm2") l with
  | none => rfl
  | some z => simp [cadd]

/-- **C64**: a Burn slab tends to the thin model as its width goes to zero. (At width zero itself it is
NaN: C67.) -/
theorem nest_m5_m1 (d : Dict) (l : ℝ) (hl : l ≠ 0) :
    ∃ z : ℝ → ℂ, (∀ δ, δ ≠ 0 → m5 (fun k => if k = "deltaRM_radm2" then δ else d k) l = some (z δ)) ∧
      ∃ w, m1 d l = some w ∧ Filter.Tendsto z (nhdsWithin 0 {0}ᶜ) (nhds w) := by
  refine ⟨fun δ => d "fracPol" * rot (d "psi0_deg") (0.5 * δ + d "RM_radm2") l *
    (Real.sinc (δ * l) : ℂ), ?_, _, rfl, ?_⟩
  · intro δ hδ
    have h : δ * l ≠ 0 := mul_ne_zero hδ hl
    simp only [m5, slab, cdiv]
    rw [if_neg (ofReal_ne_zero.2 (by simpa using h))]
    simp only [if_true, Real.sinc, h, if_false, String.reduceEq]
    push_cast
    congr 1
    ring
  · have hc : Continuous fun δ : ℝ => d "fracPol" * rot (d "psi0_deg") (0.5 * δ + d "RM_radm2") l *
        (Real.sinc (δ * l) : ℂ) := by
      unfold rot
      have := Real.continuous_sinc
      fun_prop
    have h0 := (hc.tendsto 0).mono_left (nhdsWithin_le_nhds (s := {0}ᶜ))
    simpa using h0

/-! ### C65: bounds -/

theorem norm_depol_le (s l : ℝ) : ‖depol s l‖ ≤ 1 := by
  rw [depol, ← ofReal_exp, norm_real, Real.norm_of_nonneg (Real.exp_pos _).le, Real.exp_le_one_iff]
  nlinarith [sq_nonneg (s * l)]

theorem norm_mixFactor_le (S : ℂ) (hS : S ≠ 0) (h : 0 ≤ S.re) : ‖(1 - exp (-1 * S)) / S‖ ≤ 1 := by
  rw [← integral_exp_unit S hS]
  have := intervalIntegral.norm_integral_le_of_norm_le_const (a := (0 : ℝ)) (b := 1) (C := 1)
    (f := fun t : ℝ => exp (-S * t)) (by
      intro t ht
      rw [Set.uIoc_of_le (by norm_num)] at ht
      rw [norm_exp, Real.exp_le_one_iff]
      simp only [mul_re, neg_re, ofReal_re, ofReal_im, mul_zero, sub_zero]
      nlinarith [ht.1, mul_nonneg h ht.1.le])
  simpa using this

theorem paraS_re (s δ l : ℝ) : 0 ≤ (paraS s δ l).re := by
  have hre : (paraS s δ l).re = 2 * (l * s) ^ 2 := by
    simp only [paraS, sub_re, ofReal_re, mul_re, ofReal_im, I_re, I_im, re_ofNat, im_ofNat, mul_im]
    ring
  rw [hre]
  positivity

theorem norm_slab_le (p psi rm δ l : ℝ) (hp : 0 ≤ p) (z : ℂ) (hz : slab p psi rm δ l = some z) :
    ‖z‖ ≤ p := by
  rw [slab, cdiv] at hz
  split at hz
  · cases hz
  · rename_i h
    cases hz
    have hx : δ * l ≠ 0 := ofReal_ne_zero.1 h
    rw [norm_div, norm_mul, norm_mul, norm_rot, mul_one, norm_real, norm_real, norm_real,
      Real.norm_of_nonneg hp, mul_div_assoc]
    apply mul_le_of_le_one_right hp
    rw [div_le_one (norm_pos_iff.2 hx)]
    exact Real.abs_sin_le_abs

/-- The fractions of a dictionary are not negative. -/
def Nonneg (d : Dict) (ks : List String) : Prop := ∀ k ∈ ks, 0 ≤ d k

theorem norm_thinTerm (p psi rm l : ℝ) (hp : 0 ≤ p) : ‖(p : ℂ) * rot psi rm l‖ = p := by
  rw [norm_mul, norm_rot, mul_one, norm_real, Real.norm_of_nonneg hp]

theorem norm_depolTerm (p psi rm s l : ℝ) (hp : 0 ≤ p) : ‖(p : ℂ) * rot psi rm l * depol s l‖ ≤ p := by
  rw [norm_mul, norm_thinTerm _ _ _ _ hp]
  exact mul_le_of_le_one_right hp (norm_depol_le _ _)

/-- **C65**, one component. The polarised fraction never exceeds `fracPol`, whatever the depolarisation. -/
theorem bound_single (d : Dict) (l : ℝ) (h : 0 ≤ d "fracPol") (z : ℂ)
    (hz : m1 d l = some z ∨ m2 d l = some z ∨ m5 d l = some z ∨ m7 d l = some z ∨ m12 d l = some z) :
    ‖z‖ ≤ d "fracPol" := by
  rcases hz with hz | hz | hz | hz | hz
  · cases hz
    exact (norm_thinTerm _ _ _ _ h).le
  · cases hz
    exact norm_depolTerm _ _ _ _ _ h
  · exact norm_slab_le _ _ _ _ _ h z hz
  · rw [m7, cdiv] at hz
    split at hz
    · cases hz
    · rename_i hS
      cases hz
      rw [mul_div_assoc, norm_mul, norm_thinTerm _ _ _ _ h]
      exact mul_le_of_le_one_right h (norm_mixFactor_le _ hS (paraS_re _ _ _))
  · rw [m12, cdiv] at hz
    split at hz
    · cases hz
    · rename_i hS
      cases hz
      rw [norm_mul, norm_mul, norm_thinTerm _ _ _ _ h, mul_assoc]
      apply mul_le_of_le_one_right h
      exact mul_le_one₀ (norm_mixFactor_le _ hS (paraS_re _ _ _)) (norm_nonneg _) (norm_depol_le _ _)

/-- **C65**, several components. The polarised fraction never exceeds the sum of the fractions. -/
theorem bound_multi (d : Dict) (l : ℝ) (h1 : 0 ≤ d "fracPol1") (h2 : 0 ≤ d "fracPol2") (z : ℂ) :
    (m3 d l = some z ∨ m4 d l = some z ∨ m6 d l = some z ∨ m11 d l = some z →
      ‖z‖ ≤ d "fracPol1" + d "fracPol2") ∧
    (0 ≤ d "fracPol3" → m111 d l = some z → ‖z‖ ≤ d "fracPol1" + d "fracPol2" + d "fracPol3") := by
  constructor
  · rintro (hz | hz | hz | hz)
    · cases hz
      rw [add_mul]
      exact (norm_add_le _ _).trans (add_le_add (norm_depolTerm _ _ _ _ _ h1)
        (norm_depolTerm _ _ _ _ _ h2))
    · cases hz
      exact (norm_add_le _ _).trans (add_le_add (norm_depolTerm _ _ _ _ _ h1)
        (norm_depolTerm _ _ _ _ _ h2))
    · rw [m6] at hz
      cases ha : slab (d "fracPol1") (d "psi01_deg") (d "RM1_radm2") (d "deltaRM1_radm2") l with
      | none => rw [ha] at hz; cases hz
      | some a =>
        cases hb : slab (d "fracPol2") (d "psi02_deg") (d "RM2_radm2") (d "deltaRM2_radm2") l with
        | none => rw [ha, hb] at hz; cases hz
        | some b =>
          rw [ha, hb] at hz
          cases hz
          exact (norm_add_le _ _).trans (add_le_add (norm_slab_le _ _ _ _ _ h1 a ha)
            (norm_slab_le _ _ _ _ _ h2 b hb))
    · cases hz
      exact (norm_add_le _ _).trans (add_le_add (norm_thinTerm _ _ _ _ h1).le
        (norm_thinTerm _ _ _ _ h2).le)
  · intro h3 hz
    cases hz
    refine (norm_add_le _ _).trans (add_le_add ((norm_add_le _ _).trans (add_le_add ?_ ?_)) ?_)
    · exact (norm_thinTerm _ _ _ _ h1).le
    · exact (norm_thinTerm _ _ _ _ h2).le
    · exact (norm_thinTerm _ _ _ _ h3).le

/-- **C65**, with the priors: what the sampler proposes is at most fully polarised. -/
theorem bound_prior (d : Dict) (l : ℝ) (z : ℂ) :
    (Within bounds1 d → m1 d l = some z ∨ m2 d l = some z ∨ m5 d l = some z ∨ m7 d l = some z →
      ‖z‖ ≤ 1) ∧
    (Within bounds12 d → m12 d l = some z → ‖z‖ ≤ 0.6) ∧
    (Within boundsTwo d → constraintTwo d →
      m3 d l = some z ∨ m4 d l = some z ∨ m6 d l = some z ∨ m11 d l = some z → ‖z‖ < 1) ∧
    (Within bounds111 d → constraintThree d → m111 d l = some z → ‖z‖ < 1) := by
  refine ⟨fun hw hz => ?_, fun hw hz => ?_, fun hw hc hz => ?_, fun hw hc hz => ?_⟩
  · have hp := hw ("fracPol", 0, 1) (by simp [bounds1])
    exact (bound_single d l hp.1 z (by tauto)).trans hp.2
  · have hp := hw ("fracPol", 0, 0.6) (by simp [bounds12])
    exact (bound_single d l hp.1 z (by tauto)).trans hp.2
  · have hp1 := hw ("fracPol1", 0, 1) (by simp [boundsTwo])
    have hp2 := hw ("fracPol2", 0, 1) (by simp [boundsTwo])
    exact ((bound_multi d l hp1.1 hp2.1 z).1 hz).trans_lt hc.2.2.2
  · have hp1 := hw ("fracPol1", 0, 1) (by simp [boundsTwo, bounds111])
    have hp2 := hw ("fracPol2", 0, 1) (by simp [boundsTwo, bounds111])
    have hp3 := hw ("fracPol3", 0, 1) (by simp [boundsTwo, bounds111])
    exact ((bound_multi d l hp1.1 hp2.1 z).2 hp3.1 hz).trans_lt hc.2.2.2.2.2

/-! ### C66: angles -/

theorem rot_180 (psi rm l : ℝ) : rot (psi + 180) rm l = rot psi rm l := by
  unfold rot radians
  refine Eq.trans ?_ (exp_periodic _)
  congr 1
  push_cast
  ring

theorem rot_90 (psi rm l : ℝ) : rot (psi + 90) rm l = -rot psi rm l := by
  unfold rot radians
  refine Eq.trans ?_ (exp_antiperiodic _)
  congr 1
  push_cast
  ring

/-- The dictionary with `x` added to the entry `k`. -/
def shift (d : Dict) (k : String) (x : ℝ) : Dict := fun j => if j = k then d j + x else d j

/-- **C66**: adding 180 degrees to any of the angles changes no model. -/
theorem angle_180 (d : Dict) (l : ℝ) (k : String)
    (hk : k = "psi0_deg" ∨ k = "psi01_deg" ∨ k = "psi02_deg" ∨ k = "psi03_deg") :
    m1 (shift d k 180) l = m1 d l ∧ m2 (shift d k 180) l = m2 d l ∧ m3 (shift d k 180) l = m3 d l ∧
    m4 (shift d k 180) l = m4 d l ∧ m5 (shift d k 180) l = m5 d l ∧ m6 (shift d k 180) l = m6 d l ∧
    m7 (shift d k 180) l = m7 d l ∧ m11 (shift d k 180) l = m11 d l ∧
    m111 (shift d k 180) l = m111 d l ∧ m12 (shift d k 180) l = m12 d l := by
  rcases hk with rfl | rfl | rfl | rfl <;>
    simp [m1, m2, m3, m4, m5, m6, m7, m11, m111, m12, slab, shift, rot_180]

/-- **C66**: adding 90 degrees changes the sign of the models with one component. -/
theorem angle_90 (d : Dict) (l : ℝ) :
    m1 (shift d "psi0_deg" 90) l = (m1 d l).map (-·) ∧
    m2 (shift d "psi0_deg" 90) l = (m2 d l).map (-·) ∧
    m5 (shift d "psi0_deg" 90) l = (m5 d l).map (-·) ∧
    m7 (shift d "psi0_deg" 90) l = (m7 d l).map (-·) ∧
    m12 (shift d "psi0_deg" 90) l = (m12 d l).map (-·) := by
  refine ⟨?_, ?_, ?_, ?_, ?_⟩
  · simp [m1, shift, rot_90]
  · simp [m2, shift, rot_90]
  · simp only [m5, slab, cdiv, shift, rot_90, String.reduceEq, if_true, if_false]
    split
    · rfl
    · simp [neg_div]
  · simp only [m7, cdiv, shift, rot_90, String.reduceEq, if_true, if_false]
    split
    · rfl
    · simp only [Option.map_some]
      congr 1
      ring
  · simp only [m12, cdiv, shift, rot_90, String.reduceEq, if_true, if_false]
    split
    · rfl
    · simp only [Option.map_some]
      congr 1
      ring

/-! ### C67: definedness over the prior -/

/-- Where the models are defined. -/
theorem defined_iff (d : Dict) (l : ℝ) (hl : l ≠ 0) :
    (m5 d l ≠ none ↔ d "deltaRM_radm2" ≠ 0) ∧
    (m6 d l ≠ none ↔ d "deltaRM1_radm2" ≠ 0 ∧ d "deltaRM2_radm2" ≠ 0) ∧
    (m7 d l ≠ none ↔ d "deltaRM_radm2" ≠ 0 ∨ d "sigmaRM_radm2" ≠ 0) ∧
    (m12 d l ≠ none ↔ d "deltaRM_radm2" ≠ 0 ∨ d "sigmaRM_radm2" ≠ 0) := by
  have hs : ∀ p psi rm δ, slab p psi rm δ l = none ↔ δ = 0 := by
    intro p psi rm δ
    rw [slab, cdiv]
    split
    · rename_i h
      simpa [hl] using h
    · rename_i h
      simpa [hl] using h
  have hS : ∀ δ s, paraS s δ l = 0 ↔ s = 0 ∧ δ = 0 := by
    intro δ s
    rw [paraS_zero_iff]
    simp [hl]
  refine ⟨?_, ?_, ?_, ?_⟩
  · rw [m5, Ne, hs]
  · rw [m6, ← not_or, ← hs (d "fracPol1") (d "psi01_deg") (d "RM1_radm2"),
      ← hs (d "fracPol2") (d "psi02_deg") (d "RM2_radm2")]
    cases slab (d "fracPol1") (d "psi01_deg") (d "RM1_radm2") (d "deltaRM1_radm2") l <;>
      cases slab (d "fracPol2") (d "psi02_deg") (d "RM2_radm2") (d "deltaRM2_radm2") l <;>
      simp [cadd]
  · rw [m7, cdiv]
    split
    · rename_i h
      simp [(hS _ _).1 h]
    · rename_i h
      rw [hS] at h
      simp only [ne_eq, reduceCtorEq, not_false_eq_true, true_iff]
      tauto
  · rw [m12, cdiv]
    split
    · rename_i h
      simp [(hS _ _).1 h]
    · rename_i h
      rw [hS] at h
      simp only [Option.map_some, ne_eq, reduceCtorEq, not_false_eq_true, true_iff]
      tauto

/-- The lower ends of the priors. -/
def lowest (b : Bounds) : Dict := fun k => ((b.find? fun x => x.1 = k).map fun x => x.2.1).getD 0

/-- **C67 is false for the code.** Each of the four slab models is NaN, at every wavelength, for a parameter
vector inside its prior: the one with all parameters at their lower ends. -/
theorem slab_prior_wrong :
    (Within bounds5 (lowest bounds5) ∧ ∀ l, m5 (lowest bounds5) l = none) ∧
    (Within bounds6 (lowest bounds6) ∧ ∀ l, m6 (lowest bounds6) l = none) ∧
    (Within bounds7 (lowest bounds7) ∧ ∀ l, m7 (lowest bounds7) l = none) ∧
    (Within bounds12 (lowest bounds12) ∧ ∀ l, m12 (lowest bounds12) l = none) := by
  refine ⟨⟨?_, ?_⟩, ⟨?_, ?_⟩, ⟨?_, ?_⟩, ⟨?_, ?_⟩⟩
  · simp [Within, lowest, bounds5, bounds1]
  · intro l
    simp [m5, slab, cdiv, lowest, bounds5, bounds1]
  · simp [Within, lowest, bounds6, boundsTwo]
  · intro l
    simp [m6, slab, cdiv, cadd, lowest, bounds6, boundsTwo]
  · simp [Within, lowest, bounds7, bounds1]
  · intro l
    simp [m7, cdiv, paraS, lowest, bounds7, bounds1]
  · simp [Within, lowest, bounds12]
    norm_num
  · intro l
    simp [m12, cdiv, paraS, lowest, bounds12]

/-- **C67**, what holds: the models without slabs are always defined, and the others away from width and
dispersion zero. What is missing is the value at the edge of the prior. -/
theorem slab_prior_partial (d : Dict) (l : ℝ) (hl : l ≠ 0) :
    m1 d l ≠ none ∧ m2 d l ≠ none ∧ m3 d l ≠ none ∧ m4 d l ≠ none ∧ m11 d l ≠ none ∧
    m111 d l ≠ none ∧ (0 < d "deltaRM_radm2" → m5 d l ≠ none ∧ m7 d l ≠ none ∧ m12 d l ≠ none) ∧
    (0 < d "deltaRM1_radm2" → 0 < d "deltaRM2_radm2" → m6 d l ≠ none) := by
  obtain ⟨h5, h6, h7, h12⟩ := defined_iff d l hl
  refine ⟨by simp [m1], by simp [m2], by simp [m3], by simp [m4], by simp [m11], by simp [m111],
    fun h => ?_, fun h1 h2 => h6.2 ⟨h1.ne', h2.ne'⟩⟩
  exact ⟨h5.2 h.ne', h7.2 (Or.inl h.ne'), h12.2 (Or.inl h.ne')⟩

/-! ### C87: exchanging components -/

/-- The dictionary with the names of the first two components exchanged. -/
def swap12 (d : Dict) : Dict := fun k =>
  if k = "fracPol1" then d "fracPol2" else if k = "fracPol2" then d "fracPol1"
  else if k = "psi01_deg" then d "psi02_deg" else if k = "psi02_deg" then d "psi01_deg"
  else if k = "RM1_radm2" then d "RM2_radm2" else if k = "RM2_radm2" then d "RM1_radm2"
  else if k = "sigmaRM1_radm2" then d "sigmaRM2_radm2" else if k = "sigmaRM2_radm2" then d "sigmaRM1_radm2"
  else if k = "deltaRM1_radm2" then d "deltaRM2_radm2" else if k = "deltaRM2_radm2" then d "deltaRM1_radm2"
  else d k

theorem swap12_models (d : Dict) (l : ℝ) :
    m3 (swap12 d) l = m3 d l ∧ m4 (swap12 d) l = m4 d l ∧ m6 (swap12 d) l = m6 d l ∧
    m11 (swap12 d) l = m11 d l := by
  refine ⟨?_, ?_, ?_, ?_⟩
  · simp [m3, swap12, add_comm]
  · simp [m4, swap12, add_comm]
  · simp only [m6, swap12, String.reduceEq, if_true, if_false]
    cases slab (d "fracPol1") (d "psi01_deg") (d "RM1_radm2") (d "deltaRM1_radm2") l <;>
      cases slab (d "fracPol2") (d "psi02_deg") (d "RM2_radm2") (d "deltaRM2_radm2") l <;>
      simp [cadd, add_comm]
  · simp [m11, swap12, add_comm]

/-- **C87**. The constraint on the order of the rotation measures loses no spectrum and keeps each once: of a
parameter vector within the bounds (fractions summing to less than one, rotation measures different)
exactly one of it and its exchange satisfies the constraints, and both give the same spectrum and are
within the bounds. -/
theorem constraint_two (d : Dict) (hb : Within boundsTwo d) (hs : 0 < d "fracPol1" + d "fracPol2")
    (hs1 : d "fracPol1" + d "fracPol2" < 1) (hne : d "RM1_radm2" ≠ d "RM2_radm2")
    (hend : |d "RM1_radm2" - d "RM2_radm2"| < 2200) :
    Within boundsTwo (swap12 d) ∧
    (∀ l, m3 (swap12 d) l = m3 d l ∧ m4 (swap12 d) l = m4 d l ∧ m6 (swap12 d) l = m6 d l ∧
      m11 (swap12 d) l = m11 d l) ∧
    (constraintTwo d ∨ constraintTwo (swap12 d)) ∧ ¬ (constraintTwo d ∧ constraintTwo (swap12 d)) := by
  have hend' := abs_lt.1 hend
  refine ⟨?_, swap12_models d, ?_, ?_⟩
  · simp only [Within, boundsTwo, List.mem_cons, List.not_mem_nil, or_false, forall_eq_or_imp,
      forall_eq] at hb ⊢
    simp only [swap12, String.reduceEq, if_true, if_false]
    tauto
  · simp only [constraintTwo, swap12, String.reduceEq, if_true, if_false]
    rcases lt_or_gt_of_ne hne with h | h
    · right
      refine ⟨?_, ?_, ?_, ?_⟩ <;> linarith
    · left
      refine ⟨?_, ?_, ?_, ?_⟩ <;> linarith
  · simp only [constraintTwo, swap12, String.reduceEq, if_true, if_false]
    rintro ⟨⟨h1, -⟩, ⟨h2, -⟩⟩
    linarith

/-- The dictionary with the names of the last two of three components exchanged. -/
def swap23 (d : Dict) : Dict := fun k =>
  if k = "fracPol2" then d "fracPol3" else if k = "fracPol3" then d "fracPol2"
  else if k = "psi02_deg" then d "psi03_deg" else if k = "psi03_deg" then d "psi02_deg"
  else if k = "RM2_radm2" then d "RM3_radm2" else if k = "RM3_radm2" then d "RM2_radm2"
  else d k

theorem swap12_vals (d : Dict) :
    swap12 d "RM1_radm2" = d "RM2_radm2" ∧ swap12 d "RM2_radm2" = d "RM1_radm2" ∧
    swap12 d "RM3_radm2" = d "RM3_radm2" ∧ swap12 d "fracPol1" = d "fracPol2" ∧
    swap12 d "fracPol2" = d "fracPol1" ∧ swap12 d "fracPol3" = d "fracPol3" := by
  simp [swap12]

theorem swap23_vals (d : Dict) :
    swap23 d "RM1_radm2" = d "RM1_radm2" ∧ swap23 d "RM2_radm2" = d "RM3_radm2" ∧
    swap23 d "RM3_radm2" = d "RM2_radm2" ∧ swap23 d "fracPol1" = d "fracPol1" ∧
    swap23 d "fracPol2" = d "fracPol3" ∧ swap23 d "fracPol3" = d "fracPol2" := by
  simp [swap23]

/-- The six orders of three components. -/
def orders (d : Dict) : List Dict :=
  [d, swap12 d, swap23 d, swap12 (swap23 d), swap23 (swap12 d), swap12 (swap23 (swap12 d))]

theorem swap_m111 (d : Dict) (l : ℝ) : m111 (swap12 d) l = m111 d l ∧ m111 (swap23 d) l = m111 d l := by
  constructor
  · simp [m111, swap12, add_comm]
  · simp only [m111, swap23, String.reduceEq, if_true, if_false]
    congr 1
    ring

theorem within_swap12 (d : Dict) (hb : Within bounds111 d) : Within bounds111 (swap12 d) := by
  simp only [Within, bounds111, boundsTwo, List.cons_append, List.nil_append, List.mem_cons,
    List.not_mem_nil, or_false, forall_eq_or_imp, forall_eq] at hb ⊢
  simp only [swap12, String.reduceEq, if_true, if_false]
  tauto

theorem within_swap23 (d : Dict) (hb : Within bounds111 d) : Within bounds111 (swap23 d) := by
  simp only [Within, bounds111, boundsTwo, List.cons_append, List.nil_append, List.mem_cons,
    List.not_mem_nil, or_false, forall_eq_or_imp, forall_eq] at hb ⊢
  simp only [swap23, String.reduceEq, if_true, if_false]
  tauto

/-- **C87**, three components: one of the six orders satisfies the constraints, and all give the same
spectrum and are within the bounds. -/
theorem constraint_three (d : Dict) (hb : Within bounds111 d)
    (hs : 0 < d "fracPol1" + d "fracPol2" + d "fracPol3")
    (hs1 : d "fracPol1" + d "fracPol2" + d "fracPol3" < 1) (h12 : d "RM1_radm2" ≠ d "RM2_radm2")
    (h23 : d "RM2_radm2" ≠ d "RM3_radm2") (h13 : d "RM1_radm2" ≠ d "RM3_radm2") :
    (∀ e ∈ orders d, Within bounds111 e ∧ ∀ l, m111 e l = m111 d l) ∧
    ∃ e ∈ orders d, constraintThree e := by
  constructor
  · intro e he
    simp only [orders, List.mem_cons, List.not_mem_nil, or_false] at he
    rcases he with rfl | rfl | rfl | rfl | rfl | rfl
    · exact ⟨hb, fun l => rfl⟩
    · exact ⟨within_swap12 _ hb, fun l => (swap_m111 _ l).1⟩
    · exact ⟨within_swap23 _ hb, fun l => (swap_m111 _ l).2⟩
    · exact ⟨within_swap12 _ (within_swap23 _ hb), fun l => (swap_m111 _ l).1.trans (swap_m111 _ l).2⟩
    · exact ⟨within_swap23 _ (within_swap12 _ hb), fun l => (swap_m111 _ l).2.trans (swap_m111 _ l).1⟩
    · exact ⟨within_swap12 _ (within_swap23 _ (within_swap12 _ hb)),
        fun l => ((swap_m111 _ l).1.trans (swap_m111 _ l).2).trans (swap_m111 _ l).1⟩
  · have hr1 := hb ("RM1_radm2", -1100, 1100) (by simp [bounds111, boundsTwo])
    have hr2 := hb ("RM2_radm2", -1100, 1100) (by simp [bounds111, boundsTwo])
    have hr3 := hb ("RM3_radm2", -1100, 1100) (by simp [bounds111, boundsTwo])
    dsimp only at hr1 hr2 hr3
    rcases lt_or_gt_of_ne h12 with a | a <;> rcases lt_or_gt_of_ne h23 with b | b <;>
      rcases lt_or_gt_of_ne h13 with c | c
    · refine ⟨_, show swap12 (swap23 (swap12 d)) ∈ orders d by simp [orders], ?_⟩
      simp only [constraintThree, swap12_vals, swap23_vals]
      refine ⟨?_, ?_, ?_, ?_, ?_, ?_⟩ <;> linarith
    · linarith
    · refine ⟨_, show swap23 (swap12 d) ∈ orders d by simp [orders], ?_⟩
      simp only [constraintThree, swap12_vals, swap23_vals]
      refine ⟨?_, ?_, ?_, ?_, ?_, ?_⟩ <;> linarith
    · refine ⟨_, show swap12 d ∈ orders d by simp [orders], ?_⟩
      simp only [constraintThree, swap12_vals]
      refine ⟨?_, ?_, ?_, ?_, ?_, ?_⟩ <;> linarith
    · refine ⟨_, show swap12 (swap23 d) ∈ orders d by simp [orders], ?_⟩
      simp only [constraintThree, swap12_vals, swap23_vals]
      refine ⟨?_, ?_, ?_, ?_, ?_, ?_⟩ <;> linarith
    · refine ⟨_, show swap23 d ∈ orders d by simp [orders], ?_⟩
      simp only [constraintThree, swap23_vals]
      refine ⟨?_, ?_, ?_, ?_, ?_, ?_⟩ <;> linarith
    · linarith
    · refine ⟨_, show d ∈ orders d by simp [orders], ?_⟩
      simp only [constraintThree]
      refine ⟨?_, ?_, ?_, ?_, ?_, ?_⟩ <;> linarith

/-- **C87**, three components: not more than one of the six orders satisfies the constraints. -/
theorem constraint_three_unique (d e e' : Dict) (he : e ∈ orders d) (he' : e' ∈ orders d)
    (h : constraintThree e) (h' : constraintThree e') : e = e' := by
  simp only [orders, List.mem_cons, List.not_mem_nil, or_false] at he he'
  rcases he with rfl | rfl | rfl | rfl | rfl | rfl <;>
    rcases he' with rfl | rfl | rfl | rfl | rfl | rfl <;>
    first
    | rfl
    | (exfalso
       simp only [constraintThree, swap12_vals, swap23_vals] at h h'
       obtain ⟨h1, -, h2, -⟩ := h
       obtain ⟨h3, -, h4, -⟩ := h'
       linarith)

/-- A concrete case of the hypotheses. -/
example : ∃ d : Dict, Within boundsTwo d ∧ 0 < d "fracPol1" + d "fracPol2" ∧
    d "fracPol1" + d "fracPol2" < 1 ∧ d "RM1_radm2" ≠ d "RM2_radm2" ∧
    |d "RM1_radm2" - d "RM2_radm2"| < 2200 := by
  refine ⟨fun k => if k = "RM1_radm2" then -20 else if k = "RM2_radm2" then 30
    else if k = "fracPol1" then 0.3 else if k = "fracPol2" then 0.4 else 10, ?_, ?_, ?_, ?_, ?_⟩ <;>
    simp [Within, boundsTwo, abs_lt] <;> norm_num

end Verif.QU
