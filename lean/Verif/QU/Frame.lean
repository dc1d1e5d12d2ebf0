import Verif.QU.Fit
import Verif.QU.Nest

/-!
# C253: QU fits and the frame of the polarisation angles; added Faraday rotation

Rotating the frame in which Q and U are measured by an angle, or adding a Faraday rotation in front of the source,
multiplies `q + iu` by `exp(2i(θ + δ λ²))`. The theorems say what becomes of the likelihood that the sampler sees.
-/

namespace Verif.QU

open Complex Verif.Stats

/-- All models of `/repo/RMtools_1D/models_ns`. -/
noncomputable def allModels : List (Dict → ℝ → Option ℂ) := [m1, m2, m3, m4, m5, m6, m7, m11, m111, m12]

/-- The parameters that are angles in degrees. -/
def angleKeys : List String := ["psi0_deg", "psi01_deg", "psi02_deg", "psi03_deg"]

/-- The parameters that are the Faraday depth of a component (or of its foreground). -/
def depthKeys : List String := ["RM_radm2", "RM1_radm2", "RM2_radm2", "RM3_radm2", "RM_screen"]

/-- `e` is `d` with all angles changed by `θ` degrees (up to multiples of 180), all Faraday depths by `δ`, and
nothing else changed. -/
structure Turned (θ δ : ℝ) (d e : Dict) : Prop where
  angle : ∀ k ∈ angleKeys, ∃ z : ℤ, e k = d k + θ + 180 * z
  depth : ∀ k ∈ depthKeys, e k = d k + δ
  rest : ∀ k, k ∉ angleKeys → k ∉ depthKeys → e k = d k

/-- The factor by which `q + iu` changes at the squared wavelength `l`. -/
noncomputable def turnFactor (θ δ l : ℝ) : ℂ := exp (2 * I * ((θ * Real.pi / 180 + δ * l : ℝ) : ℂ))

theorem norm_turnFactor (θ δ l : ℝ) : ‖turnFactor θ δ l‖ = 1 := by
  unfold turnFactor
  rw [mul_comm 2 I, mul_assoc, mul_comm]
  rw [show (2 : ℂ) * ((θ * Real.pi / 180 + δ * l : ℝ) : ℂ) * I = ((2 * (θ * Real.pi / 180 + δ * l) : ℝ) : ℂ) * I by
    push_cast; ring]
  exact norm_exp_ofReal_mul_I _

theorem rot_turn (psi rm θ δ l : ℝ) (z : ℤ) :
    rot (psi + θ + 180 * z) (rm + δ) l = turnFactor θ δ l * rot psi rm l := by
  unfold rot turnFactor radians
  rw [← Complex.exp_add]
  refine Eq.trans ?_ (Complex.exp_periodic.int_mul z _)
  congr 1
  push_cast
  ring

theorem slab_turn (p psi rm dl θ δ l : ℝ) (z : ℤ) :
    slab p (psi + θ + 180 * z) (rm + δ) dl l = (slab p psi rm dl l).map (turnFactor θ δ l * ·) := by
  unfold slab cdiv
  rw [show 0.5 * dl + (rm + δ) = 0.5 * dl + rm + δ by ring, rot_turn]
  split
  · rfl
  · simp only [Option.map_some]
    congr 1
    ring

/-- **C253**, the models: turning the angles and the Faraday depths multiplies every model by the factor of the
data, in every channel; where the model is undefined it stays so. -/
theorem turned_models (f : Dict → ℝ → Option ℂ) (hf : f ∈ allModels) (θ δ : ℝ) (d e : Dict) (h : Turned θ δ d e) (l : ℝ) :
    f e l = (f d l).map (turnFactor θ δ l * ·) := by
  obtain ⟨z0, a0⟩ := h.angle "psi0_deg" (by decide)
  obtain ⟨z1, a1⟩ := h.angle "psi01_deg" (by decide)
  obtain ⟨z2, a2⟩ := h.angle "psi02_deg" (by decide)
  obtain ⟨z3, a3⟩ := h.angle "psi03_deg" (by decide)
  have r0 := h.depth "RM_radm2" (by decide)
  have r1 := h.depth "RM1_radm2" (by decide)
  have r2 := h.depth "RM2_radm2" (by decide)
  have r3 := h.depth "RM3_radm2" (by decide)
  have rs := h.depth "RM_screen" (by decide)
  have p0 := h.rest "fracPol" (by decide) (by decide)
  have p1 := h.rest "fracPol1" (by decide) (by decide)
  have p2 := h.rest "fracPol2" (by decide) (by decide)
  have p3 := h.rest "fracPol3" (by decide) (by decide)
  have s0 := h.rest "sigmaRM_radm2" (by decide) (by decide)
  have s1 := h.rest "sigmaRM1_radm2" (by decide) (by decide)
  have s2 := h.rest "sigmaRM2_radm2" (by decide) (by decide)
  have sf := h.rest "sigmaRM_radm2_FG" (by decide) (by decide)
  have d0 := h.rest "deltaRM_radm2" (by decide) (by decide)
  have d1 := h.rest "deltaRM1_radm2" (by decide) (by decide)
  have d2 := h.rest "deltaRM2_radm2" (by decide) (by decide)
  simp only [allModels, List.mem_cons, List.not_mem_nil, or_false] at hf
  rcases hf with rfl | rfl | rfl | rfl | rfl | rfl | rfl | rfl | rfl | rfl
  · simp only [m1, a0, r0, p0, rot_turn, Option.map_some]
    congr 1
    ring
  · simp only [m2, a0, r0, p0, s0, rot_turn, Option.map_some]
    congr 1
    ring
  · simp only [m3, a1, a2, r1, r2, p1, p2, s0, rot_turn, Option.map_some]
    congr 1
    ring
  · simp only [m4, a1, a2, r1, r2, p1, p2, s1, s2, rot_turn, Option.map_some]
    congr 1
    ring
  · simp only [m5, a0, r0, p0, d0, slab_turn]
  · simp only [m6, a1, a2, r1, r2, p1, p2, d1, d2, slab_turn]
    cases slab (d "fracPol1") (d "psi01_deg") (d "RM1_radm2") (d "deltaRM1_radm2") l with
    | none => rfl
    | some x =>
      cases slab (d "fracPol2") (d "psi02_deg") (d "RM2_radm2") (d "deltaRM2_radm2") l with
      | none => rfl
      | some y =>
        show some _ = some _
        congr 1
        ring
  · simp only [m7, a0, r0, p0, s0, d0, rot_turn, cdiv]
    split
    · rfl
    · simp only [Option.map_some]
      congr 1
      ring
  · simp only [m11, a1, a2, r1, r2, p1, p2, rot_turn, Option.map_some]
    congr 1
    ring
  · simp only [m111, a1, a2, a3, r1, r2, r3, p1, p2, p3, rot_turn, Option.map_some]
    congr 1
    ring
  · simp only [m12, a0, rs, p0, s0, d0, sf, rot_turn, cdiv]
    split
    · rfl
    · simp only [Option.map_some]
      congr 1
      ring

variable {n : ℕ}

/-- The spectra `q`, `u` of `E` are those of `D` in the turned frame and with the additional rotation; the errors
are the same. Where `q` and `u` are missing they are missing in both. -/
structure TurnedData (θ δ : ℝ) (lam : Fin n → ℝ) (D E : Data n) : Prop where
  dq : E.dq = D.dq
  du : E.du = D.du
  qu : ∀ i, (D.q i = none ∧ D.u i = none ∧ E.q i = none ∧ E.u i = none) ∨ ∃ a b a' b', D.q i = some a ∧ D.u i = some b ∧
    E.q i = some a' ∧ E.u i = some b' ∧ (a' : ℂ) + b' * I = turnFactor θ δ (lam i) * (a + b * I)

/-- Equal errors of Q and U in every channel, none of them zero. -/
def EqualErr (D : Data n) : Prop := D.dq = D.du ∧ ∀ i, D.dq i ≠ some 0

theorem sq_turned (w z z' m m' : ℂ) (s : ℝ) (hw : ‖w‖ = 1) (hz : z' = w * z) (hm : m' = w * m) :
    ((z'.re - m'.re) / s) ^ 2 + ((z'.im - m'.im) / s) ^ 2 = ((z.re - m.re) / s) ^ 2 + ((z.im - m.im) / s) ^ 2 := by
  have e : ∀ x : ℂ, (x.re / s) ^ 2 + (x.im / s) ^ 2 = ‖x‖ ^ 2 / s ^ 2 := by
    intro x
    rw [← Complex.normSq_eq_norm_sq, Complex.normSq_apply]
    ring
  rw [← Complex.sub_re, ← Complex.sub_im, ← Complex.sub_re, ← Complex.sub_im, e, e, hz, hm, ← mul_sub, norm_mul, hw, one_mul]

theorem resid_turned (θ δ : ℝ) (lam : Fin n → ℝ) (D E : Data n) (h : TurnedData θ δ lam D E) (he : EqualErr D)
    (m : Fin n → Option ℂ) (i : Fin n) :
    (resid2 (E.q i) (((m i).map (turnFactor θ δ (lam i) * ·)).map Complex.re) (E.dq i)).getD 0 +
      (resid2 (E.u i) (((m i).map (turnFactor θ δ (lam i) * ·)).map Complex.im) (E.du i)).getD 0 =
    (resid2 (D.q i) ((m i).map Complex.re) (D.dq i)).getD 0 + (resid2 (D.u i) ((m i).map Complex.im) (D.du i)).getD 0 ∧
    addNaN (resid2 (E.q i) (((m i).map (turnFactor θ δ (lam i) * ·)).map Complex.re) (E.dq i))
      (resid2 (E.u i) (((m i).map (turnFactor θ δ (lam i) * ·)).map Complex.im) (E.du i)) =
    addNaN (resid2 (D.q i) ((m i).map Complex.re) (D.dq i)) (resid2 (D.u i) ((m i).map Complex.im) (D.du i)) := by
  rw [h.dq, h.du, ← he.1]
  rcases h.qu i with ⟨h1, h2, h3, h4⟩ | ⟨a, b, a', b', h1, h2, h3, h4, hz⟩
  · rw [h1, h2, h3, h4]
    exact ⟨rfl, rfl⟩
  · rw [h1, h2, h3, h4]
    cases hm : m i with
    | none => exact ⟨rfl, rfl⟩
    | some z =>
      cases hs : D.dq i with
      | none => exact ⟨rfl, rfl⟩
      | some s =>
        have key := sq_turned (turnFactor θ δ (lam i)) (a + b * I) (a' + b' * I) z (turnFactor θ δ (lam i) * z) s
          (norm_turnFactor _ _ _) hz rfl
        have r1 : ((a : ℂ) + b * I).re = a := by simp
        have r2 : ((a : ℂ) + b * I).im = b := by simp
        have r3 : ((a' : ℂ) + b' * I).re = a' := by simp
        have r4 : ((a' : ℂ) + b' * I).im = b' := by simp
        rw [r1, r2, r3, r4] at key
        refine ⟨key, ?_⟩
        show some _ = some _
        exact congrArg some key

/-- **C253**, the likelihood: with equal errors of Q and U, the likelihood (and the chi-squared) of the turned
parameters on the turned data is that of the parameters on the data, for every model. -/
theorem turned_likelihood_partial (f : Dict → ℝ → Option ℂ) (hf : f ∈ allModels) (θ δ : ℝ) (lam : Fin n → ℝ) (D E : Data n)
    (h : TurnedData θ δ lam D E) (he : EqualErr D) (d e : Dict) (hd : Turned θ δ d e) :
    lnLike E (fun i => f e (lam i)) = lnLike D (fun i => f d (lam i)) ∧
    chiSq E (fun i => f e (lam i)) = chiSq D (fun i => f d (lam i)) := by
  have hm : (fun i => f e (lam i)) = fun i => (f d (lam i)).map (turnFactor θ δ (lam i) * ·) :=
    funext fun i => turned_models f hf θ δ d e hd (lam i)
  rw [hm]
  have key := fun i => resid_turned θ δ lam D E h he (fun i => f d (lam i)) i
  constructor
  · have hsum := Finset.sum_congr (rfl : (Finset.univ : Finset (Fin n)) = Finset.univ) fun i _ => (key i).1
    rw [Finset.sum_add_distrib, Finset.sum_add_distrib] at hsum
    unfold lnLike nansum
    rw [h.dq, h.du] at hsum ⊢
    linarith
  · unfold chiSq nansum
    exact Finset.sum_congr rfl fun i _ => congrArg (Option.getD · 0) (key i).2

/-- **C253**, the fit: if the prior allows the turned parameters whenever it allows the parameters, and vice versa
(any rotation of the frame for the uniform priors over all angles), then parameters fit the data best exactly when the
turned parameters fit the turned data best. -/
theorem turned_best_partial (f : Dict → ℝ → Option ℂ) (hf : f ∈ allModels) (θ δ : ℝ) (lam : Fin n → ℝ) (D E : Data n)
    (h : TurnedData θ δ lam D E) (he : EqualErr D) (S T : Set Dict)
    (hST : ∀ d ∈ S, ∃ e ∈ T, Turned θ δ d e) (hTS : ∀ e ∈ T, ∃ d ∈ S, Turned θ δ d e)
    (d e : Dict) (hde : Turned θ δ d e) :
    (∀ d' ∈ S, lnLike D (fun i => f d' (lam i)) ≤ lnLike D fun i => f d (lam i)) ↔
    ∀ e' ∈ T, lnLike E (fun i => f e' (lam i)) ≤ lnLike E fun i => f e (lam i) := by
  have key := fun d e hd => (turned_likelihood_partial f hf θ δ lam D E h he d e hd).1
  constructor
  · intro hb e' he'
    obtain ⟨d', hd', ht⟩ := hTS e' he'
    rw [key d' e' ht, key d e hde]
    exact hb d' hd'
  · intro hb d' hd'
    obtain ⟨e', he', ht⟩ := hST d' hd'
    rw [← key d' e' ht, ← key d e hde]
    exact hb e' he'

/-- The angle `x + θ` brought into `[0, 180)`. -/
theorem wrap_exists (x θ : ℝ) : ∃ z : ℤ, 0 ≤ x + θ + 180 * (z : ℝ) ∧ x + θ + 180 * (z : ℝ) ≤ 180 := by
  refine ⟨-⌊(x + θ) / 180⌋, ?_⟩
  have h1 := Int.floor_le ((x + θ) / 180)
  have h2 := Int.lt_floor_add_one ((x + θ) / 180)
  push_cast
  constructor <;> linarith

/-- The tables of priors, one for each model. -/
noncomputable def allBounds : List Bounds :=
  [bounds1, bounds2, bounds3, bounds4, bounds5, bounds6, bounds7, bounds11, bounds111, bounds12]

/-- **C253**, the priors: every rotation of the frame keeps the priors and the constraints of all models: for allowed
parameters there are allowed turned parameters (every allowed set arises so, with the opposite angle). -/
theorem turned_prior (b : Bounds) (hb : b ∈ allBounds) (θ : ℝ) (d : Dict) (hd : Within b d) :
    ∃ e, Turned θ 0 d e ∧ Turned (-θ) 0 e d ∧ Within b e ∧ (constraintTwo e ↔ constraintTwo d) ∧ (constraintThree e ↔ constraintThree d) := by
  choose z h0 h1 using fun x => wrap_exists x θ
  set e : Dict := fun k => if k ∈ angleKeys then d k + θ + 180 * (z (d k) : ℝ) else d k with hE
  have ea : ∀ k ∈ angleKeys, e k = d k + θ + 180 * (z (d k) : ℝ) := fun k hk => if_pos hk
  have er : ∀ k, k ∉ angleKeys → e k = d k := fun k hk => if_neg hk
  have hdep : ∀ k ∈ depthKeys, k ∉ angleKeys := by decide
  have hbd : ∀ x ∈ b, x.1 ∈ angleKeys → x.2 = (0, 180) := by
    simp only [allBounds, List.mem_cons, List.not_mem_nil, or_false] at hb
    rcases hb with rfl | rfl | rfl | rfl | rfl | rfl | rfl | rfl | rfl | rfl <;>
      simp [bounds1, bounds2, bounds3, bounds4, bounds5, bounds6, bounds7, bounds11, bounds111, bounds12, boundsTwo, angleKeys]
  refine ⟨e, ⟨fun k hk => ⟨z (d k), ea k hk⟩, fun k hk => by rw [er k (hdep k hk), add_zero], fun k h1 _ => er k h1⟩,
    ⟨fun k hk => ⟨-z (d k), by rw [ea k hk]; push_cast; ring⟩, fun k hk => by rw [er k (hdep k hk), add_zero],
      fun k h1 _ => (er k h1).symm⟩, ?_, ?_, ?_⟩
  · intro x hx
    by_cases hk : x.1 ∈ angleKeys
    · rw [ea _ hk, hbd x hx hk]
      exact ⟨h0 _, h1 _⟩
    · rw [er _ hk]
      exact hd x hx
  · unfold constraintTwo
    rw [er "RM1_radm2" (by decide), er "RM2_radm2" (by decide), er "fracPol1" (by decide), er "fracPol2" (by decide)]
  · unfold constraintThree
    rw [er "RM1_radm2" (by decide), er "RM2_radm2" (by decide), er "RM3_radm2" (by decide), er "fracPol1" (by decide),
      er "fracPol2" (by decide), er "fracPol3" (by decide)]

/-- **C253**, rotation of the frame, in one statement: with equal errors of Q and U, for every model with its table
of priors `b` and its constraint `C`: if allowed parameters fit the data best among all allowed ones, then there
are allowed parameters with all angles turned, and nothing else changed, which fit the turned data best, with the same
likelihood and the same chi-squared. -/
theorem turned_fit_partial (f : Dict → ℝ → Option ℂ) (hf : f ∈ allModels) (b : Bounds) (hb : b ∈ allBounds)
    (C : Dict → Prop) (hC : C = (fun _ => True) ∨ C = constraintTwo ∨ C = constraintThree)
    (θ : ℝ) (lam : Fin n → ℝ) (D E : Data n) (h : TurnedData θ 0 lam D E) (he : EqualErr D) (d : Dict)
    (hd : Within b d) (hCd : C d)
    (hbest : ∀ d', Within b d' → C d' → lnLike D (fun i => f d' (lam i)) ≤ lnLike D fun i => f d (lam i)) :
    ∃ e, Turned θ 0 d e ∧ Within b e ∧ C e ∧ lnLike E (fun i => f e (lam i)) = lnLike D (fun i => f d (lam i)) ∧
      chiSq E (fun i => f e (lam i)) = chiSq D (fun i => f d (lam i)) ∧
      ∀ e', Within b e' → C e' → lnLike E (fun i => f e' (lam i)) ≤ lnLike E fun i => f e (lam i) := by
  have key := fun d e hd => turned_likelihood_partial f hf θ 0 lam D E h he d e hd
  have hCiff : ∀ d e : Dict, (constraintTwo e ↔ constraintTwo d) → (constraintThree e ↔ constraintThree d) → (C e ↔ C d) := by
    intro d e h2 h3
    rcases hC with rfl | rfl | rfl
    · exact Iff.rfl
    · exact h2
    · exact h3
  obtain ⟨e, t, _, w, c2, c3⟩ := turned_prior b hb θ d hd
  refine ⟨e, t, w, (hCiff d e c2 c3).mpr hCd, (key d e t).1, (key d e t).2, fun e' he' hCe' => ?_⟩
  obtain ⟨d', _, t', w', c2', c3'⟩ := turned_prior b hb (-θ) e' he'
  rw [neg_neg] at t'
  rw [(key d' e' t').1, (key d e t).1]
  exact hbest d' w' ((hCiff e' d' c2' c3').mpr hCe')

/-- **C253** fails for unequal errors: one channel with `q = 1`, `u = 0`, errors 1 and 2, and the frame turned by 45
degrees: an unpolarised source has different likelihoods, in all turned parameters. -/
theorem turned_likelihood_wrong : ∃ (D E : Data 1) (lam : Fin 1 → ℝ) (d : Dict), PosErr D ∧ TurnedData 45 0 lam D E ∧
    Within bounds1 d ∧ ∀ e, Turned 45 0 d e → lnLike D (fun i => m1 d (lam i)) < lnLike E (fun i => m1 e (lam i)) := by
  refine ⟨⟨fun _ => some 1, fun _ => some 0, fun _ => some 1, fun _ => some 2⟩,
    ⟨fun _ => some 0, fun _ => some 1, fun _ => some 1, fun _ => some 2⟩, fun _ => 1, fun _ => 0, ?_, ?_, ?_, ?_⟩
  · intro i s hs
    rcases hs with hs | hs <;> (have := Option.some.inj hs; rw [← this]; norm_num)
  · refine ⟨rfl, rfl, fun i => Or.inr ⟨1, 0, 0, 1, rfl, rfl, rfl, rfl, ?_⟩⟩
    unfold turnFactor
    rw [show (2 * I * (((45 : ℝ) * Real.pi / 180 + 0 * 1 : ℝ) : ℂ)) = Real.pi / 2 * I by push_cast; ring, Complex.exp_pi_div_two_mul_I]
    push_cast
    ring
  · intro x hx
    simp [bounds1] at hx
    rcases hx with rfl | rfl | rfl <;> norm_num
  · intro e he
    have p0 := he.rest "fracPol" (by decide) (by decide)
    simp only [lnLike, nansum, m1, p0, resid2, logErr, Finset.univ_unique, Finset.sum_singleton, Option.bind_some, Option.map_some,
      Option.getD_some, ofReal_zero, zero_mul, Complex.zero_re, Complex.zero_im]
    norm_num

/-- A case: three channels, one missing, errors equal; the frame turned by 30 degrees and 20 rad/m² added. -/
example : ∃ (D E : Data 3) (lam : Fin 3 → ℝ) (d e : Dict), TurnedData 30 20 lam D E ∧ EqualErr D ∧ Turned 30 20 d e ∧
    Within bounds2 d ∧ Within bounds2 e ∧ d "fracPol" = 1 / 2 ∧ D.q 0 = some (1 / 2) ∧ D.q 1 = none := by
  set lam : Fin 3 → ℝ := fun i => (i : ℝ) + 1
  set T : Fin 3 → ℂ := fun i => turnFactor 30 20 (lam i) * ((1 / 2 : ℝ) + (0 : ℝ) * I)
  set d : Dict := fun k => if k = "fracPol" then 1 / 2 else 0 with hd
  set e : Dict := fun k => if k ∈ angleKeys then 30 else if k ∈ depthKeys then 20 else d k with he
  refine ⟨⟨fun i => if i = 1 then none else some (1 / 2), fun i => if i = 1 then none else some 0, fun _ => some 1, fun _ => some 1⟩,
    ⟨fun i => if i = 1 then none else some (T i).re, fun i => if i = 1 then none else some (T i).im, fun _ => some 1, fun _ => some 1⟩,
    lam, d, e, ⟨rfl, rfl, ?_⟩, ⟨rfl, fun _ => by norm_num⟩, ⟨?_, ?_, ?_⟩, ?_, ?_, by simp [hd], by simp, by simp⟩
  · intro i
    by_cases hi : i = 1
    · exact Or.inl ⟨if_pos hi, if_pos hi, if_pos hi, if_pos hi⟩
    · refine Or.inr ⟨1 / 2, 0, (T i).re, (T i).im, if_neg hi, if_neg hi, if_neg hi, if_neg hi, ?_⟩
      exact Complex.re_add_im _
  · intro k hk
    refine ⟨0, ?_⟩
    have : k ≠ "fracPol" := by rintro rfl; exact absurd hk (by decide)
    simp only [he, hd, if_pos hk, if_neg this]
    norm_num
  · intro k hk
    have h1 : k ≠ "fracPol" := by rintro rfl; exact absurd hk (by decide)
    have h2 : k ∉ angleKeys := (by decide : ∀ k ∈ depthKeys, k ∉ angleKeys) k hk
    simp only [he, hd, if_neg h2, if_pos hk, if_neg h1]
    norm_num
  · intro k h1 h2
    simp only [he, if_neg h1, if_neg h2]
  · intro x hx
    simp [bounds2, bounds1] at hx
    rcases hx with rfl | rfl | rfl | rfl <;> simp only [hd, String.reduceEq, if_true, if_false] <;> norm_num
  · intro x hx
    simp [bounds2, bounds1] at hx
    rcases hx with rfl | rfl | rfl | rfl <;> simp only [he, hd, angleKeys, depthKeys, List.mem_cons, List.not_mem_nil, String.reduceEq, or_false, if_true, if_false] <;> norm_num

end Verif.QU
