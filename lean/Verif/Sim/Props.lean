import Verif.Sim.Model
import Verif.QU.Props

/-!
# Properties of the simulated spectra (C73, C103, C104, C106)
-/

namespace Verif.Sim

open Complex Verif.QU Verif.NumPy

/-! ### Specification -/

/-- A component: fraction, intrinsic angle in degrees, Faraday depth, Faraday dispersion (a standard
deviation, in the same unit as the depth). -/
structure Comp where
  p : ℝ
  psi : ℝ
  rm : ℝ
  sigma : ℝ

/-- The squared wavelength of frequency `ν`. -/
noncomputable def lamSq (ν : ℝ) : ℝ := (299792458 / ν) ^ 2

/-- Advertised fractional polarisation of components behind screens of dispersion `sigma`. -/
noncomputable def burnSpec (cs : List Comp) (ν : ℝ) : ℂ :=
  (cs.map fun c => screen c.p c.psi c.rm (c.sigma ^ 2) (lamSq ν)).sum

/-- `(P, Q, U)` of a complex polarisation. -/
noncomputable def stokes (z : ℂ) : ℝ × ℝ × ℝ := (Real.sqrt (z.re ^ 2 + z.im ^ 2), z.re, z.im)

theorem pqu_eq_stokes (z : ℂ) : pqu z = stokes z := by
  unfold pqu stokes
  rw [Complex.norm_eq_sqrt_sq_add_sq]

theorem lam_pos {ν : ℝ} (h : 0 < ν) : lam (some ν) = some (c0 / ν) := by
  simp [lam, h.ne']

theorem lam_sq (ν : ℝ) : (c0 / ν) ^ 2 = lamSq ν := rfl

theorem lamSq_pos {ν : ℝ} (h : 0 < ν) : 0 < lamSq ν := by
  unfold lamSq
  positivity

theorem burnTerm_eq (p psi rm s ν : ℝ) (hs : 0 ≤ s) :
    burnTerm p psi rm s (c0 / ν) = screen p psi rm s (lamSq ν) := by
  have e : -2 * s * (c0 / ν) ^ 4 = -2 * s * ((c0 / ν) ^ 2) ^ 2 := by ring
  rw [screen_eq _ _ _ _ _ hs, burnTerm, rot, ← lam_sq, mul_one, e]
  exact (mul_assoc _ _ _).symm

/-- What the code computes: the argument called dispersion is used as a variance. -/
theorem burnSum_eq (cs : List Comp) (hs : ∀ c ∈ cs, 0 ≤ c.sigma) (ν : ℝ) :
    burnSum (cs.map Comp.p) (cs.map Comp.psi) (cs.map Comp.rm) (cs.map Comp.sigma) (c0 / ν) =
      (cs.map fun c => screen c.p c.psi c.rm c.sigma (lamSq ν)).sum := by
  induction cs with
  | nil => simp [burnSum]
  | cons c cs ih =>
    simp only [List.map_cons, burnSum, List.sum_cons]
    rw [burnTerm_eq _ _ _ _ _ (hs c (by simp)), ih fun d hd => hs d (by simp [hd])]

/-- The result of the code for well formed arguments. -/
theorem pquBurn_ok {n : ℕ} (freq : Fin n → Option ℝ) (cs : List Comp) (hs : ∀ c ∈ cs, 0 ≤ c.sigma) :
    ∃ r, pquBurn freq (cs.map Comp.p) (cs.map Comp.psi) (cs.map Comp.rm) (some (cs.map Comp.sigma)) = .ok r ∧
      (∀ i, freq i = none → r i = none) ∧
      ∀ i ν, freq i = some ν → 0 < ν →
        r i = some (stokes (cs.map fun c => screen c.p c.psi c.rm c.sigma (lamSq ν)).sum) := by
  refine ⟨_, by simp only [pquBurn, List.length_map, ne_eq, not_true, if_false, Option.getD_some]; rfl, ?_, ?_⟩
  · intro i hi
    simp [hi, lam]
  · intro i ν hi hν
    simp only [hi, lam_pos hν, Option.map_some]
    rw [burnSum_eq cs hs, pqu_eq_stokes]

/-- **C73** (part): the spectra follow the advertised law when every dispersion is zero or one. Missing: other
dispersions, for which it is false (`C73_fails`). -/
theorem C73_burn_law_partial {n : ℕ} (freq : Fin n → Option ℝ) (cs : List Comp)
    (hs : ∀ c ∈ cs, c.sigma = 0 ∨ c.sigma = 1) :
    ∃ r, pquBurn freq (cs.map Comp.p) (cs.map Comp.psi) (cs.map Comp.rm) (some (cs.map Comp.sigma)) = .ok r ∧
      ∀ i ν, freq i = some ν → 0 < ν → r i = some (stokes (burnSpec cs ν)) := by
  obtain ⟨r, h1, _, h3⟩ := pquBurn_ok freq cs fun c hc => by
    rcases hs c hc with h | h <;> rw [h]
    norm_num
  refine ⟨r, h1, fun i ν hi hν => ?_⟩
  rw [h3 i ν hi hν, burnSpec]
  congr 3
  apply List.map_congr_left
  intro c hc
  rcases hs c hc with h | h <;> rw [h] <;> norm_num

/-- **C73** (part): without a dispersion argument there is no depolarisation. -/
theorem C73_no_dispersion_partial {n : ℕ} (freq : Fin n → Option ℝ) (cs : List Comp) :
    ∃ r, pquBurn freq (cs.map Comp.p) (cs.map Comp.psi) (cs.map Comp.rm) none = .ok r ∧
      ∀ i ν, freq i = some ν → 0 < ν →
        r i = some (stokes (cs.map fun c => thin c.p c.psi c.rm (lamSq ν)).sum) := by
  have h := C73_burn_law_partial freq (cs.map fun c => { c with sigma := 0 }) (by simp)
  obtain ⟨r, h1, h2⟩ := h
  refine ⟨r, ?_, fun i ν hi hν => ?_⟩
  · rw [← h1]
    simp only [pquBurn, List.map_map, Option.getD_none, Option.getD_some]
    rfl
  · rw [h2 i ν hi hν, burnSpec]
    congr 2
    simp only [List.map_map, Function.comp_def]
    congr 1
    apply List.map_congr_left
    intro c _
    rw [screen_eq _ _ _ _ _ (by norm_num), thin_eq]
    simp

/-- **C73** (part): giving the squares of the dispersions yields the advertised spectra, for every
non-negative dispersion. -/
theorem C73_squares_partial {n : ℕ} (freq : Fin n → Option ℝ) (cs : List Comp) :
    ∃ r, pquBurn freq (cs.map Comp.p) (cs.map Comp.psi) (cs.map Comp.rm)
        (some (cs.map fun c => c.sigma ^ 2)) = .ok r ∧
      ∀ i ν, freq i = some ν → 0 < ν → r i = some (stokes (burnSpec cs ν)) := by
  obtain ⟨r, h1, _, h3⟩ := pquBurn_ok freq (cs.map fun c => { c with sigma := c.sigma ^ 2 }) (by
    intro c hc
    obtain ⟨d, _, rfl⟩ := List.mem_map.1 hc
    positivity)
  refine ⟨r, ?_, fun i ν hi hν => ?_⟩
  · rw [← h1]
    simp only [List.map_map]
    rfl
  · rw [h3 i ν hi hν, burnSpec]
    simp only [List.map_map]
    rfl

theorem stokes_injective : Function.Injective stokes := by
  intro z w h
  simp only [stokes, Prod.mk.injEq] at h
  exact Complex.ext h.2.1 h.2.2

/-- For one component with emission the code is right only for the dispersions zero and one. -/
theorem C73_single_iff (p psi rm sigma ν : ℝ) (hp : p ≠ 0) (hs : 0 ≤ sigma) (hν : 0 < ν) :
    pquBurn (fun _ : Fin 1 => some ν) [p] [psi] [rm] (some [sigma]) =
        .ok (fun _ => some (stokes (burnSpec [⟨p, psi, rm, sigma⟩] ν))) ↔
      sigma = 0 ∨ sigma = 1 := by
  obtain ⟨r, h1, _, h3⟩ := pquBurn_ok (fun _ : Fin 1 => some ν) [⟨p, psi, rm, sigma⟩] (by simpa using hs)
  simp only [List.map_cons, List.map_nil] at h1
  rw [h1]
  constructor
  · intro h
    have h4 := congrFun (Except.ok.inj h) 0
    rw [h3 0 ν rfl hν] at h4
    have h5 := stokes_injective (Option.some.inj h4)
    simp only [burnSpec, List.map_cons, List.map_nil, List.sum_cons, List.sum_nil, add_zero] at h5
    rw [screen_eq _ _ _ _ _ hs, screen_eq _ _ _ _ _ (sq_nonneg _)] at h5
    have h6 := mul_left_cancel₀ (mul_ne_zero (ofReal_ne_zero.2 hp) (rot_ne_zero _ _ _)) h5
    rw [← ofReal_exp, ← ofReal_exp] at h6
    have h7 := Real.exp_injective (ofReal_injective h6)
    have hl := (pow_pos (lamSq_pos hν) 2).ne'
    have h8 : sigma * (sigma - 1) * lamSq ν ^ 2 = 0 := by linear_combination h7 / 2
    rcases mul_eq_zero.1 h8 with h9 | h9
    · rcases mul_eq_zero.1 h9 with h | h
      · exact Or.inl h
      · exact Or.inr (by linarith)
    · exact absurd h9 hl
  · intro h
    congr 1
    funext i
    rw [h3 i ν rfl hν, burnSpec]
    simp only [List.map_cons, List.map_nil, List.sum_cons, List.sum_nil]
    rcases h with h | h <;> rw [h] <;> norm_num

/-- **C73** is false: a component of dispersion 10 at 1 GHz. -/
theorem C73_fails : ¬ ∀ (freq : Fin 1 → Option ℝ) (cs : List Comp), (∀ c ∈ cs, 0 ≤ c.sigma) →
    ∃ r, pquBurn freq (cs.map Comp.p) (cs.map Comp.psi) (cs.map Comp.rm) (some (cs.map Comp.sigma)) = .ok r ∧
      ∀ i ν, freq i = some ν → 0 < ν → r i = some (stokes (burnSpec cs ν)) := by
  intro h
  obtain ⟨r, h1, h2⟩ := h (fun _ => some 1000000000) [⟨0.5, 30, 20, 10⟩] (by simp)
  have h3 := (C73_single_iff 0.5 30 20 10 1000000000 (by norm_num) (by norm_num) (by norm_num)).1 (by
    simp only [List.map_cons, List.map_nil] at h1
    rw [h1]
    congr 1
    funext i
    exact h2 i _ rfl (by norm_num))
  norm_num at h3

/-! ### Stacked slabs -/

/-- Advertised emission of a stack of slabs: slab `i` emits evenly over its own depth and is rotated by all
the slabs in front of it, those with a larger index. -/
noncomputable def stackSpec {m : ℕ} (p psi rm : Fin m → ℝ) (ν : ℝ) : ℂ :=
  ∑ i, ∫ t in (0 : ℝ)..1, thin (p i) (psi i) ((∑ j with i < j, rm j) + t * rm i) (lamSq ν)

theorem slab_term (p psi after r l : ℝ) :
    ((p * npSinc (r * l / Real.pi) : ℝ) : ℂ) *
        exp (2 * I * ((radians psi + (r * l * 0.5 + after * l) : ℝ) : ℂ)) =
      ∫ t in (0 : ℝ)..1, thin p psi (after + t * r) l := by
  have hpi := Real.pi_ne_zero
  by_cases h : r * l = 0
  · have h2 : ∀ t : ℝ, thin p psi (after + t * r) l = thin p psi after l := by
      intro t
      rw [thin_eq, thin_eq, rot_add]
      rw [show t * r * l = t * (r * l) by ring, h]
      simp
    simp only [h2, intervalIntegral.integral_const, sub_zero, one_smul]
    rw [thin_eq, h, rot]
    simp [npSinc]
  · have h1 := slab_spec p psi after r l h
    have h' : ((r * l : ℝ) : ℂ) ≠ 0 := ofReal_ne_zero.2 h
    rw [slab, cdiv, if_neg h'] at h1
    rw [← Option.some.inj h1, npSinc, if_neg (div_ne_zero h hpi), mul_div_cancel₀ _ hpi, rot]
    have e : radians psi + (r * l * 0.5 + after * l) = radians psi + (0.5 * r + after) * l := by ring
    rw [e]
    push_cast
    ring

theorem sum_after_succ {m : ℕ} (rm : Fin (m + 1) → ℝ) (i : Fin m) :
    ∑ j with i.succ < j, rm j = ∑ j with i < j, rm j.succ := by
  rw [Finset.sum_filter, Fin.sum_univ_succ, Finset.sum_filter]
  simp [Fin.succ_lt_succ_iff]

theorem sum_after_zero {m : ℕ} (rm : Fin (m + 1) → ℝ) :
    ∑ j with (0 : Fin (m + 1)) < j, rm j = ∑ j : Fin m, rm j.succ := by
  rw [Finset.sum_filter, Fin.sum_univ_succ]
  simp

theorem diffLoop_eq {m : ℕ} (p psi rm : Fin m → ℝ) (ν : ℝ) :
    diffLoop (List.ofFn p) (List.ofFn psi) ((List.ofFn rm).map fun r => r * (c0 / ν) ^ 2) =
      stackSpec p psi rm ν := by
  induction m with
  | zero => simp [diffLoop, stackSpec]
  | succ m ih =>
    have hs : ((List.ofFn fun i : Fin m => rm i.succ).map fun r => r * (c0 / ν) ^ 2).sum =
        (∑ j : Fin m, rm j.succ) * lamSq ν := by
      rw [List.map_ofFn, List.sum_ofFn, Finset.sum_mul]
      rfl
    simp only [List.ofFn_succ, List.map_cons, diffLoop]
    rw [ih, hs, lam_sq, slab_term, stackSpec, stackSpec, Fin.sum_univ_succ, sum_after_zero]
    simp only [sum_after_succ]

/-- **C103**: with arrays, the spectra of the internal depolarisation model are those of the stack of slabs,
in every channel that is not flagged, for every number of slabs and any Faraday depths (also zero). -/
theorem C103_stack {n m : ℕ} (freq : Fin n → Option ℝ) (p psi rm : Fin m → ℝ) :
    ∃ r, pquDiff freq (.array (List.ofFn p)) (.array (List.ofFn psi)) (.array (List.ofFn rm)) = .ok r ∧
      (∀ i, freq i = none → r i = none) ∧
      ∀ i ν, freq i = some ν → 0 < ν → r i = some (stokes (stackSpec p psi rm ν)) := by
  refine ⟨_, by simp only [pquDiff, Seq.toList, List.length_ofFn, ne_eq, not_true, if_false]; rfl, ?_, ?_⟩
  · intro i hi
    simp [hi, lam]
  · intro i ν hi hν
    simp only [hi, lam_pos hν, Option.map_some]
    rw [diffLoop_eq, pqu_eq_stokes]

/-- The model "converts lists to arrays", but a list of angles is not accepted, whatever the other arguments
are. -/
theorem C103_lists_rejected {n : ℕ} (freq : Fin n → Option ℝ) (p rm : Seq) (psi : List ℝ) :
    pquDiff freq p (.list psi) rm = .error .attributeError := rfl

/-- A stack of slabs polarises no more than the sum of its fractions. -/
theorem stackSpec_le {m : ℕ} (p psi rm : Fin m → ℝ) (hp : ∀ i, 0 ≤ p i) (ν : ℝ) :
    ‖stackSpec p psi rm ν‖ ≤ ∑ i, p i := by
  unfold stackSpec
  refine (norm_sum_le _ _).trans (Finset.sum_le_sum fun i _ => ?_)
  refine (intervalIntegral.norm_integral_le_of_norm_le_const (C := p i) ?_).trans (by simp)
  intro t _
  rw [thin_eq, norm_mul, norm_rot, mul_one, norm_real, Real.norm_of_nonneg (hp i)]

/-! ### Absolute spectra -/

theorem powerLaw_some {ν ν0 : ℝ} (h : 0 < ν) (h0 : 0 < ν0) (si : ℝ) :
    powerLaw (some ν) (some ν0) si = some ((ν / ν0) ^ si) := by
  simp [powerLaw, h, h0]

/-- **C104**: the simulated Stokes spectra of the thin source: Stokes I is a power law through `flux` at the
reference frequency and Q + iU is that intensity times the thin emission. A flagged channel is NaN in all. -/
theorem C104_thin {n : ℕ} (freq : Fin n → Option ℝ) (flux si frac psi rm ν0 : ℝ) (h0 : 0 < ν0) :
    ∃ r, iquThin freq flux si frac psi rm (some (some ν0)) = .ok r ∧
      (∀ i, freq i = none → (r i).i = none ∧ (r i).q = none ∧ (r i).u = none) ∧
      ∀ i ν, freq i = some ν → 0 < ν → ∃ s, s = flux * (ν / ν0) ^ si ∧ (r i).i = some s ∧
        (r i).q = some (s * (thin frac psi rm (lamSq ν)).re) ∧
        (r i).u = some (s * (thin frac psi rm (lamSq ν)).im) := by
  refine ⟨_, by simp only [iquThin, absSpec, refFreq]; rfl, ?_, ?_⟩
  · intro i hi
    simp [hi, powerLaw, mulNaN]
  · intro i ν hi hν
    refine ⟨_, rfl, ?_, ?_, ?_⟩ <;>
      simp only [hi, powerLaw_some hν h0, Option.map_some, pquThin, lam_pos hν, mulNaN, Option.bind_some,
        mul_one, thin_eq, rot, lam_sq]

/-- Without a reference frequency it is the first channel, in which Stokes I is then the given flux. -/
theorem C104_default_reference {n : ℕ} (freq : Fin (n + 1) → Option ℝ) (flux si frac psi rm ν0 : ℝ)
    (hf : freq 0 = some ν0) (h0 : 0 < ν0) :
    iquThin freq flux si frac psi rm none = iquThin freq flux si frac psi rm (some (some ν0)) ∧
      ∃ r, iquThin freq flux si frac psi rm none = .ok r ∧ (r 0).i = some flux := by
  have e : iquThin freq flux si frac psi rm none = iquThin freq flux si frac psi rm (some (some ν0)) := by
    simp only [iquThin, absSpec, refFreq, Nat.zero_lt_succ, dif_pos]
    rw [show freq ⟨0, Nat.zero_lt_succ n⟩ = some ν0 from hf]
  refine ⟨e, ?_⟩
  obtain ⟨r, h1, _, h3⟩ := C104_thin freq flux si frac psi rm ν0 h0
  obtain ⟨s, hs, hi, _⟩ := h3 0 ν0 hf h0
  exact ⟨r, by rw [e, h1], by rw [hi, hs, div_self h0.ne', Real.one_rpow, mul_one]⟩

/-- **C104** for components behind screens: the intensity law and the fractions of `create_pqu_spectra_burn`
multiplied by the intensity. -/
theorem C104_burn {n : ℕ} (freq : Fin n → Option ℝ) (flux si ν0 : ℝ) (h0 : 0 < ν0) (frac psi rm : List ℝ)
    (sigma : Option (List ℝ)) (s : Fin n → PQU) (hs : pquBurn freq frac psi rm sigma = .ok s) :
    ∃ r, iquBurn freq flux si frac psi rm sigma (some (some ν0)) = .ok r ∧
      ∀ i ν, freq i = some ν → 0 < ν → ∀ p q u, s i = some (p, q, u) →
        (r i).i = some (flux * (ν / ν0) ^ si) ∧ (r i).q = some (flux * (ν / ν0) ^ si * q) ∧
        (r i).u = some (flux * (ν / ν0) ^ si * u) := by
  refine ⟨_, by simp only [iquBurn, hs, absSpec, refFreq]; rfl, ?_⟩
  intro i ν hi hν p q u hp
  refine ⟨?_, ?_, ?_⟩ <;> simp [hi, powerLaw_some hν h0, mulNaN, hp]

/-- **C104** for stacked slabs. -/
theorem C104_diff {n : ℕ} (freq : Fin n → Option ℝ) (flux si ν0 : ℝ) (h0 : 0 < ν0) (frac psi rm : Seq)
    (s : Fin n → PQU) (hs : pquDiff freq frac psi rm = .ok s) :
    ∃ r, iquDiff freq flux si frac psi rm (some (some ν0)) = .ok r ∧
      ∀ i ν, freq i = some ν → 0 < ν → ∀ p q u, s i = some (p, q, u) →
        (r i).i = some (flux * (ν / ν0) ^ si) ∧ (r i).q = some (flux * (ν / ν0) ^ si * q) ∧
        (r i).u = some (flux * (ν / ν0) ^ si * u) := by
  refine ⟨_, by simp only [iquDiff, hs, absSpec, refFreq]; rfl, ?_⟩
  intro i ν hi hν p q u hp
  refine ⟨?_, ?_, ?_⟩ <;> simp [hi, powerLaw_some hν h0, mulNaN, hp]

/-- With a flagged first channel and no reference frequency all the spectrum is lost. -/
theorem C104_flagged_reference {n : ℕ} (freq : Fin (n + 1) → Option ℝ) (flux si frac psi rm : ℝ)
    (hf : freq 0 = none) :
    ∃ r, iquThin freq flux si frac psi rm none = .ok r ∧
      ∀ i, (r i).i = none ∧ (r i).q = none ∧ (r i).u = none := by
  refine ⟨_, by simp only [iquThin, absSpec, refFreq, Nat.zero_lt_succ, dif_pos]; rfl, ?_⟩
  intro i
  rw [show freq ⟨0, Nat.zero_lt_succ n⟩ = none from hf]
  simp [powerLaw, mulNaN]

/-- A non-trivial case: 2 mJy at 1 GHz with spectral index -1 is 1 mJy at 2 GHz. -/
example (r) (h : iquThin (fun i : Fin 2 => some (if i = 0 then 1e9 else 2e9)) 2 (-1) 0.5 0 0 (some (some 1e9)) = .ok r) :
    (r 1).i = some 1 := by
  obtain ⟨r', h1, _, h3⟩ := C104_thin (fun i : Fin 2 => some (if i = 0 then (1e9 : ℝ) else 2e9)) 2 (-1) 0.5 0 0 1e9
    (by norm_num)
  rw [h] at h1
  obtain rfl := Except.ok.inj h1
  obtain ⟨s, hs, hi, _⟩ := h3 1 2e9 (by simp) (by norm_num)
  rw [hi, hs, Real.rpow_neg_one]
  norm_num

/-! ### Flagged channels -/

/-- **C106**: a channel is kept, unchanged, exactly when its frequency is in none of the flagged ranges (both
ends included). -/
theorem C106_flagged (ranges : List (ℝ × ℝ)) (f : ℝ) :
    (flagged ranges f = some f ∧ ∀ g ∈ ranges, ¬ (g.1 ≤ f ∧ f ≤ g.2)) ∨
      (flagged ranges f = none ∧ ∃ g ∈ ranges, g.1 ≤ f ∧ f ≤ g.2) := by
  unfold flagged
  have hn : ∀ l : List (ℝ × ℝ), l.foldl (fun x g => match x with
      | some v => if v ≥ g.1 ∧ v ≤ g.2 then none else some v
      | none => none) (none : Option ℝ) = none := by
    intro l
    induction l with
    | nil => rfl
    | cons g l ih => simpa using ih
  induction ranges with
  | nil => left; simp
  | cons g l ih =>
    by_cases hg : g.1 ≤ f ∧ f ≤ g.2
    · right
      refine ⟨?_, g, by simp, hg⟩
      simp only [List.foldl_cons, ge_iff_le]
      rw [if_pos hg]
      exact hn l
    · rcases ih with ⟨h1, h2⟩ | ⟨h1, g', h2, h3⟩
      · left
        refine ⟨?_, ?_⟩
        · simp only [List.foldl_cons, ge_iff_le]
          rw [if_neg hg]
          exact h1
        · intro g' hg'
          rcases List.mem_cons.1 hg' with rfl | h
          · exact hg
          · exact h2 g' h
      · right
        refine ⟨?_, g', by simp [h2], h3⟩
        simp only [List.foldl_cons, ge_iff_le]
        rw [if_neg hg]
        exact h1

end Verif.Sim
