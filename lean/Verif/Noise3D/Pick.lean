import Verif.Noise3D.Props

/-!
# RM synthesis with a weight per voxel on a part of the field (C303)

Source: `/repo/RMutils/util_RM.py` 2032-2334, as in `Noise3D/Model`.
-/

open Complex Verif.SynthSpec

namespace Verif.Noise3D

variable {n m m' k : ℕ}

/-! ## Specification: some pixels of the cubes, in any order -/

/-- The reference map of the chosen pixels. -/
def Ref.pick (e : Fin m' → Fin m) : Ref m → Ref m'
  | .default => .default
  | .scalar v => .scalar v
  | .map v => .map fun p => v (e p)

/-- The arguments for the chosen pixels. -/
def Input.pick (e : Fin m' → Fin m) (x : Input n m k) : Input n m' k where
  dataQ := fun j p => x.dataQ j (e p)
  dataU := fun j p => x.dataU j (e p)
  lamSq := x.lamSq
  phi := x.phi
  weight := x.weight.map fun w j p => w j (e p)
  ref := x.ref.pick e

/-- The arguments of the spread function for the chosen pixels. -/
def RmsfIn.pick (e : Fin m' → Fin m) (x : RmsfIn n m k) : RmsfIn n m' k where
  lamSq := x.lamSq
  phi2 := x.phi2
  weight := fun j p => x.weight j (e p)
  lam0 := x.lam0

/-! ## Proofs -/

theorem weight0_pick (e : Fin m' → Fin m) (w : Option (Fin n → Fin m → Option ℝ)) (j : Fin n) (p : Fin m') :
    weight0 (w.map fun w j p => w j (e p)) j p = weight0 w j (e p) := by
  cases w <;> rfl

theorem pRaw_pick (e : Fin m' → Fin m) (x : Input n m k) (j : Fin n) (p : Fin m') : pRaw (x.pick e) j p = pRaw x j (e p) := by
  unfold pRaw Input.pick
  dsimp only
  rw [weight0_pick]

theorem plane_zero (x : Input n m k) (j : Fin n) : (∑ p', if (pRaw x j p').isNone then 0 else 1) = 0 ↔ ∀ p', pRaw x j p' = none := by
  rw [Finset.sum_eq_zero_iff]
  refine ⟨fun h p' => ?_, fun h p' _ => by rw [h p']; rfl⟩
  have := h p' (Finset.mem_univ _)
  cases hp : pRaw x j p' with
  | none => rfl
  | some v => rw [hp] at this; simp at this

/-- The weight of a voxel after the planes without data are left out: the same for a part of the field if the weight is zero where the pixel has no data. -/
theorem weight1_pick (e : Fin m' → Fin m) (x : Input n m k) (p : Fin m') (j : Fin n)
    (h : pRaw x j (e p) = none → weight0 x.weight j (e p) = 0) : weight1 (x.pick e) j p = weight1 x j (e p) := by
  have hw : weight0 (x.pick e).weight j p = weight0 x.weight j (e p) := weight0_pick e x.weight j p
  unfold weight1
  rw [hw]
  by_cases hp : pRaw x j (e p) = none
  · rw [h hp, zero_mul, zero_mul]
  · have h1 : ¬ (∑ p', if (pRaw x j p').isNone then 0 else 1) = 0 := fun h' => hp ((plane_zero x j).1 h' _)
    have h2 : ¬ (∑ p', if (pRaw (x.pick e) j p').isNone then 0 else 1) = 0 := by
      intro h'
      have := (plane_zero (x.pick e) j).1 h' p
      rw [pRaw_pick] at this
      exact hp this
    rw [if_neg h1, if_neg h2]

theorem kArr_pick (e : Fin m' → Fin m) (x : Input n m k) (p : Fin m') : kArr (x.pick e) p = kArr x (e p) := by
  have hs : ∀ j, (if (pRaw (x.pick e) j p).isNone then 0 else weight1 (x.pick e) j p) = if (pRaw x j (e p)).isNone then 0 else weight1 x j (e p) := by
    intro j
    rw [pRaw_pick]
    cases hp : pRaw x j (e p) with
    | none => rfl
    | some v => exact weight1_pick e x p j fun h => by rw [hp] at h; cases h
  unfold kArr
  simp only [hs]

theorem value_pick (e : Fin m' → Fin m) (x : Input n m k) (L : Option ℝ) (l : Fin k) (p : Fin m') : value (x.pick e) L l p = value x L l (e p) := by
  unfold value
  rw [kArr_pick]
  simp only [pRaw_pick]
  rfl

theorem value_turn (x : Input n m k) (a b : ℝ) (l : Fin k) (p : Fin m) :
    value x (some b) l p = (value x (some a) l p).map fun z => exp (2 * I * (x.phi l : ℝ) * (b - a)) * z := by
  unfold value
  rw [Option.map_some, Option.map_some, Option.map_some, Option.some.injEq, mul_left_comm]
  congr 1
  rw [Finset.mul_sum]
  refine Finset.sum_congr rfl fun j _ => ?_
  rw [mul_left_comm, ← Complex.exp_add]
  congr 2
  push_cast
  ring

/-- **C303, spread function.** The spread function of a pixel is the same for any part of the field which contains the pixel, NaN included, whichever way it is computed. -/
theorem pick_rmsf [NeZero m] [NeZero m'] (e : Fin m' → Fin m) (x : RmsfIn n m k) (l : Fin k) (p : Fin m') : rmsf (x.pick e) l p = rmsf x l (e p) := by
  have gen : ∀ {M : ℕ} [NeZero M] (y : RmsfIn n M k) (q : Fin M), rmsf y l q =
      (rmsfLam0 y q).map fun L => ((1 / ∑ j, weight0 (some y.weight) j q : ℝ) : ℂ) *
        ∑ j, (weight0 (some y.weight) j q : ℂ) * exp (-2 * I * (y.phi2 l : ℂ) * ((y.lamSq j - L : ℝ) : ℂ)) := by
    intro M _ y q
    unfold rmsf
    dsimp only
    by_cases h : do1D y
    · have hc : ∀ j, weight0 (some y.weight) j 0 = weight0 (some y.weight) j q := fun j => do1D_const y h j 0 q
      have hr : rmsfLam0 y 0 = rmsfLam0 y q := by
        unfold rmsfLam0
        simp only [hc]
      rw [if_pos h, hr]
      simp only [hc]
      by_cases hs : ∑ j, weight0 (some y.weight) j q = 0
      · have : rmsfLam0 y q = none := by
          unfold rmsfLam0
          simp only [hs, if_true]
        rw [if_pos hs, this]
        rfl
      · rw [if_neg hs]
        simp only [mul_one]
    · rw [if_neg h]
      by_cases hs : ∑ j, weight0 (some y.weight) j q = 0
      · have : rmsfLam0 y q = none := by
          unfold rmsfLam0
          simp only [hs, if_true]
        rw [this]
        rfl
      · simp only [hs, if_false]
  have hw : ∀ j, weight0 (some (x.pick e).weight) j p = weight0 (some x.weight) j (e p) := fun j => weight0_pick e (some x.weight) j p
  rw [gen, gen]
  unfold rmsfLam0
  simp only [hw]
  rfl

/-- **C303, spectra, the part that holds.** A run on a part of the field raises exactly when the run on the field does. With a map of references, and in pixels whose weights are zero where they
have no data, spectrum and reference are those of the run on the whole field, NaN included. In other pixels the spectrum is, where both have a reference, that of the whole field
turned by the difference of the references, so that the moduli are the same. -/
theorem pick_synth_partial (e : Fin m' → Fin m) (x : Input n m k) :
    ((synth (x.pick e)).isSome ↔ (synth x).isSome) ∧ ∀ r r', synth x = some r → synth (x.pick e) = some r' → ∀ p : Fin m',
      (((∃ v, x.ref = .map v) ∨ ∀ j, (x.dataQ j (e p) = none ∨ x.dataU j (e p) = none) → pixelWeight x.weight (e p) j = 0) →
        r'.2 p = r.2 (e p) ∧ ∀ l, r'.1 l p = r.1 l (e p)) ∧
      ∀ a b, r.2 (e p) = some a → r'.2 p = some b → ∀ l,
        r'.1 l p = (r.1 l (e p)).map (fun z => exp (2 * I * (x.phi l : ℝ) * (b - a)) * z) ∧ (r'.1 l p).map norm = (r.1 l (e p)).map norm := by
  constructor
  · unfold synth Input.pick Ref.pick
    cases x.ref <;> simp
  intro r r' hr hr' p
  have key : ∀ {M : ℕ} (y : Input n M k) (s : (Fin k → Fin M → Option ℂ) × (Fin M → Option ℝ)), synth y = some s →
      (∀ q, s.2 q = (lam0 y q).getD none) ∧ ∀ l q, s.1 l q = value y (s.2 q) l q := by
    intro M y s hs
    unfold synth at hs
    cases h : y.ref with
    | scalar v => rw [h] at hs; cases hs
    | default => rw [h] at hs; cases hs; exact ⟨fun _ => rfl, fun _ _ => rfl⟩
    | map v => rw [h] at hs; cases hs; exact ⟨fun _ => rfl, fun _ _ => rfl⟩
  obtain ⟨a1, a2⟩ := key x r hr
  obtain ⟨b1, b2⟩ := key (x.pick e) r' hr'
  constructor
  · intro h
    have href : r'.2 p = r.2 (e p) := by
      rw [a1, b1]
      rcases h with ⟨v, hv⟩ | h
      · have hv' : (x.pick e).ref = .map fun p => v (e p) := by
          show x.ref.pick e = _
          rw [hv]
          rfl
        unfold lam0
        rw [hv, hv']
      · have hw : ∀ j, weight1 (x.pick e) j p = weight1 x j (e p) := by
          intro j
          refine weight1_pick e x p j fun hn => ?_
          rw [weight0_eq]
          apply h j
          unfold pRaw at hn
          cases hq : x.dataQ j (e p) with
          | none => exact Or.inl rfl
          | some q =>
            cases hu : x.dataU j (e p) with
            | none => exact Or.inr rfl
            | some u => rw [hq, hu] at hn; cases hn
        unfold lam0
        simp only [hw]
        have hp : (x.pick e).ref = x.ref.pick e := rfl
        rw [hp]
        cases x.ref <;> rfl
    refine ⟨href, fun l => ?_⟩
    rw [a2, b2, href, value_pick]
  · intro a b ha hb l
    have h1 : r'.1 l p = (r.1 l (e p)).map (fun z => exp (2 * I * (x.phi l : ℝ) * (b - a)) * z) := by
      rw [a2, b2, ha, hb, value_pick, value_turn x a b]
    refine ⟨h1, ?_⟩
    have e1 : (2 * I * ((x.phi l : ℝ) : ℂ) * ((b : ℂ) - a)) = ((2 * x.phi l * (b - a) : ℝ) : ℂ) * I := by
      push_cast
      ring
    rw [h1, Option.map_map]
    congr 1
    funext z
    simp only [Function.comp, norm_mul, e1, Complex.norm_exp_ofReal_mul_I, one_mul]

/-- C303 is false for blank pixels with weights: a pixel without data has a spectrum of zeros and a reference in a field where other pixels have data, and NaN for both in a part
of the field without data. -/
theorem pick_blank_wrong (e : Fin m' → Fin m) (x : Input n m k) (hd : x.ref = .default) (r r') (hr : synth x = some r) (hr' : synth (x.pick e) = some r')
    (p : Fin m') (hblank : ∀ j p, x.dataQ j (e p) = none)
    (hw : (∑ j, weight1 x j (e p)) ≠ 0) :
    (∃ L, r.2 (e p) = some L) ∧ (∀ l, r.1 l (e p) = some 0) ∧ r'.2 p = none ∧ ∀ l, r'.1 l p = none := by
  have hn : ∀ j, pRaw x j (e p) = none := by
    intro j
    unfold pRaw
    rw [hblank j p]
  have hd' : (x.pick e).ref = .default := by
    show x.ref.pick e = _
    rw [hd]
    rfl
  unfold synth at hr hr'
  rw [hd] at hr
  rw [hd'] at hr'
  cases hr
  cases hr'
  have hl : lam0 x (e p) = some (some ((1 / ∑ j, weight1 x j (e p)) * ∑ j, weight1 x j (e p) * x.lamSq j)) := by
    unfold lam0
    rw [hd]
    dsimp only
    rw [if_neg hw]
  have hl' : lam0 (x.pick e) p = some none := by
    have hz : ∀ j, weight1 (x.pick e) j p = 0 := by
      intro j
      unfold weight1
      rw [if_pos ((plane_zero _ j).2 fun p' => ?_), mul_zero]
      rw [pRaw_pick]
      unfold pRaw
      rw [hblank j p']
    unfold lam0
    rw [hd']
    dsimp only
    simp only [hz, Finset.sum_const_zero, if_true]
  refine ⟨⟨_, by simp only [hl]; rfl⟩, fun l => ?_, by simp only [hl']; rfl, fun l => by simp only [hl']; rfl⟩
  simp only [hl, Option.getD_some]
  unfold value
  simp [hn]

/-- Two pixels with two channels and weights of one, the second pixel blank. -/
noncomputable def halfBlank : Input 2 2 1 where
  dataQ := fun _ p => if p = 0 then some 1 else none
  dataU := fun _ p => if p = 0 then some 0 else none
  lamSq := ![1, 2]
  phi := fun _ => 0
  weight := some fun _ _ => some 1
  ref := .default

/-- The case of `pick_blank_wrong`, and a pixel which meets the condition of `pick_synth_partial`. -/
theorem pick_case : (∃ r r', synth halfBlank = some r ∧ synth (halfBlank.pick fun _ : Fin 1 => 1) = some r' ∧ r.1 0 1 = some 0 ∧ r'.1 0 0 = none) ∧
    ∀ j, (halfBlank.dataQ j 0 = none ∨ halfBlank.dataU j 0 = none) → pixelWeight halfBlank.weight 0 j = 0 := by
  constructor
  · have hw : ∀ j, weight1 halfBlank j 1 = 1 := by
      intro j
      unfold weight1
      rw [if_neg]
      · simp [weight0, halfBlank]
      · intro h
        have := (plane_zero halfBlank j).1 h 0
        simp [pRaw, halfBlank] at this
    obtain ⟨-, h2, -, h4⟩ := pick_blank_wrong (fun _ : Fin 1 => (1 : Fin 2)) halfBlank rfl _ _ rfl rfl 0 (fun j p => by simp [halfBlank]) (by simp [hw])
    exact ⟨_, _, rfl, rfl, h2 0, h4 0⟩
  · intro j h
    simp [halfBlank] at h

end Verif.Noise3D
