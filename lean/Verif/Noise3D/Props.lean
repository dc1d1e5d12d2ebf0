import Verif.Noise3D.Model
import Verif.Synth.Props
import Verif.Rmsf.Model
import Mathlib.Tactic.FieldSimp

/-!
# Properties of RM synthesis with a weight per voxel (C180-C183)
-/

open Complex

namespace Verif.Noise3D

open Verif.SynthSpec

variable {n m k : ℕ}

/-- The weights of one pixel as the user sees them. -/
noncomputable def pixelWeight (w : Option (Fin n → Fin m → Option ℝ)) (p : Fin m) : Fin n → ℝ :=
  effWeight (w.map fun f j => f j p)

/-- The user's view of the spectrum of a pixel. -/
noncomputable def Input.spectrum (x : Input n m k) (p : Fin m) (j : Fin n) : Option ℂ := pol (x.dataQ j p) (x.dataU j p)

/-- The pixel alone, with its weights, for `do_rmsynth_planes`. -/
noncomputable def Input.single (x : Input n m k) (p : Fin m) (L : Option ℝ) : Synth.Input n 1 k where
  dataQ := fun j _ => x.dataQ j p
  dataU := fun j _ => x.dataU j p
  lamSq := x.lamSq
  phi := x.phi
  weight := x.weight.map fun f j => f j p
  lam0 := L

theorem weight0_eq (w : Option (Fin n → Fin m → Option ℝ)) (j : Fin n) (p : Fin m) :
    weight0 w j p = pixelWeight w p j := by
  unfold weight0 pixelWeight effWeight
  cases w with
  | none => rfl
  | some f =>
    dsimp only [Option.map, Option.elim]
    cases f j p <;> rfl

theorem pRaw_none (x : Input n m k) (j : Fin n) (p : Fin m) : (pRaw x j p).isNone = (x.spectrum p j).isNone := by
  unfold pRaw Input.spectrum pol
  cases x.dataQ j p <;> cases x.dataU j p <;> rfl

theorem pRaw_getD (x : Input n m k) (j : Fin n) (p : Fin m) :
    (pRaw x j p).getD 0 = (pixelWeight x.weight p j : ℂ) * (x.spectrum p j).getD 0 := by
  unfold pRaw Input.spectrum pol
  rw [← weight0_eq]
  cases x.dataQ j p <;> cases x.dataU j p <;> simp
  rename_i q u
  have : (⟨q, u⟩ : ℂ) = (q : ℂ) + I * (u : ℂ) := by apply Complex.ext <;> simp
  rw [this]; ring

theorem weight1_eq (x : Input n m k) (j : Fin n) (p : Fin m) :
    open Classical in
    weight1 x j p = if ∃ p', (x.spectrum p' j).isSome = true then pixelWeight x.weight p j else 0 := by
  classical
  unfold weight1
  rw [weight0_eq]
  have : ((∑ p', if (pRaw x j p').isNone then 0 else 1) = 0) ↔ ¬ ∃ p', (x.spectrum p' j).isSome = true := by
    rw [Finset.sum_eq_zero_iff]
    push Not
    refine forall_congr' fun p' => ?_
    rw [pRaw_none]
    cases x.spectrum p' j <;> simp
  by_cases h : ∃ p', (x.spectrum p' j).isSome = true
  · rw [if_pos h, if_neg (fun e => this.mp e h), mul_one]
  · rw [if_neg h, if_pos (this.mpr h), mul_zero]

theorem used_eq (x : Input n m k) (p : Fin m) :
    ∑ j, (if (pRaw x j p).isNone then 0 else weight1 x j p) =
      weightSum (pixelWeight x.weight p) (fun j => (x.spectrum p j).isSome = true) := by
  classical
  unfold weightSum
  rw [Finset.sum_filter]
  refine Finset.sum_congr rfl fun j _ => ?_
  rw [pRaw_none, weight1_eq]
  cases h : x.spectrum p j with
  | none => simp
  | some z =>
    have hex : ∃ p', (x.spectrum p' j).isSome = true := ⟨p, by rw [h]; rfl⟩
    rw [if_neg (by simp), if_pos hex, if_pos (by simp)]

theorem value_spec (x : Input n m k) (L : ℝ) (l : Fin k) (p : Fin m) :
    value x (some L) l p = some (SynthSpec.fdf (pixelWeight x.weight p) (x.spectrum p) x.lamSq L (x.phi l)) := by
  unfold value kArr SynthSpec.fdf
  rw [used_eq, Option.map_some]
  set S := weightSum (pixelWeight x.weight p) (fun j => (x.spectrum p j).isSome = true)
  have hsum : ∑ j, ((pRaw x j p).getD 0) * exp (-2 * I * (x.phi l : ℂ) * ((x.lamSq j - L : ℝ) : ℂ)) =
      ∑ j ∈ Finset.univ.filter (fun j => (x.spectrum p j).isSome),
        (pixelWeight x.weight p j : ℂ) * (x.spectrum p j).getD 0 * exp (-2 * I * x.phi l * (x.lamSq j - L)) := by
    rw [Finset.sum_filter]
    refine Finset.sum_congr rfl fun j _ => ?_
    rw [pRaw_getD]
    by_cases h : (x.spectrum p j).isSome = true
    · rw [if_pos h]; push_cast; rfl
    · rw [if_neg h]
      simp only [Bool.not_eq_true, Option.isSome_eq_false_iff, Option.isNone_iff_eq_none] at h
      simp [h]
  rw [hsum]
  congr 1
  by_cases hS : S = 0
  · simp [hS]
  · dsimp only
    rw [if_neg hS, div_eq_mul_one_div, mul_comm]
    push_cast
    ring

/-- C180. For cubes with weights per voxel the spectrum of each pixel is the defining sum with the weights and flags of that
pixel, at the reference that is returned for it; this holds for all depth axes. -/
theorem voxel_synth (x : Input n m k) (r : (Fin k → Fin m → Option ℂ) × (Fin m → Option ℝ)) (h : synth x = some r)
    (p : Fin m) (L : ℝ) (hL : r.2 p = some L) (l : Fin k) :
    r.1 l p = some (SynthSpec.fdf (pixelWeight x.weight p) (x.spectrum p) x.lamSq L (x.phi l)) := by
  unfold synth at h
  cases hr : x.ref with
  | scalar v => rw [hr] at h; simp at h
  | default =>
    rw [hr] at h
    injection h with h
    subst h
    dsimp only at hL ⊢
    rw [hL, value_spec]
  | map v =>
    rw [hr] at h
    injection h with h
    subst h
    dsimp only at hL ⊢
    rw [hL, value_spec]

/-- C180, when there is a result: the run raises exactly for a number as reference; with the default reference a pixel has
one, and a spectrum of numbers, exactly if its channels with data anywhere have a weight sum other than zero. -/
theorem voxel_runs (x : Input n m k) :
    ((synth x = none) ↔ ∃ v, x.ref = .scalar v) ∧
    ∀ r, synth x = some r → x.ref = .default → ∀ p,
      (open Classical in weightSum (pixelWeight x.weight p) (fun j => ∃ p', (x.spectrum p' j).isSome = true) = 0) →
        r.2 p = none ∧ ∀ l, r.1 l p = none := by
  refine ⟨?_, fun r h hd p hw => ?_⟩
  · unfold synth
    cases x.ref <;> simp
  · classical
    unfold synth at h
    rw [hd] at h
    injection h with h
    subst h
    have e : ∑ j, weight1 x j p =
        weightSum (pixelWeight x.weight p) (fun j => ∃ p', (x.spectrum p' j).isSome = true) := by
      unfold weightSum
      rw [Finset.sum_filter]
      exact Finset.sum_congr rfl fun j _ => weight1_eq x j p
    have e0 : (lam0 x p).getD none = none := by
      unfold lam0
      rw [hd]
      dsimp only
      rw [if_pos (by rw [e]; convert hw)]
      rfl
    refine ⟨e0, fun l => ?_⟩
    dsimp only
    rw [e0]
    rfl

/-- C180, the same in terms of `do_rmsynth_planes`: on depth axes symmetric about zero it is the spectrum which that function
returns for the pixel alone with its weights and this reference. -/
theorem voxel_synth_single (x : Input n m k) (hs : SymGrid x.phi)
    (r : (Fin k → Fin m → Option ℂ) × (Fin m → Option ℝ)) (h : synth x = some r)
    (p : Fin m) (L : ℝ) (hL : r.2 p = some L) (l : Fin k) :
    r.1 l p = some (Synth.value (x.single p (some L)) l 0) := by
  rw [voxel_synth x r h p L hL, Synth.value_sym (x.single p (some L)) hs]
  rfl

/-- A reference map is used as it is; the default reference is the mean of `λ²` with the weights of the pixel over the channels that
have data in some pixel. -/
theorem voxel_reference (x : Input n m k) (r : (Fin k → Fin m → Option ℂ) × (Fin m → Option ℝ)) (h : synth x = some r)
    (p : Fin m) :
    (∀ v, x.ref = .map v → r.2 p = some (v p)) ∧
    (open Classical in x.ref = .default →
      weightSum (pixelWeight x.weight p) (fun j => ∃ p', (x.spectrum p' j).isSome = true) ≠ 0 →
      r.2 p = some (meanLamSq (pixelWeight x.weight p) (fun j => ∃ p', (x.spectrum p' j).isSome = true) x.lamSq)) := by
  classical
  unfold synth at h
  refine ⟨fun v hv => ?_, fun hd hw => ?_⟩
  · rw [hv] at h
    injection h with h
    subst h
    dsimp only
    unfold lam0
    rw [hv]
    rfl
  · rw [hd] at h
    injection h with h
    subst h
    dsimp only
    have hS : ∑ j, weight1 x j p = weightSum (pixelWeight x.weight p) (fun j => ∃ p', (x.spectrum p' j).isSome = true) := by
      unfold weightSum
      rw [Finset.sum_filter]
      exact Finset.sum_congr rfl fun j _ => by rw [weight1_eq]
    unfold lam0
    rw [hd]
    dsimp only [Option.getD]
    rw [hS, if_neg hw]
    congr 1
    unfold meanLamSq
    rw [mul_comm, mul_one_div]
    congr 1
    rw [Finset.sum_filter]
    refine Finset.sum_congr rfl fun j _ => ?_
    rw [weight1_eq]
    split_ifs <;> simp

/-- C181, where it holds: if the flagged voxels of the pixel have no weight, or are flagged in all pixels, the default reference is the
mean over the channels with data in the pixel. -/
theorem voxel_reference_partial (x : Input n m k) (r : (Fin k → Fin m → Option ℂ) × (Fin m → Option ℝ)) (h : synth x = some r)
    (p : Fin m) (hd : x.ref = .default)
    (hf : ∀ j p', (x.spectrum p j).isSome = false → (x.spectrum p' j).isSome = true → pixelWeight x.weight p j = 0)
    (hw : weightSum (pixelWeight x.weight p) (fun j => (x.spectrum p j).isSome = true) ≠ 0) :
    r.2 p = some (meanLamSq (pixelWeight x.weight p) (fun j => (x.spectrum p j).isSome = true) x.lamSq) := by
  classical
  have hsum : ∀ g : Fin n → ℝ, (∀ j, pixelWeight x.weight p j = 0 → g j = 0) →
      ∑ j ∈ Finset.univ.filter (fun j => ∃ p', (x.spectrum p' j).isSome = true), g j =
        ∑ j ∈ Finset.univ.filter (fun j => (x.spectrum p j).isSome = true), g j := by
    intro g hg
    rw [Finset.sum_filter, Finset.sum_filter]
    refine Finset.sum_congr rfl fun j _ => ?_
    by_cases h1 : (x.spectrum p j).isSome = true
    · rw [if_pos h1, if_pos ⟨p, h1⟩]
    · rw [if_neg h1]
      by_cases h2 : ∃ p', (x.spectrum p' j).isSome = true
      · rw [if_pos h2]
        obtain ⟨p', h2⟩ := h2
        exact hg j (hf j p' (by simpa using h1) h2)
      · rw [if_neg h2]
  have h1 : weightSum (pixelWeight x.weight p) (fun j => ∃ p', (x.spectrum p' j).isSome = true) =
      weightSum (pixelWeight x.weight p) (fun j => (x.spectrum p j).isSome = true) := hsum _ fun j hj => hj
  rw [(voxel_reference x r h p).2 hd (by rw [h1]; exact hw)]
  unfold meanLamSq
  rw [h1, hsum _ fun j hj => by rw [hj, zero_mul]]

/-- C181 is false for the code: one isolated flagged voxel with weight moves the reference, unless its `λ²` happens to be the
mean of the others. -/
theorem voxel_reference_wrong (x : Input n m k) (r : (Fin k → Fin m → Option ℂ) × (Fin m → Option ℝ)) (h : synth x = some r)
    (p p' : Fin m) (hd : x.ref = .default) (j0 : Fin n)
    (h0 : (x.spectrum p j0).isSome = false) (h0' : (x.spectrum p' j0).isSome = true)
    (hj0 : 0 < pixelWeight x.weight p j0)
    (hother : ∀ j, j ≠ j0 → (x.spectrum p j).isSome = true)
    (hused : 0 < weightSum (pixelWeight x.weight p) (fun j => (x.spectrum p j).isSome = true))
    (hne : x.lamSq j0 ≠ meanLamSq (pixelWeight x.weight p) (fun j => (x.spectrum p j).isSome = true) x.lamSq) :
    ∃ L, r.2 p = some L ∧
      L ≠ meanLamSq (pixelWeight x.weight p) (fun j => (x.spectrum p j).isSome = true) x.lamSq := by
  classical
  have hset : Finset.univ.filter (fun j => ∃ p', (x.spectrum p' j).isSome = true) =
      insert j0 (Finset.univ.filter (fun j => (x.spectrum p j).isSome = true)) := by
    ext j
    simp only [Finset.mem_filter, Finset.mem_univ, true_and, Finset.mem_insert]
    constructor
    · intro _
      by_cases hj : j = j0
      · exact Or.inl hj
      · exact Or.inr (hother j hj)
    · rintro (rfl | hj)
      · exact ⟨p', h0'⟩
      · exact ⟨p, hj⟩
  have hnot : j0 ∉ Finset.univ.filter (fun j => (x.spectrum p j).isSome = true) := by simp [h0]
  set S := weightSum (pixelWeight x.weight p) (fun j => (x.spectrum p j).isSome = true) with hS
  set M := meanLamSq (pixelWeight x.weight p) (fun j => (x.spectrum p j).isSome = true) x.lamSq with hM
  set w := pixelWeight x.weight p j0 with hwj
  have hT : weightSum (pixelWeight x.weight p) (fun j => ∃ p', (x.spectrum p' j).isSome = true) = w + S := by
    unfold weightSum
    rw [hset, Finset.sum_insert hnot]
    rfl
  have hpos : 0 < w + S := by linarith
  refine ⟨_, (voxel_reference x r h p).2 hd (by rw [hT]; exact hpos.ne'), ?_⟩
  have hnum : ∑ j ∈ Finset.univ.filter (fun j => (x.spectrum p j).isSome = true), pixelWeight x.weight p j * x.lamSq j =
      M * S := by
    rw [hM]; unfold meanLamSq; rw [← hS, div_mul_cancel₀ _ hused.ne']
  intro heq
  unfold meanLamSq at heq
  rw [hT, hset, Finset.sum_insert hnot, hnum, div_eq_iff hpos.ne'] at heq
  apply hne
  have : w * x.lamSq j0 = w * M := by linarith
  exact mul_left_cancel₀ hj0.ne' this

/-- C182 is false: a number as reference raises, although the documentation of the option allows it. -/
theorem scalar_raises (x : Input n m k) (v : ℝ) (hr : x.ref = .scalar v) : synth x = none := by
  unfold synth; rw [hr]

theorem bcastR_length (s t u : List ℕ) (h : bcastR s t = some u) : t.length ≤ u.length := by
  induction s generalizing t u with
  | nil => simp only [bcastR] at h; injection h with h; rw [h]
  | cons a s ih =>
    cases t with
    | nil => simp
    | cons b t =>
      simp only [bcastR] at h
      rw [Option.bind_eq_some_iff] at h
      obtain ⟨c, -, h⟩ := h
      rw [Option.map_eq_some_iff] at h
      obtain ⟨u', hu', rfl⟩ := h
      simpa using ih t u' hu'

/-- C182 is false: weights with fewer than three axes, one number per channel or the default for a single spectrum, are never
accepted: every such call returns the pair of Nones or raises. -/
theorem few_axes_raise (q u : List ℕ) (nLam nPhi : ℕ) (w : Option (List ℕ)) (scalar : Bool) (hw : (w.getD q).length < 3) :
    ∀ s, shapes q u nLam nPhi w scalar ≠ .ok s := by
  have hfin : ∀ (n size : ℕ) (d s : List ℕ), finish n nPhi d (repeatShape size d) scalar ≠ .ok s := by
    intro n size d s hs
    unfold finish at hs
    cases hr : repeatShape size d with
    | none => rw [hr] at hs; simp at hs
    | some w3 =>
      rw [hr] at hs
      have h5 : w3.length = 1 := by
        unfold repeatShape at hr
        split at hr
        · injection hr with hr; rw [← hr]; rfl
        · split_ifs at hr; injection hr with hr; rw [← hr]; rfl
      have h6 : bcast w3 [n, 1, 1] ≠ some w3 := by
        intro hb
        unfold bcast at hb
        rw [Option.map_eq_some_iff] at hb
        obtain ⟨v, hv, hv2⟩ := hb
        have := bcastR_length _ _ _ hv
        have h7 : v.length = w3.length := by rw [← hv2]; simp
        rw [h7, h5] at this
        simp at this
      dsimp only at hs
      by_cases hb : bcast d w3 = none
      · rw [if_pos hb] at hs; simp at hs
      · rw [if_neg hb, if_pos h6] at hs; simp at hs
  intro s hs
  unfold shapes at hs
  dsimp only at hs
  by_cases h1 : w.getD q ≠ [nLam] ∧ w.getD q ≠ q
  · rw [if_pos h1] at hs; simp at hs
  rw [if_neg h1] at hs
  by_cases h2 : q ≠ u
  · rw [if_pos h2] at hs; simp at hs
  rw [if_neg h2] at hs
  cases q with
  | nil => simp at hs
  | cons n rest =>
    dsimp only at hs
    by_cases h3 : n ≠ nLam
    · rw [if_pos h3] at hs; simp at hs
    rw [if_neg h3] at hs
    by_cases h4 : ¬ (n :: rest).length ≤ 3
    · rw [if_pos h4] at hs; simp at hs
    rw [if_neg h4, if_pos hw] at hs
    exact hfin _ _ _ _ hs

/-- C182, the exact condition: a call returns spectra if and only if the data are cubes of equal shape with as many planes as
wavelengths, the weights are the default ones or a cube of that shape, and the reference is not a number. The spectra then have the
spatial shape of the data, without axes of length one. -/
theorem accepted_iff_partial (q u : List ℕ) (nLam nPhi : ℕ) (w : Option (List ℕ)) (scalar : Bool) (s : List ℕ) :
    shapes q u nLam nPhi w scalar = .ok s ↔
      ∃ a b, q = [nLam, a, b] ∧ u = q ∧ (w = none ∨ w = some q) ∧ scalar = false ∧ s = [nPhi, a, b].filter (· ≠ 1) := by
  constructor
  · intro h
    have hw3 : 3 ≤ (w.getD q).length := by
      by_contra hc
      exact few_axes_raise q u nLam nPhi w scalar (by omega) s h
    unfold shapes at h
    dsimp only at h
    by_cases h1 : w.getD q ≠ [nLam] ∧ w.getD q ≠ q
    · rw [if_pos h1] at h; simp at h
    rw [if_neg h1] at h
    by_cases h2 : q ≠ u
    · rw [if_pos h2] at h; simp at h
    rw [if_neg h2] at h
    have hwq : w.getD q = q := by
      by_contra hc
      refine h1 ⟨fun he => ?_, hc⟩
      rw [he] at hw3
      simp at hw3
    have hw : w = none ∨ w = some q := by
      cases w with
      | none => exact Or.inl rfl
      | some v => exact Or.inr (congrArg some hwq)
    rw [hwq] at h hw3
    match q, hw3 with
    | [n, a, b], _ =>
      dsimp only at h
      by_cases h3 : n ≠ nLam
      · rw [if_pos h3] at h; simp at h
      rw [if_neg h3, if_neg (by simp), if_neg (by simp)] at h
      push Not at h2 h3
      unfold finish at h
      dsimp only at h
      split_ifs at h with h4 h5 h6
      refine ⟨a, b, by rw [h3], h2.symm, hw, by simpa using h6, ?_⟩
      injection h with h
      exact h.symm
    | n :: a :: b :: c :: r, _ =>
      dsimp only at h
      by_cases h3 : n ≠ nLam
      · rw [if_pos h3] at h; simp at h
      rw [if_neg h3, if_pos (by simp)] at h
      simp at h
  · rintro ⟨a, b, rfl, rfl, hw, rfl, rfl⟩
    have hwq : w.getD [nLam, a, b] = [nLam, a, b] := by
      rcases hw with rfl | rfl <;> rfl
    have hb1 : bcast [nLam, a, b] [nLam, a, b] ≠ none := by simp [bcast, bcastR]
    have hb2 : bcast [nLam, a, b] [nLam, 1, 1] = some [nLam, a, b] := by
      have h1 : ∀ c : ℕ, (if c = 1 then some c else if c = 1 then some 1 else some c) = some c := by
        intro c; split_ifs <;> rfl
      unfold bcast
      simp [bcastR, h1]
    unfold shapes
    dsimp only
    rw [hwq, if_neg (by simp), if_neg (by simp)]
    rw [if_neg (by simp), if_neg (by simp), if_neg (by simp)]
    unfold finish
    dsimp only
    rw [show pad3 [nLam, a, b] = [nLam, a, b] from rfl, if_neg hb1, if_neg (by rw [hb2]; simp)]
    rfl

/-- Instances: a weight per channel for a cube, and the default weights for one spectrum of three channels, raise; a cube of
weights is accepted. -/
example : shapes [100, 4, 5] [100, 4, 5] 100 31 (some [100]) false = .raised ∧
    shapes [3] [3] 3 31 none false = .raised ∧
    shapes [100, 4, 5] [100, 4, 5] 100 31 (some [100, 4, 5]) false = .ok [31, 4, 5] := by
  refine ⟨by decide, by decide, by decide⟩

/-! ## The spread function -/

theorem std_zero [NeZero m] (f : Fin m → ℝ) (h : std f = 0) (p p' : Fin m) : f p = f p' := by
  unfold std at h
  have hm : (0 : ℝ) < m := by exact_mod_cast Nat.pos_of_ne_zero (NeZero.ne m)
  have hnn : 0 ≤ ∑ p, (f p - (∑ p', f p') / m) ^ 2 := Finset.sum_nonneg fun p _ => sq_nonneg _
  rw [Real.sqrt_eq_zero (div_nonneg hnn hm.le), div_eq_zero_iff] at h
  have h0 := h.resolve_right hm.ne'
  rw [Finset.sum_eq_zero_iff_of_nonneg fun p _ => sq_nonneg _] at h0
  have h1 := pow_eq_zero_iff (two_ne_zero) |>.mp (h0 p (Finset.mem_univ _))
  have h2 := pow_eq_zero_iff (two_ne_zero) |>.mp (h0 p' (Finset.mem_univ _))
  linarith

/-- The short computation is chosen only if the weights are the same in all pixels. -/
theorem do1D_const [NeZero m] (x : RmsfIn n m k) (h : do1D x) (j : Fin n) (p p' : Fin m) :
    weight0 (some x.weight) j p = weight0 (some x.weight) j p' := by
  unfold do1D at h
  have hnn : ∀ j, 0 ≤ std (fun p => weight0 (some x.weight) j p) := fun j => Real.sqrt_nonneg _
  rw [Finset.sum_eq_zero_iff_of_nonneg fun j _ => hnn j] at h
  exact std_zero _ (h j (Finset.mem_univ _)) p p'

/-- C183. The spread function of each pixel is the defining sum with the weights of that pixel, at the mean of `λ²` with these
weights; for all depth axes and in both ways of computing it. -/
theorem voxel_rmsf [NeZero m] (x : RmsfIn n m k) (p : Fin m) (hw : ∑ j, pixelWeight (some x.weight) p j ≠ 0) (l : Fin k) :
    rmsf x l p = some (SynthSpec.rmsf (pixelWeight (some x.weight) p) (fun _ => True) x.lamSq
      (meanLamSq (pixelWeight (some x.weight) p) (fun _ => True) x.lamSq) (x.phi2 l)) := by
  have hw0 : ∀ j p, weight0 (some x.weight) j p = pixelWeight (some x.weight) p j := fun j p => weight0_eq _ j p
  have hL : rmsfLam0 x p = some (meanLamSq (pixelWeight (some x.weight) p) (fun _ => True) x.lamSq) := by
    unfold rmsfLam0
    simp only [hw0]
    rw [if_neg hw]
    unfold meanLamSq weightSum
    rw [Finset.filter_true, mul_comm, mul_one_div]
  have hval : ∀ L : ℝ, ((1 / ∑ j, pixelWeight (some x.weight) p j : ℝ) : ℂ) *
      ∑ j, (pixelWeight (some x.weight) p j : ℂ) * exp (-2 * I * (x.phi2 l : ℂ) * ((x.lamSq j - L : ℝ) : ℂ)) =
        SynthSpec.rmsf (pixelWeight (some x.weight) p) (fun _ => True) x.lamSq L (x.phi2 l) := by
    intro L
    unfold SynthSpec.rmsf weightSum
    rw [Finset.filter_true, div_eq_mul_one_div, mul_comm]
    push_cast
    ring
  unfold rmsf
  by_cases h : do1D x
  · rw [if_pos h]
    have hc : ∀ j, weight0 (some x.weight) j 0 = pixelWeight (some x.weight) p j := fun j => by
      rw [do1D_const x h j 0 p, hw0]
    have hL0 : rmsfLam0 x 0 = rmsfLam0 x p := by
      unfold rmsfLam0
      simp only [hc, hw0 _ p]
    rw [hL0, hL]
    simp only [hc]
    rw [if_neg hw, Option.map_some, ← hval]
    simp only [mul_one]
  · rw [if_neg h, hL]
    simp only [hw0]
    rw [Option.map_some, if_neg hw, hval]

/-- C183. The spread function is the response of the synthesis to unit polarisation, if flagged voxels have zero weight (as the
documentation of the function demands). -/
theorem voxel_rmsf_unit [NeZero m] {k2 : ℕ} (x : Input n m k) (y : RmsfIn n m k2)
    (r : (Fin k → Fin m → Option ℂ) × (Fin m → Option ℝ)) (h : synth x = some r) (hd : x.ref = .default)
    (hl : y.lamSq = x.lamSq) (hwt : x.weight = some y.weight) (p : Fin m)
    (hunit : ∀ j, x.spectrum p j = some 1 ∨ (x.spectrum p j = none ∧ pixelWeight (some y.weight) p j = 0))
    (hw : ∑ j, pixelWeight (some y.weight) p j ≠ 0) (l : Fin k) (l2 : Fin k2) (hphi : y.phi2 l2 = x.phi l) :
    r.1 l p = rmsf y l2 p := by
  have hs : ∀ g : Fin n → ℂ, (∀ j, pixelWeight (some y.weight) p j = 0 → g j = 0) →
      ∑ j ∈ Finset.univ.filter (fun j => (x.spectrum p j).isSome = true), g j = ∑ j, g j := by
    intro g hg
    rw [Finset.sum_filter]
    refine Finset.sum_congr rfl fun j _ => ?_
    rcases hunit j with h1 | ⟨h1, h2⟩
    · rw [h1]; simp
    · rw [h1, hg j h2]; simp
  have hsr : ∀ g : Fin n → ℝ, (∀ j, pixelWeight (some y.weight) p j = 0 → g j = 0) →
      ∑ j ∈ Finset.univ.filter (fun j => (x.spectrum p j).isSome = true), g j = ∑ j, g j := by
    intro g hg
    rw [Finset.sum_filter]
    refine Finset.sum_congr rfl fun j _ => ?_
    rcases hunit j with h1 | ⟨h1, h2⟩
    · rw [h1]; simp
    · rw [h1, hg j h2]; simp
  have hused : weightSum (pixelWeight x.weight p) (fun j => (x.spectrum p j).isSome = true) =
      ∑ j, pixelWeight (some y.weight) p j := by
    rw [hwt]; exact hsr _ fun j hj => hj
  have hL := voxel_reference_partial x r h p hd (fun j p' h1 _ => by
    rcases hunit j with h2 | ⟨_, h2⟩
    · rw [h2] at h1; simp at h1
    · rw [hwt]; exact h2) (by rw [hused]; exact hw)
  rw [voxel_synth x r h p _ hL l, voxel_rmsf y p hw l2]
  have hmean : meanLamSq (pixelWeight x.weight p) (fun j => (x.spectrum p j).isSome = true) x.lamSq =
      meanLamSq (pixelWeight (some y.weight) p) (fun _ => True) y.lamSq := by
    unfold meanLamSq
    rw [hused]
    unfold weightSum
    rw [Finset.filter_true, hwt, hl, hsr _ fun j hj => by rw [hj, zero_mul]]
  rw [hmean, hl, hphi]
  congr 1
  unfold SynthSpec.fdf SynthSpec.rmsf
  rw [hused]
  unfold weightSum
  rw [Finset.filter_true, hwt]
  congr 1
  rw [hs _ fun j hj => by rw [hj]; simp]
  refine Finset.sum_congr rfl fun j _ => ?_
  rcases hunit j with h1 | ⟨_, h2⟩
  · rw [h1]; simp
  · rw [h2]; simp

/-- C184 is false: the reference passed to `threeDnoise_get_rmsf_planes` has no influence; where the spread function is not zero and
the depth is not zero, there is a reference for which the result is wrong. -/
theorem rmsf_reference_ignored [NeZero m] (x : RmsfIn n m k) (p : Fin m)
    (hw : ∑ j, pixelWeight (some x.weight) p j ≠ 0) (l : Fin k) (hphi : x.phi2 l ≠ 0) (hz : rmsf x l p ≠ some 0) :
    (∀ L, rmsf { x with lam0 := L } l p = rmsf x l p) ∧
    ∃ L : ℝ, rmsf { x with lam0 := some L } l p ≠
      some (SynthSpec.rmsf (pixelWeight (some x.weight) p) (fun _ => True) x.lamSq L (x.phi2 l)) := by
  refine ⟨fun L => rfl, ?_⟩
  set M := meanLamSq (pixelWeight (some x.weight) p) (fun _ => True) x.lamSq with hM
  refine ⟨M + Real.pi / (2 * x.phi2 l), ?_⟩
  have hsame : rmsf { x with lam0 := some (M + Real.pi / (2 * x.phi2 l)) } l p = rmsf x l p := rfl
  rw [hsame]
  rw [voxel_rmsf x p hw l] at hz ⊢
  rw [← hM] at hz ⊢
  intro heq
  injection heq with heq
  have hphase : SynthSpec.rmsf (pixelWeight (some x.weight) p) (fun _ => True) x.lamSq (M + Real.pi / (2 * x.phi2 l))
      (x.phi2 l) = -SynthSpec.rmsf (pixelWeight (some x.weight) p) (fun _ => True) x.lamSq M (x.phi2 l) := by
    unfold SynthSpec.rmsf
    rw [← neg_div, ← Finset.sum_neg_distrib]
    congr 1
    refine Finset.sum_congr rfl fun j _ => ?_
    have hp : (x.phi2 l : ℂ) ≠ 0 := by exact_mod_cast hphi
    have : -2 * I * (x.phi2 l : ℂ) * ((x.lamSq j : ℂ) - ((M + Real.pi / (2 * x.phi2 l) : ℝ) : ℂ)) =
        -2 * I * (x.phi2 l : ℂ) * ((x.lamSq j : ℂ) - (M : ℂ)) + Real.pi * I := by
      push_cast
      field_simp
      ring
    rw [this, Complex.exp_add, Complex.exp_pi_mul_I]
    ring
  rw [hphase] at heq
  apply hz
  congr 1
  have h2 : (2 : ℂ) * SynthSpec.rmsf (pixelWeight (some x.weight) p) (fun _ => True) x.lamSq M (x.phi2 l) = 0 := by
    linear_combination heq
  exact (mul_eq_zero.mp h2).resolve_left two_ne_zero

/-- C184 is false also for the width: the analytical width of this function is smaller than that of `get_rmsf_planes` for the same
channels. -/
theorem width_differs (lo hi : ℝ) (h : lo < hi) :
    ∃ a b, width lo hi = some a ∧ Rmsf.fwhm lo hi = some b ∧ a < b := by
  unfold width Rmsf.fwhm
  rw [if_neg (by linarith), if_neg (by linarith)]
  refine ⟨_, _, rfl, rfl, ?_⟩
  have h3 : Real.sqrt 3 < 1.9 := by
    rw [Real.sqrt_lt' (by norm_num)]; norm_num
  exact div_lt_div_of_pos_right (by linarith) (by linarith)

/-! ## Cases -/

/-- Two pixels and two channels of unit polarisation; the second channel of the first pixel is flagged. -/
def flaggedCube (w : Option (Fin 2 → Fin 2 → Option ℝ)) : Input 2 2 3 where
  dataQ := fun j p => if p = 0 ∧ j = 1 then none else some 1
  dataU := fun _ _ => some 0
  lamSq := fun j => 1 + j
  phi := fun l => (l : ℝ) - 1
  weight := w
  ref := .default

theorem flaggedCube_spectrum (w : Option (Fin 2 → Fin 2 → Option ℝ)) (p j : Fin 2) :
    (flaggedCube w).spectrum p j = if p = 0 ∧ j = 1 then none else some 1 := by
  unfold Input.spectrum pol flaggedCube
  dsimp only
  split_ifs
  · rfl
  · simp only [Option.bind_some, Option.map_some]
    congr 1

/-- Instance of `voxel_reference_wrong`: uniform weights. -/
example : ∃ r L, synth (flaggedCube none) = some r ∧ r.2 0 = some L ∧
    L ≠ meanLamSq (pixelWeight (none : Option (Fin 2 → Fin 2 → Option ℝ)) 0) (fun j => ((flaggedCube none).spectrum 0 j).isSome = true) (fun j => 1 + j) := by
  have hpw : ∀ j, pixelWeight (none : Option (Fin 2 → Fin 2 → Option ℝ)) 0 j = 1 := fun j => rfl
  have hsum : weightSum (pixelWeight (flaggedCube none).weight 0)
      (fun j => ((flaggedCube none).spectrum 0 j).isSome = true) = 1 := by
    unfold weightSum
    rw [Finset.sum_filter, Fin.sum_univ_two, flaggedCube_spectrum, flaggedCube_spectrum]
    simp [flaggedCube, hpw]
  obtain ⟨L, hL, hne⟩ := voxel_reference_wrong (flaggedCube none) _ rfl 0 1 rfl 1
    (by rw [flaggedCube_spectrum]; simp) (by rw [flaggedCube_spectrum]; simp)
    (by change 0 < pixelWeight none 0 1; rw [hpw]; norm_num)
    (fun j hj => by rw [flaggedCube_spectrum, if_neg (fun h => hj h.2)]; rfl)
    (by rw [hsum]; norm_num)
    (by
      unfold meanLamSq
      rw [hsum, Finset.sum_filter, Fin.sum_univ_two, flaggedCube_spectrum, flaggedCube_spectrum]
      simp [flaggedCube, hpw])
  exact ⟨_, L, rfl, hL, hne⟩

/-- Weights that are zero for the flagged voxel and different elsewhere. -/
noncomputable def voxelWeights : Fin 2 → Fin 2 → Option ℝ := fun j p => if p = 0 ∧ j = 1 then some 0 else some (1 + j + p)

/-- Instance of `voxel_rmsf_unit`: both pixels, on the depths -1, 0, 1. -/
example (p : Fin 2) (l : Fin 3) : ∃ r, synth (flaggedCube (some voxelWeights)) = some r ∧
    r.1 l p = rmsf ⟨fun j => 1 + j, fun l : Fin 3 => (l : ℝ) - 1, voxelWeights, none⟩ l p := by
  refine ⟨_, rfl, voxel_rmsf_unit (flaggedCube (some voxelWeights)) _ _ rfl rfl rfl rfl p (fun j => ?_) ?_ l l rfl⟩
  · rw [flaggedCube_spectrum]
    by_cases h : p = 0 ∧ j = 1
    · right
      rw [if_pos h]
      refine ⟨rfl, ?_⟩
      simp [pixelWeight, effWeight, voxelWeights, h]
    · left; rw [if_neg h]
  · rw [Fin.sum_univ_two]
    fin_cases p <;> simp [pixelWeight, effWeight, voxelWeights] <;> norm_num

end Verif.Noise3D
