import Verif.ICube.Model
import Verif.Stats.Props
import Verif.StokesI.Props
import Mathlib.Tactic

/-!
# Stokes I cubes: properties C108-C112
-/

namespace Verif.ICube

open Verif.NumPy Verif.StokesI

variable {nChan ny nx : ℕ}

theorem mem_pixels (q : Fin ny × Fin nx) : q ∈ pixels ny nx := by
  unfold pixels
  simp only [List.mem_flatMap, List.mem_finRange, List.mem_map, true_and]
  exact ⟨q.1, q.2, rfl⟩

/-! ## C108: every pixel has its own fit -/

theorem foldl_store {ι : Type*} (L : List ι) (pix : ι → Fin ny × Fin nx)
    (g : Fin ny × Fin nx → PixFit nChan) (P0 : Products nChan ny nx) (y : Fin ny) (x : Fin nx) :
    let P := L.foldl (fun P i => store P (pix i) (g (pix i))) P0
    ((∃ i ∈ L, pix i = (y, x)) →
      (∀ c, P.model c y x = (g (y, x)).I c) ∧ (∀ k, P.coeffs k y x = (g (y, x)).coeffs k.rev) ∧
      (∀ k, P.coeffsErr k y x = (g (y, x)).coeffsErr k.rev) ∧ P.refFreq y x = (g (y, x)).refFreq ∧
      ∀ i j, P.covar i j y x = (g (y, x)).covar i j) ∧
    (¬ (∃ i ∈ L, pix i = (y, x)) →
      (∀ c, P.model c y x = P0.model c y x) ∧ (∀ k, P.coeffs k y x = P0.coeffs k y x) ∧
      (∀ k, P.coeffsErr k y x = P0.coeffsErr k y x) ∧ P.refFreq y x = P0.refFreq y x ∧
      ∀ i j, P.covar i j y x = P0.covar i j y x) := by
  induction L using List.reverseRecOn with
  | nil => simp
  | append_singleton L a ih =>
    dsimp only at ih ⊢
    rw [List.foldl_append]
    simp only [List.foldl_cons, List.foldl_nil, List.mem_append, List.mem_singleton]
    by_cases h : pix a = (y, x)
    · constructor
      · intro _
        simp [store, setPix, h]
      · intro hn
        exact absurd ⟨a, Or.inr rfl, h⟩ hn
    · have h' : ¬ (y, x) = pix a := fun e => h e.symm
      have hiff : (∃ i, (i ∈ L ∨ i = a) ∧ pix i = (y, x)) ↔ ∃ i ∈ L, pix i = (y, x) := by
        constructor
        · rintro ⟨i, hi | rfl, hp⟩
          · exact ⟨i, hi, hp⟩
          · exact absurd hp h
        · rintro ⟨i, hi, hp⟩
          exact ⟨i, Or.inl hi, hp⟩
      rw [hiff]
      simp only [store, setPix, if_neg h']
      exact ih

theorem fitPixels_eq (fit : (Fin nChan → Option ℝ) → PixFit nChan)
    (d : Fin nChan → Img ny nx (Option ℝ)) (mask : Img ny nx Bool) :
    fitPixels fit d mask = (where_ mask).attach.reverse.foldl
      (fun P q => store P q.1 (fit fun c => d c q.1.1 q.1.2)) (initProducts mask) := by
  unfold fitPixels
  dsimp only
  set w := where_ mask with hw
  have hl : w.attach.reverse = (List.finRange w.length).map fun i : Fin w.length =>
      (⟨w[w.length - 1 - i]'(by have := i.2; omega), List.getElem_mem _⟩ : {q // q ∈ w}) := by
    apply List.ext_getElem
    · simp
    · intro i h1 h2
      simp [List.getElem_reverse]
  have hr : List.range w.length = (List.finRange w.length).map fun i : Fin w.length => (i : ℕ) := by
    apply List.ext_getElem <;> simp
  rw [hl, hr, List.foldl_map, List.foldl_map]
  congr 1
  funext P i
  have hi : w.length - 1 - (i : ℕ) < w.length := by have := i.2; omega
  simp only [rot90, List.getElem?_eq_getElem hi, Option.map_some, Option.bind_some, if_true,
    Nat.one_ne_zero, if_false]
  rw [dif_pos ⟨Fin.isLt _, Fin.isLt _⟩]
  simp

/-- **C108.** Every pixel in the mask gets the fit of its own spectrum: the model, the coefficient of power `k`
in plane `k` (the fit lists the highest power first), its error, the reference frequency and the
covariance. Every pixel outside the mask is NaN everywhere. -/
theorem C108_own_fit (fit : (Fin nChan → Option ℝ) → PixFit nChan)
    (d : Fin nChan → Img ny nx (Option ℝ)) (mask : Img ny nx Bool) (y : Fin ny) (x : Fin nx) :
    let P := fitPixels fit d mask
    let r := fit fun c => d c y x
    (mask y x = true →
      (∀ c, P.model c y x = r.I c) ∧ (∀ k, P.coeffs k y x = r.coeffs k.rev) ∧
      (∀ k, P.coeffsErr k y x = r.coeffsErr k.rev) ∧ P.refFreq y x = r.refFreq ∧
      ∀ i j, P.covar i j y x = r.covar i j) ∧
    (mask y x = false →
      (∀ c, P.model c y x = none) ∧ (∀ k, P.coeffs k y x = none) ∧
      (∀ k, P.coeffsErr k y x = none) ∧ P.refFreq y x = none ∧ ∀ i j, P.covar i j y x = none) := by
  dsimp only
  rw [fitPixels_eq]
  have key := foldl_store (where_ mask).attach.reverse (fun q => q.1)
    (fun q => fit fun c => d c q.1 q.2) (initProducts mask) y x
  dsimp only at key
  have hmem : (∃ i ∈ (where_ mask).attach.reverse, i.1 = (y, x)) ↔ mask y x = true := by
    constructor
    · rintro ⟨⟨q, hq⟩, -, rfl⟩
      exact (List.mem_filter.mp hq).2
    · intro hm
      exact ⟨⟨(y, x), List.mem_filter.mpr ⟨mem_pixels _, hm⟩⟩, by simp, rfl⟩
  rw [hmem] at key
  refine ⟨key.1, fun h => ?_⟩
  have := key.2 (by simp [h])
  simpa [initProducts, h] using this

/-! ## C109: the coefficient maps describe the model cube -/

/-- Specification: a polynomial with coefficient `c k` of power `k`. -/
noncomputable def linSpec (c : ℕ → ℝ) (x : ℝ) : ℝ := ∑ k ∈ Finset.range 6, c k * x ^ k

/-- Specification: `log10` of the spectrum is a polynomial in `log10 x`; `c 0` is the flux at `x = 1` and
`c k` the coefficient of power `k`. -/
noncomputable def logSpec (c : ℕ → ℝ) (x : ℝ) : ℝ :=
  c 0 * (10 : ℝ) ^ (∑ k ∈ Finset.Icc 1 5, c k * log10 x ^ k)

/-- Specification: the spectrum at frequency `f` of the pixel described by coefficient maps and a reference
frequency; a map that does not exist counts as zero. -/
noncomputable def mapSpectrum (fn : FitFun) (coeff : ℕ → Option (Img ny nx (Option ℝ))) (y : Fin ny)
    (x : Fin nx) (ref f : ℝ) : ℝ :=
  let c : ℕ → ℝ := fun k => ((coeff k).bind fun m => m y x).getD 0
  match fn with
  | .linear => linSpec c (f / ref)
  | .log => logSpec c (f / ref)

/-- The spectrum of the coefficients listed from the highest order. -/
theorem calcModel_eq_spec (r : FitResult) (f : ℝ) (hf : 0 < f) (hr : 0 < r.refFreq)
    (c : ℕ → ℝ) (hc : ∀ k : Fin 6, c k = r.params k.rev) :
    calcModel r f = match r.fn with
      | .linear => linSpec c (f / r.refFreq)
      | .log => logSpec c (f / r.refFreq) := by
  have h0 := hc 0
  have h1 := hc 1
  have h2 := hc 2
  have h3 := hc 3
  have h4 := hc 4
  have h5 := hc 5
  simp only [Fin.rev, Fin.val_zero, Fin.val_one] at h0 h1
  have e0 : c 0 = r.params 5 := h0
  have e1 : c 1 = r.params 4 := h1
  have e2 : c 2 = r.params 3 := h2
  have e3 : c 3 = r.params 2 := h3
  have e4 : c 4 = r.params 1 := h4
  have e5 : c 5 = r.params 0 := h5
  unfold calcModel
  cases r.fn with
  | linear =>
    simp only [linSpec, Finset.sum_range_succ, Finset.sum_range_zero, e0, e1, e2, e3, e4, e5, poly5]
    ring
  | log =>
    simp only [logSpec, powerlawPoly5]
    rw [rpow_eq_ten _ _ (div_pos hf hr), e0]
    congr 2
    have : Finset.Icc 1 5 = {1, 2, 3, 4, 5} := by decide
    rw [this]
    rw [Finset.sum_insert (by decide), Finset.sum_insert (by decide), Finset.sum_insert (by decide), Finset.sum_insert (by decide),
      Finset.sum_singleton, e1, e2, e3, e4, e5]
    ring

/-- **C109.** The files of a run agree with each other: in every fitted pixel the model cube in every channel is
the spectrum described by the coefficient maps and the reference frequency map, and in every other pixel all
of them are NaN. `fitted` is the fit of one spectrum; `hdeg` says that the fit has no coefficients above the
order asked for. -/
theorem C109_products_agree (freq : Fin nChan → ℝ)
    (fitted : (Fin nChan → Option ℝ) → (Fin nChan → Option ℝ) → FitResult) (fn : FitFun)
    (x : Input nChan ny nx) (F : Files nChan ny nx)
    (hF : makeModel (fun n s => PixFit.ofFit freq (fitted n s)) x = .ok F)
    (hfn : ∀ n s, (fitted n s).fn = fn)
    (hdeg : ∀ n s, ∀ k : Fin 6, x.polyOrd.natAbs < k → (fitted n s).params k.rev = 0)
    (href : ∀ n s, 0 < (fitted n s).refFreq) (hfreq : ∀ c, 0 < freq c) (i : Fin ny) (j : Fin nx) :
    (x.mask i j = true → ∃ ref, F.refFreq i j = some ref ∧ F.mask i j = some 1 ∧
      (∀ k ≤ x.polyOrd.natAbs, ∃ m v, F.coeff k = some m ∧ m i j = some v) ∧
      ∀ c, F.model c i j = some (mapSpectrum fn F.coeff i j ref (freq c))) ∧
    (x.mask i j = false → F.refFreq i j = none ∧ F.mask i j = none ∧ (∀ c, F.model c i j = none) ∧
      ∀ k m, F.coeff k = some m → m i j = none) := by
  unfold makeModel at hF
  split_ifs at hF with h1 h2 h3 h4
  dsimp only at hF
  have key := C108_own_fit (fun s => PixFit.ofFit freq (fitted (noise x.d x.threshold) s)) x.d x.mask i j
  dsimp only at key
  injection hF with hF
  subst hF
  dsimp only
  constructor
  · intro hm
    obtain ⟨k1, k2, -, k4, -⟩ := key.1 hm
    set r := fitted (noise x.d x.threshold) fun c => x.d c i j with hr
    refine ⟨r.refFreq, by rw [k4]; rfl, by simp [hm], ?_, ?_⟩
    · intro k hk
      refine ⟨_, r.params (Fin.rev ⟨k, by omega⟩), dif_pos ⟨hk, by omega⟩, ?_⟩
      rw [k2]
      rfl
    · intro c
      rw [k1]
      refine congrArg some ?_
      have hs := calcModel_eq_spec r (freq c) (hfreq c) (href _ _)
        (fun k => ((if h : k ≤ x.polyOrd.natAbs ∧ k < 6 then
          some ((fitPixels (fun s => PixFit.ofFit freq (fitted (noise x.d x.threshold) s)) x.d
            x.mask).coeffs ⟨k, h.2⟩) else none).bind fun m => m i j).getD 0) ?_
      · rw [hfn] at hs
        exact hs
      intro k
      by_cases hk : (k : ℕ) ≤ x.polyOrd.natAbs
      · rw [dif_pos ⟨hk, k.2⟩]
        simp only [Option.bind_some]
        rw [k2]
        rfl
      · rw [dif_neg (by tauto)]
        simp only [Option.bind_none, Option.getD_none]
        exact (hdeg _ _ k (by omega)).symm
  · intro hm
    obtain ⟨k1, k2, -, k4, -⟩ := key.2 hm
    refine ⟨k4, by simp [hm], k1, ?_⟩
    intro k m hk
    split_ifs at hk with h
    simp only [Option.some.injEq] at hk
    rw [← hk]
    exact k2 _

end Verif.ICube
