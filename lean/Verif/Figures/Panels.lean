import Verif.Figures.Props

/-!
# Posterior band of the angle and the panels of the complexity figure
-/

namespace Verif.Figures

open Verif.NumPy Verif.Peak

/-! ## Band of angles -/

theorem percentile_mem (a : List ℝ) (t v lo hi : ℝ) (ht : 0 ≤ t) (hlo : ∀ x ∈ a, lo ≤ x) (hhi : ∀ x ∈ a, x ≤ hi)
    (h : percentile a t = some v) : lo ≤ v ∧ v ≤ hi := by
  unfold percentile at h
  dsimp only at h
  obtain ⟨y, hy, rfl⟩ := Option.map_eq_some_iff.mp h
  set s := a.mergeSort (fun x y => decide (x ≤ y)) with hs
  set k := ⌊t * ((a.length : ℝ) - 1)⌋₊ with hk
  have mem : ∀ (i : ℕ) (z : ℝ), s[i]? = some z → z ∈ a := fun i z hz => by
    have := List.mem_of_getElem? hz
    rw [hs] at this
    exact List.mem_mergeSort.mp this
  have hya := mem k y hy
  have hy' : (s[k + 1]?).getD y ∈ a := by
    cases h1 : s[k + 1]? with
    | none => exact hya
    | some z => exact mem _ _ h1
  have hlen : 1 ≤ a.length := List.length_pos_of_mem hya
  have hpos : 0 ≤ t * ((a.length : ℝ) - 1) := mul_nonneg ht (by
    have : (1 : ℝ) ≤ a.length := by exact_mod_cast hlen
    linarith)
  have f0 : (k : ℝ) ≤ t * ((a.length : ℝ) - 1) := Nat.floor_le hpos
  have f1 : t * ((a.length : ℝ) - 1) < k + 1 := Nat.lt_floor_add_one _
  set f := t * ((a.length : ℝ) - 1) - k with hf
  have h0 : 0 ≤ f := by rw [hf]; linarith
  have h1 : f ≤ 1 := by rw [hf]; linarith
  have e : y + f * ((s[k + 1]?).getD y - y) = (1 - f) * y + f * (s[k + 1]?).getD y := by ring
  rw [e]
  constructor
  · have := hlo _ hya; have := hlo _ hy'; nlinarith
  · have := hhi _ hya; have := hhi _ hy'; nlinarith

/-- C244, the part that holds: if the angles of the models lie in an interval (between -90 and 90 degrees), so does the band. -/
theorem band_partial (models : List (ℝ × ℝ)) (a b lo med hi : ℝ) (h : ∀ m ∈ models, a ≤ psi m.1 m.2 ∧ psi m.1 m.2 ≤ b)
    (hb : psiBand models = some (lo, med, hi)) : a ≤ lo ∧ lo ≤ b ∧ a ≤ med ∧ med ≤ b ∧ a ≤ hi ∧ hi ≤ b := by
  unfold psiBand at hb
  dsimp only at hb
  obtain ⟨l, hl, h1⟩ := Option.bind_eq_some_iff.mp hb
  obtain ⟨m, hm, h2⟩ := Option.bind_eq_some_iff.mp h1
  obtain ⟨x, hx, h3⟩ := Option.map_eq_some_iff.mp h2
  simp only [Prod.mk.injEq] at h3
  obtain ⟨rfl, rfl, rfl⟩ := h3
  have ha : ∀ x ∈ models.map fun m => psi m.1 m.2, a ≤ x := by
    intro x hx; obtain ⟨m, hm, rfl⟩ := List.mem_map.mp hx; exact (h m hm).1
  have hb' : ∀ x ∈ models.map fun m => psi m.1 m.2, x ≤ b := by
    intro x hx; obtain ⟨m, hm, rfl⟩ := List.mem_map.mp hx; exact (h m hm).2
  obtain ⟨p1, p2⟩ := percentile_mem _ _ _ a b (by norm_num) ha hb' hl
  obtain ⟨p3, p4⟩ := percentile_mem _ _ _ a b (by norm_num) ha hb' hm
  obtain ⟨p5, p6⟩ := percentile_mem _ _ _ a b (by norm_num) ha hb' hx
  exact ⟨p1, p2, p3, p4, p5, p6⟩

/-- A model with angle `x` degrees, between -90 and 90. -/
theorem psi_model (x : ℝ) (h0 : -90 < x) (h1 : x ≤ 90) : psi (Real.cos (2 * radians x)) (Real.sin (2 * radians x)) = x := by
  unfold psi arctan2
  have hpi := Real.pi_pos
  have e : (⟨Real.cos (2 * radians x), Real.sin (2 * radians x)⟩ : ℂ) =
      ((1 : ℝ) : ℂ) * (Complex.cos ((2 * radians x : ℝ) : ℂ) + Complex.sin ((2 * radians x : ℝ) : ℂ) * Complex.I) := by
    apply Complex.ext
    · rw [Complex.ofReal_one, one_mul, Complex.add_re, Complex.mul_I_re, Complex.cos_ofReal_re, Complex.sin_ofReal_im]
      simp
    · rw [Complex.ofReal_one, one_mul, Complex.add_im, Complex.mul_I_im, Complex.cos_ofReal_im, Complex.sin_ofReal_re]
      simp
  rw [e, Complex.arg_mul_cos_add_sin_mul_I (by norm_num)]
  · unfold degrees radians; field_simp
  · unfold radians
    constructor
    · have : -90 * Real.pi < x * Real.pi := mul_lt_mul_of_pos_right h0 hpi
      linarith
    · have : x * Real.pi ≤ 90 * Real.pi := mul_le_mul_of_nonneg_right h1 hpi.le
      linarith

/-- Half of `2 (k + 1)` models at -(90 - `d`) and half at 90 - `d` degrees. -/
noncomputable def wrapped (d : ℝ) (k : ℕ) : List (ℝ × ℝ) :=
  List.replicate (k + 1) (Real.cos (2 * radians (-(90 - d))), Real.sin (2 * radians (-(90 - d)))) ++
    List.replicate (k + 1) (Real.cos (2 * radians (90 - d)), Real.sin (2 * radians (90 - d)))

/-- C244 is false: posterior samples that all agree to `2 d` degrees on an angle at the ends of the scale, half of them on either side. The band is from
-(90 - `d`) to 90 - `d` with the median line at 0: it has everything except the angles of the samples. -/
theorem band_wrong (d : ℝ) (hd : 0 < d) (hd1 : d < 90) (k : ℕ) (hk : 1 ≤ k) :
    (∀ m ∈ wrapped d k, ∃ j : ℤ, |psi m.1 m.2 - 90 - 180 * j| ≤ d) ∧
    psiBand (wrapped d k) = some (-(90 - d), 0, 90 - d) := by
  have p1 := psi_model (-(90 - d)) (by linarith) (by linarith)
  have p2 := psi_model (90 - d) (by linarith) (by linarith)
  constructor
  · intro m hm
    rcases List.mem_append.mp hm with h | h
    · rw [List.eq_of_mem_replicate h]
      dsimp only
      rw [p1]
      exact ⟨-1, by push_cast; rw [abs_le]; constructor <;> linarith⟩
    · rw [List.eq_of_mem_replicate h]
      dsimp only
      rw [p2]
      exact ⟨0, by push_cast; rw [abs_le]; constructor <;> linarith⟩
  · have hmap : (wrapped d k).map (fun m => psi m.1 m.2) = List.replicate (k + 1) (-(90 - d)) ++ List.replicate (k + 1) (90 - d) := by
      unfold wrapped
      rw [List.map_append, List.map_replicate, List.map_replicate]
      dsimp only
      rw [p1, p2]
    have hsort : (List.replicate (k + 1) (-(90 - d)) ++ List.replicate (k + 1) (90 - d)).mergeSort (fun x y => decide (x ≤ y)) =
        List.replicate (k + 1) (-(90 - d)) ++ List.replicate (k + 1) (90 - d) := by
      refine List.mergeSort_of_pairwise ?_
      rw [List.pairwise_append]
      refine ⟨?_, ?_, ?_⟩
      · rw [List.pairwise_replicate]; simp
      · rw [List.pairwise_replicate]; simp
      · intro x hx y hy
        rw [List.eq_of_mem_replicate hx, List.eq_of_mem_replicate hy]
        simp
        linarith
    have lo : ∀ i, i ≤ k → (List.replicate (k + 1) (-(90 - d)) ++ List.replicate (k + 1) (90 - d))[i]? = some (-(90 - d)) := by
      intro i hi
      rw [List.getElem?_append_left (by simp; omega), List.getElem?_replicate, if_pos (by omega)]
    have hi : ∀ i, k + 1 ≤ i → i < 2 * (k + 1) →
        (List.replicate (k + 1) (-(90 - d)) ++ List.replicate (k + 1) (90 - d))[i]? = some (90 - d) := by
      intro i h1 h2
      rw [List.getElem?_append_right (by simpa using h1), List.getElem?_replicate, List.length_replicate, if_pos (by omega)]
    have hlen : ((List.replicate (k + 1) (-(90 - d)) ++ List.replicate (k + 1) (90 - d)).length : ℝ) - 1 = 2 * k + 1 := by
      simp
      ring
    have hkr : (1 : ℝ) ≤ k := by exact_mod_cast hk
    unfold psiBand
    dsimp only
    rw [hmap]
    have a16 : percentile (List.replicate (k + 1) (-(90 - d)) ++ List.replicate (k + 1) (90 - d)) (16 / 100) = some (-(90 - d)) := by
      unfold percentile
      dsimp only
      rw [hsort, hlen]
      have hf : ⌊(16 / 100 : ℝ) * (2 * k + 1)⌋₊ + 1 ≤ k := by
        have : ⌊(16 / 100 : ℝ) * (2 * k + 1)⌋₊ < k := by
          rw [Nat.floor_lt (by positivity)]
          linarith
        omega
      rw [lo ⌊(16 / 100 : ℝ) * (2 * k + 1)⌋₊ (by omega), lo _ hf]
      simp
    have a84 : percentile (List.replicate (k + 1) (-(90 - d)) ++ List.replicate (k + 1) (90 - d)) (84 / 100) = some (90 - d) := by
      unfold percentile
      dsimp only
      rw [hsort, hlen]
      have h1 : k + 1 ≤ ⌊(84 / 100 : ℝ) * (2 * k + 1)⌋₊ := by
        rw [Nat.le_floor_iff (by positivity)]
        push_cast
        linarith
      have h2 : ⌊(84 / 100 : ℝ) * (2 * k + 1)⌋₊ + 1 < 2 * (k + 1) := by
        have : ⌊(84 / 100 : ℝ) * (2 * k + 1)⌋₊ < 2 * k + 1 := by
          rw [Nat.floor_lt (by positivity)]
          push_cast
          linarith
        omega
      rw [hi _ h1 (by omega), hi _ (by omega) h2]
      simp
    have a50 : percentile (List.replicate (k + 1) (-(90 - d)) ++ List.replicate (k + 1) (90 - d)) (50 / 100) = some 0 := by
      unfold percentile
      dsimp only
      rw [hsort, hlen]
      have hf : ⌊(50 / 100 : ℝ) * (2 * k + 1)⌋₊ = k := by
        rw [Nat.floor_eq_iff (by positivity)]
        constructor <;> linarith
      rw [hf, lo k (le_refl _), hi (k + 1) (le_refl _) (by omega)]
      simp only [Option.map_some, Option.getD_some]
      congr 1
      ring
    rw [a16, a50, a84]
    rfl

/-! ## Complexity figure -/

variable {n m N : ℕ}

theorem chiSqRed_lt (y dy : Fin n → Option ℝ) (yMed s t : ℝ) (hn : 2 ≤ n) (hs : 0 < s) (hst : s < t)
    (hdata : ∃ j a d, y j = some a ∧ dy j = some d ∧ a ≠ yMed) : chiSqRed y dy yMed t < chiSqRed y dy yMed s := by
  unfold chiSqRed
  have hn' : (0 : ℝ) < (n : ℝ) - 1 := by
    have : (2 : ℝ) ≤ n := by exact_mod_cast hn
    linarith
  refine div_lt_div_of_pos_right (Finset.sum_lt_sum (fun j _ => ?_) ?_) hn'
  · cases hd : dy j with
    | none => simp
    | some d =>
      cases hy : y j with
      | none => simp
      | some a =>
        simp only [Option.map_some, Option.bind_some, Option.getD_some]
        exact div_le_div_of_nonneg_left (sq_nonneg _) (by positivity) (by nlinarith)
  · obtain ⟨j, a, d, hy, hd, ha⟩ := hdata
    refine ⟨j, Finset.mem_univ _, ?_⟩
    rw [hy, hd]
    simp only [Option.map_some, Option.bind_some, Option.getD_some]
    have : 0 < (a - yMed) ^ 2 := by
      have := sub_ne_zero.mpr ha
      positivity
    exact div_lt_div_of_pos_left this (by positivity) (by nlinarith)

/-- The curve shows reduced chi-squared of the data for the scatter at its abscissae. -/
def IsChiCurve (y dy : Fin n → Option ℝ) (yMed : ℝ) (c : Curve N) : Prop := ∀ i, (c i).2 = chiSqRed y dy yMed (c i).1

/-- C245, the part that holds: the curve of Q is that of reduced chi-squared; so is the curve of U if the ranges of the residuals, with their errors, are
the same for both. -/
theorem chi_panel_partial (y dy : Fin n → Option ℝ) (y' dy' : Fin n → Option ℝ) (yMed : ℝ) (cq cu : Curves N)
    (hq : curves y dy yMed N = some cq) (hu : curves y' dy' yMed N = some cu) :
    IsChiCurve y dy yMed (chiPanel cq cu).1 ∧ (Stats.yRange y dy = Stats.yRange y' dy' → IsChiCurve y' dy' yMed (chiPanel cq cu).2) := by
  unfold curves at hq hu
  obtain ⟨r, hr, rfl⟩ := Option.map_eq_some_iff.mp hq
  obtain ⟨r', hr', rfl⟩ := Option.map_eq_some_iff.mp hu
  refine ⟨fun i => rfl, fun h i => ?_⟩
  rw [hr, hr', Option.some.injEq] at h
  subst h
  rfl

/-- C245 is false otherwise: with different ranges not one point of the curve of U shows reduced chi-squared at its abscissa. -/
theorem chi_panel_wrong (y dy : Fin n → Option ℝ) (y' dy' : Fin n → Option ℝ) (yMed r r' : ℝ) (cq cu : Curves N) (hn : 2 ≤ n) (hN : 2 ≤ N)
    (hq : curves y dy yMed N = some cq) (hu : curves y' dy' yMed N = some cu) (hr : Stats.yRange y dy = some r) (hr' : Stats.yRange y' dy' = some r')
    (h0 : 0 < r) (h0' : 0 < r') (hne : r ≠ r') (hdata : ∃ j a d, y' j = some a ∧ dy' j = some d ∧ a ≠ yMed) (i : Fin N) :
    ((chiPanel cq cu).2 i).2 ≠ chiSqRed y' dy' yMed ((chiPanel cq cu).2 i).1 := by
  unfold curves at hq hu
  rw [hr] at hq
  rw [hr'] at hu
  simp only [Option.map_some, Option.some.injEq] at hq hu
  subst hq
  subst hu
  show chiSqRed y' dy' yMed (linspace (r' / N) r' N i) ≠ chiSqRed y' dy' yMed (linspace (r / N) r N i)
  rw [Complexity.linspace_grid r hN, Complexity.linspace_grid r' hN]
  have g : ∀ a b : ℝ, a < b → Complexity.grid a N i < Complexity.grid b N i := by
    intro a b hab
    unfold Complexity.grid
    have : (0 : ℝ) < N := by exact_mod_cast (by omega : 0 < N)
    refine div_lt_div_of_pos_right (mul_lt_mul_of_pos_right hab (by positivity)) this
  rcases lt_or_gt_of_ne hne with h | h
  · exact (chiSqRed_lt y' dy' yMed _ _ hn (Complexity.grid_pos r h0 i) (g _ _ h) hdata).ne
  · exact (chiSqRed_lt y' dy' yMed _ _ hn (Complexity.grid_pos r' h0' i) (g _ _ h) hdata).ne'

/-- Residuals 0, 0 in Q and 0, 4 in U with errors of one: the ranges are 2 and 6. -/
example : Stats.yRange ![some 0, some 0] (![some 1, some 1] : Fin 2 → Option ℝ) = some 2 ∧
    Stats.yRange ![some 0, some 4] (![some 1, some 1] : Fin 2 → Option ℝ) = some 6 ∧
    ∃ j a d, (![some 0, some 4] : Fin 2 → Option ℝ) j = some a ∧ (![some 1, some 1] : Fin 2 → Option ℝ) j = some d ∧ a ≠ 0 := by
  have hl : List.finRange 2 = [0, 1] := by decide
  refine ⟨?_, ?_, 1, 4, 1, rfl, rfl, by norm_num⟩
  · simp [Stats.yRange, Stats.addNaN, Stats.subNaN, hl]
    norm_num
  · simp [Stats.yRange, Stats.addNaN, Stats.subNaN, hl]
    norm_num

/-- The drawn distribution of the data ends below one, at `(N - 1) / N`. -/
theorem ecdf_below_one (y : List ℝ) (p : ℝ × ℝ) (hp : p ∈ ecdf y) : p.2 ≤ ((y.length : ℝ) - 1) / y.length := by
  unfold ecdf at hp
  obtain ⟨⟨v, k⟩, hv, rfl⟩ := List.mem_map.mp hp
  have hk : k < y.length := by
    have := List.snd_lt_of_mem_zipIdx hv
    simpa using this
  have : (k : ℝ) + 1 ≤ y.length := by exact_mod_cast hk
  exact div_le_div_of_nonneg_right (by linarith) (Nat.cast_nonneg _)

/-- The drawn normal distribution covers six standard deviations on both sides of its mean only if this is zero. -/
theorem cdf_range (mean std : ℝ) (hs : 0 < std) (hN : 2 ≤ N) :
    ((∀ i, |cdfAbscissae mean std N i - mean| ≤ 6 * std) ↔ mean = 0) := by
  have h0 : cdfAbscissae mean std N ⟨0, by omega⟩ = -6 * std := by simp [cdfAbscissae, linspace]
  have hN' : (N : ℝ) - 1 ≠ 0 := by
    have : (2 : ℝ) ≤ N := by exact_mod_cast hN
    linarith
  have h1 : cdfAbscissae mean std N ⟨N - 1, by omega⟩ = 6 * std := by
    simp only [cdfAbscissae, linspace]
    rw [Nat.cast_sub (by omega)]
    push_cast
    field_simp
    ring
  constructor
  · intro h
    have a := abs_le.mp (h ⟨0, by omega⟩)
    have b := abs_le.mp (h ⟨N - 1, by omega⟩)
    rw [h0] at a
    rw [h1] at b
    linarith [a.1, b.2]
  · rintro rfl i
    rw [sub_zero, abs_le]
    simp only [cdfAbscissae, linspace]
    have hN2 : (0 : ℝ) < (N : ℝ) - 1 := by
      have : (2 : ℝ) ≤ N := by exact_mod_cast hN
      linarith
    have hi : ((i : ℕ) : ℝ) ≤ (N : ℝ) - 1 := by
      have : ((i : ℕ) : ℝ) + 1 ≤ N := by exact_mod_cast i.isLt
      linarith
    have e : ((i : ℕ) : ℝ) * ((6 * std - -6 * std) / ((N : ℝ) - 1)) = (((i : ℕ) : ℝ) / ((N : ℝ) - 1)) * (12 * std) := by ring
    rw [e]
    have f0 : 0 ≤ ((i : ℕ) : ℝ) / ((N : ℝ) - 1) := by positivity
    have f1 : ((i : ℕ) : ℝ) / ((N : ℝ) - 1) ≤ 1 := by rw [div_le_one hN2]; exact hi
    constructor
    · nlinarith
    · nlinarith

end Verif.Figures
