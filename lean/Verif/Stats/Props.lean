import Verif.Stats.Model
import Mathlib.Tactic
import Mathlib.Data.List.GetD

/-! # Properties of the statistics helpers (C51 - C54) -/

namespace Verif.Stats

open Verif.NumPy

/-! ## C53 -/

/-- The median is the middle of any sorted arrangement. -/
theorem median_eq_mid (l s : List ℝ) (hp : s.Perm l) (hs : s.Pairwise (· ≤ ·)) :
    median l = mid s := by
  unfold median
  congr 1
  have h1 : (l.mergeSort (fun a b => decide (a ≤ b))).Pairwise (· ≤ ·) := by
    have := List.pairwise_mergeSort (le := fun a b : ℝ => decide (a ≤ b))
      (fun a b c h1 h2 => by simp at *; exact h1.trans h2)
      (fun a b => by simp; exact le_total a b) l
    simpa using this
  exact ((List.mergeSort_perm l _).trans hp.symm).eq_of_pairwise
    (fun a b _ _ h1 h2 => le_antisymm h1 h2) h1 hs

theorem sorted_arrangement (l : List ℝ) : ∃ s : List ℝ, s.Perm l ∧ s.Pairwise (· ≤ ·) := by
  refine ⟨l.mergeSort (fun a b => decide (a ≤ b)), List.mergeSort_perm _ _, ?_⟩
  have := List.pairwise_mergeSort (le := fun a b : ℝ => decide (a ≤ b))
    (fun a b c h1 h2 => by simp at *; exact h1.trans h2)
    (fun a b => by simp; exact le_total a b) l
  simpa using this

theorem mid_map_affine (s : List ℝ) (k c : ℝ) :
    mid (s.map fun x => k * x + c) = (mid s).map fun x => k * x + c := by
  unfold mid
  simp only [List.length_map]
  split_ifs with h1 h2
  · rfl
  · have : s.length / 2 < s.length := by omega
    simp [List.getD, List.getElem?_map, List.getElem?_eq_getElem this]
  · have a1 : s.length / 2 < s.length := by omega
    have a2 : s.length / 2 - 1 < s.length := by omega
    simp [List.getD, List.getElem?_map, List.getElem?_eq_getElem a1, List.getElem?_eq_getElem a2]
    ring

theorem mid_reverse (s : List ℝ) : mid s.reverse = mid s := by
  unfold mid
  simp only [List.length_reverse]
  split_ifs with h1 h2
  · rfl
  · have : s.length / 2 < s.length := by omega
    have e : s.length - 1 - s.length / 2 = s.length / 2 := by omega
    simp [List.getD, List.getElem?_reverse this, e]
  · have a1 : s.length / 2 < s.length := by omega
    have a2 : s.length / 2 - 1 < s.length := by omega
    have e1 : s.length - 1 - s.length / 2 = s.length / 2 - 1 := by omega
    have e2 : s.length - 1 - (s.length / 2 - 1) = s.length / 2 := by omega
    simp only [List.getD, List.getElem?_reverse a1, List.getElem?_reverse a2, e1, e2]
    congr 2
    ring

theorem median_affine (l : List ℝ) (k c : ℝ) :
    median (l.map fun x => k * x + c) = (median l).map fun x => k * x + c := by
  obtain ⟨s, hp, hs⟩ := sorted_arrangement l
  rw [median_eq_mid l s hp hs, ← mid_map_affine]
  rcases le_total 0 k with hk | hk
  · apply median_eq_mid _ _ (hp.map _)
    rw [List.pairwise_map]
    exact hs.imp fun h => by nlinarith
  · rw [← mid_reverse]
    apply median_eq_mid
    · exact (List.reverse_perm _).trans (hp.map _)
    · rw [List.pairwise_reverse, List.pairwise_map]
      exact hs.imp fun h => by nlinarith

theorem median_nonneg (l : List ℝ) (h : ∀ x ∈ l, 0 ≤ x) (d : ℝ) (hd : median l = some d) : 0 ≤ d := by
  obtain ⟨s, hp, hs⟩ := sorted_arrangement l
  rw [median_eq_mid l s hp hs] at hd
  have hg : ∀ i, 0 ≤ s.getD i 0 := by
    intro i
    by_cases hi : i < s.length
    · rw [List.getD_eq_getElem _ _ hi]
      exact h _ (hp.mem_iff.mp (List.getElem_mem hi))
    · rw [List.getD_eq_default _ _ (by omega)]
  unfold mid at hd
  split_ifs at hd
  · injection hd with hd; rw [← hd]; exact hg _
  · injection hd with hd
    rw [← hd]
    have := hg (s.length / 2 - 1)
    have := hg (s.length / 2)
    positivity

theorem median_none_iff (l : List ℝ) : median l = none ↔ l = [] := by
  obtain ⟨s, hp, hs⟩ := sorted_arrangement l
  rw [median_eq_mid l s hp hs]
  unfold mid
  have := hp.length_eq
  constructor
  · intro h
    split_ifs at h with h1
    rw [this] at h1
    exact List.length_eq_zero_iff.mp h1
  · rintro rfl
    simp at this
    simp [this]

/-- C53. `MAD(k a + c) = |k| MAD(a)`, with NaNs left in place. -/
theorem mad_affine (a : List (Option ℝ)) (k c : ℝ) :
    mad (a.map (Option.map fun x => k * x + c)) = (mad a).map fun v => |k| * v := by
  have hu : unmasked (a.map (Option.map fun x => k * x + c)) =
      (unmasked a).map fun x => k * x + c := by
    unfold unmasked
    rw [List.filterMap_map, List.map_filterMap]
    congr 1
  unfold mad
  rw [hu, median_affine]
  cases median (unmasked a) with
  | none => rfl
  | some d =>
    simp only [Option.map_some, Option.bind_some, List.map_map]
    have : ((fun x => |x - (k * d + c)| / 0.6745) ∘ fun x => k * x + c) =
        fun x => |k| * (|x - d| / 0.6745) + 0 := by
      funext x
      simp only [Function.comp]
      rw [show k * x + c - (k * d + c) = k * (x - d) by ring, abs_mul]
      ring
    rw [this]
    have := median_affine ((unmasked a).map fun x => |x - d| / 0.6745) |k| 0
    rw [List.map_map] at this
    simp only [add_zero] at this ⊢
    exact this

/-- C53. `MAD` is non-negative; it is undefined exactly when every entry is NaN; NaN entries have no
influence. -/
theorem mad_nonneg (a : List (Option ℝ)) :
    (∀ v, mad a = some v → 0 ≤ v) ∧ (mad a = none ↔ ∀ x ∈ a, x = none) ∧
      mad a = mad ((unmasked a).map some) := by
  have hnil : unmasked a = [] ↔ ∀ x ∈ a, x = none := by
    unfold unmasked
    rw [List.filterMap_eq_nil_iff]
    rfl
  refine ⟨?_, ?_, ?_⟩
  · intro v hv
    unfold mad at hv
    cases hm : median (unmasked a) with
    | none => rw [hm] at hv; simp at hv
    | some d =>
      rw [hm] at hv
      simp only [Option.bind_some] at hv
      refine median_nonneg _ ?_ v hv
      intro x hx
      rw [List.mem_map] at hx
      obtain ⟨y, -, rfl⟩ := hx
      positivity
  · rw [← hnil]
    unfold mad
    cases hm : median (unmasked a) with
    | none => simp [(median_none_iff _).mp hm]
    | some d =>
      simp only [Option.bind_some, median_none_iff, List.map_eq_nil_iff]
  · unfold mad
    have : unmasked ((unmasked a).map some) = unmasked a := by
      unfold unmasked
      rw [List.filterMap_map]
      simp
    rw [this]

/-- Permuting the samples does not change the median. -/
theorem median_perm (l l' : List ℝ) (h : l.Perm l') : median l = median l' := by
  obtain ⟨s, hp, hs⟩ := sorted_arrangement l
  rw [median_eq_mid l s hp hs, median_eq_mid l' s (hp.trans h) hs]

/-- Instance of C53: the MAD of `4, NaN, 1, 2` is `1 / 0.6745`. -/
example : mad [some 4, none, some 1, some 2] = some (1 / 0.6745) := by
  have h1 : median [4, 1, 2] = some (2 : ℝ) := by
    rw [median_eq_mid [4, 1, 2] [1, 2, 4] ((List.perm_append_comm (l₁ := [1, 2]) (l₂ := [4]))) (by norm_num)]
    simp [mid]
  have h2 : median [|4 - 2| / 0.6745, |1 - 2| / 0.6745, |2 - 2| / 0.6745] = some (1 / 0.6745 : ℝ) := by
    rw [median_eq_mid _ [|2 - 2| / 0.6745, |1 - 2| / 0.6745, |4 - 2| / 0.6745] ?_ ?_]
    · norm_num [mid]
    · exact List.reverse_perm [|4 - 2| / 0.6745, |1 - 2| / 0.6745, |2 - 2| / 0.6745]
    · norm_num
  unfold mad unmasked
  simp only [List.filterMap_cons, id, List.filterMap_nil, h1, Option.bind_some, List.map_cons,
    List.map_nil]
  exact h2

/-! ## C54 -/

variable {n : ℕ}

/-- C54. The second moment is the standard deviation of the Faraday depth, weighted with the modulus
of the spectrum: it is non-negative, and with `m` the weighted mean its square is the weighted mean
of `(φ - m)²`. It is undefined exactly for a zero spectrum. -/
theorem mom2_stddev (F : Fin n → ℂ) (phi : Fin n → ℝ) :
    (mom2 F phi = none ↔ ∀ i, F i = 0) ∧
      ∀ v, mom2 F phi = some v → 0 ≤ v ∧ ∃ m : ℝ, ∑ i, (phi i - m) * ‖F i‖ = 0 ∧
        ∑ i, ((phi i - m) ^ 2 - v ^ 2) * ‖F i‖ = 0 := by
  have hK : ∑ i, ‖F i‖ = 0 ↔ ∀ i, F i = 0 := by
    rw [Finset.sum_eq_zero_iff_of_nonneg (fun i _ => norm_nonneg _)]
    simp
  unfold mom2
  dsimp only
  split_ifs with h
  · exact ⟨by simp [← hK, h], by simp⟩
  · refine ⟨by simp [← hK, h], ?_⟩
    intro v hv
    injection hv with hv
    have hpos : 0 < ∑ i, ‖F i‖ :=
      lt_of_le_of_ne (Finset.sum_nonneg fun i _ => norm_nonneg _) (Ne.symm h)
    refine ⟨hv ▸ Real.sqrt_nonneg _, (∑ i, phi i * ‖F i‖) / ∑ i, ‖F i‖, ?_, ?_⟩
    · simp only [sub_mul, Finset.sum_sub_distrib, ← Finset.mul_sum]
      field_simp
      ring
    · rw [← hv, Real.sq_sqrt]
      · simp only [sub_mul _ _ ‖F _‖, Finset.sum_sub_distrib, ← Finset.mul_sum]
        rw [div_mul_cancel₀ _ h, sub_self]
      · apply div_nonneg _ hpos.le
        exact Finset.sum_nonneg fun i _ => mul_nonneg (sq_nonneg _) (norm_nonneg _)

/-- C54. Zero exactly when all non-zero components are at one Faraday depth. -/
theorem mom2_zero_iff (F : Fin n → ℂ) (phi : Fin n → ℝ) (h : ∃ i, F i ≠ 0) :
    mom2 F phi = some 0 ↔ ∃ c, ∀ i, F i ≠ 0 → phi i = c := by
  obtain ⟨i0, hi0⟩ := h
  have hne : mom2 F phi ≠ none := fun hn => hi0 ((mom2_stddev F phi).1.mp hn i0)
  obtain ⟨v, hv⟩ := Option.ne_none_iff_exists'.mp hne
  obtain ⟨h0, m, hm1, hm2⟩ := (mom2_stddev F phi).2 v hv
  rw [hv, Option.some.injEq]
  constructor
  · rintro rfl
    refine ⟨m, fun i hi => ?_⟩
    have : ∀ i ∈ Finset.univ, ((phi i - m) ^ 2 - 0 ^ 2) * ‖F i‖ = 0 := by
      rw [← Finset.sum_eq_zero_iff_of_nonneg]
      · exact hm2
      · intro i _
        have := sq_nonneg (phi i - m)
        have := norm_nonneg (F i)
        apply mul_nonneg <;> linarith
    have := this i (Finset.mem_univ _)
    rcases mul_eq_zero.mp this with h | h
    · nlinarith [pow_eq_zero_iff (two_ne_zero) |>.mp (show (phi i - m) ^ 2 = 0 by linarith)]
    · exact absurd (norm_eq_zero.mp h) hi
  · rintro ⟨c, hc⟩
    have hK : 0 < ∑ i, ‖F i‖ :=
      Finset.sum_pos' (fun i _ => norm_nonneg _) ⟨i0, Finset.mem_univ _, norm_pos_iff.mpr hi0⟩
    have e : ∀ f : ℝ → ℝ, ∑ i, f (phi i) * ‖F i‖ = f c * ∑ i, ‖F i‖ := by
      intro f
      rw [Finset.mul_sum]
      apply Finset.sum_congr rfl
      intro i _
      by_cases hi : F i = 0
      · simp [hi]
      · rw [hc i hi]
    have e1 := e fun x => x - m
    have e2 := e fun x => (x - m) ^ 2 - v ^ 2
    beta_reduce at e1 e2
    rw [hm1] at e1
    rw [hm2] at e2
    have f1 : c - m = 0 := (mul_eq_zero.mp e1.symm).resolve_right hK.ne'
    have f2 := (mul_eq_zero.mp e2.symm).resolve_right hK.ne'
    rw [f1] at f2
    have : v ^ 2 = 0 := by linarith
    exact pow_eq_zero_iff (two_ne_zero) |>.mp this

/-- C54. Invariant under a shift of the Faraday depth axis and under scaling of the spectrum. -/
theorem mom2_invariant (F : Fin n → ℂ) (phi : Fin n → ℝ) (c : ℝ) (k : ℂ) (hk : k ≠ 0) :
    mom2 F (fun i => phi i + c) = mom2 F phi ∧ mom2 (fun i => k * F i) phi = mom2 F phi := by
  constructor
  · unfold mom2
    dsimp only
    split_ifs with h
    · rfl
    · congr 3
      apply Finset.sum_congr rfl
      intro i _
      congr 2
      have : ∑ i, (phi i + c) * ‖F i‖ = ∑ i, phi i * ‖F i‖ + c * ∑ i, ‖F i‖ := by
        simp only [add_mul, Finset.sum_add_distrib, Finset.mul_sum]
      rw [this]
      field_simp
      ring
  · unfold mom2
    dsimp only
    have hk' : ‖k‖ ≠ 0 := norm_ne_zero_iff.mpr hk
    have hs : ∑ i, ‖k * F i‖ = ‖k‖ * ∑ i, ‖F i‖ := by simp only [norm_mul, Finset.mul_sum]
    have hp : ∀ f : Fin n → ℝ, ∑ i, f i * ‖k * F i‖ = ‖k‖ * ∑ i, f i * ‖F i‖ := by
      intro f
      rw [Finset.mul_sum]
      apply Finset.sum_congr rfl
      intro i _; rw [norm_mul]; ring
    rw [hs]
    by_cases h : ∑ i, ‖F i‖ = 0
    · simp [h]
    · rw [if_neg h, if_neg (mul_ne_zero hk' h), hp, hp, mul_div_mul_left _ _ hk',
        mul_div_mul_left _ _ hk']

/-- Instance: components of modulus 3 and 1 at depths 0 and 4. -/
example : mom2 (![3 * Complex.I, 1] : Fin 2 → ℂ) ![0, 4] = some (Real.sqrt 3) := by
  unfold mom2
  simp [Fin.sum_univ_two]
  norm_num

/-! ## C51 -/

theorem find_first (p : Fin n → ℝ) (t : ℝ) (i : Fin n)
    (h : (List.finRange n).find? (fun i => decide (t < p i)) = some i) :
    t < p i ∧ ∀ j, j < i → p j ≤ t := by
  rw [List.find?_eq_some_iff_getElem] at h
  obtain ⟨h1, k, hk, hki, hbef⟩ := h
  refine ⟨by simpa using h1, ?_⟩
  intro j hj
  simp at hki
  have hjk : (j : ℕ) < k := by rw [← hki] at hj; exact hj
  have := hbef j hjk
  simpa using this

/-- The piecewise linear curve through the points of the distribution, on the interval between
sample `i - 1` and sample `i`. -/
noncomputable def segment (x p : Fin n → ℝ) (i : Fin n) (v : ℝ) : ℝ :=
  at0 p ((i : ℕ) - 1) + (p i - at0 p ((i : ℕ) - 1)) * ((v - at0 x ((i : ℕ) - 1)) / (x i - at0 x ((i : ℕ) - 1)))

/-- What `cdf_percentile` returns: either the first sample, when the distribution there already
exceeds `t`, or a point `v` in an interval between two samples, where the linearly interpolated
distribution is exactly `t`. -/
theorem cdfPercentile_cases (x p : Fin n → ℝ) (hx : StrictMono x) (t v : ℝ)
    (h : cdfPercentile x p t = some v) :
    ∃ i : Fin n, t < p i ∧ (∀ j, j < i → p j ≤ t) ∧
      (((i : ℕ) = 0 ∧ v = x i) ∨
        (0 < (i : ℕ) ∧ at0 x ((i : ℕ) - 1) ≤ v ∧ v < x i ∧ segment x p i v = t)) := by
  unfold cdfPercentile at h
  cases hf : (List.finRange n).find? (fun i => decide (t < p i)) with
  | none => rw [hf] at h; simp at h
  | some i =>
    rw [hf] at h
    simp only [Option.map_some, Option.some.injEq] at h
    obtain ⟨h1, h2⟩ := find_first p t i hf
    refine ⟨i, h1, h2, ?_⟩
    by_cases h0 : (i : ℕ) = 0
    · left; rw [if_pos h0] at h; exact ⟨h0, h.symm⟩
    · right
      rw [if_neg h0] at h
      have hi : (i : ℕ) - 1 < n := by omega
      have hlt : (⟨i - 1, hi⟩ : Fin n) < i := by
        show (i : ℕ) - 1 < i
        omega
      have ex : at0 x ((i : ℕ) - 1) = x ⟨i - 1, hi⟩ := by unfold at0; rw [dif_pos hi]
      have ep : at0 p ((i : ℕ) - 1) = p ⟨i - 1, hi⟩ := by unfold at0; rw [dif_pos hi]
      have hxlt := hx hlt
      have hple := h2 _ hlt
      unfold segment
      rw [ex, ep] at h ⊢
      set a := x ⟨i - 1, hi⟩
      set b := p ⟨i - 1, hi⟩
      have hd : 0 < x i - a := by linarith
      have hp : 0 < p i - b := by linarith
      have hv : v = x i - (p i - t) * ((x i - a) / (p i - b)) := by
        rw [← h]; field_simp; ring
      have hr : 0 < (x i - a) / (p i - b) := by positivity
      refine ⟨by omega, ?_, ?_, ?_⟩
      · rw [hv]
        have : (p i - t) * ((x i - a) / (p i - b)) ≤ (p i - b) * ((x i - a) / (p i - b)) :=
          mul_le_mul_of_nonneg_right (by linarith) hr.le
        rw [mul_div_cancel₀ _ hp.ne'] at this
        linarith
      · rw [hv]
        have : 0 < (p i - t) * ((x i - a) / (p i - b)) := mul_pos (by linarith) hr
        linarith
      · rw [hv]; field_simp; ring

/-- C51. The value is defined exactly when some entry of the distribution exceeds `t`. -/
theorem cdfPercentile_none (x p : Fin n → ℝ) (t : ℝ) :
    cdfPercentile x p t = none ↔ ∀ i, p i ≤ t := by
  unfold cdfPercentile
  rw [Option.map_eq_none_iff, List.find?_eq_none]
  simp

/-- C51. The value lies between the first and the last sample. -/
theorem cdfPercentile_range (x p : Fin n → ℝ) (hx : StrictMono x) (t v : ℝ)
    (h : cdfPercentile x p t = some v) : (∃ a, x a ≤ v) ∧ ∃ b, v ≤ x b := by
  obtain ⟨i, -, -, h3⟩ := cdfPercentile_cases x p hx t v h
  rcases h3 with ⟨-, h3⟩ | ⟨h3, h4, h5, -⟩
  · exact ⟨⟨i, h3.ge⟩, ⟨i, h3.le⟩⟩
  · have hi : (i : ℕ) - 1 < n := by omega
    refine ⟨⟨⟨i - 1, hi⟩, ?_⟩, ⟨i, h5.le⟩⟩
    unfold at0 at h4
    rwa [dif_pos hi] at h4

/-- C51. Larger percentages give larger values. -/
theorem cdfPercentile_mono (x p : Fin n → ℝ) (hx : StrictMono x) (t t' v v' : ℝ) (htt : t ≤ t')
    (h : cdfPercentile x p t = some v) (h' : cdfPercentile x p t' = some v') : v ≤ v' := by
  obtain ⟨i, h1, h2, h3⟩ := cdfPercentile_cases x p hx t v h
  obtain ⟨k, k1, k2, k3⟩ := cdfPercentile_cases x p hx t' v' h'
  have hik : i ≤ k := by
    by_contra hcon
    rw [not_le] at hcon
    have := h2 k hcon
    linarith
  have hvi : v ≤ x i := by
    rcases h3 with ⟨-, h3⟩ | ⟨-, -, h3, -⟩
    · exact h3.le
    · exact h3.le
  rcases hik.eq_or_lt with rfl | hlt
  · rcases h3 with ⟨h3, h4⟩ | ⟨h3, h4, h5, h6⟩
    · rcases k3 with ⟨-, k4⟩ | ⟨k3, -⟩
      · rw [h4, k4]
      · omega
    · rcases k3 with ⟨k3, -⟩ | ⟨-, k4, k5, k6⟩
      · omega
      · by_contra hcon
        rw [not_le] at hcon
        have hi : (i : ℕ) - 1 < n := by omega
        have hlt : (⟨i - 1, hi⟩ : Fin n) < i := by
          show (i : ℕ) - 1 < i
          omega
        have ex : at0 x ((i : ℕ) - 1) = x ⟨i - 1, hi⟩ := by unfold at0; rw [dif_pos hi]
        have ep : at0 p ((i : ℕ) - 1) = p ⟨i - 1, hi⟩ := by unfold at0; rw [dif_pos hi]
        have hxlt := hx hlt
        have hple := h2 _ hlt
        unfold segment at h6 k6
        rw [ex, ep] at h6 k6
        have hd : 0 < x i - x ⟨i - 1, hi⟩ := by linarith
        have hp : 0 < p i - p ⟨i - 1, hi⟩ := by linarith
        have : (p i - p ⟨i - 1, hi⟩) * ((v' - x ⟨i - 1, hi⟩) / (x i - x ⟨i - 1, hi⟩)) <
            (p i - p ⟨i - 1, hi⟩) * ((v - x ⟨i - 1, hi⟩) / (x i - x ⟨i - 1, hi⟩)) := by
          apply mul_lt_mul_of_pos_left _ hp
          apply div_lt_div_of_pos_right _ hd
          linarith
        linarith
  · rcases k3 with ⟨k3, -⟩ | ⟨k3, k4, -⟩
    · have : (i : ℕ) < k := hlt
      omega
    · have hk : (k : ℕ) - 1 < n := by omega
      have : i ≤ ⟨k - 1, hk⟩ := by
        show (i : ℕ) ≤ k - 1
        have : (i : ℕ) < k := hlt
        omega
      have h5 := hx.monotone this
      unfold at0 at k4
      rw [dif_pos hk] at k4
      linarith

/-- Instance: three samples, cumulative probabilities 0.2, 0.6, 1: the median is 1.75. -/
example : cdfPercentile (![1, 2, 3] : Fin 3 → ℝ) ![0.2, 0.6, 1] (50 / 100) = some 1.75 := by
  have : (List.finRange 3).find? (fun i => decide ((50 / 100 : ℝ) < (![0.2, 0.6, 1] : Fin 3 → ℝ) i)) = some 1 := by
    simp [List.finRange_succ]
    norm_num
  unfold cdfPercentile
  rw [this]
  simp [at0]
  norm_num

/-! ## C52 -/

theorem sigmaAddCore_errors {n : ℕ} (y dy : Fin n → Option ℝ) (yMed rng : ℝ) (nSamp : ℕ)
    [NeZero nSamp] (hr : 0 < rng) (hs : 2 ≤ nSamp) :
    ∃ s minus plus, sigmaAddCore y dy yMed rng nSamp = some (s, minus, plus) ∧ 0 ≤ minus ∧ 0 ≤ plus ∧
      rng / nSamp ≤ s ∧ s ≤ rng ∧ minus ≤ s ∧ s + plus ≤ rng := by
  have hS : (2 : ℝ) ≤ nSamp := by exact_mod_cast hs
  have hstep : 0 < (rng - rng / nSamp) / ((nSamp : ℝ) - 1) := by
    apply div_pos _ (by linarith)
    have : rng / nSamp < rng := by
      rw [div_lt_iff₀ (by linarith)]; nlinarith
    linarith
  have hmono : StrictMono (linspace (rng / nSamp) rng nSamp) := by
    intro a b hab
    unfold linspace
    have : ((a : ℕ) : ℝ) < ((b : ℕ) : ℝ) := by exact_mod_cast hab
    nlinarith
  have hfirst : ∀ i, rng / nSamp ≤ linspace (rng / nSamp) rng nSamp i := by
    intro i
    unfold linspace
    have : (0 : ℝ) ≤ ((i : ℕ) : ℝ) := Nat.cast_nonneg _
    nlinarith
  have hlast : ∀ i, linspace (rng / nSamp) rng nSamp i ≤ rng := by
    intro i
    unfold linspace
    have h1 : ((i : ℕ) : ℝ) ≤ (nSamp : ℝ) - 1 := by
      have : (i : ℕ) + 1 ≤ nSamp := i.isLt
      have : (((i : ℕ) + 1 : ℕ) : ℝ) ≤ nSamp := by exact_mod_cast this
      push_cast at this; linarith
    have h2 := mul_le_mul_of_nonneg_right h1 hstep.le
    rw [mul_div_cancel₀ _ (by linarith)] at h2
    linarith
  unfold sigmaAddCore
  extract_lets sig tot lnSigmaSum chiSq lnProb0 lnProb prob0 A prob cpdf
  have hA : 0 < A := by
    have h10 : at0 sig 0 < at0 sig 1 := by
      unfold at0
      rw [dif_pos (by omega), dif_pos (by omega)]
      exact hmono (by show 0 < 1; norm_num)
    have : (Finset.univ : Finset (Fin nSamp)).Nonempty := ⟨0, Finset.mem_univ _⟩
    exact Finset.sum_pos (fun i _ => mul_pos (Real.exp_pos _) (by linarith)) this
  have hprob : ∀ i, 0 < prob i := fun i => div_pos (Real.exp_pos _) hA
  have hsum : 0 < ∑ k, prob k := Finset.sum_pos (fun i _ => hprob i) ⟨0, Finset.mem_univ _⟩
  have hone : cpdf ⟨nSamp - 1, by omega⟩ = 1 := by
    simp only [cpdf]
    have : Finset.univ.filter (· ≤ (⟨nSamp - 1, by omega⟩ : Fin nSamp)) = Finset.univ := by
      apply Finset.filter_true_of_mem
      intro i _
      show (i : ℕ) ≤ nSamp - 1
      have := i.isLt
      omega
    rw [this, div_self hsum.ne']
  have hdef : ∀ t < 1, ∃ v, cdfPercentile sig cpdf t = some v := by
    intro t ht
    cases h : cdfPercentile sig cpdf t with
    | some v => exact ⟨v, rfl⟩
    | none =>
      have := (cdfPercentile_none sig cpdf t).mp h ⟨nSamp - 1, by omega⟩
      rw [hone] at this
      linarith
  obtain ⟨s, h1⟩ := hdef (50 / 100) (by norm_num)
  obtain ⟨lo, h2⟩ := hdef (15.72 / 100) (by norm_num)
  obtain ⟨hi, h3⟩ := hdef (84.27 / 100) (by norm_num)
  refine ⟨s, s - lo, hi - s, by rw [h1, h2, h3]; rfl, ?_, ?_, ?_⟩
  · have := cdfPercentile_mono sig cpdf hmono _ _ lo s (by norm_num) h2 h1
    linarith
  · have := cdfPercentile_mono sig cpdf hmono _ _ s hi (by norm_num) h1 h3
    linarith
  · obtain ⟨⟨a, ha⟩, ⟨b, hb⟩⟩ := cdfPercentile_range sig cpdf hmono _ s h1
    obtain ⟨⟨a', ha'⟩, -⟩ := cdfPercentile_range sig cpdf hmono _ lo h2
    obtain ⟨-, ⟨b', hb'⟩⟩ := cdfPercentile_range sig cpdf hmono _ hi h3
    have e1 := (hfirst a').trans ha'
    have e2 := hb'.trans (hlast b')
    have e3 : 0 < rng / nSamp := by positivity
    exact ⟨(hfirst a).trans ha, hb.trans (hlast b), by linarith, by linarith⟩

/-- The extent of the data with error bars: `[a, b]` contains every error bar and both ends are
reached. -/
def IsExtent {n : ℕ} (y dy : Fin n → Option ℝ) (a b : ℝ) : Prop :=
  (∀ i v d, y i = some v → dy i = some d → a ≤ v - d ∧ v + d ≤ b) ∧
    (∃ i v d, y i = some v ∧ dy i = some d ∧ v - d = a) ∧
    ∃ i v d, y i = some v ∧ dy i = some d ∧ v + d = b

theorem addNaN_eq {a b : Option ℝ} {c : ℝ} :
    addNaN a b = some c ↔ ∃ x y, a = some x ∧ b = some y ∧ x + y = c := by
  cases a <;> cases b <;> simp [addNaN]

theorem subNaN_eq {a b : Option ℝ} {c : ℝ} :
    subNaN a b = some c ↔ ∃ x y, a = some x ∧ b = some y ∧ x - y = c := by
  cases a <;> cases b <;> simp [subNaN]

theorem yRange_eq {n : ℕ} (y dy : Fin n → Option ℝ) (a b : ℝ) (h : IsExtent y dy a b) :
    yRange y dy = some (b - a) := by
  obtain ⟨h1, ⟨i, v, d, hi1, hi2, hi3⟩, ⟨j, w, e, hj1, hj2, hj3⟩⟩ := h
  have hmax : (((List.finRange n).filterMap fun i => addNaN (y i) (dy i)).max?) = some b := by
    rw [List.max?_eq_some_iff]
    constructor
    · rw [List.mem_filterMap]
      exact ⟨j, List.mem_finRange _, addNaN_eq.mpr ⟨w, e, hj1, hj2, hj3⟩⟩
    · intro c hc
      rw [List.mem_filterMap] at hc
      obtain ⟨k, -, hk⟩ := hc
      obtain ⟨x, z, hx, hz, rfl⟩ := addNaN_eq.mp hk
      exact (h1 k x z hx hz).2
  have hmin : (((List.finRange n).filterMap fun i => subNaN (y i) (dy i)).min?) = some a := by
    rw [List.min?_eq_some_iff]
    constructor
    · rw [List.mem_filterMap]
      exact ⟨i, List.mem_finRange _, subNaN_eq.mpr ⟨v, d, hi1, hi2, hi3⟩⟩
    · intro c hc
      rw [List.mem_filterMap] at hc
      obtain ⟨k, -, hk⟩ := hc
      obtain ⟨x, z, hx, hz, rfl⟩ := subNaN_eq.mp hk
      exact (h1 k x z hx hz).1
  unfold yRange
  rw [hmax, hmin]
  rfl

/-- C52. For data whose error bars extend over `[a, b]` with `a < b`, and at least two samples of the
additional scatter, the fit succeeds, the scatter is positive and at most `b - a`, and both
uncertainties are non-negative. -/
theorem sigmaAdd_errors {n : ℕ} (y dy : Fin n → Option ℝ) (yMed a b : ℝ) (nSamp : ℕ)
    [NeZero nSamp] (hab : a < b) (he : IsExtent y dy a b) (hs : 2 ≤ nSamp) :
    ∃ s minus plus, sigmaAdd y dy yMed nSamp = some (s, minus, plus) ∧ 0 ≤ minus ∧ 0 ≤ plus ∧
      (b - a) / nSamp ≤ s ∧ s ≤ b - a ∧ minus ≤ s ∧ s + plus ≤ b - a := by
  have hr : 0 < b - a := by linarith
  unfold sigmaAdd
  rw [yRange_eq y dy a b he]
  simp only [Option.bind_some]
  rw [if_neg (by push Not; exact ⟨hr, hs⟩)]
  exact sigmaAddCore_errors y dy yMed (b - a) nSamp hr hs

/-- Every data set with a valid sample has an extent. -/
theorem extent_exists {n : ℕ} (y dy : Fin n → Option ℝ) (h : ∃ i v d, y i = some v ∧ dy i = some d) :
    ∃ a b, IsExtent y dy a b := by
  classical
  have hf : (Finset.univ.filter fun i : Fin n => (∃ v, y i = some v) ∧ ∃ d, dy i = some d).Nonempty := by
    obtain ⟨i, v, d, h1, h2⟩ := h
    exact ⟨i, by simp [h1, h2]⟩
  obtain ⟨i, hi, hmin⟩ := Finset.exists_min_image _ (fun i => (y i).getD 0 - (dy i).getD 0) hf
  obtain ⟨j, hj, hmax⟩ := Finset.exists_max_image _ (fun i => (y i).getD 0 + (dy i).getD 0) hf
  rw [Finset.mem_filter] at hi hj
  obtain ⟨-, ⟨v, hv⟩, ⟨d, hd⟩⟩ := hi
  obtain ⟨-, ⟨w, hw⟩, ⟨e, he⟩⟩ := hj
  refine ⟨v - d, w + e, ?_, ⟨i, v, d, hv, hd, rfl⟩, ⟨j, w, e, hw, he, rfl⟩⟩
  intro k x z hx hz
  have hk : k ∈ Finset.univ.filter fun i : Fin n => (∃ v, y i = some v) ∧ ∃ d, dy i = some d := by
    simp [hx, hz]
  have h1 := hmin k hk
  have h2 := hmax k hk
  simp only [hx, hz, hv, hd, hw, he, Option.getD_some] at h1 h2
  exact ⟨h1, h2⟩

/-- C52, as used by RM synthesis: with at least one unflagged channel of non-zero error, the reported
`sigmaAdd` is positive and both its uncertainties are non-negative. -/
theorem quComplexity_errors {n : ℕ} (q dq : Fin n → Option ℝ) (mod : Fin n → ℝ)
    (h : ∃ i v d, q i = some v ∧ dq i = some d ∧ d ≠ 0) :
    ∃ s minus plus, quComplexity q dq mod = some (s, minus, plus) ∧ 0 < s ∧ 0 ≤ minus ∧ 0 ≤ plus := by
  obtain ⟨i, v, d, h1, h2, h3⟩ := h
  unfold quComplexity
  extract_lets ratio
  have hone : ∀ k e, ratio (dq k) (dq k) = some e → e = 1 := by
    intro k e he
    cases hk : dq k with
    | none => rw [hk] at he; simp [ratio] at he
    | some x =>
      rw [hk] at he
      by_cases hx : x = 0
      · simp [ratio, hx] at he
      · simp [ratio, hx] at he; exact he.symm
  have hv : ratio ((q i).map fun x => x - mod i) (dq i) = some ((v - mod i) / d) := by
    simp [ratio, h1, h2, h3]
  have hd : ratio (dq i) (dq i) = some 1 := by simp [ratio, h2, h3]
  obtain ⟨a, b, hext⟩ := extent_exists (fun i => ratio ((q i).map fun x => x - mod i) (dq i))
    (fun i => ratio (dq i) (dq i)) ⟨i, _, _, hv, hd⟩
  have hb := hext.1 i _ _ hv hd
  have hab : a < b := by linarith [hb.1, hb.2]
  obtain ⟨s, m, p, e1, e2, e3, e4, -⟩ := sigmaAdd_errors _ _ 0 a b 1000 hab hext (by norm_num)
  refine ⟨s, m, p, e1, lt_of_lt_of_le ?_ e4, e2, e3⟩
  have : (0 : ℝ) < b - a := by linarith
  positivity

end Verif.Stats
