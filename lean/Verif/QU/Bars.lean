import Verif.QU.Allowed

/-!
# The error bars of a QU fit (C269)

Source: `/repo/RMtools_1D/do_QUfit_1D_mnest.py` 402-451. Trusted reading of bilby: `get_one_dimensional_median_and_error_bar(key)` takes the
quantiles 0.16, 0.5 and 0.84 of the column of the posterior with `np.percentile` (linear interpolation between the samples in order), and `plus`
and `minus` are the distances of the outer ones from the median.
-/

namespace Verif.QU.Bars

open Verif.QU Verif.Stats Verif.QU.Allowed

/-- `np.percentile(l, 100 q)`, method `linear`. `none`: no samples. -/
noncomputable def quantile (q : ℝ) (l : List ℝ) : Option ℝ :=
  let s := l.mergeSort (fun a b => decide (a ≤ b))
  if s.length = 0 then none
  else
    let p := q * ((s.length : ℝ) - 1)
    let i := ⌊p⌋₊
    some (s.getD i 0 + (p - i) * (s.getD (min (i + 1) (s.length - 1)) 0 - s.getD i 0))

/-- What the fit stores of a parameter: value, upper error, lower error. -/
structure Entry where
  value : ℝ
  plus : ℝ
  minus : ℝ

/-- `result.get_one_dimensional_median_and_error_bar` of bilby. -/
noncomputable def summary (l : List ℝ) : Option Entry :=
  (quantile 0.16 l).bind fun lo => (quantile 0.5 l).bind fun m => (quantile 0.84 l).map fun hi => ⟨m, hi - m, m - lo⟩

/-- The entry of parameter number `i`, 440-451: the summary of its (possibly rotated) column, with the median of a rotated angle turned back. -/
noncomputable def entry (pars : List Par) (cols new : List (List ℝ)) (i : ℕ) : Option Entry :=
  open Classical in
  (summary (samplesOf pars new i)).map fun e =>
    if Rotates pars cols i then ⟨(e.value - 90) + (if e.value - 90 < 0 then 180 else 0), e.plus, e.minus⟩ else e

/-- The fit from its samples with error bars: entries of all parameters in their order. `none`: an exception. -/
noncomputable def barRun (b : Bounds) (S : List Dict) : Option (ℕ → Option Entry) :=
  (rotateCols (parsOf b) (colsOf b S)).map fun new i => entry (parsOf b) (colsOf b S) new i

/-! ## Quantiles -/

theorem sorted_le (s : List ℝ) (hs : s.Pairwise (· ≤ ·)) (i j : ℕ) (hij : i ≤ j) (hj : j < s.length) : s.getD i 0 ≤ s.getD j 0 := by
  rw [List.getD_eq_getElem _ _ (by omega), List.getD_eq_getElem _ _ hj]
  rcases Nat.eq_or_lt_of_le hij with h | h
  · subst h; exact le_rfl
  · exact List.pairwise_iff_getElem.1 hs i j (by omega) hj h

/-- The quantile of entries in order. -/
noncomputable def inter (q : ℝ) (s : List ℝ) : ℝ :=
  s.getD ⌊q * ((s.length : ℝ) - 1)⌋₊ 0 + (q * ((s.length : ℝ) - 1) - ⌊q * ((s.length : ℝ) - 1)⌋₊) *
    (s.getD (min (⌊q * ((s.length : ℝ) - 1)⌋₊ + 1) (s.length - 1)) 0 - s.getD ⌊q * ((s.length : ℝ) - 1)⌋₊ 0)

theorem quantile_sorted (l : List ℝ) (hl : l ≠ []) : ∃ s : List ℝ, s.Perm l ∧ s.Pairwise (· ≤ ·) ∧ ∀ q, quantile q l = some (inter q s) := by
  refine ⟨l.mergeSort (fun a b => decide (a ≤ b)), List.mergeSort_perm _ _, ?_, fun q => ?_⟩
  · have := List.pairwise_mergeSort (le := fun a b : ℝ => decide (a ≤ b)) (fun a b c h1 h2 => by
      simp only [decide_eq_true_eq] at *; exact h1.trans h2) (fun a b => by
      simpa using le_total a b) l
    simpa using this
  · unfold quantile
    dsimp only
    rw [if_neg (by rw [List.length_mergeSort]; exact fun h => hl (List.length_eq_zero_iff.1 h))]
    rfl

theorem inter_bracket (q : ℝ) (h0 : 0 ≤ q) (h1 : q ≤ 1) (s : List ℝ) (hs : s.Pairwise (· ≤ ·)) (hl : 0 < s.length) :
    ∃ i j, i ≤ j ∧ j < s.length ∧ (i : ℝ) ≤ q * ((s.length : ℝ) - 1) ∧ q * ((s.length : ℝ) - 1) < i + 1 ∧
      (j : ℝ) < q * ((s.length : ℝ) - 1) + 1 ∧ s.getD i 0 ≤ inter q s ∧ inter q s ≤ s.getD j 0 := by
  have hn : (1 : ℝ) ≤ s.length := by exact_mod_cast hl
  have hp0 : 0 ≤ q * ((s.length : ℝ) - 1) := mul_nonneg h0 (by linarith)
  have hp1 : q * ((s.length : ℝ) - 1) ≤ (s.length : ℝ) - 1 := by nlinarith
  have f1 := Nat.floor_le hp0
  have f2 := Nat.lt_floor_add_one (q * ((s.length : ℝ) - 1))
  unfold inter
  generalize q * ((s.length : ℝ) - 1) = p at *
  generalize ⌊p⌋₊ = i at *
  have hi : i < s.length := by
    have : (i : ℝ) < s.length := by linarith
    exact_mod_cast this
  by_cases ht : p = i
  · refine ⟨i, i, le_rfl, hi, f1, f2, by linarith, ?_, ?_⟩ <;> rw [ht] <;> simp
  · have hlt : (i : ℝ) < p := lt_of_le_of_ne f1 (fun h => ht h.symm)
    have hi2 : i + 1 < s.length := by
      have : ((i + 1 : ℕ) : ℝ) < s.length := by push_cast; linarith
      exact_mod_cast this
    have hm : min (i + 1) (s.length - 1) = i + 1 := by omega
    rw [hm]
    have hle := sorted_le s hs i (i + 1) (by omega) hi2
    refine ⟨i, i + 1, by omega, hi2, f1, f2, by push_cast; linarith, ?_, ?_⟩
    · nlinarith
    · nlinarith

theorem inter_mono (q r : ℝ) (h0 : 0 ≤ q) (hqr : q ≤ r) (h1 : r ≤ 1) (s : List ℝ) (hs : s.Pairwise (· ≤ ·)) (hl : 0 < s.length) :
    inter q s ≤ inter r s := by
  have hn : (1 : ℝ) ≤ s.length := by exact_mod_cast hl
  obtain ⟨i, j, hij, hj, a1, a2, a3, a4, a5⟩ := inter_bracket q h0 (hqr.trans h1) s hs hl
  obtain ⟨i', j', hij', hj', b1, b2, b3, b4, b5⟩ := inter_bracket r (h0.trans hqr) h1 s hs hl
  have hpq : q * ((s.length : ℝ) - 1) ≤ r * ((s.length : ℝ) - 1) := mul_le_mul_of_nonneg_right hqr (by linarith)
  by_cases h : j ≤ i'
  · exact a5.trans ((sorted_le s hs j i' h (by omega)).trans b4)
  · have e1 : ⌊q * ((s.length : ℝ) - 1)⌋₊ = i := (Nat.floor_eq_iff (by linarith [Nat.cast_nonneg (α := ℝ) i])).2 ⟨a1, a2⟩
    have e2 : ⌊r * ((s.length : ℝ) - 1)⌋₊ = i' := (Nat.floor_eq_iff (by linarith [Nat.cast_nonneg (α := ℝ) i'])).2 ⟨b1, b2⟩
    have h' : i = i' := by
      have h3 : (j : ℝ) < i + 2 := by linarith
      have h3' : j < i + 2 := by exact_mod_cast h3
      have h4 : (i : ℝ) < i' + 1 := by linarith
      have h4' : i < i' + 1 := by exact_mod_cast h4
      omega
    subst h'
    unfold inter
    rw [e1, e2]
    have := sorted_le s hs i (min (i + 1) (s.length - 1)) (by omega) (by omega)
    nlinarith

/-- The quantile 0.5 is the median. -/
theorem quantile_half (l : List ℝ) : quantile 0.5 l = median l := by
  unfold quantile median mid
  dsimp only
  generalize l.mergeSort (fun a b => decide (a ≤ b)) = s
  by_cases h0 : s.length = 0
  · rw [if_pos h0, if_pos h0]
  · rw [if_neg h0, if_neg h0]
    by_cases h1 : s.length % 2 = 1
    · rw [if_pos h1]
      have e : 0.5 * ((s.length : ℝ) - 1) = ((s.length / 2 : ℕ) : ℝ) := by
        have : ((2 * (s.length / 2) + 1 : ℕ) : ℝ) = (s.length : ℝ) := by congr 1; omega
        push_cast at this
        rw [← this]
        ring
      rw [e, Nat.floor_natCast]
      simp
    · rw [if_neg h1]
      have hk : ∃ k, s.length = 2 * (k + 1) := ⟨s.length / 2 - 1, by omega⟩
      obtain ⟨k, hk⟩ := hk
      rw [hk]
      have e : 0.5 * (((2 * (k + 1) : ℕ) : ℝ) - 1) = k + 1 / 2 := by push_cast; ring
      have ef : ⌊(k : ℝ) + 1 / 2⌋₊ = k := (Nat.floor_eq_iff (by positivity)).2 ⟨by linarith, by linarith⟩
      rw [e, ef]
      have e1 : 2 * (k + 1) / 2 - 1 = k := by omega
      have e2 : 2 * (k + 1) / 2 = k + 1 := by omega
      have e3 : min (k + 1) (2 * (k + 1) - 1) = k + 1 := by omega
      rw [e1, e2, e3]
      congr 1
      ring

theorem count_outside {α : Type*} (l : List α) (f : α → ℝ) (lo hi u v : ℝ) (h1 : lo ≤ u) (h2 : v ≤ hi) :
    l.countP (fun x => decide (¬(lo ≤ f x ∧ f x ≤ hi))) ≤
      l.countP (fun x => decide (f x < u)) + l.countP (fun a => decide ¬(decide (f a ≤ v)) = true) := by
  induction l with
  | nil => simp
  | cons x l ih =>
    simp only [List.countP_cons]
    have : (if decide (¬(lo ≤ f x ∧ f x ≤ hi)) = true then 1 else 0) ≤
        (if decide (f x < u) = true then 1 else 0) + (if decide (¬(decide (f x ≤ v)) = true) = true then 1 else 0) := by
      by_cases u1 : f x < u
      · rw [if_pos (decide_eq_true u1)]
        split_ifs <;> omega
      · by_cases u2 : f x ≤ v
        · have : ¬decide (¬(lo ≤ f x ∧ f x ≤ hi)) = true := by
            push Not at u1
            simp only [decide_eq_true_eq, not_not]
            exact ⟨h1.trans u1, u2.trans h2⟩
          rw [if_neg this]
          omega
        · have : decide (¬(decide (f x ≤ v)) = true) = true := by simpa using u2
          rw [if_pos this]
          split_ifs <;> omega
    omega

theorem count_inside {α : Type*} (l : List α) (f : α → ℝ) (lo hi u v : ℝ) (h1 : u ≤ lo) (h2 : hi ≤ v) (hne : lo < hi) :
    l.countP (fun x => decide (lo < f x ∧ f x < hi)) + l.countP (fun x => decide (f x ≤ u)) +
      l.countP (fun x => decide (v ≤ f x)) ≤ l.length := by
  induction l with
  | nil => simp
  | cons x l ih =>
    simp only [List.countP_cons, List.length_cons]
    have : (if decide (lo < f x ∧ f x < hi) = true then 1 else 0) + (if decide (f x ≤ u) = true then 1 else 0) +
        (if decide (v ≤ f x) = true then 1 else 0) ≤ 1 := by
      by_cases u1 : f x ≤ u
      · have v1 : ¬decide (lo < f x ∧ f x < hi) = true := by
          simp only [decide_eq_true_eq]
          rintro ⟨h, -⟩
          linarith
        have v2 : ¬decide (v ≤ f x) = true := by
          simp only [decide_eq_true_eq]
          intro h
          linarith
        rw [if_neg v1, if_neg v2]
        split_ifs <;> omega
      · have v1 : ¬decide (f x ≤ u) = true := by simpa using u1
        rw [if_neg v1]
        by_cases u2 : v ≤ f x
        · have v2 : ¬decide (lo < f x ∧ f x < hi) = true := by
            simp only [decide_eq_true_eq]
            rintro ⟨-, h⟩
            linarith
          rw [if_neg v2]
          split_ifs <;> omega
        · have v2 : ¬decide (v ≤ f x) = true := by simpa using u2
          rw [if_neg v2]
          split_ifs <;> omega
    omega

/-- A quantile is within the bounds of the samples. -/
theorem quantile_within {α : Type*} (l : List α) (f : α → ℝ) (u v a q : ℝ) (h0 : 0 ≤ q) (h1 : q ≤ 1) (h : ∀ x ∈ l, u ≤ f x ∧ f x ≤ v)
    (ha : quantile q (l.map f) = some a) : u ≤ a ∧ a ≤ v := by
  have hl : l.map f ≠ [] := by
    intro h
    rw [h] at ha
    simp [quantile] at ha
  obtain ⟨s, hp, hs, hq⟩ := quantile_sorted (l.map f) hl
  have hpos : 0 < s.length := by rw [hp.length_eq]; exact List.length_pos_iff.2 hl
  obtain ⟨i, j, hij, hj, -, -, -, a4, a5⟩ := inter_bracket q h0 h1 s hs hpos
  rw [hq] at ha
  injection ha with ha
  subst ha
  have k : ∀ m, m < s.length → u ≤ s.getD m 0 ∧ s.getD m 0 ≤ v := by
    intro m hm
    rw [List.getD_eq_getElem _ _ hm]
    obtain ⟨x, hx, hxe⟩ := List.mem_map.1 (hp.mem_iff.1 (List.getElem_mem hm))
    rw [← hxe]
    exact h x hx
  exact ⟨(k i (by omega)).1.trans a4, a5.trans (k j hj).2⟩

/-- Counting with the quantiles: few samples below the first or above the second, and not too many strictly between. -/
theorem quantile_counts {α : Type*} (l : List α) (hl : l ≠ []) (f : α → ℝ) (q r : ℝ) (h0 : 0 ≤ q) (hqr : q ≤ r) (h1 : r ≤ 1) :
    ∃ lo hi, quantile q (l.map f) = some lo ∧ quantile r (l.map f) = some hi ∧ lo ≤ hi ∧
      (l.countP (fun x => decide (¬(lo ≤ f x ∧ f x ≤ hi))) : ℝ) ≤ (1 - (r - q)) * ((l.length : ℝ) - 1) + 2 ∧
      (l.countP (fun x => decide (lo < f x ∧ f x < hi)) : ℝ) ≤ (r - q) * ((l.length : ℝ) - 1) + 1 := by
  obtain ⟨s, hp, hs, hq⟩ := quantile_sorted (l.map f) (fun h => hl (List.map_eq_nil_iff.1 h))
  have hlen : s.length = l.length := by rw [hp.length_eq, List.length_map]
  have hpos : 0 < s.length := by rw [hlen]; exact List.length_pos_iff.2 hl
  obtain ⟨i, j, hij, hj, a1, a2, a3, a4, a5⟩ := inter_bracket q h0 (hqr.trans h1) s hs hpos
  obtain ⟨i', j', hij', hj', b1, b2, b3, b4, b5⟩ := inter_bracket r (h0.trans hqr) h1 s hs hpos
  refine ⟨_, _, hq q, hq r, inter_mono q r h0 hqr h1 s hs hpos, ?_, ?_⟩
  · have c1 := countP_lt_le s hs j hj
    rw [hp.countP_eq, List.countP_map] at c1
    have c2 := count_le l f s hp hs i' (by omega)
    rw [List.getD_eq_getElem _ _ hj] at a5
    rw [List.getD_eq_getElem _ _ (by omega)] at b4
    have c3 := List.length_eq_countP_add_countP (fun x => decide (f x ≤ s[i'])) (l := l)
    have c4 := count_outside l f (inter q s) (inter r s) s[j] s[i'] a5 b4
    have c1' : l.countP (fun x => decide (f x < s[j])) ≤ j := c1
    have c5 : l.countP (fun x => decide (¬(inter q s ≤ f x ∧ f x ≤ inter r s))) + i' + 1 ≤ j + l.length := by omega
    have c6 : ((l.countP (fun x => decide (¬(inter q s ≤ f x ∧ f x ≤ inter r s))) : ℕ) : ℝ) + i' + 1 ≤ j + l.length := by exact_mod_cast c5
    rw [hlen] at a3 b2
    nlinarith
  · by_cases hne : inter q s < inter r s
    · have c1 := count_le l f s hp hs i (by omega)
      have c2 := count_ge l f s hp hs j' hj'
      rw [List.getD_eq_getElem _ _ (by omega)] at a4
      rw [List.getD_eq_getElem _ _ hj'] at b5
      have c4 := count_inside l f (inter q s) (inter r s) s[i] s[j'] a4 b5 hne
      have c5 : l.countP (fun x => decide (inter q s < f x ∧ f x < inter r s)) + i + 1 ≤ j' := by omega
      have c6 : ((l.countP (fun x => decide (inter q s < f x ∧ f x < inter r s)) : ℕ) : ℝ) + i + 1 ≤ j' := by exact_mod_cast c5
      rw [hlen] at a2 b3
      nlinarith
    · have : l.countP (fun x => decide (inter q s < f x ∧ f x < inter r s)) = 0 := by
        rw [List.countP_eq_zero]
        intro x _
        simp only [decide_eq_true_eq]
        rintro ⟨u, v⟩
        exact hne (u.trans v)
      rw [this]
      have hn : (1 : ℝ) ≤ l.length := by rw [← hlen]; exact_mod_cast hpos
      have : 0 ≤ (r - q) * ((l.length : ℝ) - 1) := mul_nonneg (by linarith) (by linarith)
      push_cast
      linarith

/-! ## C269 -/

/-- The sample `s` of parameter `x` is within the error bars. An angle (bounds 0 and 180) is the same after half a turn. -/
def Near (x : String × ℝ × ℝ) (e : Entry) (s : ℝ) : Prop :=
  ∃ k : ℤ, (k ≠ 0 → x.2 = (0, 180)) ∧ e.value - e.minus ≤ s + 180 * k ∧ s + 180 * k ≤ e.value + e.plus

/-- The sample is strictly within the error bars. -/
def Inside (x : String × ℝ × ℝ) (e : Entry) (s : ℝ) : Prop :=
  ∃ k : ℤ, (k ≠ 0 → x.2 = (0, 180)) ∧ e.value - e.minus < s + 180 * k ∧ s + 180 * k < e.value + e.plus

/-- The columns after the rotation. -/
theorem rotated_columns (b : Bounds) (S : List Dict) :
    ∃ new, rotateCols (parsOf b) (colsOf b S) = some new ∧ ∀ i, (hi : i < b.length) →
      ((Rotates (parsOf b) (colsOf b S) i → (b[i]).2 = (0, 180) ∧ samplesOf (parsOf b) new i = S.map fun s => rotSample (s (b[i]).1)) ∧
      (¬Rotates (parsOf b) (colsOf b S) i → samplesOf (parsOf b) new i = S.map fun s => s (b[i]).1)) := by
  classical
  have hlen : (parsOf b).length = b.length := by simp [parsOf]
  obtain ⟨new, h1, -, h3⟩ := foldlM_rotate ((List.range (parsOf b).length).filter fun i => decide (Rotates (parsOf b) (colsOf b S) i))
    (List.nodup_range.filter _) (colsOf b S) (fun i hi => by
      have := (List.mem_filter.1 hi).1
      rw [List.mem_range, hlen] at this
      simpa [colsOf] using this)
  refine ⟨new, by unfold rotateCols; convert h1, fun i hi => ?_⟩
  have hf : freePos (parsOf b) i = i := by
    unfold freePos
    have : ((parsOf b).take i).filter Par.isFree = (parsOf b).take i := by
      rw [List.filter_eq_self]
      intro p hp
      obtain ⟨x, -, rfl⟩ := List.mem_map.1 (List.mem_of_mem_take hp)
      rfl
    rw [this, List.length_take]
    omega
  have hc : (colsOf b S).getD i [] = S.map fun s => s (b[i]).1 := by
    have := samples_eq b S i hi
    unfold samplesOf at this
    rwa [hf] at this
  have hm : i ∈ ((List.range (parsOf b).length).filter fun i => decide (Rotates (parsOf b) (colsOf b S) i)) ↔ Rotates (parsOf b) (colsOf b S) i := by
    simp [hlen, hi]
  constructor
  · intro hr
    constructor
    · obtain ⟨p, m, hp, ha, -⟩ := hr
      have : p = ⟨(b[i]).1, .free (b[i]).2.1 (b[i]).2.2 (decide ((b[i]).1.toList.take 3 = ['p', 's', 'i']))⟩ := by
        rw [List.getElem?_eq_getElem (by omega)] at hp
        injection hp with hp
        rw [← hp]
        simp [parsOf]
      subst this
      obtain ⟨-, e0, e1, -⟩ := ha
      exact Prod.ext e0 e1
    · unfold samplesOf
      rw [hf, h3, if_pos (hm.2 hr), hc, List.map_map]
      rfl
  · intro hr
    unfold samplesOf
    rw [hf, h3, if_neg (fun h => hr (hm.1 h)), hc]

/-- **C269**. The error bars of every parameter are not negative, at most 32 % of the samples are outside them, and at most 68 % are strictly within
them (up to one or two samples, as they are interpolated between samples); angles count modulo 180 degrees. -/
theorem bars (b : Bounds) (S : List Dict) (hS : S ≠ []) (hw : ∀ s ∈ S, Within b s) :
    ∃ out, barRun b S = some out ∧ ∀ i, (hi : i < b.length) → ∃ e, out i = some e ∧ 0 ≤ e.plus ∧ 0 ≤ e.minus ∧
      open Classical in
      ((S.countP fun s => decide (¬Near b[i] e (s (b[i]).1))) : ℝ) ≤ 0.32 * ((S.length : ℝ) - 1) + 2 ∧
      ((S.countP fun s => decide (Inside b[i] e (s (b[i]).1))) : ℝ) ≤ 0.68 * ((S.length : ℝ) - 1) + 1 := by
  classical
  obtain ⟨new, h1, h2⟩ := rotated_columns b S
  unfold barRun
  rw [h1]
  refine ⟨_, rfl, fun i hi => ?_⟩
  have gen : ∀ f : Dict → ℝ, ∃ lo m hi, summary (S.map f) = some ⟨m, hi - m, m - lo⟩ ∧ lo ≤ m ∧ m ≤ hi ∧
      quantile 0.16 (S.map f) = some lo ∧ quantile 0.84 (S.map f) = some hi ∧
      (S.countP (fun x => decide (¬(lo ≤ f x ∧ f x ≤ hi))) : ℝ) ≤ 0.32 * ((S.length : ℝ) - 1) + 2 ∧
      (S.countP (fun x => decide (lo < f x ∧ f x < hi)) : ℝ) ≤ 0.68 * ((S.length : ℝ) - 1) + 1 := by
    intro f
    obtain ⟨lo, m, e1, e2, e3, -, -⟩ := quantile_counts S hS f 0.16 0.5 (by norm_num) (by norm_num) (by norm_num)
    obtain ⟨m', hi, f1, f2, f3, -, -⟩ := quantile_counts S hS f 0.5 0.84 (by norm_num) (by norm_num) (by norm_num)
    obtain ⟨lo', hi', g1, g2, -, g4, g5⟩ := quantile_counts S hS f 0.16 0.84 (by norm_num) (by norm_num) (by norm_num)
    rw [e2] at f1
    rw [e1] at g1
    rw [f2] at g2
    cases f1; cases g1; cases g2
    refine ⟨lo, m, hi, ?_, e3, f3, e1, f2, g4.trans (by norm_num), g5.trans (by norm_num)⟩
    unfold summary
    rw [e1, e2, f2]
    rfl
  have hmem : b[i] ∈ b := List.getElem_mem hi
  unfold entry
  by_cases hr : Rotates (parsOf b) (colsOf b S) i
  · obtain ⟨hx, hc⟩ := (h2 i hi).1 hr
    obtain ⟨lo, m, hi', e, l1, l2, q1, q2, c1, c2⟩ := gen fun s => rotSample (s (b[i]).1)
    dsimp only
    rw [hc, e]
    simp only [Option.map_some, if_pos hr]
    refine ⟨_, rfl, by dsimp only; linarith, by dsimp only; linarith, ?_, ?_⟩
    · refine le_trans ?_ c1
      refine Nat.cast_le.2 (List.countP_mono_left fun s _ hs => ?_)
      simp only [decide_eq_true_eq] at hs ⊢
      intro hh
      refine hs ?_
      unfold rotSample at hh
      have hcases : ∃ k : ℤ, s (b[i]).1 + 90 + 180 * k = s (b[i]).1 + 90 - (if 180 ≤ s (b[i]).1 + 90 then 180 else 0) := by
        split_ifs
        · exact ⟨-1, by push_cast; ring⟩
        · exact ⟨0, by push_cast; ring⟩
      obtain ⟨k, hk⟩ := hcases
      rw [← hk] at hh
      by_cases hneg : m - 90 < 0
      · refine ⟨k + 1, fun _ => hx, ?_, ?_⟩ <;> simp only [if_pos hneg] <;> push_cast <;> linarith [hh.1, hh.2]
      · refine ⟨k, fun _ => hx, ?_, ?_⟩ <;> simp only [if_neg hneg] <;> linarith [hh.1, hh.2]
    · refine le_trans ?_ c2
      refine Nat.cast_le.2 (List.countP_mono_left fun s hsS hs => ?_)
      simp only [decide_eq_true_eq] at hs ⊢
      have hs0 := hw s hsS _ hmem
      rw [hx] at hs0
      dsimp only at hs0
      have hrot : ∀ s ∈ S, 0 ≤ rotSample (s (b[i]).1) ∧ rotSample (s (b[i]).1) ≤ 180 := by
        intro s hs
        have := hw s hs _ hmem
        rw [hx] at this
        dsimp only at this
        unfold rotSample
        split_ifs <;> constructor <;> linarith [this.1, this.2]
      have w1 := (quantile_within S _ 0 180 lo 0.16 (by norm_num) (by norm_num) hrot q1).1
      have w2 := (quantile_within S _ 0 180 hi' 0.84 (by norm_num) (by norm_num) hrot q2).2
      have hk : ∃ k : ℤ, lo < s (b[i]).1 + 90 + 180 * k ∧ s (b[i]).1 + 90 + 180 * k < hi' := by
        obtain ⟨k, -, k1, k2⟩ := hs
        by_cases hneg : m - 90 < 0
        · simp only [if_pos hneg] at k1 k2
          exact ⟨k - 1, by push_cast; linarith, by push_cast; linarith⟩
        · simp only [if_neg hneg] at k1 k2
          exact ⟨k, by linarith, by linarith⟩
      obtain ⟨k, k1, k2⟩ := hk
      unfold rotSample
      by_cases hge : 180 ≤ s (b[i]).1 + 90
      · rw [if_pos hge]
        have : k = -1 := by
          have u1 : (-2 : ℝ) < k := by linarith
          have u2 : (k : ℝ) < 0 := by linarith
          have u1' : -2 < k := by exact_mod_cast u1
          have u2' : k < 0 := by exact_mod_cast u2
          omega
        subst this
        push_cast at k1 k2
        constructor <;> linarith
      · rw [if_neg hge]
        have : k = 0 := by
          have u1 : (-1 : ℝ) < k := by linarith
          have u2 : (k : ℝ) < 1 := by linarith
          have u1' : -1 < k := by exact_mod_cast u1
          have u2' : k < 1 := by exact_mod_cast u2
          omega
        subst this
        push_cast at k1 k2
        constructor <;> linarith
  · have hc := (h2 i hi).2 hr
    obtain ⟨lo, m, hi', e, l1, l2, q1, q2, c1, c2⟩ := gen fun s => s (b[i]).1
    dsimp only
    rw [hc, e]
    simp only [Option.map_some, if_neg hr]
    refine ⟨_, rfl, by dsimp only; linarith, by dsimp only; linarith, ?_, ?_⟩
    · refine le_trans ?_ c1
      refine Nat.cast_le.2 (List.countP_mono_left fun s _ hs => ?_)
      simp only [decide_eq_true_eq] at hs ⊢
      intro hh
      exact hs ⟨0, fun h => absurd rfl h, by push_cast; linarith [hh.1], by push_cast; linarith [hh.2]⟩
    · refine le_trans ?_ c2
      refine Nat.cast_le.2 (List.countP_mono_left fun s hsS hs => ?_)
      simp only [decide_eq_true_eq] at hs ⊢
      obtain ⟨k, k0, k1, k2⟩ := hs
      have : k = 0 := by
        by_contra hne
        have hx := k0 hne
        have hall : ∀ s ∈ S, 0 ≤ s (b[i]).1 ∧ s (b[i]).1 ≤ 180 := by
          intro s hs
          have := hw s hs _ hmem
          rw [hx] at this
          exact this
        have w1 := (quantile_within S _ 0 180 lo 0.16 (by norm_num) (by norm_num) hall q1).1
        have w2 := (quantile_within S _ 0 180 hi' 0.84 (by norm_num) (by norm_num) hall q2).2
        have := hall s hsS
        dsimp only at k1 k2
        have u1 : (-1 : ℝ) < k := by linarith [this.1, this.2]
        have u2 : (k : ℝ) < 1 := by linarith [this.1, this.2]
        have u1' : -1 < k := by exact_mod_cast u1
        have u2' : k < 1 := by exact_mod_cast u2
        omega
      subst this
      push_cast at k1 k2
      constructor <;> linarith

/-- C269: the value with the error bars is the value of C268. -/
theorem bars_value (b : Bounds) (S : List Dict) (hS : S ≠ []) :
    ∃ new, rotateCols (parsOf b) (colsOf b S) = some new ∧ ∀ i < b.length,
      (entry (parsOf b) (colsOf b S) new i).map Entry.value = reported (parsOf b) (colsOf b S) new i := by
  classical
  obtain ⟨new, h1, h2⟩ := rotated_columns b S
  refine ⟨new, h1, fun i hi => ?_⟩
  have hcol : ∃ f : Dict → ℝ, samplesOf (parsOf b) new i = S.map f := by
    by_cases hr : Rotates (parsOf b) (colsOf b S) i
    · exact ⟨_, ((h2 i hi).1 hr).2⟩
    · exact ⟨_, (h2 i hi).2 hr⟩
  obtain ⟨f, hf⟩ := hcol
  obtain ⟨lo, m, e1, e2, -⟩ := quantile_counts S hS f 0.16 0.5 (by norm_num) (by norm_num) (by norm_num)
  obtain ⟨m', hi', f1, f2, -⟩ := quantile_counts S hS f 0.5 0.84 (by norm_num) (by norm_num) (by norm_num)
  have hm := e2
  rw [quantile_half] at hm
  have hp : ((parsOf b)[i]?).map Par.prior = some (.free (b[i]).2.1 (b[i]).2.2 (decide ((b[i]).1.toList.take 3 = ['p', 's', 'i']))) := by
    rw [List.getElem?_eq_getElem (by simpa [parsOf] using hi)]
    simp [parsOf]
  unfold entry reported summary
  rw [hp, hf, e1, e2, f2, hm]
  simp only [Option.bind_some, Option.map_some]
  by_cases hr : Rotates (parsOf b) (colsOf b S) i
  · rw [if_pos hr, if_pos hr]
  · rw [if_neg hr, if_neg hr]

/-- C269: the hypotheses are met, e.g. by an angle that is spread around zero. -/
theorem bars_case : ∃ S : List Dict, S.length = 2 ∧ ∀ s ∈ S, Within bounds1 s := by
  refine ⟨[fun k => if k = "psi0_deg" then 179 else 0, fun k => if k = "psi0_deg" then 1 else 0], rfl, ?_⟩
  intro s hs x hx
  simp only [List.mem_cons, List.not_mem_nil, or_false] at hs
  simp only [bounds1, List.mem_cons, List.not_mem_nil, or_false] at hx
  rcases hs with rfl | rfl <;> rcases hx with rfl | rfl | rfl <;> simp <;> norm_num

end Verif.QU.Bars
