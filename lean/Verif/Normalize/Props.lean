import Verif.Normalize.Model
import Mathlib.Topology.Order.IntermediateValue
import Mathlib.Analysis.SpecialFunctions.Pow.Continuity

/-!
# The colour normalisation is invertible on its range (C63)
-/

namespace Verif.Normalize

/-- The parameters for which the stretch makes sense. The midpoint of a given `vmid` is
`(vmid - vmin) / (vmax - vmin)`: for `log` the condition says that `vmid` is above `vmin` or below
`2 vmin - vmax`, for `arcsinh` that it is not `vmin`. -/
def Admissible (n : Norm) : Prop :=
  match n.stretch with
  | .linear => True
  | .log => ∃ m, n.midpoint = some m ∧ (0 < m ∨ m < -1)
  | .sqrt => True
  | .arcsinh => ∃ m, n.midpoint = some m ∧ m ≠ 0
  | .power => ∃ e, n.exponent = some e ∧ 0 < e
  | .other => False

/-! ### The stretch functions on the unit interval -/

theorem logStretch_mono (m : ℝ) (hm : 0 < m ∨ m < -1) :
    StrictMonoOn (fun r => Real.logb 10 (r / m + 1) / Real.logb 10 (1 / m + 1)) (Set.Icc 0 1) := by
  intro r hr s hs hrs
  obtain ⟨hr0, hr1⟩ := hr
  obtain ⟨hs0, hs1⟩ := hs
  simp only [Real.logb]
  have h10 : 0 < Real.log 10 := Real.log_pos (by norm_num)
  rcases hm with hm | hm
  · have hd : 0 < Real.log (1 / m + 1) := Real.log_pos (by have : 0 < 1 / m := by positivity
                                                           linarith)
    have h1 : 0 < r / m + 1 := by have : 0 ≤ r / m := by positivity
                                  linarith
    have h2 : Real.log (r / m + 1) < Real.log (s / m + 1) := by
      apply Real.log_lt_log h1
      have := (div_lt_div_iff_of_pos_right hm).2 hrs
      linarith
    gcongr
  · have hm0 : m < 0 := by linarith
    have h1m : 0 < 1 / m + 1 := by
      have : -1 < 1 / m := by rw [lt_div_iff_of_neg hm0]; linarith
      linarith
    have hd : Real.log (1 / m + 1) < 0 := Real.log_neg h1m (by
      have : 1 / m < 0 := by rw [one_div]; exact inv_lt_zero.2 hm0
      linarith)
    have hsm : 0 < s / m + 1 := by
      have : -1 < s / m := by rw [lt_div_iff_of_neg hm0]; linarith
      linarith
    have h2 : Real.log (s / m + 1) < Real.log (r / m + 1) := by
      apply Real.log_lt_log hsm
      have := div_lt_div_of_neg_of_lt hm0 hrs
      linarith
    have hd' : Real.log (1 / m + 1) / Real.log 10 < 0 := div_neg_of_neg_of_pos hd h10
    apply div_lt_div_of_neg_of_lt hd'
    gcongr

theorem arsinhStretch_eq (m r : ℝ) :
    Real.arsinh (r / m) / Real.arsinh (1 / m) = Real.arsinh (r / -m) / Real.arsinh (1 / -m) := by
  have h : ∀ t : ℝ, t / m = -(t / -m) := fun t => by rw [div_neg, neg_neg]
  rw [h r, h 1, Real.arsinh_neg, Real.arsinh_neg, neg_div_neg_eq]

theorem arsinhStretch_mono (m : ℝ) (hm : m ≠ 0) :
    StrictMono (fun r => Real.arsinh (r / m) / Real.arsinh (1 / m)) := by
  have key : ∀ m : ℝ, 0 < m → StrictMono (fun r => Real.arsinh (r / m) / Real.arsinh (1 / m)) := by
    intro m hm r s hrs
    have hd : 0 < Real.arsinh (1 / m) := Real.arsinh_pos_iff.2 (by positivity)
    have := (div_lt_div_iff_of_pos_right hm).2 hrs
    have := Real.arsinh_strictMono this
    dsimp only
    gcongr
  rcases lt_or_gt_of_ne hm with h | h
  · intro r s hrs
    have := key (-m) (by linarith) hrs
    dsimp only at this ⊢
    rwa [arsinhStretch_eq m r, arsinhStretch_eq m s]
  · exact key m h

/-- An admissible stretch is a strictly increasing continuous function from 0 to 1, undone by
`unstretch`. -/
theorem stretch_exists (n : Norm) (h : Admissible n) : ∃ f : ℝ → ℝ,
    StrictMonoOn f (Set.Icc 0 1) ∧ ContinuousOn f (Set.Icc 0 1) ∧ f 0 = 0 ∧ f 1 = 1 ∧
    ∀ r ∈ Set.Icc (0 : ℝ) 1, stretchOne n r = .ok (some (f r)) ∧ unstretch n (f r) = .ok (some r) := by
  unfold Admissible at h
  unfold stretchOne unstretch
  split at h
  · rename_i hs
    rw [hs]
    exact ⟨id, fun _ _ _ _ h => h, continuousOn_id, rfl, rfl, fun r _ => ⟨rfl, rfl⟩⟩
  · rename_i hs
    obtain ⟨m, hm, hm'⟩ := h
    have hm0 : m ≠ 0 := by rintro rfl; rcases hm' with h | h <;> linarith
    rw [hs, hm]
    simp only [hm0, if_false]
    have hpos : ∀ r ∈ Set.Icc (0 : ℝ) 1, 0 < r / m + 1 := by
      intro r hr
      rcases hm' with h | h
      · have : 0 ≤ r / m := div_nonneg hr.1 h.le
        linarith
      · have hm1 : m < 0 := by linarith
        have : -1 < r / m := by rw [lt_div_iff_of_neg hm1]; linarith [hr.2]
        linarith
    have h1 : 0 < 1 / m + 1 := hpos 1 ⟨by norm_num, le_refl _⟩
    have hl : Real.logb 10 (1 / m + 1) ≠ 0 := by
      apply Real.logb_ne_zero_of_pos_of_ne_one (by norm_num) h1
      intro hh
      have : 1 / m = 0 := by linarith
      exact hm0 (by simpa using this)
    refine ⟨_, logStretch_mono m hm', ?_, by simp, div_self hl, fun r hr => ⟨?_, ?_⟩⟩
    · apply ContinuousOn.div_const
      simp only [Real.logb]
      apply ContinuousOn.div_const
      apply ContinuousOn.log
      · fun_prop
      · intro r hr
        exact (hpos r hr).ne'
    · have h1' : 0 < m⁻¹ + 1 := by simpa using h1
      have hl' : Real.logb 10 (m⁻¹ + 1) ≠ 0 := by simpa using hl
      simp [maLog10, hpos r hr, h1', maDiv, hl']
    · have h1' : 0 < m⁻¹ + 1 := by simpa using h1
      have hl' : Real.logb 10 (m⁻¹ + 1) ≠ 0 := by simpa using hl
      simp only [maLog10, one_div, h1', if_true, Option.map_some]
      rw [div_mul_cancel₀ _ hl', Real.rpow_logb (by norm_num) (by norm_num) (hpos r hr)]
      congr 2
      field_simp
      ring
  · rename_i hs
    rw [hs]
    refine ⟨Real.sqrt, ?_, Real.continuous_sqrt.continuousOn, by simp, by simp, fun r hr => ⟨?_, ?_⟩⟩
    · intro r hr s hs hrs
      exact Real.sqrt_lt_sqrt hr.1 hrs
    · simp [maSqrt, not_lt.2 hr.1]
    · simp [Real.mul_self_sqrt hr.1]
  · rename_i hs
    obtain ⟨m, hm, hm'⟩ := h
    rw [hs, hm]
    simp only [hm', if_false]
    have hl : Real.arsinh (1 / m) ≠ 0 := by
      rw [Ne, Real.arsinh_eq_zero_iff]
      simpa using hm'
    refine ⟨_, (arsinhStretch_mono m hm').strictMonoOn _, ?_, by simp, div_self hl,
      fun r hr => ⟨?_, ?_⟩⟩
    · apply ContinuousOn.div_const
      exact (Real.continuous_arsinh.comp (continuous_id.div_const m)).continuousOn
    · simp only [maDiv, hl, if_false]
    · rw [div_mul_cancel₀ _ hl, Real.sinh_arsinh]
      congr 2
      field_simp
  · rename_i hs
    obtain ⟨e, he, he'⟩ := h
    rw [hs, he]
    simp only [he'.ne', if_false]
    refine ⟨fun r => r ^ e, ?_, ?_, by simp [he'.ne'], by simp, fun r hr => ⟨?_, ?_⟩⟩
    · intro r hr s hs hrs
      exact Real.rpow_lt_rpow hr.1 hrs he'
    · exact continuousOn_id.rpow_const fun x _ => Or.inr he'.le
    · simp [maPower, not_lt.2 hr.1, not_lt.2 he'.le]
    · have h1 : ¬ r ^ e < 0 := not_lt.2 (Real.rpow_nonneg hr.1 e)
      have h2 : ¬ 1 / e < 0 := not_lt.2 (by positivity)
      simp only [maPower, h1, h2, false_and, and_false, if_false]
      rw [← Real.rpow_mul hr.1, mul_one_div_cancel he'.ne', Real.rpow_one]
  · exact h.elim

/-! ### Calls -/

theorem autoscale_set (n : Norm) (lo hi : ℝ) (h1 : n.vmin = some lo) (h2 : n.vmax = some hi)
    (xs : List ℝ) : autoscale n xs = n := by
  cases n
  simp_all [autoscale]

theorem mapM_ok {α β : Type} (g : α → Except Err β) (f : α → β) (xs : List α)
    (h : ∀ x ∈ xs, g x = .ok (f x)) : xs.mapM g = .ok (xs.map f) := by
  induction xs with
  | nil => rfl
  | cons a l ih =>
    rw [List.mapM_cons, h a (by simp), ih fun x hx => h x (by simp [hx])]
    rfl

theorem call_eq (n : Norm) (lo hi : ℝ) (h1 : n.vmin = some lo) (h2 : n.vmax = some hi) (hlt : lo < hi)
    (xs : List ℝ) (clip : Option Bool) (f : ℝ → Option ℝ)
    (h : ∀ x ∈ xs, callOne n lo hi (clip.getD n.clip) x = .ok (f x)) :
    call n xs clip = .ok (n, xs.map f) := by
  have ha := autoscale_set n lo hi h1 h2 xs
  simp only [call, ha, h1, h2, not_lt.2 hlt.le, hlt.ne, if_false]
  rw [mapM_ok _ f xs h]
  rfl

theorem clip_inside (x lo hi : ℝ) (h1 : lo ≤ x) (h2 : x ≤ hi) : npClip x lo hi = x := by
  simp [npClip, h1, h2]

/-- The position of a value in the range. -/
theorem unit_mem (x lo hi : ℝ) (hlt : lo < hi) (h1 : lo ≤ x) (h2 : x ≤ hi) :
    (x - lo) * (1 / (hi - lo)) ∈ Set.Icc (0 : ℝ) 1 := by
  have h : 0 < hi - lo := by linarith
  rw [mul_one_div]
  constructor
  · exact div_nonneg (by linarith) h.le
  · rw [div_le_one h]
    linarith

/-- **C63**, first half. `inverse` undoes the call for every array of values in `[vmin, vmax]`, whose
images are in `[0, 1]`; clipping or not makes no difference. -/
theorem inverse_call (n : Norm) (lo hi : ℝ) (h1 : n.vmin = some lo) (h2 : n.vmax = some hi)
    (hlt : lo < hi) (ha : Admissible n) (clip : Option Bool) (xs : List ℝ)
    (hx : ∀ x ∈ xs, lo ≤ x ∧ x ≤ hi) :
    ∃ ys : List ℝ, call n xs clip = .ok (n, ys.map some) ∧
      List.Forall₂ (fun x y => 0 ≤ y ∧ y ≤ 1 ∧ inverse n y = .ok (some x)) xs ys := by
  obtain ⟨f, hmono, -, hf0, hf1, hf⟩ := stretch_exists n ha
  refine ⟨xs.map fun x => f ((x - lo) * (1 / (hi - lo))), ?_, ?_⟩
  · rw [call_eq n lo hi h1 h2 hlt xs clip fun x => some (f ((x - lo) * (1 / (hi - lo))))]
    · simp [List.map_map, Function.comp_def]
    · intro x hxm
      obtain ⟨ha, hb⟩ := hx x hxm
      have : (if clip.getD n.clip then npClip x lo hi else x) = x := by
        split
        · exact clip_inside x lo hi ha hb
        · rfl
      rw [callOne, this]
      exact (hf _ (unit_mem x lo hi hlt ha hb)).1
  · rw [List.forall₂_map_right_iff, List.forall₂_same]
    intro x hxm
    obtain ⟨ha, hb⟩ := hx x hxm
    have hm := unit_mem x lo hi hlt ha hb
    refine ⟨?_, ?_, ?_⟩
    · rw [← hf0]
      exact hmono.monotoneOn ⟨le_refl _, by norm_num⟩ hm hm.1
    · exact (hmono.monotoneOn hm ⟨by norm_num, le_refl _⟩ hm.2).trans_eq hf1
    · have h : hi - lo ≠ 0 := by linarith
      simp only [inverse, h1, h2, (hf _ hm).2]
      simp only [Except.map, Option.map_some]
      congr 2
      field_simp
      ring

/-- **C63**, second half. The call is strictly increasing, takes `vmin` to 0 and `vmax` to 1, and every
number in between is the image of what `inverse` returns for it. -/
theorem call_increasing_onto (n : Norm) (lo hi : ℝ) (h1 : n.vmin = some lo) (h2 : n.vmax = some hi)
    (hlt : lo < hi) (ha : Admissible n) (clip : Option Bool) :
    (∀ x x', lo ≤ x → x < x' → x' ≤ hi →
      ∃ y y', call n [x, x'] clip = .ok (n, [some y, some y']) ∧ y < y') ∧
    call n [lo, hi] clip = .ok (n, [some 0, some 1]) ∧
    ∀ y, 0 ≤ y → y ≤ 1 → ∃ x, lo ≤ x ∧ x ≤ hi ∧ inverse n y = .ok (some x) ∧
      call n [x] clip = .ok (n, [some y]) := by
  obtain ⟨f, hmono, hcont, hf0, hf1, hf⟩ := stretch_exists n ha
  have hone : ∀ x, lo ≤ x → x ≤ hi → callOne n lo hi (clip.getD n.clip) x =
      .ok (some (f ((x - lo) * (1 / (hi - lo))))) := by
    intro x ha hb
    have : (if clip.getD n.clip then npClip x lo hi else x) = x := by
      split
      · exact clip_inside x lo hi ha hb
      · rfl
    rw [callOne, this]
    exact (hf _ (unit_mem x lo hi hlt ha hb)).1
  have hd : 0 < hi - lo := by linarith
  refine ⟨?_, ?_, ?_⟩
  · intro x x' hx hxx hx'
    refine ⟨f ((x - lo) * (1 / (hi - lo))), f ((x' - lo) * (1 / (hi - lo))), ?_, ?_⟩
    · rw [call_eq n lo hi h1 h2 hlt [x, x'] clip fun x => some (f ((x - lo) * (1 / (hi - lo))))]
      · simp
      · intro z hz
        simp only [List.mem_cons, List.not_mem_nil, or_false] at hz
        rcases hz with rfl | rfl
        · exact hone _ hx (by linarith)
        · exact hone _ (by linarith) hx'
    · apply hmono (unit_mem x lo hi hlt hx (by linarith)) (unit_mem x' lo hi hlt (by linarith) hx')
      rw [mul_one_div, mul_one_div]
      gcongr
  · rw [call_eq n lo hi h1 h2 hlt [lo, hi] clip fun x => some (f ((x - lo) * (1 / (hi - lo))))]
    · simp [hf0, mul_inv_cancel₀ hd.ne', hf1]
    · intro z hz
      simp only [List.mem_cons, List.not_mem_nil, or_false] at hz
      rcases hz with rfl | rfl
      · exact hone _ (le_refl _) hlt.le
      · exact hone _ hlt.le (le_refl _)
  · intro y hy0 hy1
    obtain ⟨r, hr, hfr⟩ : y ∈ f '' Set.Icc 0 1 := by
      apply intermediate_value_Icc (by norm_num : (0 : ℝ) ≤ 1) hcont
      rw [hf0, hf1]
      exact ⟨hy0, hy1⟩
    have hlo : lo ≤ lo + r * (hi - lo) := by have := mul_nonneg hr.1 hd.le; linarith
    have hhi : lo + r * (hi - lo) ≤ hi := by
      have := mul_le_mul_of_nonneg_right hr.2 hd.le
      linarith
    have hxr : (lo + r * (hi - lo) - lo) * (1 / (hi - lo)) = r := by
      field_simp
      ring
    refine ⟨lo + r * (hi - lo), hlo, hhi, ?_, ?_⟩
    · have := (hf r hr).2
      rw [hfr] at this
      simp only [inverse, h1, h2, this]
      rfl
    · rw [call_eq n lo hi h1 h2 hlt [lo + r * (hi - lo)] clip
        fun x => some (f ((x - lo) * (1 / (hi - lo))))]
      · rw [List.map_singleton, hxr, hfr]
      · intro z hz
        rw [List.mem_singleton] at hz
        subst hz
        exact hone _ hlo hhi

/-- The parameters must be admissible: with any others the lower end of the range is not recovered (an
exception or a masked value). -/
theorem admissible_of_inverse_call (n : Norm) (lo hi : ℝ) (h1 : n.vmin = some lo)
    (h2 : n.vmax = some hi) (hlt : lo < hi) (y : ℝ) (hc : call n [lo] none = .ok (n, [some y]))
    (hi' : inverse n y = .ok (some lo)) : Admissible n := by
  have hs : stretchOne n 0 = .ok (some y) := by
    have ha := autoscale_set n lo hi h1 h2 [lo]
    simp only [call, ha, h1, h2, not_lt.2 hlt.le, hlt.ne, if_false, List.mapM_cons, List.mapM_nil,
      callOne, Option.getD_none, clip_inside lo lo hi (le_refl _) hlt.le, ite_self, sub_self,
      zero_mul] at hc
    revert hc
    cases h : stretchOne n 0 with
    | error e => intro hc; cases hc
    | ok o =>
      intro hc
      simpa [Except.map, bind, Except.bind, pure, Except.pure] using hc
  have hu : ∃ o, unstretch n y = .ok (some o) := by
    simp only [inverse, h1, h2] at hi'
    revert hi'
    cases h : unstretch n y with
    | error e => intro hc; cases hc
    | ok o =>
      cases o with
      | none => intro hc; simp [Except.map] at hc
      | some o => intro _; exact ⟨o, rfl⟩
  obtain ⟨o, hu⟩ := hu
  unfold Admissible
  unfold stretchOne at hs
  unfold unstretch at hu
  split
  · trivial
  · rename_i hst
    rw [hst] at hs hu
    cases hm : n.midpoint with
    | none => rw [hm] at hs; cases hs
    | some m =>
      refine ⟨m, rfl, ?_⟩
      rw [hm] at hs hu
      by_cases h0 : m = 0
      · simp [h0] at hs
      · simp only [h0, if_false] at hu
        by_contra hcon
        push Not at hcon
        obtain ⟨hm1, hm2⟩ := hcon
        have hm1 : m < 0 := lt_of_le_of_ne hm1 h0
        have : ¬ 0 < 1 / m + 1 := by
          have : 1 / m ≤ -1 := by rw [div_le_iff_of_neg hm1]; linarith
          linarith
        simp only [maLog10, this, if_false] at hu
        simp at hu
  · trivial
  · rename_i hst
    rw [hst] at hs
    cases hm : n.midpoint with
    | none => rw [hm] at hs; cases hs
    | some m =>
      refine ⟨m, rfl, ?_⟩
      rintro rfl
      rw [hm] at hs
      simp at hs
  · rename_i hst
    rw [hst] at hs hu
    cases he : n.exponent with
    | none => rw [he] at hs; cases hs
    | some e =>
      refine ⟨e, rfl, ?_⟩
      rw [he] at hs hu
      by_contra hcon
      rcases lt_or_eq_of_le (not_lt.1 hcon) with h | h
      · simp [maPower, h] at hs
      · simp [h] at hu
  · rename_i hst
    rw [hst] at hs
    cases hs

/-- **C63**, clipping. A value outside the range gets the colour of the nearer end: below `vmin` 0, above
`vmax` 1. -/
theorem call_clip (n : Norm) (lo hi : ℝ) (h1 : n.vmin = some lo) (h2 : n.vmax = some hi)
    (hlt : lo < hi) (ha : Admissible n) (x : ℝ) :
    (x ≤ lo → call n [x] (some true) = .ok (n, [some 0])) ∧
    (hi ≤ x → call n [x] (some true) = .ok (n, [some 1])) := by
  obtain ⟨f, hmono, hcont, hf0, hf1, hf⟩ := stretch_exists n ha
  have hd : 0 < hi - lo := by linarith
  constructor
  · intro hx
    have hc : npClip x lo hi = lo := by simp [npClip, hx, hlt.le]
    rw [call_eq n lo hi h1 h2 hlt [x] (some true) fun _ => some 0]
    · rfl
    · intro z hz
      rw [List.mem_singleton] at hz
      subst hz
      simp only [callOne, Option.getD_some, if_true, hc, sub_self, zero_mul]
      rw [(hf 0 ⟨le_refl _, by norm_num⟩).1, hf0]
  · intro hx
    have hc : npClip x lo hi = hi := by simp [npClip, hx]
    rw [call_eq n lo hi h1 h2 hlt [x] (some true) fun _ => some 1]
    · rfl
    · intro z hz
      rw [List.mem_singleton] at hz
      subst hz
      simp only [callOne, Option.getD_some, if_true, hc]
      rw [mul_one_div_cancel hd.ne', (hf 1 ⟨by norm_num, le_refl _⟩).1, hf1]

theorem foldl_min_le (l : List ℝ) (a : ℝ) : l.foldl min a ≤ a ∧ ∀ x ∈ l, l.foldl min a ≤ x := by
  induction l generalizing a with
  | nil => simp
  | cons b l ih =>
    obtain ⟨h1, h2⟩ := ih (min a b)
    refine ⟨h1.trans (min_le_left _ _), ?_⟩
    intro x hx
    rcases List.mem_cons.1 hx with rfl | hx
    · exact h1.trans (min_le_right _ _)
    · exact h2 x hx

theorem le_foldl_max (l : List ℝ) (a : ℝ) : a ≤ l.foldl max a ∧ ∀ x ∈ l, x ≤ l.foldl max a := by
  induction l generalizing a with
  | nil => simp
  | cons b l ih =>
    obtain ⟨h1, h2⟩ := ih (max a b)
    refine ⟨(le_max_left _ _).trans h1, ?_⟩
    intro x hx
    rcases List.mem_cons.1 hx with rfl | hx
    · exact (le_max_right _ _).trans h1
    · exact h2 x hx

theorem foldl_min_mem (l : List ℝ) (a : ℝ) : l.foldl min a = a ∨ l.foldl min a ∈ l := by
  induction l generalizing a with
  | nil => simp
  | cons b l ih =>
    rcases ih (min a b) with h | h
    · rcases min_choice a b with h' | h'
      · left; rw [List.foldl_cons, h, h']
      · right; rw [List.foldl_cons, h, h']; simp
    · right; rw [List.foldl_cons]; exact List.mem_cons_of_mem _ h

theorem foldl_max_mem (l : List ℝ) (a : ℝ) : l.foldl max a = a ∨ l.foldl max a ∈ l := by
  induction l generalizing a with
  | nil => simp
  | cons b l ih =>
    rcases ih (max a b) with h | h
    · rcases max_choice a b with h' | h'
      · left; rw [List.foldl_cons, h, h']
      · right; rw [List.foldl_cons, h, h']; simp
    · right; rw [List.foldl_cons]; exact List.mem_cons_of_mem _ h

/-- Without limits the first array sets them: its least element is drawn as 0 and its greatest as 1, and
`inverse` works from then on. -/
theorem call_autoscale (n : Norm) (h1 : n.vmin = none) (h2 : n.vmax = none) (ha : Admissible n)
    (xs : List ℝ) (a b : ℝ) (hab : a < b) (hax : a ∈ xs) (hbx : b ∈ xs)
    (hx : ∀ x ∈ xs, a ≤ x ∧ x ≤ b) :
    ∃ ys : List ℝ, call n xs none = .ok ({ n with vmin := some a, vmax := some b }, ys.map some) ∧
      List.Forall₂ (fun x y => 0 ≤ y ∧ y ≤ 1 ∧
        inverse { n with vmin := some a, vmax := some b } y = .ok (some x)) xs ys := by
  have hne : xs ≠ [] := List.ne_nil_of_mem hax
  obtain ⟨c, l, rfl⟩ := List.exists_cons_of_ne_nil hne
  have hmin : (c :: l).foldl min ((c :: l).headD 0) = a := by
    apply le_antisymm
    · exact (foldl_min_le _ _).2 a hax
    · rcases foldl_min_mem (c :: l) ((c :: l).headD 0) with h | h
      · rw [h]; exact (hx c (by simp)).1
      · exact (hx _ h).1
  have hmax : (c :: l).foldl max ((c :: l).headD 0) = b := by
    apply le_antisymm
    · rcases foldl_max_mem (c :: l) ((c :: l).headD 0) with h | h
      · rw [h]; exact (hx c (by simp)).2
      · exact (hx _ h).2
    · exact (le_foldl_max _ _).2 b hbx
  have hauto : autoscale n (c :: l) = { n with vmin := some a, vmax := some b } := by
    simp only [autoscale, h1, h2, hne, ne_eq, not_false_eq_true, and_self, if_true, hmin, hmax]
  obtain ⟨ys, hys, hf⟩ := inverse_call { n with vmin := some a, vmax := some b } a b rfl rfl hab ha none
    (c :: l) hx
  refine ⟨ys, ?_, hf⟩
  rw [← hys, call, call, hauto, autoscale_set _ a b rfl rfl]
  rfl

/-- The error branches: limits in the wrong order raise, equal limits give zeros. -/
theorem call_degenerate (n : Norm) (lo hi : ℝ) (h1 : n.vmin = some lo) (h2 : n.vmax = some hi)
    (xs : List ℝ) (clip : Option Bool) :
    (hi < lo → call n xs clip = .error .minAboveMax) ∧
    (lo = hi → call n xs clip = .ok (n, xs.map fun _ => some 0)) := by
  have ha := autoscale_set n lo hi h1 h2 xs
  constructor
  · intro h
    simp [call, ha, h1, h2, h]
  · intro h
    subst h
    simp [call, ha, h1, h2]

/-- What the constructor makes of a `vmid` between the limits, and of none at all, is admissible. -/
theorem init_admissible (s : Stretch) (e : ℝ) (vmid : Option ℝ) (lo hi : ℝ) (clip : Bool)
    (hs : s ≠ .other) (hlt : lo < hi) (he : 0 < e) (hm : ∀ v, vmid = some v → lo < v) :
    ∃ n, init s (some e) vmid (some lo) (some hi) clip = .ok n ∧ Admissible n ∧
      n.vmin = some lo ∧ n.vmax = some hi ∧ n.stretch = s := by
  have hd : 0 < hi - lo := by linarith
  cases vmid with
  | none =>
    refine ⟨⟨s, some e, defaultMid s, some lo, some hi, clip⟩, by simp [init], ?_, rfl, rfl, rfl⟩
    cases s
    · trivial
    · exact ⟨0.05, rfl, Or.inl (by norm_num)⟩
    · trivial
    · exact ⟨-0.033, rfl, by norm_num⟩
    · exact ⟨e, rfl, he⟩
    · exact hs rfl
  | some v =>
    have hv := hm v rfl
    have hmid : 0 < (v - lo) / (hi - lo) := div_pos (by linarith) hd
    refine ⟨⟨s, some e, some ((v - lo) / (hi - lo)), some lo, some hi, clip⟩, ?_, ?_, rfl, rfl, rfl⟩
    · simp [init, midOf, hd.ne', Except.map]
    · cases s
      · trivial
      · exact ⟨_, rfl, Or.inl hmid⟩
      · trivial
      · exact ⟨_, rfl, hmid.ne'⟩
      · exact ⟨e, rfl, he⟩
      · exact hs rfl

/-- `vmid = vmin` makes the logarithmic and the `arcsinh` stretch raise at every value. -/
theorem call_vmid_eq_vmin (s : Stretch) (hs : s = .log ∨ s = .arcsinh) (lo hi : ℝ) (hlt : lo < hi)
    (x : ℝ) : ∃ n, init s (some 5) (some lo) (some lo) (some hi) false = .ok n ∧
      call n [x] none = .error .zeroDivision := by
  have hd : hi - lo ≠ 0 := by linarith
  refine ⟨⟨s, some 5, some 0, some lo, some hi, false⟩, ?_, ?_⟩
  · rcases hs with rfl | rfl <;> simp [init, midOf, hd, Except.map]
  · have ha := autoscale_set ⟨s, some 5, some 0, some lo, some hi, false⟩ lo hi rfl rfl [x]
    rcases hs with rfl | rfl <;>
      · simp only [call, ha, not_lt.2 hlt.le, hlt.ne, if_false, List.mapM_cons]
        simp [callOne, stretchOne, bind, Except.bind, Except.map]

/-- A concrete case: the defaults of the logarithmic stretch between 1 and 3. -/
example : ∃ n, init .log (some 5) none (some 1) (some 3) false = .ok n ∧ Admissible n ∧
    ∃ ys : List ℝ, call n [1, 2, 3] none = .ok (n, ys.map some) := by
  obtain ⟨n, h, ha, h1, h2, -⟩ := init_admissible .log 5 none 1 3 false (by decide) (by norm_num)
    (by norm_num) (by simp)
  obtain ⟨ys, hys, -⟩ := inverse_call n 1 3 h1 h2 (by norm_num) ha none [1, 2, 3] (by
    intro x hx; fin_cases hx <;> norm_num)
  exact ⟨n, h, ha, ys, hys⟩

end Verif.Normalize
