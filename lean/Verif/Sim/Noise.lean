import Verif.Sim.Run
import Verif.Stats.Props
import Verif.Axis.Model

/-!
# Statistics of an array (C214) and the noise curve of the simulations (C215)

Source: `/repo/RMutils/util_misc.py` 1078-1113 (`calc_stats`), 1026-1040 (`extrap`), `/repo/RMtools_1D/mk_test_ascii_data.py` 282-293,
370-378, `/repo/RMtools_3D/mk_test_cube_data.py` 298-308.
-/

namespace Verif.Sim

open Verif.NumPy Verif.Stats

/-! ## `calc_stats` -/

/-- The dictionary of `calc_stats` for a one-dimensional array; `centmax` is `(0.0, 0.0)` if there is no position. -/
structure StatsDict where
  npix : ℕ
  stdev : ℝ
  mean : ℝ
  median : ℝ
  max : ℝ
  min : ℝ
  centmax : Option ℕ
  madfm : ℝ
  success : Bool

/-- `calc_stats`, 1078-1113, for a one-dimensional array. What is not finite is `none`. Line 1102, `statsDict["npix"] == 0`, is a comparison:
it changes nothing. -/
noncomputable def calcStats (maskzero : Bool) (a : List (Option ℝ)) : StatsDict :=
  open Classical in
  let a := if maskzero then a.map fun x => if x = some 0 then none else x else a
  let v := unmasked a
  if 2 ≤ v.length then
    let mean := v.sum / v.length
    let mx := v.foldl max (v.headD 0)
    { npix := v.length
      stdev := Real.sqrt ((v.map fun x => (x - mean) ^ 2).sum / v.length)
      mean := mean
      median := (Stats.median v).getD 0
      max := mx
      min := v.foldl min (v.headD 0)
      centmax := some (a.findIdx fun x => decide (x = some mx))
      madfm := (mad a).getD 0
      success := true }
  else
    { npix := v.length, stdev := 0, mean := 0, median := 0, max := 0, min := 0, centmax := none, madfm := 0, success := false }

theorem foldl_max_spec (v : List ℝ) (b : ℝ) : (∀ x ∈ b :: v, x ≤ v.foldl max b) ∧ v.foldl max b ∈ b :: v := by
  induction v generalizing b with
  | nil => simp
  | cons a t ih =>
    obtain ⟨h1, h2⟩ := ih (max b a)
    rw [List.foldl_cons]
    have hm : max b a ≤ t.foldl max (max b a) := h1 _ List.mem_cons_self
    refine ⟨fun x hx => ?_, ?_⟩
    · rcases List.mem_cons.mp hx with rfl | hx
      · exact (le_max_left _ _).trans hm
      · rcases List.mem_cons.mp hx with rfl | hx
        · exact (le_max_right _ _).trans hm
        · exact h1 _ (List.mem_cons_of_mem _ hx)
    · rcases List.mem_cons.mp h2 with h | h
      · rw [h]
        rcases max_choice b a with e | e <;> rw [e] <;> simp
      · exact List.mem_cons_of_mem _ (List.mem_cons_of_mem _ h)

theorem foldl_min_spec (v : List ℝ) (b : ℝ) : (∀ x ∈ b :: v, v.foldl min b ≤ x) ∧ v.foldl min b ∈ b :: v := by
  induction v generalizing b with
  | nil => simp
  | cons a t ih =>
    obtain ⟨h1, h2⟩ := ih (min b a)
    rw [List.foldl_cons]
    have hm : t.foldl min (min b a) ≤ min b a := h1 _ List.mem_cons_self
    refine ⟨fun x hx => ?_, ?_⟩
    · rcases List.mem_cons.mp hx with rfl | hx
      · exact hm.trans (min_le_left _ _)
      · rcases List.mem_cons.mp hx with rfl | hx
        · exact hm.trans (min_le_right _ _)
        · exact h1 _ (List.mem_cons_of_mem _ hx)
    · rcases List.mem_cons.mp h2 with h | h
      · rw [h]
        rcases min_choice b a with e | e <;> rw [e] <;> simp
      · exact List.mem_cons_of_mem _ (List.mem_cons_of_mem _ h)

/-- The values which count: finite, and with `maskzero` not zero. -/
def Counts (maskzero : Bool) (a : List (Option ℝ)) (v : List ℝ) : Prop :=
  v = a.filterMap id ∧ maskzero = false ∨ maskzero = true ∧ ∃ p : ℝ → Bool, (∀ x, p x = true ↔ x ≠ 0) ∧ v = (a.filterMap id).filter p

theorem unmasked_counts (maskzero : Bool) (a : List (Option ℝ)) (v : List ℝ) (h : Counts maskzero a v) :
    open Classical in
    unmasked (if maskzero then a.map fun x => if x = some 0 then none else x else a) = v := by
  classical
  rcases h with ⟨rfl, rfl⟩ | ⟨rfl, p, hp, rfl⟩
  · rfl
  · rw [if_pos rfl]
    unfold unmasked
    induction a with
    | nil => rfl
    | cons x t ih =>
      cases x with
      | none => simpa using ih
      | some x =>
        by_cases h0 : x = 0
        · have : p x = false := by
            by_contra hne
            exact (hp x).mp (by simpa using hne) h0
          subst h0
          simp only [List.map_cons, if_true, List.filterMap_cons, id]
          rw [List.filter_cons, if_neg (by simp [this])]
          exact ih
        · have : p x = true := (hp x).mpr h0
          simp only [List.map_cons, Option.some.injEq, h0, if_false, List.filterMap_cons, id]
          rw [List.filter_cons, if_pos this]
          exact congrArg (x :: ·) ih

/-- **C214 (partial)**. If at least two values count, `calc_stats` reports success, their number, their mean, the square root of their mean
squared deviation, the middle of their sorted arrangement, their largest and smallest, and the first position of the largest. -/
theorem calc_stats_partial (maskzero : Bool) (a : List (Option ℝ)) (v : List ℝ) (h : Counts maskzero a v) (h2 : 2 ≤ v.length) :
    (calcStats maskzero a).success = true ∧ (calcStats maskzero a).npix = v.length ∧
    (calcStats maskzero a).mean * v.length = v.sum ∧
    (calcStats maskzero a).stdev ^ 2 * v.length = (v.map fun x => (x - (calcStats maskzero a).mean) ^ 2).sum ∧
    0 ≤ (calcStats maskzero a).stdev ∧
    (∀ s : List ℝ, s.Perm v → s.Pairwise (· ≤ ·) → mid s = some (calcStats maskzero a).median) ∧
    ((calcStats maskzero a).max ∈ v ∧ ∀ x ∈ v, x ≤ (calcStats maskzero a).max) ∧
    ((calcStats maskzero a).min ∈ v ∧ ∀ x ∈ v, (calcStats maskzero a).min ≤ x) := by
  classical
  have e := unmasked_counts maskzero a v h
  have hn : (v.length : ℝ) ≠ 0 := by
    have : (2 : ℝ) ≤ v.length := by exact_mod_cast h2
    linarith
  unfold calcStats
  dsimp only
  rw [e, if_pos h2]
  dsimp only
  obtain ⟨b, t, rfl⟩ : ∃ b t, v = b :: t := by
    cases v with
    | nil => simp at h2
    | cons b t => exact ⟨b, t, rfl⟩
  refine ⟨rfl, rfl, by field_simp, ?_, Real.sqrt_nonneg _, ?_, ?_, ?_⟩
  · rw [Real.sq_sqrt]
    · rw [div_mul_cancel₀ _ hn]
    · apply div_nonneg
      · apply List.sum_nonneg
        intro y hy
        obtain ⟨x, -, rfl⟩ := List.mem_map.mp hy
        positivity
      · positivity
  · intro s hp hs
    rw [median_eq_mid _ s hp hs]
    have : mid s ≠ none := by
      rw [← median_eq_mid _ s hp hs, Ne, median_none_iff]
      simp
    cases hm : mid s with
    | none => exact absurd hm this
    | some m => rfl
  · simp only [List.headD_cons, List.foldl_cons, max_self]
    exact ⟨(foldl_max_spec t b).2, (foldl_max_spec t b).1⟩
  · simp only [List.headD_cons, List.foldl_cons, min_self]
    exact ⟨(foldl_min_spec t b).2, (foldl_min_spec t b).1⟩

/-- **C214 (partial)**: the position reported is the first one with the largest of the values that count. -/
theorem calc_stats_position_partial (maskzero : Bool) (a : List (Option ℝ)) (v : List ℝ) (h : Counts maskzero a v) (h2 : 2 ≤ v.length) :
    ∃ k, (calcStats maskzero a).centmax = some k ∧ a[k]? = some (some (calcStats maskzero a).max) ∧
      ∀ j < k, ∀ x, a[j]? = some (some x) → (maskzero = true → x ≠ 0) → x < (calcStats maskzero a).max := by
  classical
  obtain ⟨-, -, -, -, -, -, ⟨hm, hmax⟩, -⟩ := calc_stats_partial maskzero a v h h2
  have e := unmasked_counts maskzero a v h
  have hval : ∀ x, x ∈ v ↔ some x ∈ a ∧ (maskzero = true → x ≠ 0) := by
    intro x
    rcases h with ⟨rfl, rfl⟩ | ⟨rfl, p, hp, rfl⟩
    · simp [List.mem_filterMap]
    · simp [List.mem_filterMap, List.mem_filter, hp]
  set M := (calcStats maskzero a).max with hM
  set b : List (Option ℝ) := if maskzero then a.map fun x => if x = some 0 then none else x else a with hb
  have hc : (calcStats maskzero a).centmax = some (b.findIdx fun x => decide (x = some M)) := by
    rw [hM]
    unfold calcStats
    dsimp only
    have : 2 ≤ (unmasked b).length := by rw [e]; exact h2
    rw [if_pos this]
  have hlen : b.length = a.length := by
    rw [hb]
    split_ifs <;> simp
  have hget : ∀ j (hj : j < a.length) x, (maskzero = true → x ≠ 0) → (b[j]'(hlen ▸ hj) = some x ↔ a[j] = some x) := by
    intro j hj x hx
    cases maskzero with
    | false => simp [hb]
    | true =>
      simp only [hb, if_true, List.getElem_map]
      by_cases h0 : a[j] = some 0
      · rw [if_pos h0, h0]
        simp [(hx rfl).symm]
      · rw [if_neg h0]
  have hM0 := ((hval M).mp hm).2
  refine ⟨_, hc, ?_, ?_⟩
  · obtain ⟨i, hi, hia⟩ := List.getElem_of_mem ((hval M).mp hm).1
    have hmem : some M ∈ b := by
      rw [← (hget i hi M hM0).mpr hia]
      exact List.getElem_mem _
    have hlt : b.findIdx (fun x => decide (x = some M)) < b.length :=
      List.findIdx_lt_length_of_exists ⟨_, hmem, by simp⟩
    have hf := List.findIdx_getElem (w := hlt)
    rw [List.getElem?_eq_getElem (hlen ▸ hlt)]
    exact congrArg some ((hget _ (hlen ▸ hlt) M hM0).mp (by simpa using hf))
  · intro j hj x hx hx0
    have hjl : j < a.length := by
      by_contra hge
      rw [List.getElem?_eq_none (by omega)] at hx
      cases hx
    have hne := List.not_of_lt_findIdx hj
    rw [List.getElem?_eq_getElem hjl] at hx
    injection hx with hx
    have hx' : x ∈ v := (hval x).mpr ⟨hx ▸ List.getElem_mem hjl, hx0⟩
    rcases lt_or_eq_of_le (hmax x hx') with hlt | heq
    · exact hlt
    · exfalso
      rw [(hget j hjl x hx0).mpr hx, heq] at hne
      simp at hne

/-- **C214 refuted**: for an array with one value its mean, median, largest and smallest value are all reported as zero, whatever the value,
and the number of values is reported as one although there is no success. -/
theorem calc_stats_single (a : List (Option ℝ)) (x : ℝ) (h : a.filterMap id = [x]) :
    (calcStats false a).success = false ∧ (calcStats false a).npix = 1 ∧ (calcStats false a).mean = 0 ∧
    (calcStats false a).median = 0 ∧ (calcStats false a).max = 0 ∧ (calcStats false a).min = 0 := by
  classical
  have h1 : unmasked a = [x] := h
  unfold calcStats
  dsimp only
  rw [if_neg (by simp : ¬(false = true)), h1, if_neg (by simp)]
  simp

/-- A case: three values, one of them blank. -/
example : (calcStats false [some 1, none, some 3]).mean = 2 ∧ (calcStats false [some 1, none, some 3]).npix = 2 := by
  obtain ⟨-, h2, h3, -⟩ := calc_stats_partial false [some 1, none, some 3] [1, 3] (Or.inl ⟨by simp, rfl⟩) (by simp)
  refine ⟨?_, by simpa using h2⟩
  norm_num at h3
  linarith

/-! ## The noise curve -/

/-- The noise of one channel, 282-293: `rows` are the lines of the template (frequency, amplitude), as read by `np.loadtxt`; without a template
the curve is one everywhere, also in flagged channels. `none`: an exception, for a template of fewer than two lines (with one line `loadtxt`
gives two numbers and `np.interp` fails). NaN (`some none`): flagged channel, or a template with median zero (simplified: the result is infinite
or NaN). The median is that of `calc_stats`. -/
noncomputable def noiseCurve (rows : Option (List (ℝ × ℝ))) (x : Option ℝ) : Option (Option ℝ) :=
  match rows with
  | none => some (some 1)
  | some rows =>
    if rows.length < 2 then none
    else
      let med := (calcStats false (rows.map fun r => some r.2)).median
      if med = 0 then some none
      else some (x.map fun x =>
        Axis.extrap (rows.length - 2) (fun j => (rows.getD j (0, 0)).1) (fun j => (rows.getD j (0, 0)).2 / med) x)

/-- C215. A template of fewer than two lines is an exception. -/
theorem noise_short (rows : List (ℝ × ℝ)) (h : rows.length ≤ 1) (x : Option ℝ) : noiseCurve (some rows) x = none := by
  unfold noiseCurve
  dsimp only
  rw [if_pos (by omega)]

theorem calcStats_median (l : List ℝ) (h : 2 ≤ l.length) (med : ℝ) (hm : Stats.median l = some med) :
    (calcStats false (l.map some)).median = med := by
  classical
  have h1 : unmasked (l.map some) = l := by
    unfold unmasked
    rw [List.filterMap_map]
    exact List.filterMap_some
  unfold calcStats
  dsimp only
  rw [if_neg (by simp : ¬(false = true)), h1, if_pos h, hm]
  rfl

theorem npInterp_between (n : ℕ) (xp yp : ℕ → ℝ) (hx : ∀ i j, i < j → j ≤ n → xp i < xp j) (j : ℕ) (hj : j < n) (x : ℝ)
    (h1 : xp j ≤ x) (h2 : x ≤ xp (j + 1)) :
    npInterp n xp yp x = yp j + (yp (j + 1) - yp j) / (xp (j + 1) - xp j) * (x - xp j) := by
  classical
  have hd : xp j < xp (j + 1) := hx _ _ (by omega) (by omega)
  have h0 : xp 0 ≤ xp j := by
    rcases Nat.eq_zero_or_pos j with rfl | hp
    · exact le_refl _
    · exact (hx 0 j hp (by omega)).le
  unfold npInterp
  rw [if_neg (by push Not; linarith)]
  dsimp only
  rcases lt_or_eq_of_le h2 with h2 | h2
  · have e : Nat.findGreatest (fun j => xp j ≤ x) n = j := by
      rw [Nat.findGreatest_eq_iff]
      refine ⟨by omega, fun _ => h1, fun k hk hkn => ?_⟩
      push Not
      rcases Nat.lt_or_ge (j + 1) k with hk' | hk'
      · exact h2.trans (hx _ _ hk' hkn)
      · have : k = j + 1 := by omega
        rw [this]; exact h2
    rw [e, if_neg (by omega)]
  · have e : Nat.findGreatest (fun j => xp j ≤ x) n = j + 1 := by
      rw [Nat.findGreatest_eq_iff]
      refine ⟨by omega, fun _ => h2.ge, fun k hk hkn => ?_⟩
      push Not
      rw [h2]
      exact hx _ _ hk hkn
    rw [e]
    have hv : yp j + (yp (j + 1) - yp j) / (xp (j + 1) - xp j) * (x - xp j) = yp (j + 1) := by
      rw [h2]
      have : xp (j + 1) - xp j ≠ 0 := by linarith
      field_simp
      ring
    rw [hv]
    by_cases hn : j + 1 = n
    · rw [if_pos hn, hn]
    · rw [if_neg hn, h2]
      ring

/-- A template: at least two lines, with the given median of the amplitudes. -/
def Template (rows : List (ℝ × ℝ)) (med : ℝ) : Prop := 2 ≤ rows.length ∧ Stats.median (rows.map Prod.snd) = some med ∧ med ≠ 0

/-- C215. A template with median zero gives no noise curve, in no channel. -/
theorem noise_zero (rows : List (ℝ × ℝ)) (h2 : 2 ≤ rows.length) (hm : Stats.median (rows.map Prod.snd) = some 0) (x : Option ℝ) :
    noiseCurve (some rows) x = some none := by
  unfold noiseCurve
  dsimp only
  rw [if_neg (by omega)]
  have := calcStats_median (rows.map Prod.snd) (by simpa using h2) 0 hm
  rw [List.map_map] at this
  exact if_pos this

/-- The amplitudes -1, 0 and 1. -/
example : noiseCurve (some [(1, -1), (2, 0), (3, 1)]) (some 2) = some none :=
  noise_zero _ (by simp) (by
    have : Stats.median [-1, 0, 1] = some (0 : ℝ) := by
      rw [Stats.median_eq_mid _ [-1, 0, 1] (List.Perm.refl _) (by simp)]
      simp [Stats.mid]
    exact this) _

theorem noiseCurve_eq (rows : List (ℝ × ℝ)) (med : ℝ) (ht : Template rows med) (x : Option ℝ) :
    noiseCurve (some rows) x = some (x.map fun x =>
        Axis.extrap (rows.length - 2) (fun j => (rows.getD j (0, 0)).1) (fun j => (rows.getD j (0, 0)).2 / med) x) := by
  obtain ⟨h2, hm, h0⟩ := ht
  unfold noiseCurve
  dsimp only
  rw [if_neg (by omega)]
  have := calcStats_median (rows.map Prod.snd) (by simpa using h2) med hm
  rw [List.map_map] at this
  have e : (rows.map fun r => some r.2) = rows.map (some ∘ Prod.snd) := rfl
  rw [e, this, if_neg h0]

/-- **C215 (partial)**. For a template with rising frequencies, the noise of a channel between two lines of the template is the linear
interpolation between their amplitudes, relative to the median amplitude of the template. -/
theorem noise_template_partial (rows : List (ℝ × ℝ)) (med : ℝ) (ht : Template rows med) (hs : (rows.map Prod.fst).Pairwise (· < ·))
    (j : ℕ) (hj : j + 1 < rows.length) (t : ℝ) (h0 : 0 ≤ t) (h1 : t ≤ 1) :
    noiseCurve (some rows) (some ((1 - t) * (rows[j]).1 + t * (rows[j + 1]).1)) =
      some (some (((1 - t) * (rows[j]).2 + t * (rows[j + 1]).2) / med)) := by
  rw [noiseCurve_eq rows med ht]
  have hlt : ∀ i k, i < k → k ≤ rows.length - 1 → (rows.getD i (0, 0)).1 < (rows.getD k (0, 0)).1 := by
    intro i k hik hk
    have h2 := ht.1
    rw [List.getD_eq_getElem _ _ (by omega : i < rows.length), List.getD_eq_getElem _ _ (by omega : k < rows.length)]
    have := List.pairwise_iff_getElem.mp hs i k (by simp; omega) (by simp; omega) hik
    simpa using this
  have gj : rows.getD j (0, 0) = rows[j] := List.getD_eq_getElem _ _ (by omega)
  have gj1 : rows.getD (j + 1) (0, 0) = rows[j + 1] := List.getD_eq_getElem _ _ hj
  have hd : (rows[j]).1 < (rows[j + 1]).1 := by
    have := hlt j (j + 1) (by omega) (by omega)
    rwa [gj, gj1] at this
  have h2 := ht.1
  have e : rows.length - 2 + 1 = rows.length - 1 := by omega
  simp only [Option.map_some]
  congr 2
  have hle : (rows.getD 0 (0, 0)).1 ≤ (rows.getD j (0, 0)).1 := by
    rcases Nat.eq_zero_or_pos j with rfl | hp
    · exact le_refl _
    · exact (hlt 0 j hp (by omega)).le
  have hle' : (rows.getD (j + 1) (0, 0)).1 ≤ (rows.getD (rows.length - 1) (0, 0)).1 := by
    rcases Nat.lt_or_ge (j + 1) (rows.length - 1) with hp | hp
    · exact (hlt (j + 1) (rows.length - 1) hp le_rfl).le
    · have : j + 1 = rows.length - 1 := by omega
      rw [this]
  rw [gj] at hle
  rw [gj1] at hle'
  set x := (1 - t) * (rows[j]).1 + t * (rows[j + 1]).1 with hxdef
  have hx1 : (rows[j]).1 ≤ x := by rw [hxdef]; nlinarith
  have hx2 : x ≤ (rows[j + 1]).1 := by rw [hxdef]; nlinarith
  unfold Axis.extrap
  rw [e]
  dsimp only
  rw [if_neg (by push Not; linarith), if_neg (by push Not; linarith)]
  rw [npInterp_between (rows.length - 1) _ _ hlt j (by omega) x (by rw [gj]; exact hx1) (by rw [gj1]; exact hx2), gj, gj1, hxdef]
  have h3 : (rows[j + 1]).1 - (rows[j]).1 ≠ 0 := by linarith
  have h4 := ht.2.2
  field_simp
  ring

/-- **C215 (partial)**: if the amplitudes are positive, the errors written for such a channel are positive (with a positive noise level and a
positive draw around one). -/
theorem noise_errors_partial (rows : List (ℝ × ℝ)) (med : ℝ) (ht : Template rows med) (hs : (rows.map Prod.fst).Pairwise (· < ·))
    (hp : ∀ r ∈ rows, 0 < r.2) (x : ℝ) (hx1 : ∃ r, rows.head? = some r ∧ r.1 ≤ x) (hx2 : ∃ r, rows.getLast? = some r ∧ x ≤ r.1)
    (rms r : ℝ) (hrms : 0 < rms) (hr : 0 < r) :
    ∃ c, noiseCurve (some rows) (some x) = some c ∧ ∃ e, errCol rms r c = some e ∧ 0 < e := by
  obtain ⟨h2, hm, hne⟩ := ht
  have hmed : 0 < med := by
    refine lt_of_le_of_ne (median_nonneg _ ?_ med hm) (Ne.symm hne)
    intro y hy
    obtain ⟨r, hr, rfl⟩ := List.mem_map.mp hy
    exact (hp r hr).le
  -- the interval that contains the frequency
  have key : ∃ j, ∃ hj : j + 1 < rows.length, (rows[j]).1 ≤ x ∧ x ≤ (rows[j + 1]).1 := by
    classical
    obtain ⟨r0, hr0, hx1⟩ := hx1
    obtain ⟨r1, hr1, hx2⟩ := hx2
    have e0 : rows[0] = r0 := by
      rw [List.head?_eq_getElem?, List.getElem?_eq_getElem (by omega)] at hr0
      injection hr0
    have e1 : rows[rows.length - 1] = r1 := by
      rw [List.getLast?_eq_getElem?, List.getElem?_eq_getElem (by omega)] at hr1
      injection hr1
    let P : ℕ → Prop := fun k => ∃ hk : k < rows.length, (rows[k]).1 ≤ x
    have hP0 : P 0 := ⟨by omega, by rw [e0]; exact hx1⟩
    have hg := Nat.findGreatest_spec (P := P) (n := rows.length - 2) (Nat.zero_le _) hP0
    set j := Nat.findGreatest P (rows.length - 2) with hjdef
    have hjle : j ≤ rows.length - 2 := Nat.findGreatest_le _
    obtain ⟨hjl, hjx⟩ := hg
    refine ⟨j, by omega, hjx, ?_⟩
    by_contra hcon
    push Not at hcon
    rcases Nat.lt_or_ge (j + 1) (rows.length - 1) with hlt | hge
    · have : j + 1 ≤ Nat.findGreatest P (rows.length - 2) := Nat.le_findGreatest (by omega) ⟨by omega, hcon.le⟩
      omega
    · have : j + 1 = rows.length - 1 := by omega
      have hE : rows[j + 1] = rows[rows.length - 1] := by
        congr 1
      rw [hE, e1] at hcon
      linarith
  obtain ⟨j, hj, ha, hb⟩ := key
  have hd : (rows[j]).1 < (rows[j + 1]).1 := by
    have := List.pairwise_iff_getElem.mp hs j (j + 1) (by simp; omega) (by simpa using hj) (by omega)
    simpa using this
  set t := (x - (rows[j]).1) / ((rows[j + 1]).1 - (rows[j]).1) with htd
  have hpos : 0 < (rows[j + 1]).1 - (rows[j]).1 := by linarith
  have t0 : 0 ≤ t := div_nonneg (by linarith) hpos.le
  have t1 : t ≤ 1 := by rw [htd, div_le_one hpos]; linarith
  have hx : x = (1 - t) * (rows[j]).1 + t * (rows[j + 1]).1 := by
    rw [htd]
    field_simp
    ring
  refine ⟨_, by rw [hx]; exact noise_template_partial rows med ⟨h2, hm, hne⟩ hs j hj t t0 t1, _, rfl, ?_⟩
  have p1 := hp _ (List.getElem_mem (by omega : j < rows.length))
  have p2 := hp _ (List.getElem_mem hj)
  have : 0 < (1 - t) * (rows[j]).2 + t * (rows[j + 1]).2 := by
    rcases lt_or_eq_of_le t0 with h | h
    · have := mul_pos h p2
      have := mul_nonneg (sub_nonneg.mpr t1) p1.le
      linarith
    · rw [← h]; linarith
  positivity

/-- **C215**: the unit of the amplitudes in the template does not matter. -/
theorem noise_template_unit (rows : List (ℝ × ℝ)) (med : ℝ) (ht : Template rows med) (k : ℝ) (hk : k ≠ 0) (x : Option ℝ) :
    noiseCurve (some (rows.map fun r => (r.1, k * r.2))) x = noiseCurve (some rows) x := by
  obtain ⟨h2, hm, hne⟩ := ht
  have hm' : Stats.median ((rows.map fun r => (r.1, k * r.2)).map Prod.snd) = some (k * med) := by
    have := median_affine (rows.map Prod.snd) k 0
    rw [hm] at this
    simp only [add_zero, Option.map_some] at this
    rw [← this]
    congr 1
    simp
  rw [noiseCurve_eq rows med ⟨h2, hm, hne⟩, noiseCurve_eq _ (k * med) ⟨by simpa using h2, hm', mul_ne_zero hk hne⟩]
  congr 2
  funext x
  rw [List.length_map]
  have e : ∀ j, (rows.map fun r : ℝ × ℝ => (r.1, k * r.2)).getD j (0, 0) = ((rows.getD j (0, 0)).1, k * (rows.getD j (0, 0)).2) := by
    intro j
    by_cases hj : j < rows.length
    · rw [List.getD_eq_getElem _ _ (by simpa using hj), List.getD_eq_getElem _ _ hj]
      simp
    · rw [List.getD_eq_default _ _ (by simp; omega), List.getD_eq_default _ _ (by omega)]
      simp
  simp only [e]
  congr 1
  funext j
  field_simp

/-- **C215 refuted** beyond the template: if the amplitudes fall towards the end of the template, the noise is negative for every frequency
high enough, and the errors written to the file are negative. -/
theorem noise_negative (rows : List (ℝ × ℝ)) (med : ℝ) (ht : Template rows med) (hmed : 0 < med)
    (a b : ℝ × ℝ) (hlast : rows[rows.length - 2]? = some a ∧ rows[rows.length - 1]? = some b) (hab : a.1 < b.1) (hfall : b.2 < a.2)
    (x : ℝ) (hx0 : b.1 < x) (hx : b.1 + b.2 * (b.1 - a.1) / (a.2 - b.2) < x) :
    ∃ c, noiseCurve (some rows) (some x) = some (some c) ∧ c < 0 ∧ ∀ rms r, 0 < rms → 0 < r → ∃ e, errCol rms r (some c) = some e ∧ e < 0 := by
  have h2 := ht.1
  have ea : rows.getD (rows.length - 2) (0, 0) = a := by rw [List.getD_eq_getElem?_getD, hlast.1]; rfl
  have eb : rows.getD (rows.length - 1) (0, 0) = b := by rw [List.getD_eq_getElem?_getD, hlast.2]; rfl
  have e1 : rows.length - 2 + 1 = rows.length - 1 := by omega
  rw [noiseCurve_eq rows med ht]
  have hv : Axis.extrap (rows.length - 2) (fun j => (rows.getD j (0, 0)).1) (fun j => (rows.getD j (0, 0)).2 / med) x =
      (b.2 + (x - b.1) * (b.2 - a.2) / (b.1 - a.1)) / med := by
    unfold Axis.extrap
    rw [e1]
    dsimp only
    rw [if_pos (by rw [eb]; exact hx0), ea, eb]
    have : b.1 - a.1 ≠ 0 := by linarith
    have := hmed.ne'
    field_simp
  have hneg : (b.2 + (x - b.1) * (b.2 - a.2) / (b.1 - a.1)) / med < 0 := by
    apply div_neg_of_neg_of_pos _ hmed
    have p1 : 0 < a.2 - b.2 := by linarith
    have p2 : 0 < b.1 - a.1 := by linarith
    have h3 : b.2 * (b.1 - a.1) / (a.2 - b.2) < x - b.1 := by linarith
    rw [div_lt_iff₀ p1] at h3
    have h4 : b.2 < (x - b.1) * (a.2 - b.2) / (b.1 - a.1) := by
      rw [lt_div_iff₀ p2]; exact h3
    have h5 : (x - b.1) * (b.2 - a.2) / (b.1 - a.1) = -((x - b.1) * (a.2 - b.2) / (b.1 - a.1)) := by ring
    rw [h5]
    linarith
  refine ⟨_, by rw [Option.map_some, hv], hneg, fun rms r h1 h2 => ⟨_, rfl, ?_⟩⟩
  exact mul_neg_of_neg_of_pos (mul_neg_of_neg_of_pos hneg h1) h2

/-- **C215 refuted** for a template with falling frequencies: above the last frequency of the template (the lowest), the noise is on the
straight line through its last two lines, whatever the other lines say. -/
theorem noise_descending (rows : List (ℝ × ℝ)) (med : ℝ) (ht : Template rows med)
    (a b : ℝ × ℝ) (hlast : rows[rows.length - 2]? = some a ∧ rows[rows.length - 1]? = some b) (x : ℝ) (hx0 : b.1 < x) :
    noiseCurve (some rows) (some x) = some (some (b.2 / med + (x - b.1) * (b.2 / med - a.2 / med) / (b.1 - a.1))) := by
  have h2 := ht.1
  have ea : rows.getD (rows.length - 2) (0, 0) = a := by rw [List.getD_eq_getElem?_getD, hlast.1]; rfl
  have eb : rows.getD (rows.length - 1) (0, 0) = b := by rw [List.getD_eq_getElem?_getD, hlast.2]; rfl
  have e1 : rows.length - 2 + 1 = rows.length - 1 := by omega
  rw [noiseCurve_eq rows med ht, Option.map_some]
  congr 2
  unfold Axis.extrap
  rw [e1]
  dsimp only
  rw [if_pos (by rw [eb]; exact hx0), ea, eb]

theorem median_three (a b c : ℝ) (h1 : a ≤ b) (h2 : b ≤ c) (l : List ℝ) (hp : [a, b, c].Perm l) : Stats.median l = some b := by
  rw [median_eq_mid l [a, b, c] hp (by simp; exact ⟨⟨h1, h1.trans h2⟩, h2⟩)]
  simp [mid]

/-- The same template with its lines in the order of falling frequency gives another noise: at the frequency of its first line, with amplitude
one, five times the median instead of once. -/
theorem noise_descending_wrong :
    noiseCurve (some [(1, 1), (2, 3), (3, 1)]) (some 3) = some (some 1) ∧
    noiseCurve (some [(3, 1), (2, 3), (1, 1)]) (some 3) = some (some 5) := by
  have t1 : Template [(1, 1), (2, 3), (3, 1)] 1 := ⟨by simp, median_three 1 1 3 le_rfl (by norm_num) _ (by
    simp only [List.map_cons, List.map_nil]
    exact List.Perm.cons _ (List.Perm.swap _ _ _)), one_ne_zero⟩
  have t2 : Template [(3, 1), (2, 3), (1, 1)] 1 := ⟨by simp, median_three 1 1 3 le_rfl (by norm_num) _ (by
    simp only [List.map_cons, List.map_nil]
    exact List.Perm.cons _ (List.Perm.swap _ _ _)), one_ne_zero⟩
  constructor
  · have := noise_template_partial [(1, 1), (2, 3), (3, 1)] 1 t1 (by simp; norm_num) 1 (by simp) 1 (by norm_num) le_rfl
    norm_num at this
    exact this
  · rw [noise_descending _ 1 t2 (2, 3) (1, 1) ⟨rfl, rfl⟩ 3 (by norm_num)]
    norm_num

end Verif.Sim
