import Mathlib.Data.Real.Basic
import Mathlib.Algebra.BigOperators.Fin
import Mathlib.Tactic

/-!
# The outline of a histogram and the range of the data in a figure (C288, C289)

Source: `/repo/RMutils/util_plotTk.py` 2196-2228 (`mk_hist_poly`), 125-143 (`filter_range_indx`).
-/

namespace Verif.Figures

/-! ## Model -/

/-- The loop of `mk_hist_poly`, 2213-2220, from given `i` and `j`, with at most `fuel` passes (`none`: more are needed). `bins[i]` exists, as `i` is at most
`len(bins) - 1`. -/
def outlineLoop (bins n : List ℝ) : ℕ → ℕ → ℕ → Option (List (ℝ × ℝ))
  | 0, _, _ => none
  | fuel + 1, i, j =>
    if i < bins.length then
      let pt := if j < n.length then [(bins.getD i 0, n.getD j 0)] else []
      (if i = j then outlineLoop bins n fuel (i + 1) j else outlineLoop bins n fuel i (j + 1)).map (pt ++ ·)
    else some []

/-- `mk_hist_poly`, 2196-2228, for at least one edge (no edge raises at `bins[0]`): counts which are not positive are replaced on a logarithmic scale, and
the level of the ground is zero on a linear one. -/
noncomputable def histPoly (bins n : List ℝ) (logY : Bool) (zeroPt : ℝ) (ground : Bool) (fuel : ℕ) : Option (List (ℝ × ℝ)) :=
  let n' := if logY then n.map fun v => if v ≤ 0 then zeroPt else v else n
  let z := if logY then zeroPt else 0
  (outlineLoop bins n' fuel 0 0).map fun l =>
    (if ground then [(bins.getD 0 0, z)] else []) ++ l ++
      (if ground then [(bins.getD (bins.length - 1) 0, z), (bins.getD 0 0, z)] else [])

/-- `filter_range_indx`, 125-143, for one value; NaN is `none`, and comparisons with it are false. -/
noncomputable def outside (a : Option ℝ) (lo hi : Option ℝ) (filterNans : Bool) : Bool :=
  let nan := if filterNans then false else a.isNone
  let i1 := match lo with
    | none => true
    | some l => (match a with | some v => decide (l ≤ v) | none => false) || nan
  let i2 := match hi with
    | none => true
    | some h => (match a with | some v => decide (v ≤ h) | none => false) || nan
  !i1 || !i2

/-! ## Specification -/

/-- Twice the signed area inside a chain of points (counted positive for a chain which runs clockwise): the sum over its edges. -/
noncomputable def area2 : List (ℝ × ℝ) → ℝ
  | p :: q :: l => (p.2 * q.1 - p.1 * q.2) + area2 (q :: l)
  | _ => 0

/-- The outline over the bins: left and right end of the top of every bar. -/
def tops {k : ℕ} (b : Fin (k + 1) → ℝ) (n : Fin k → ℝ) : List (ℝ × ℝ) :=
  (List.finRange k).flatMap fun j => [(b j.castSucc, n j), (b j.succ, n j)]

/-! ## Helper lemmas -/

/-- Left and right end of the top of bar `j`. -/
def bar (bins n : List ℝ) (j : ℕ) : List (ℝ × ℝ) := [(bins.getD j 0, n.getD j 0), (bins.getD (j + 1) 0, n.getD j 0)]

theorem loop_from (bins n : List ℝ) (h : bins.length = n.length + 1) (c : ℕ) : ∀ j fuel, j + c = n.length → 2 * c + 2 ≤ fuel →
    outlineLoop bins n fuel j j = some ((List.range' j c).flatMap (bar bins n)) := by
  induction c with
  | zero =>
    intro j fuel hj hf
    obtain ⟨f, rfl⟩ : ∃ f, fuel = f + 2 := ⟨fuel - 2, by omega⟩
    unfold outlineLoop
    rw [if_pos (by omega), if_pos rfl]
    unfold outlineLoop
    rw [if_neg (by omega), if_neg (by omega)]
    rfl
  | succ c ih =>
    intro j fuel hj hf
    obtain ⟨f, rfl⟩ : ∃ f, fuel = f + 2 := ⟨fuel - 2, by omega⟩
    have h1 : outlineLoop bins n (f + 1) (j + 1) j = some ((bins.getD (j + 1) 0, n.getD j 0) :: (List.range' (j + 1) c).flatMap (bar bins n)) := by
      unfold outlineLoop
      rw [if_pos (by omega), if_pos (show j < n.length by omega), if_neg (show ¬ j + 1 = j by omega), ih (j + 1) f (by omega) (by omega)]
      rfl
    unfold outlineLoop
    rw [if_pos (by omega), if_pos rfl, if_pos (show j < n.length by omega), h1, List.range'_succ]
    rfl

theorem getD_ofFn {k : ℕ} (b : Fin k → ℝ) {i : ℕ} (h : i < k) : (List.ofFn b).getD i 0 = b ⟨i, h⟩ := by
  rw [List.getD_eq_getElem?_getD, List.getElem?_eq_getElem (by rw [List.length_ofFn]; exact h), List.getElem_ofFn]
  rfl

theorem bars_tops {k : ℕ} (b : Fin (k + 1) → ℝ) (n : Fin k → ℝ) : (List.range' 0 k).flatMap (bar (List.ofFn b) (List.ofFn n)) = tops b n := by
  unfold tops
  rw [← List.range_eq_range', ← List.map_coe_finRange_eq_range, List.flatMap_map]
  congr 1
  funext j
  unfold bar
  rw [getD_ofFn b (by omega), getD_ofFn n (by omega), getD_ofFn b (by omega)]
  rfl

theorem area2_cons (p q : ℝ × ℝ) (l : List (ℝ × ℝ)) : area2 (p :: q :: l) = (p.2 * q.1 - p.1 * q.2) + area2 (q :: l) := rfl

theorem tops_succ {k : ℕ} (b : Fin (k + 2) → ℝ) (n : Fin (k + 1) → ℝ) :
    tops b n = (b 0, n 0) :: (b 1, n 0) :: tops (fun j => b j.succ) fun j => n j.succ := by
  unfold tops
  rw [List.finRange_succ, List.flatMap_cons, List.flatMap_map]
  rfl

/-- The chain from the ground at an edge over the bars back to the ground. -/
theorem area2_bars (z b0 : ℝ) : ∀ (k : ℕ) (b : Fin (k + 1) → ℝ) (n : Fin k → ℝ) (y : ℝ),
    area2 ((b 0, y) :: (tops b n ++ [(b (Fin.last k), z), (b0, z)])) =
      b 0 * y - 2 * b (Fin.last k) * z + z * b0 + ∑ j, 2 * n j * (b j.succ - b j.castSucc) := by
  intro k
  induction k with
  | zero =>
    intro b n y
    simp only [tops, List.finRange_zero, List.flatMap_nil, List.nil_append, area2_cons, Finset.univ_eq_empty, Finset.sum_empty]
    simp [area2]
    ring
  | succ k ih =>
    intro b n y
    rw [tops_succ, List.cons_append, List.cons_append, area2_cons, area2_cons]
    have := ih (fun j => b j.succ) (fun j => n j.succ) (n 0)
    simp only [Fin.succ_last, Fin.succ_zero_eq_one] at this
    rw [this, Fin.sum_univ_succ]
    simp only [Fin.castSucc_zero, Fin.succ_zero_eq_one, Fin.succ_castSucc]
    ring

/-! ## C288 -/

/-- **C288.** The outline of a histogram, for any edges and one count less: the loop ends after at most `2k + 2` passes, and the chain goes from the ground at
the first edge along the tops of all bars, in order, to the ground at the last edge and back. -/
theorem hist_outline {k : ℕ} (b : Fin (k + 1) → ℝ) (n : Fin k → ℝ) (fuel : ℕ) (hf : 2 * k + 2 ≤ fuel) (zeroPt : ℝ) :
    histPoly (List.ofFn b) (List.ofFn n) false zeroPt true fuel = some ((b 0, 0) :: (tops b n ++ [(b (Fin.last k), 0), (b 0, 0)])) ∧
    histPoly (List.ofFn b) (List.ofFn n) false zeroPt false fuel = some (tops b n) ∧
    histPoly (List.ofFn b) (List.ofFn n) true zeroPt true fuel =
      some ((b 0, zeroPt) :: (tops b (fun j => if n j ≤ 0 then zeroPt else n j) ++ [(b (Fin.last k), zeroPt), (b 0, zeroPt)])) := by
  have key : ∀ n : Fin k → ℝ, outlineLoop (List.ofFn b) (List.ofFn n) fuel 0 0 = some (tops b n) := fun n => by
    rw [loop_from _ _ (by simp) k 0 fuel (by simp) hf, bars_tops]
  have h0 : (List.ofFn b).getD 0 0 = b 0 := by
    rw [getD_ofFn b (Nat.succ_pos k)]
    rfl
  have h1 : (List.ofFn b).getD ((List.ofFn b).length - 1) 0 = b (Fin.last k) := by
    rw [List.length_ofFn, getD_ofFn b (by omega)]
    rfl
  refine ⟨?_, ?_, ?_⟩
  · unfold histPoly
    simp only [Bool.false_eq_true, if_false, if_true]
    rw [key, h0, h1]
    rfl
  · unfold histPoly
    simp only [Bool.false_eq_true, if_false]
    rw [key]
    simp
  · unfold histPoly
    simp only [if_true]
    rw [show (List.ofFn n).map (fun v => if v ≤ 0 then zeroPt else v) = List.ofFn fun j => if n j ≤ 0 then zeroPt else n j from List.map_ofFn, key, h0, h1]
    rfl

/-- **C288, the area.** On a linear scale the area of the polygon is the sum over the bins of count times width; on a logarithmic scale the counts are above
the ground level, and empty bins have no area. -/
theorem hist_area {k : ℕ} (b : Fin (k + 1) → ℝ) (n : Fin k → ℝ) (fuel : ℕ) (hf : 2 * k + 2 ≤ fuel) (zeroPt : ℝ) :
    (∃ l, histPoly (List.ofFn b) (List.ofFn n) false zeroPt true fuel = some l ∧ area2 l / 2 = ∑ j, n j * (b j.succ - b j.castSucc)) ∧
    ∃ l, histPoly (List.ofFn b) (List.ofFn n) true zeroPt true fuel = some l ∧
      area2 l / 2 = ∑ j, (if n j ≤ 0 then 0 else n j - zeroPt) * (b j.succ - b j.castSucc) := by
  obtain ⟨h1, -, h3⟩ := hist_outline b n fuel hf zeroPt
  refine ⟨⟨_, h1, ?_⟩, _, h3, ?_⟩
  · rw [area2_bars]
    have : ∑ j, 2 * n j * (b j.succ - b j.castSucc) = 2 * ∑ j, n j * (b j.succ - b j.castSucc) := by
      rw [Finset.mul_sum]
      exact Finset.sum_congr rfl fun j _ => by ring
    rw [this]
    ring
  · rw [area2_bars]
    have tele : ∑ j : Fin k, (b j.succ - b j.castSucc) = b (Fin.last k) - b 0 := by
      have := Fin.sum_univ_castSucc b
      have h2 := Fin.sum_univ_succ b
      rw [Finset.sum_sub_distrib]
      linarith
    have : ∑ j, (if n j ≤ 0 then 0 else n j - zeroPt) * (b j.succ - b j.castSucc) =
        ∑ j, (if n j ≤ 0 then zeroPt else n j) * (b j.succ - b j.castSucc) - zeroPt * (b (Fin.last k) - b 0) := by
      rw [← tele, Finset.mul_sum, ← Finset.sum_sub_distrib]
      refine Finset.sum_congr rfl fun j _ => ?_
      by_cases h : n j ≤ 0
      · rw [if_pos h, if_pos h]
        ring
      · rw [if_neg h, if_neg h]
        ring
    rw [this]
    have h2 : ∑ j, 2 * (if n j ≤ 0 then zeroPt else n j) * (b j.succ - b j.castSucc) =
        2 * ∑ j, (if n j ≤ 0 then zeroPt else n j) * (b j.succ - b j.castSucc) := by
      rw [Finset.mul_sum]
      exact Finset.sum_congr rfl fun j _ => by ring
    rw [h2]
    ring

/-- A case: counts 2 and 0 in bins of width 1 and 3. -/
theorem hist_case : histPoly [0, 1, 4] [2, 0] true (7 / 10) true 6 =
    some [(0, 7 / 10), (0, 2), (1, 2), (1, 7 / 10), (4, 7 / 10), (4, 7 / 10), (0, 7 / 10)] := by
  have h := (hist_outline (k := 2) ![0, 1, 4] ![2, 0] 6 (by norm_num) (7 / 10)).2.2
  have e1 : List.ofFn ![(0 : ℝ), 1, 4] = [0, 1, 4] := by simp
  have e2 : List.ofFn ![(2 : ℝ), 0] = [2, 0] := by simp
  rw [e1, e2] at h
  rw [h]
  have e3 : List.finRange 2 = [0, 1] := by decide
  unfold tops
  rw [e3]
  norm_num [Fin.last]

/-! ## C289 -/

/-- **C289, the part that holds.** Numbers are masked exactly if they are outside of the limits given, whether NaN are filtered or not; NaN are kept unless
they are filtered, and are masked if they are filtered and a limit is given. -/
theorem outside_partial (lo hi : Option ℝ) (filterNans : Bool) :
    (∀ v, outside (some v) lo hi filterNans = true ↔ (∃ l, lo = some l ∧ v < l) ∨ ∃ h, hi = some h ∧ h < v) ∧
    outside none lo hi false = false ∧
    (lo.isSome ∨ hi.isSome → outside none lo hi true = true) := by
  refine ⟨fun v => ?_, ?_, ?_⟩
  · cases lo <;> cases hi <;> cases filterNans <;> simp [outside]
  · cases lo <;> cases hi <;> simp [outside]
  · cases lo <;> cases hi <;> simp [outside]

/-- **C289, the part that fails.** Without limits NaN are kept though they should be filtered. -/
theorem outside_wrong : outside none none none true = false := rfl

end Verif.Figures
