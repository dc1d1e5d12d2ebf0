import Mathlib.Data.Real.Basic
import Mathlib.Data.List.Basic
import Mathlib.Tactic

/-!
# Cutting a wrapped curve (C300)

Source: `/repo/RMutils/util_plotTk.py` 784-790 (`unwrap_lines`), a generator of slices for drawing a curve of angles without the lines across the
figure where the angle is wrapped.
-/

namespace Verif.Figures

/-! ## Model -/

/-- `np.abs(np.diff(dat)) > (lims[1] - lims[0]) * thresh` at index `i`, line 785; a comparison with NaN is false. -/
noncomputable def isJump (d : ℕ → Option ℝ) (lo hi thresh : ℝ) (i : ℕ) : Bool :=
  match d i, d (i + 1) with
  | some x, some y => decide ((hi - lo) * thresh < |y - x|)
  | _, _ => false

/-- `jump`, line 785: `np.nonzero(…)[0]` of an array of `n - 1` differences (`np.diff` of an empty array is empty). -/
noncomputable def jumps (d : ℕ → Option ℝ) (lo hi thresh : ℝ) (n : ℕ) : List ℕ := (List.range (n - 1)).filter (isJump d lo hi thresh)

/-- The slices that are yielded, lines 786-790, as pairs of start and stop; `last` is `lasti`. -/
def slices (n : ℕ) : List ℕ → ℕ → List (ℕ × ℕ)
  | [], last => [(last, n)]
  | j :: js, last => (last, j + 1) :: slices n js (j + 1)

/-- `unwrap_lines(dat, lims, thresh)`, lines 784-790, for `n` values. -/
noncomputable def unwrapLines (d : ℕ → Option ℝ) (lo hi thresh : ℝ) (n : ℕ) : List (ℕ × ℕ) := slices n (jumps d lo hi thresh n) 0

/-! ## Helper lemmas -/

theorem slices_cover (n : ℕ) (js : List ℕ) (last : ℕ) (hs : js.Pairwise (· < ·)) (h1 : ∀ j ∈ js, last ≤ j ∧ j + 1 < n) (hl : last ≤ n) :
    (slices n js last).flatMap (fun s => List.range' s.1 (s.2 - s.1)) = List.range' last (n - last) := by
  induction js generalizing last with
  | nil => simp [slices]
  | cons j js ih =>
    obtain ⟨a, b⟩ := h1 j (by simp)
    rw [List.pairwise_cons] at hs
    unfold slices
    rw [List.flatMap_cons, ih (j + 1) hs.2 (fun i hi => ⟨hs.1 i hi, (h1 i (by simp [hi])).2⟩) (by omega)]
    dsimp only
    have h := List.range'_append (s := last) (m := j + 1 - last) (n := n - (j + 1)) (step := 1)
    rw [one_mul, show last + (j + 1 - last) = j + 1 by omega, show j + 1 - last + (n - (j + 1)) = n - last by omega] at h
    exact h

theorem slices_mem (n : ℕ) (js : List ℕ) (last : ℕ) (hs : js.Pairwise (· < ·)) (h1 : ∀ j ∈ js, last ≤ j ∧ j + 1 < n) (hl : last < n) (s : ℕ × ℕ)
    (h : s ∈ slices n js last) : s.1 < s.2 ∧ s.2 ≤ n ∧ last ≤ s.1 ∧ (∀ i, s.1 ≤ i → i + 1 < s.2 → i ∉ js) ∧ (s.2 < n → s.2 - 1 ∈ js) := by
  induction js generalizing last with
  | nil =>
    rw [slices, List.mem_singleton] at h
    subst h
    exact ⟨hl, le_rfl, le_rfl, by simp, fun h => absurd h (lt_irrefl _)⟩
  | cons j js ih =>
    obtain ⟨a, b⟩ := h1 j (by simp)
    rw [List.pairwise_cons] at hs
    rw [slices, List.mem_cons] at h
    rcases h with rfl | h
    · refine ⟨by dsimp only; omega, by dsimp only; omega, le_rfl, fun i hi hi' hm => ?_, fun _ => by simp⟩
      dsimp only at hi'
      rcases List.mem_cons.mp hm with rfl | hm
      · omega
      · have := hs.1 i hm
        omega
    · obtain ⟨g1, g2, g3, g4, g5⟩ := ih (j + 1) hs.2 (fun i hi => ⟨hs.1 i hi, (h1 i (by simp [hi])).2⟩) b h
      refine ⟨g1, g2, by omega, fun i hi hi' hm => ?_, fun h => List.mem_cons_of_mem _ (g5 h)⟩
      rcases List.mem_cons.mp hm with rfl | hm
      · omega
      · exact g4 i hi hi' hm

theorem jumps_sorted (d : ℕ → Option ℝ) (lo hi thresh : ℝ) (n : ℕ) : (jumps d lo hi thresh n).Pairwise (· < ·) :=
  List.Pairwise.filter _ List.pairwise_lt_range

theorem mem_jumps (d : ℕ → Option ℝ) (lo hi thresh : ℝ) (n i : ℕ) : i ∈ jumps d lo hi thresh n ↔ i + 1 < n ∧ isJump d lo hi thresh i = true := by
  rw [jumps, List.mem_filter, List.mem_range]
  exact and_congr_left fun _ => by omega

/-! ## The property -/

/-- The pieces follow each other and contain each of the `n` samples once, in order. -/
def Covers (S : List (ℕ × ℕ)) (n : ℕ) : Prop := S.flatMap (fun s => List.range' s.1 (s.2 - s.1)) = List.range n

/-- **C300.** The pieces of a curve contain each sample once, in order, and none is empty (if there are samples). If the curve is an angle `a` that changes
by less than the fraction `1 - thresh` of the interval between samples, brought into an interval by subtracting turns `k`, with a threshold of at least one
half, then the number of turns is the same within each piece, and changes where one piece ends and the next begins. -/
theorem unwrap_pieces (lo hi thresh : ℝ) (d : ℕ → Option ℝ) (n : ℕ) :
    Covers (unwrapLines d lo hi thresh n) n ∧ (0 < n → ∀ s ∈ unwrapLines d lo hi thresh n, s.1 < s.2 ∧ s.2 ≤ n) ∧
    ∀ (a : ℕ → ℝ) (k : ℕ → ℤ), lo < hi → 1 / 2 ≤ thresh → (∀ i < n, d i = some (a i - (hi - lo) * k i)) →
      (∀ i, i + 1 < n → |a (i + 1) - a i| < (hi - lo) * (1 - thresh)) →
      ∀ s ∈ unwrapLines d lo hi thresh n, (∀ i, s.1 ≤ i → i + 1 < s.2 → k (i + 1) = k i) ∧ (0 < s.2 → s.2 < n → k s.2 ≠ k (s.2 - 1)) := by
  have hj : ∀ j ∈ jumps d lo hi thresh n, 0 ≤ j ∧ j + 1 < n := fun j hm => ⟨Nat.zero_le _, ((mem_jumps ..).mp hm).1⟩
  refine ⟨?_, fun hn s hs => ?_, fun a k hlt ht hd ha s hs => ?_⟩
  · have := slices_cover n (jumps d lo hi thresh n) 0 (jumps_sorted ..) hj (Nat.zero_le _)
    rw [Nat.sub_zero, ← List.range_eq_range'] at this
    exact this
  · obtain ⟨g1, g2, -⟩ := slices_mem n _ 0 (jumps_sorted ..) hj hn s hs
    exact ⟨g1, g2⟩
  · rcases Nat.eq_zero_or_pos n with rfl | hn
    · have : s = (0, 0) := by simpa [unwrapLines, jumps, slices] using hs
      subst this
      exact ⟨fun i _ h => absurd h (by simp), fun h => absurd h (by simp)⟩
    have key : ∀ i, i + 1 < n → (isJump d lo hi thresh i = true ↔ k (i + 1) ≠ k i) := fun i hi' => by
      have h1 := ha i hi'
      have e : isJump d lo hi thresh i = decide ((hi - lo) * thresh < |(a (i + 1) - a i) - (hi - lo) * ((k (i + 1) - k i : ℤ) : ℝ)|) := by
        unfold isJump
        rw [hd i (by omega), hd (i + 1) hi']
        dsimp only
        congr 3
        push_cast
        ring_nf
      rw [e, decide_eq_true_iff]
      have hP : 0 < hi - lo := by linarith
      constructor
      · intro h hk
        rw [hk, sub_self, Int.cast_zero, mul_zero, sub_zero] at h
        have : (hi - lo) * (1 - thresh) ≤ (hi - lo) * thresh := mul_le_mul_of_nonneg_left (by linarith) hP.le
        linarith
      · intro hk
        have h2 : (1 : ℝ) ≤ |((k (i + 1) - k i : ℤ) : ℝ)| := by
          rw [← Int.cast_abs]
          exact_mod_cast Int.one_le_abs (sub_ne_zero.mpr hk)
        have h3 : hi - lo ≤ |(hi - lo) * ((k (i + 1) - k i : ℤ) : ℝ)| := by
          rw [abs_mul, abs_of_pos hP]
          nlinarith
        have h4 := abs_sub_abs_le_abs_sub ((hi - lo) * ((k (i + 1) - k i : ℤ) : ℝ)) (a (i + 1) - a i)
        rw [abs_sub_comm ((hi - lo) * _) (a (i + 1) - a i)] at h4
        have h5 : (hi - lo) * (1 - thresh) = (hi - lo) - (hi - lo) * thresh := by ring
        linarith
    obtain ⟨g1, g2, -, g4, g5⟩ := slices_mem n _ 0 (jumps_sorted ..) hj hn s hs
    refine ⟨fun i h1 h2 => ?_, fun h0 h1 => ?_⟩
    · by_contra hne
      exact g4 i h1 h2 ((mem_jumps ..).mpr ⟨by omega, (key i (by omega)).mpr hne⟩)
    · have := (key (s.2 - 1) (by omega)).mp ((mem_jumps ..).mp (g5 h1)).2
      rwa [Nat.sub_add_cancel h0] at this

/-- A case: the angles 80, 88, 96 and 104, brought between -90 and 90, are cut after the second. -/
example : unwrapLines (fun i => some ((80 + 8 * (i : ℝ)) - (90 - (-90)) * ((if 2 ≤ i then 1 else 0 : ℤ) : ℝ))) (-90) 90 0.95 4 = [(0, 2), (2, 4)] := by
  have h : jumps (fun i => some ((80 + 8 * (i : ℝ)) - (90 - (-90)) * ((if 2 ≤ i then 1 else 0 : ℤ) : ℝ))) (-90) 90 0.95 4 = [1] := by
    unfold jumps
    rw [show List.range (4 - 1) = [0, 1, 2] from rfl]
    have h0 : isJump (fun i => some ((80 + 8 * (i : ℝ)) - (90 - (-90)) * ((if 2 ≤ i then 1 else 0 : ℤ) : ℝ))) (-90) 90 0.95 0 = false := by
      simp only [isJump, decide_eq_false_iff_not]; norm_num
    have h1 : isJump (fun i => some ((80 + 8 * (i : ℝ)) - (90 - (-90)) * ((if 2 ≤ i then 1 else 0 : ℤ) : ℝ))) (-90) 90 0.95 1 = true := by
      simp only [isJump, decide_eq_true_iff]; norm_num
    have h2 : isJump (fun i => some ((80 + 8 * (i : ℝ)) - (90 - (-90)) * ((if 2 ≤ i then 1 else 0 : ℤ) : ℝ))) (-90) 90 0.95 2 = false := by
      simp only [isJump, decide_eq_false_iff_not]; norm_num
    rw [List.filter_cons_of_neg (by rw [h0]; simp), List.filter_cons_of_pos h1, List.filter_cons_of_neg (by rw [h2]; simp), List.filter_nil]
  unfold unwrapLines
  rw [h]
  rfl

end Verif.Figures
