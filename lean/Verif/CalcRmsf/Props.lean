import Mathlib.Analysis.SpecialFunctions.Trigonometric.Bounds
import Mathlib.Analysis.SpecialFunctions.Integrals.Basic
import Mathlib.Analysis.Convex.SpecificFunctions.Deriv
import Mathlib.Analysis.Real.Pi.Bounds
import Mathlib.Data.List.GetD
import Verif.CalcRmsf.Model
import Verif.Axis.Props
import Verif.Rmsf.Props

/-!
# Properties of the RMSF calculator (C133 - C136)
-/

open Complex

namespace Verif.CalcRmsf

open Verif.NumPy

variable {n : ℕ}

/-! ### C133: the axis -/

theorem arangeLen_bounds (a b d : ℝ) (hd : 0 < d) (hab : a ≤ b) :
    (b - a) / d ≤ arangeLen a b d ∧ (arangeLen a b d : ℝ) < (b - a) / d + 1 := by
  have h0 : 0 ≤ ⌈(b - a) / d⌉ := Int.ceil_nonneg (div_nonneg (by linarith) hd.le)
  have h1 : ((arangeLen a b d : ℕ) : ℝ) = (⌈(b - a) / d⌉ : ℤ) := by
    unfold arangeLen
    exact_mod_cast Int.toNat_of_nonneg h0
  rw [h1]
  exact ⟨Int.le_ceil _, Int.ceil_lt_add_one _⟩

/-- **C133.** For a step that is positive and not larger than the maximum depth, the RMSF is sampled with that step,
from below `-phiMax` up to within one step of `phiMax` (or beyond), and some sample is within half a step of zero. -/
theorem axis_covers [NeZero n] (x : In n) (hd : 0 < x.dPhiUsed) (hm : x.dPhiUsed ≤ x.phiMaxUsed) :
    ∃ g a, x.phi2 = some g ∧ (∀ i, g i = a + (i : ℝ) * x.dPhiUsed) ∧
      (∃ i, g i < -x.phiMaxUsed) ∧ (∃ i, x.phiMaxUsed - x.dPhiUsed < g i) ∧
      ∃ i, |g i| ≤ x.dPhiUsed / 2 := by
  set d := x.dPhiUsed with hdd
  set m := x.phiMaxUsed with hmm
  obtain ⟨h1, h2⟩ := arangeLen_bounds (-1 * m / 2) (m / 2 + 1e-6) d hd (by linarith)
  have hN : arangeLen (-1 * m / 2) (m / 2 + 1e-6) d = x.nPhi := rfl
  rw [hN] at h1 h2
  have e1 : m / 2 + 1e-6 - -1 * m / 2 = m + 1e-6 := by ring
  rw [e1] at h1 h2
  have h1' : m + 1e-6 ≤ x.nPhi * d := by rwa [div_le_iff₀ hd] at h1
  have hN2 : 2 ≤ x.nPhi := by
    by_contra hc
    have : (x.nPhi : ℝ) ≤ 1 := by exact_mod_cast (by omega : x.nPhi ≤ 1)
    nlinarith
  obtain ⟨g, hg, hlen, -, -, hform, -⟩ := Axis.phi2_spec hN2 x.phi
  have hg' := hform (-1 * m / 2) d (fun i => rfl)
  set E := (x.nPhi + 1) / 2 with hE
  have hE1 : (x.nPhi : ℝ) ≤ 2 * E := by exact_mod_cast (by omega : x.nPhi ≤ 2 * E)
  refine ⟨g, -1 * m / 2 - E * d, hg, fun i => by rw [hg' i]; ring, ?_, ?_, ?_⟩
  · refine ⟨⟨0, by omega⟩, ?_⟩
    rw [hg']
    simp only [CharP.cast_eq_zero]
    nlinarith
  · refine ⟨⟨x.nPhi + 2 * E - 1, by omega⟩, ?_⟩
    rw [hg']
    have : ((x.nPhi + 2 * E - 1 : ℕ) : ℝ) = x.nPhi + 2 * E - 1 := by
      rw [Nat.cast_sub (by omega)]; push_cast; ring
    simp only [this]
    nlinarith
  · have hm0 : 0 < m := lt_of_lt_of_le hd hm
    set k := ⌊m / 2 / d + 1 / 2⌋ with hk
    have hk0 : 0 ≤ k := Int.floor_nonneg.2 (by positivity)
    have hk1 : (k : ℝ) ≤ m / 2 / d + 1 / 2 := Int.floor_le _
    have hk2 : m / 2 / d + 1 / 2 < k + 1 := Int.lt_floor_add_one _
    have e2 : m / 2 / d * d = m / 2 := div_mul_cancel₀ _ hd.ne'
    have hk3 : (k : ℝ) * d ≤ m / 2 + d / 2 := by nlinarith
    have hk4 : m / 2 - d / 2 < k * d := by nlinarith
    have hkN : k.toNat < x.nPhi := by
      have : (k : ℝ) * d < x.nPhi * d := by linarith
      have : (k : ℝ) < x.nPhi := lt_of_mul_lt_mul_right this hd.le
      have : k < (x.nPhi : ℤ) := by exact_mod_cast this
      omega
    refine ⟨⟨k.toNat + E, by omega⟩, ?_⟩
    rw [hg']
    have hc : ((k.toNat : ℕ) : ℝ) = k := by exact_mod_cast Int.toNat_of_nonneg hk0
    push_cast
    rw [hc, abs_le]
    constructor <;> nlinarith

/-- **C133, default axis**: symmetric, zero depth in the middle, and more than ten samples over the theoretical
width. The wavelength range must not exceed 346 000 square metres. -/
theorem default_axis [NeZero n] (x : In n) (h1 : x.phiMax = none) (h2 : x.dPhi = none) (hr : 0 < x.hi - x.lo)
    (hsmall : x.hi - x.lo ≤ 346000) :
    Axis.nPhi2 x.nPhi = 203 ∧ ∃ g, x.phi2 = some g ∧ (∀ i, g i = ((i : ℝ) - 101) * x.dPhiUsed) ∧
      10 * x.dPhiUsed < 3.8 / (x.hi - x.lo) := by
  have hs3 : (1.73 : ℝ) < Real.sqrt 3 := by
    rw [Real.lt_sqrt (by norm_num)]; norm_num
  have hs3' : Real.sqrt 3 < 1.74 := by
    rw [Real.sqrt_lt' (by norm_num)]; norm_num
  have hd : x.dPhiUsed = 0.1 * 2 * Real.sqrt 3 / (x.hi - x.lo) := by unfold In.dPhiUsed; rw [h2]; rfl
  have hm : x.phiMaxUsed = 100 * x.dPhiUsed := by
    rw [hd]; unfold In.phiMaxUsed; rw [h1]; simp only [Option.getD_none]; ring
  have hdpos : 0 < x.dPhiUsed := by rw [hd]; positivity
  have hd6 : 1e-6 ≤ x.dPhiUsed := by
    rw [hd, le_div_iff₀ hr]; norm_num; nlinarith
  have hN : x.nPhi = 101 := by
    unfold In.nPhi arangeLen
    rw [hm]
    have e : (100 * x.dPhiUsed / 2 + 1e-6 - -1 * (100 * x.dPhiUsed) / 2) / x.dPhiUsed = 100 + 1e-6 / x.dPhiUsed := by
      field_simp; ring
    rw [e]
    have h3 : 0 < 1e-6 / x.dPhiUsed := by positivity
    have h4 : 1e-6 / x.dPhiUsed ≤ 1 := by rw [div_le_one hdpos]; exact hd6
    have : ⌈100 + 1e-6 / x.dPhiUsed⌉ = 101 := by
      rw [Int.ceil_eq_iff]; push_cast; constructor <;> linarith
    rw [this]; rfl
  refine ⟨by rw [hN]; rfl, ?_⟩
  obtain ⟨g, hg, -, -, -, hform, -⟩ := Axis.phi2_spec (by omega : 2 ≤ x.nPhi) x.phi
  have hg' := hform (-1 * x.phiMaxUsed / 2) x.dPhiUsed (fun i => rfl)
  refine ⟨g, hg, ?_, ?_⟩
  · intro i
    rw [hg' i, hm]
    have : ((x.nPhi + 1) / 2 : ℕ) = 51 := by rw [hN]
    rw [this]; push_cast; ring
  · rw [hd, lt_div_iff₀ hr, mul_assoc, div_mul_cancel₀ _ hr.ne']
    norm_num; linarith

/-- Zero depth is not on the axis for every choice: maximum depth 3, step 2 gives the samples -3.5, -1.5, 0.5, 2.5. -/
theorem zero_off_axis [NeZero n] (x : In n) (h1 : x.phiMax = some 3) (h2 : x.dPhi = some 2) :
    ∃ g, x.phi2 = some g ∧ ∀ i, g i ≠ 0 := by
  have hd : x.dPhiUsed = 2 := by unfold In.dPhiUsed; rw [h2]; rfl
  have hm : x.phiMaxUsed = 3 := by unfold In.phiMaxUsed; rw [h1]; rfl
  obtain ⟨h3, -⟩ := arangeLen_bounds (-1 * x.phiMaxUsed / 2) (x.phiMaxUsed / 2 + 1e-6) x.dPhiUsed (by rw [hd]; norm_num)
    (by rw [hm]; norm_num)
  have hN2 : 2 ≤ x.nPhi := by
    rw [hm, hd] at h3
    have h4 : x.nPhi = arangeLen (-1 * 3 / 2) (3 / 2 + 1e-6) 2 := by unfold In.nPhi; rw [hm, hd]
    by_contra hc
    have : (x.nPhi : ℝ) ≤ 1 := by exact_mod_cast (by omega : x.nPhi ≤ 1)
    rw [h4] at this
    norm_num at h3
    linarith
  obtain ⟨g, hg, -, -, -, hform, -⟩ := Axis.phi2_spec hN2 x.phi
  have hg' := hform (-1 * x.phiMaxUsed / 2) x.dPhiUsed (fun i => rfl)
  refine ⟨g, hg, ?_⟩
  intro i h0
  rw [hg' i, hm, hd] at h0
  have h5 : (4 * ((i : ℕ) : ℤ) - 4 * (((x.nPhi + 1) / 2 : ℕ) : ℤ) : ℤ) = 3 := by
    have : (4 * ((i : ℕ) : ℝ) - 4 * (((x.nPhi + 1) / 2 : ℕ) : ℝ) : ℝ) = 3 := by linarith
    exact_mod_cast this
  omega

/-! ### C134: the sidelobe -/

theorem diff_length (a : List ℝ) : (diff a).length = a.length - 1 := by
  induction a with
  | nil => rfl
  | cons x l ih =>
    cases l with
    | nil => rfl
    | cons y l => simp only [diff, List.length_cons] at ih ⊢; omega

theorem diff_getD (a : List ℝ) (i : ℕ) (h : i + 1 < a.length) : (diff a).getD i 0 = a.getD (i + 1) 0 - a.getD i 0 := by
  induction a generalizing i with
  | nil => simp at h
  | cons x l ih =>
    cases l with
    | nil => simp at h
    | cons y l =>
      cases i with
      | zero => simp [diff]
      | succ i =>
        have := ih i (by simpa using h)
        simpa [diff] using this

/-- Sample `i` is higher than both neighbours. -/
def LocalMax (a : List ℝ) (i : ℕ) : Prop :=
  1 ≤ i ∧ i + 1 < a.length ∧ a.getD (i - 1) 0 < a.getD i 0 ∧ a.getD (i + 1) 0 < a.getD i 0

theorem npSign_neg_two (u v : ℝ) : npSign v - npSign u = -2 ↔ 0 < u ∧ v < 0 := by
  unfold npSign
  constructor
  · intro h
    split_ifs at h with h1 h2 h3 h4 h5 <;> first | (exfalso; norm_num at h; done) | exact ⟨by assumption, by assumption⟩
  · rintro ⟨h1, h2⟩
    rw [if_pos h2, if_neg (not_lt.2 h1.le), if_pos h1]
    norm_num

theorem mem_peakIdx (a : List ℝ) (i : ℕ) : i ∈ peakIdx a ↔ LocalMax a i := by
  unfold peakIdx
  dsimp only
  have hl : (diff ((diff a).map npSign)).length = a.length - 2 := by
    rw [diff_length, List.length_map, diff_length]; omega
  rw [hl]
  have key : ∀ k, k < a.length - 2 → ((diff ((diff a).map npSign)).getD k 0 = -2 ↔ LocalMax a (1 + k)) := by
    intro k hk
    rw [diff_getD _ _ (by rw [List.length_map, diff_length]; omega)]
    have e : ∀ q, q < (diff a).length → ((diff a).map npSign).getD q 0 = npSign ((diff a).getD q 0) := by
      intro q hq
      rw [List.getD_eq_getElem _ _ (by simpa using hq), List.getElem_map, List.getD_eq_getElem _ _ hq]
    rw [e _ (by rw [diff_length]; omega), e _ (by rw [diff_length]; omega), npSign_neg_two,
      diff_getD _ _ (by omega), diff_getD _ _ (by omega)]
    unfold LocalMax
    rw [show 1 + k - 1 = k by omega, show 1 + k + 1 = k + 1 + 1 by omega, show 1 + k = k + 1 by omega]
    constructor
    · rintro ⟨h1, h2⟩; exact ⟨by omega, by omega, by linarith, by linarith⟩
    · rintro ⟨-, -, h1, h2⟩; exact ⟨by linarith, by linarith⟩
  simp only [List.mem_map, List.mem_filter, List.mem_range, decide_eq_true_eq]
  constructor
  · rintro ⟨k, ⟨h1, h2⟩, rfl⟩
    exact (key k h1).1 h2
  · intro h
    have h1 := h.1
    have h2 := h.2.1
    refine ⟨i - 1, ⟨by omega, ?_⟩, by omega⟩
    rw [key _ (by omega), show 1 + (i - 1) = i by omega]
    exact h

/-- **C134.** The reported sidelobe is a local maximum of the modulus of the RMSF from the middle of the axis on, none of
these is higher, and one is reported exactly if there is any. Its depth and per cent are those of the sample. -/
theorem sidelobe_highest [NeZero n] (x : In n) (r : Report (Axis.nPhi2 x.nPhi)) (h : determine x = some r)
    (hR : ∀ l, r.rmsf l ≠ none) :
    (r.sidelobe = none ↔ ∀ i, ¬ LocalMax (half r.rmsf) i) ∧
    ∀ phi amp, r.sidelobe = some (phi, amp) → ∃ i, LocalMax (half r.rmsf) i ∧
      (∀ j, LocalMax (half r.rmsf) j → (half r.rmsf).getD j 0 ≤ (half r.rmsf).getD i 0) ∧
      ∃ hi : Axis.nPhi2 x.nPhi / 2 + i < Axis.nPhi2 x.nPhi,
        phi = r.phi2 ⟨_, hi⟩ ∧ amp = 100 * ‖(r.rmsf ⟨_, hi⟩).getD 0‖ := by
  unfold determine at h
  split_ifs at h with h1
  rw [Option.bind_eq_some_iff] at h
  obtain ⟨dl2, -, h⟩ := h
  split_ifs at h with h2
  rw [Option.map_eq_some_iff] at h
  obtain ⟨g, -, rfl⟩ := h
  dsimp only at hR ⊢
  rw [if_neg (by rintro ⟨l, hl⟩; exact hR l hl)]
  set R := fun l => Rmsf.rmsf (x.rmsfIn g) l 0 with hRR
  set N := Axis.nPhi2 x.nPhi with hNN
  constructor
  · rw [Option.map_eq_none_iff]
    unfold sidelobe
    rw [List.argmax_eq_none, List.eq_nil_iff_forall_not_mem]
    exact forall_congr' fun i => not_congr (mem_peakIdx _ i)
  · intro phi amp hs
    rw [Option.map_eq_some_iff] at hs
    obtain ⟨i, hi, he⟩ := hs
    unfold sidelobe at hi
    have hmem := List.argmax_mem hi
    have hloc := (mem_peakIdx _ _).1 hmem
    refine ⟨i, hloc, fun j hj => List.le_of_mem_argmax ((mem_peakIdx _ _).2 hj) hi, ?_⟩
    have hlen : ∀ R' : Fin N → Option ℂ, (half R').length = N - N / 2 := fun R' => by simp [half]
    have hlt : N / 2 + i < N := by have := hloc.2.1; rw [hlen] at this; omega
    refine ⟨hlt, ?_⟩
    rw [Prod.mk.injEq] at he
    obtain ⟨he1, he2⟩ := he
    constructor
    · rw [← he1, List.getD_eq_getElem _ _ (by simp; omega), List.getElem_drop, List.getElem_ofFn]
    · rw [← he2, mul_comm]
      unfold half
      rw [List.getD_eq_getElem _ _ (by simp; omega), List.getElem_drop, List.getElem_ofFn]

/-- On the default axis the reported sidelobe is at a positive depth: it is not the main lobe. -/
theorem sidelobe_default [NeZero n] (x : In n) (r : Report (Axis.nPhi2 x.nPhi)) (h : determine x = some r)
    (h1 : x.phiMax = none) (h2 : x.dPhi = none) (hr : 0 < x.hi - x.lo) (hsmall : x.hi - x.lo ≤ 346000)
    (phi amp : ℝ) (hs : r.sidelobe = some (phi, amp)) : 0 < phi := by
  have hR : ∀ l, r.rmsf l ≠ none := by
    have h' := h
    unfold determine at h'
    split_ifs at h' with h3
    rw [Option.bind_eq_some_iff] at h'
    obtain ⟨dl2, -, h'⟩ := h'
    split_ifs at h' with h4
    rw [Option.map_eq_some_iff] at h'
    obtain ⟨g, -, rfl⟩ := h'
    dsimp only at hs
    split_ifs at hs with h5
    intro l hl
    exact h5 ⟨l, hl⟩
  obtain ⟨-, h5⟩ := sidelobe_highest x r h hR
  obtain ⟨i, hloc, -, hi, rfl, -⟩ := h5 phi amp hs
  obtain ⟨hN, g, hg, hform, -⟩ := default_axis x h1 h2 hr hsmall
  have hgr : r.phi2 = g := by
    unfold determine at h
    split_ifs at h with h3
    rw [Option.bind_eq_some_iff] at h
    obtain ⟨dl2, -, h⟩ := h
    split_ifs at h with h4
    rw [Option.map_eq_some_iff] at h
    obtain ⟨g', hg', rfl⟩ := h
    rw [hg] at hg'
    exact (Option.some.inj hg').symm
  rw [hgr, hform]
  have h6 := hloc.1
  have hd : 0 < x.dPhiUsed := by
    unfold In.dPhiUsed; rw [h2]; simp only [Option.getD_none]; positivity
  have : (101 : ℝ) < ((Axis.nPhi2 x.nPhi / 2 + i : ℕ) : ℝ) := by
    exact_mod_cast (by omega : 101 < Axis.nPhi2 x.nPhi / 2 + i)
  exact mul_pos (by linarith) hd

/-- Non-vacuity of C134 on a list: the highest peak is not always the first one. -/
example : LocalMax [1, 0.2, 0.3, 0.1, 0.5, 0.2] 2 ∧ LocalMax [1, 0.2, 0.3, 0.1, 0.5, 0.2] 4 ∧
    sidelobe [1, 0.2, 0.3, 0.1, 0.5, 0.2] = some 4 := by
  have h2 : LocalMax [1, 0.2, 0.3, 0.1, 0.5, 0.2] 2 := by unfold LocalMax; norm_num
  have h4 : LocalMax [1, 0.2, 0.3, 0.1, 0.5, 0.2] 4 := by unfold LocalMax; norm_num
  refine ⟨h2, h4, ?_⟩
  have hne : sidelobe [1, 0.2, 0.3, 0.1, 0.5, 0.2] ≠ none := by
    unfold sidelobe
    rw [Ne, List.argmax_eq_none]
    intro h
    have := (mem_peakIdx _ _).2 h4
    rw [h] at this
    simp at this
  obtain ⟨i, hi⟩ := Option.ne_none_iff_exists'.1 hne
  rw [hi]
  unfold sidelobe at hi
  have hm := (mem_peakIdx _ _).1 (List.argmax_mem hi)
  have hle := List.le_of_mem_argmax ((mem_peakIdx _ _).2 h4) hi
  have hlt := hm.2.1
  have h1 := hm.1
  simp only [List.length_cons, List.length_nil] at hlt
  have : i = 1 ∨ i = 2 ∨ i = 3 ∨ i = 4 := by omega
  rcases this with rfl | rfl | rfl | rfl
  · norm_num at hle
  · norm_num at hle
  · norm_num at hle
  · rfl

end Verif.CalcRmsf
