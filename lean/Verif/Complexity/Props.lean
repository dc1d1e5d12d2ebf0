import Verif.Complexity.Model
import Verif.Complexity.Posterior
import Mathlib.Data.Fin.VecNotation

/-!
# Properties of the complexity measures (C165, C166, C168)
-/

namespace Verif.Complexity

open Verif.NumPy Verif.Stats Finset

variable {n N m : ℕ}

/-! ## C165: what the additional scatter is -/

/-- `v` is the point where the cumulative distribution `P` on the samples `x` reaches `t`, linearly interpolated;
the first sample if the distribution exceeds `t` there already. -/
def IsPct (x P : Fin N → ℝ) (t v : ℝ) : Prop :=
  ∃ i : Fin N, t < P i ∧ (∀ j, j < i → P j ≤ t) ∧
    (((i : ℕ) = 0 ∧ v = x i) ∨ ∃ h : 0 < (i : ℕ),
      let k : Fin N := ⟨i - 1, by omega⟩
      x k ≤ v ∧ v < x i ∧ (v - x k) * (P i - P k) = (t - P k) * (x i - x k))

theorem percentile_isPct (x p : Fin N → ℝ) (hx : StrictMono x) (t v : ℝ) (h : cdfPercentile x p t = some v) :
    IsPct x p t v := by
  obtain ⟨i, h1, h2, h3⟩ := cdfPercentile_cases x p hx t v h
  refine ⟨i, h1, h2, ?_⟩
  rcases h3 with h3 | ⟨h3, h4, h5, h6⟩
  · exact Or.inl h3
  · right
    have hi : (i : ℕ) - 1 < N := by omega
    have hlt : (⟨i - 1, hi⟩ : Fin N) < i := by show (i : ℕ) - 1 < i; omega
    have hxlt := hx hlt
    unfold Stats.segment at h6
    have ex : at0 x ((i : ℕ) - 1) = x ⟨i - 1, hi⟩ := by unfold at0; rw [dif_pos hi]
    have ep : at0 p ((i : ℕ) - 1) = p ⟨i - 1, hi⟩ := by unfold at0; rw [dif_pos hi]
    rw [ex, ep] at h6
    rw [ex] at h4
    refine ⟨h3, h4, h5, ?_⟩
    have hd : x i - x ⟨i - 1, hi⟩ ≠ 0 := by linarith
    field_simp at h6
    linarith

/-- The probability density of the value of a channel: normal around `yMed` with variance `dy² + s²`; one for a
channel without value or error. -/
noncomputable def density (yMed s : ℝ) (y dy : Option ℝ) : ℝ :=
  match y, dy with
  | some a, some d => ProbabilityTheory.gaussianPDFReal yMed (Real.toNNReal (d ^ 2 + s ^ 2)) a
  | _, _ => 1

theorem factor_gauss (yMed s : ℝ) (y dy : Option ℝ) (h : y.isSome = dy.isSome) :
    density yMed s y dy = factor yMed s y dy * (if y.isSome then (Real.sqrt (2 * Real.pi))⁻¹ else 1) := by
  cases y with
  | none =>
    cases dy with
    | none => simp [factor, density]
    | some d => simp at h
  | some a =>
    cases dy with
    | none => simp at h
    | some d =>
      have hv : 0 ≤ d ^ 2 + s ^ 2 := by positivity
      simp only [factor, density, ProbabilityTheory.gaussianPDFReal, Option.isSome_some, if_true, Real.coe_toNNReal _ hv]
      rw [Real.sqrt_mul (by positivity), mul_inv]
      have e : -(a - yMed) ^ 2 / (2 * (d ^ 2 + s ^ 2)) = -((a - yMed) ^ 2 / (d ^ 2 + s ^ 2) / 2) := by
        rw [div_div, mul_comm (d ^ 2 + s ^ 2) 2, neg_div]
      rw [e]
      ring

/-- C165. For data in which every channel has both a value and an error or neither, whose error bars extend over
`[a, b]`, the additional scatter `s` is the median, and `s - minus`, `s + plus` are the 15.72 and 84.27
percentiles, of the distribution on `N` equally spaced samples from `(b - a) / N` to `b - a`, with
probabilities proportional to `1/s` times the probability of the data under normal
distributions of variance `dy² + s²`. -/
theorem sigmaAdd_posterior (y dy : Fin n → Option ℝ) (yMed a b : ℝ) [NeZero N] (hN : 2 ≤ N)
    (hv : ∀ j, (y j).isSome = (dy j).isSome) (he : IsExtent y dy a b) (hab : a < b)
    (S W P : Fin N → ℝ) (hS : ∀ k, S k = (b - a) * ((k : ℕ) + 1) / N)
    (hW : ∀ k, W k = 1 / S k * ∏ j, density yMed (S k) (y j) (dy j))
    (hP : ∀ i, P i = (∑ k ∈ univ.filter (· ≤ i), W k) / ∑ k, W k) :
    ∃ s lo hi, sigmaAdd y dy yMed N = some (s, s - lo, hi - s) ∧ IsPct S P 0.5 s ∧ IsPct S P 0.1572 lo ∧
      IsPct S P 0.8427 hi := by
  have hr : 0 < b - a := by linarith
  have eS : S = grid (b - a) N := funext hS
  set C : ℝ := ∏ j : Fin n, (if (y j).isSome then (Real.sqrt (2 * Real.pi))⁻¹ else 1) with hC
  have hCpos : 0 < C := by
    refine Finset.prod_pos fun j _ => ?_
    split_ifs
    · have := Real.pi_pos; positivity
    · exact one_pos
  have eW : W = fun k => post y dy yMed (grid (b - a) N k) * C := by
    funext k
    rw [hW, eS]
    unfold post
    rw [Finset.prod_congr rfl fun j _ => factor_gauss yMed (grid (b - a) N k) (y j) (dy j) (hv j),
      Finset.prod_mul_distrib, ← hC, one_div, mul_assoc]
  have eP : P = cum fun k => post y dy yMed (grid (b - a) N k) := by
    have : P = cum W := funext hP
    rw [this, eW, cum_mul _ _ hCpos.ne']
  have hw : ∀ k, 0 < post y dy yMed (grid (b - a) N k) := fun k => post_pos y dy yMed _ (grid_pos _ hr k)
  obtain ⟨s, lo, hi, h1, h2, h3, h4⟩ := three_exists (grid (b - a) N) _ (by omega) hw
  have hmono := grid_mono (N := N) (b - a) hr
  refine ⟨s, lo, hi, ?_, ?_, ?_, ?_⟩
  · unfold sigmaAdd
    rw [yRange_eq y dy a b he, Option.bind_some, if_neg (by push Not; exact ⟨hr, hN⟩), core_eq y dy yMed _ hr hN, h4]
  · rw [eS, eP]
    have := percentile_isPct _ _ hmono _ _ h1
    rwa [show (50 / 100 : ℝ) = 0.5 by norm_num] at this
  · rw [eS, eP]
    have := percentile_isPct _ _ hmono _ _ h2
    rwa [show (15.72 / 100 : ℝ) = 0.1572 by norm_num] at this
  · rw [eS, eP]
    have := percentile_isPct _ _ hmono _ _ h3
    rwa [show (84.27 / 100 : ℝ) = 0.8427 by norm_num] at this

/-- Two channels and a flagged one: the hypotheses of `sigmaAdd_posterior` hold. -/
example : (∀ j, ((![some 1, none, some (-1)] : Fin 3 → Option ℝ) j).isSome = ((![some 2, none, some 1] : Fin 3 → Option ℝ) j).isSome) ∧
    IsExtent (![some 1, none, some (-1)] : Fin 3 → Option ℝ) ![some 2, none, some 1] (-2) 3 := by
  refine ⟨?_, ?_, ⟨2, -1, 1, rfl, rfl, by norm_num⟩, ⟨0, 1, 2, rfl, rfl, by norm_num⟩⟩
  · intro j; fin_cases j <;> rfl
  · intro j v d h1 h2
    fin_cases j
    · simp at h1 h2; rw [← h1, ← h2]; norm_num
    · simp at h1
    · simp at h1 h2; rw [← h1, ← h2]; norm_num

/-! ## C166: flagged channels -/

/-- Data without a channel that has both a value and an error. -/
theorem yRange_none (y dy : Fin n → Option ℝ) (h : ¬ ∃ i v d, y i = some v ∧ dy i = some d) : yRange y dy = none := by
  have : (List.finRange n).filterMap (fun i => addNaN (y i) (dy i)) = [] := by
    rw [List.filterMap_eq_nil_iff]
    intro i _
    cases hh : addNaN (y i) (dy i) with
    | none => rfl
    | some c =>
      obtain ⟨v, d, h1, h2, -⟩ := addNaN_eq.mp hh
      exact absurd ⟨i, v, d, h1, h2⟩ h
  unfold yRange
  rw [this]
  rfl

/-- The range depends on the set of valid channels only. -/
theorem yRange_congr (y dy : Fin n → Option ℝ) (y' dy' : Fin m → Option ℝ)
    (h : ∀ v d, (∃ i, y i = some v ∧ dy i = some d) ↔ ∃ i, y' i = some v ∧ dy' i = some d) :
    yRange y dy = yRange y' dy' := by
  by_cases hex : ∃ i v d, y i = some v ∧ dy i = some d
  · obtain ⟨a, b, hab⟩ := extent_exists y dy hex
    rw [yRange_eq y dy a b hab]
    refine (yRange_eq y' dy' a b ⟨?_, ?_, ?_⟩).symm
    · intro i v d h1 h2
      obtain ⟨k, k1, k2⟩ := (h v d).mpr ⟨i, h1, h2⟩
      exact hab.1 k v d k1 k2
    · obtain ⟨i, v, d, h1, h2, h3⟩ := hab.2.1
      obtain ⟨k, k1, k2⟩ := (h v d).mp ⟨i, h1, h2⟩
      exact ⟨k, v, d, k1, k2, h3⟩
    · obtain ⟨i, v, d, h1, h2, h3⟩ := hab.2.2
      obtain ⟨k, k1, k2⟩ := (h v d).mp ⟨i, h1, h2⟩
      exact ⟨k, v, d, k1, k2, h3⟩
  · rw [yRange_none y dy hex, yRange_none]
    rintro ⟨i, v, d, h1, h2⟩
    obtain ⟨k, k1, k2⟩ := (h v d).mpr ⟨i, h1, h2⟩
    exact hex ⟨k, v, d, k1, k2⟩

/-- The scatter depends on the range and on the product of the factors. -/
theorem sigmaAdd_congr (y dy : Fin n → Option ℝ) (y' dy' : Fin m → Option ℝ) (yMed : ℝ) [NeZero N]
    (h1 : yRange y dy = yRange y' dy')
    (h2 : ∀ s, 0 < s → ∏ j, factor yMed s (y j) (dy j) = ∏ j, factor yMed s (y' j) (dy' j)) :
    sigmaAdd y dy yMed N = sigmaAdd y' dy' yMed N := by
  have key : ∀ rng, 0 < rng → 2 ≤ N → sigmaAddCore y dy yMed rng N = sigmaAddCore y' dy' yMed rng N := by
    intro rng hr hN
    have : (fun k => post y dy yMed (grid rng N k)) = fun k => post y' dy' yMed (grid rng N k) := by
      funext k
      unfold post
      rw [h2 _ (grid_pos rng hr k)]
    rw [core_eq y dy yMed rng hr hN, core_eq y' dy' yMed rng hr hN, this]
  unfold sigmaAdd
  rw [h1]
  refine Option.bind_congr fun rng _ => ?_
  by_cases h : rng ≤ 0 ∨ N < 2
  · rw [if_pos h, if_pos h]
  · rw [if_neg h, if_neg h]
    push Not at h
    exact key rng h.1 h.2

/-- Channels without value and error can be removed, and the order of channels does not matter. -/
theorem sigmaAdd_reindex (y dy : Fin n → Option ℝ) (yMed : ℝ) [NeZero N] (e : Fin m → Fin n)
    (he : Function.Injective e) (h : ∀ j, (∀ i, e i ≠ j) → y j = none ∧ dy j = none) :
    sigmaAdd (y ∘ e) (dy ∘ e) yMed N = sigmaAdd y dy yMed N := by
  refine sigmaAdd_congr _ _ _ _ yMed (yRange_congr _ _ _ _ ?_) ?_
  · intro v d
    constructor
    · rintro ⟨i, h1, h2⟩
      exact ⟨e i, h1, h2⟩
    · rintro ⟨j, h1, h2⟩
      by_cases hj : ∃ i, e i = j
      · obtain ⟨i, rfl⟩ := hj
        exact ⟨i, h1, h2⟩
      · push Not at hj
        rw [(h j hj).1] at h1
        exact absurd h1 (by simp)
  · intro s _
    change ∏ j, factor yMed s (y (e j)) (dy (e j)) = _
    rw [← Finset.prod_image (s := univ) (g := e) (f := fun j => factor yMed s (y j) (dy j)) (fun a _ b _ hab => he hab)]
    refine Finset.prod_subset (Finset.subset_univ _) fun j _ hj => ?_
    have : ∀ i, e i ≠ j := fun i hi => hj (Finset.mem_image.mpr ⟨i, mem_univ _, hi⟩)
    rw [(h j this).1, (h j this).2]
    rfl

/-- A flagged channel that has an error lowers the scatter. -/
theorem flagged_lowers (y dy : Fin n → Option ℝ) (yMed a b : ℝ) [NeZero N] (hN : 2 ≤ N) (he : IsExtent y dy a b)
    (hab : a < b) (j : Fin n) (hy : y j = none) (d : ℝ) (hd : dy j = some d) :
    ∃ s m p s' m' p', sigmaAdd y dy yMed N = some (s, m, p) ∧
      sigmaAdd y (Function.update dy j none) yMed N = some (s', m', p') ∧ s ≤ s' ∧ (s ≠ (b - a) / N → s < s') := by
  have hr : 0 < b - a := by linarith
  set dy' := Function.update dy j none with hdy'
  have hrange : yRange y dy' = some (b - a) := by
    rw [← yRange_eq y dy a b he]
    refine yRange_congr _ _ _ _ ?_
    intro v w
    constructor
    · rintro ⟨i, h1, h2⟩
      have hij : i ≠ j := by rintro rfl; rw [hy] at h1; simp at h1
      exact ⟨i, h1, by rwa [hdy', Function.update_of_ne hij] at h2⟩
    · rintro ⟨i, h1, h2⟩
      have hij : i ≠ j := by rintro rfl; rw [hy] at h1; simp at h1
      exact ⟨i, h1, by rwa [hdy', Function.update_of_ne hij]⟩
  have hpost : ∀ s, 0 < s → post y dy yMed s = post y dy' yMed s * factor yMed s none (some d) := by
    intro s hs
    unfold post
    rw [mul_assoc]
    congr 1
    rw [← Finset.mul_prod_erase univ _ (mem_univ j), ← Finset.mul_prod_erase univ (fun i => factor yMed s (y i) (dy' i)) (mem_univ j)]
    rw [hy, hd, hdy', Function.update_self]
    have : factor yMed s none none = 1 := rfl
    rw [this, one_mul, mul_comm]
    congr 1
    refine Finset.prod_congr rfl fun i hi => ?_
    rw [Function.update_of_ne (Finset.ne_of_mem_erase hi)]
  have hpos := grid_pos (N := N) (b - a) hr
  have hmono := grid_mono (N := N) (b - a) hr
  set w : Fin N → ℝ := fun k => post y dy' yMed (grid (b - a) N k) with hw
  set g : Fin N → ℝ := fun k => factor yMed (grid (b - a) N k) none (some d) with hg
  have hwpos : ∀ k, 0 < w k := fun k => post_pos y dy' yMed _ (hpos k)
  have hgpos : ∀ k, 0 < g k := fun k => factor_pos yMed _ (hpos k) _ _
  have hganti : StrictAnti g := fun p q hpq => factor_flagged yMed _ _ d (hpos p) (hmono hpq)
  have e1 : (fun k => post y dy yMed (grid (b - a) N k)) = fun k => w k * g k :=
    funext fun k => hpost _ (hpos k)
  obtain ⟨s, lo, hi, h1, h2, h3, h4⟩ := three_exists (grid (b - a) N) (fun k => w k * g k) (by omega)
    (fun k => mul_pos (hwpos k) (hgpos k))
  obtain ⟨s', lo', hi', h1', h2', h3', h4'⟩ := three_exists (grid (b - a) N) w (by omega) hwpos
  have hcmp := percentile_le (grid (b - a) N) (cum w) (cum fun k => w k * g k) hmono
    (fun i => (cum_falling w g hwpos hgpos hganti.antitone i).1) _ s' s h1' h1
  refine ⟨s, s - lo, hi - s, s', s' - lo', hi' - s', ?_, ?_, hcmp.1, ?_⟩
  · unfold sigmaAdd
    rw [yRange_eq y dy a b he, Option.bind_some, if_neg (by push Not; exact ⟨hr, hN⟩), core_eq y dy yMed _ hr hN, e1, h4]
  · unfold sigmaAdd
    rw [hrange, Option.bind_some, if_neg (by push Not; exact ⟨hr, hN⟩), core_eq y dy' yMed _ hr hN, h4']
  · intro hs
    refine hcmp.2 (fun i hi => (cum_falling w g hwpos hgpos hganti.antitone i).2 hganti hi) ?_
    intro i hi
    by_contra hcon
    apply hs
    obtain ⟨k, k1, k2, k3⟩ := cdfPercentile_cases _ _ hmono _ _ h1
    have hki : k = i := by
      rcases lt_trichotomy k i with h | h | h
      · have : (k : ℕ) < i := h
        omega
      · exact h
      · exact absurd (k2 i h) hcon
    rw [hki] at k3
    rcases k3 with ⟨-, k3⟩ | ⟨k3, -⟩
    · rw [k3]
      unfold grid
      rw [hi]
      push_cast
      ring
    · omega

/-- With one good channel and one flagged channel that has an error, the first sample does not hold half of the
probability. -/
theorem exFlag_first : ∃ s m p, sigmaAdd (![some 0, none] : Fin 2 → Option ℝ) ![some 1, some 1] 0 1000 = some (s, m, p) ∧
    s ≠ (1 - -1) / (1000 : ℕ) := by
  have he : IsExtent (![some 0, none] : Fin 2 → Option ℝ) ![some 1, some 1] (-1) 1 := by
    refine ⟨?_, ⟨0, 0, 1, rfl, rfl, by norm_num⟩, ⟨0, 0, 1, rfl, rfl, by norm_num⟩⟩
    intro j v d h1 h2
    fin_cases j
    · simp at h1 h2; rw [← h1, ← h2]; norm_num
    · simp at h1
  have hr : (0 : ℝ) < 1 - -1 := by norm_num
  have hpos := grid_pos (N := 1000) (1 - -1) hr
  have hmono := grid_mono (N := 1000) (1 - -1) hr
  set w : Fin 1000 → ℝ := fun k => post (![some 0, none] : Fin 2 → Option ℝ) ![some 1, some 1] 0 (grid (1 - -1) 1000 k) with hw
  have hwpos : ∀ k, 0 < w k := fun k => post_pos _ _ _ _ (hpos k)
  have hwval : ∀ k, w k = (grid (1 - -1) 1000 k)⁻¹ * (1 + grid (1 - -1) 1000 k ^ 2)⁻¹ := by
    intro k
    have h1 : (0 : ℝ) ≤ 1 + grid (1 - -1) 1000 k ^ 2 := by positivity
    simp only [hw, post, Fin.prod_univ_two, factor, Matrix.cons_val_zero, Matrix.cons_val_one]
    rw [sub_self, ← Real.mul_self_sqrt h1, mul_inv]
    simp
  obtain ⟨s, lo, hi, h1, h2, h3, h4⟩ := three_exists (grid (1 - -1) 1000) w (by norm_num) hwpos
  refine ⟨s, s - lo, hi - s, ?_, ?_⟩
  · unfold sigmaAdd
    rw [yRange_eq _ _ _ _ he, Option.bind_some, if_neg (by push Not; exact ⟨hr, by norm_num⟩),
      core_eq _ _ _ _ hr (by norm_num), h4]
  · have hcum : cum w 0 < 50 / 100 := by
      unfold cum
      have hle : univ.filter (· ≤ (0 : Fin 1000)) = {0} := by
        ext k
        simp
      rw [hle, Finset.sum_singleton, div_lt_iff₀ (Finset.sum_pos (fun k _ => hwpos k) ⟨0, mem_univ _⟩)]
      have hsub : ∑ k ∈ ({0, 1, 2, 3} : Finset (Fin 1000)), w k ≤ ∑ k, w k :=
        Finset.sum_le_sum_of_subset_of_nonneg (Finset.subset_univ _) fun k _ _ => (hwpos k).le
      rw [Finset.sum_insert (by decide), Finset.sum_insert (by decide), Finset.sum_insert (by decide), Finset.sum_singleton] at hsub
      have v0 : grid (1 - -1) 1000 (0 : Fin 1000) = 1 / 500 := by unfold grid; norm_num
      have v1 : grid (1 - -1) 1000 (1 : Fin 1000) = 2 / 500 := by
        unfold grid; rw [show ((1 : Fin 1000) : ℕ) = 1 from rfl]; norm_num
      have v2 : grid (1 - -1) 1000 (2 : Fin 1000) = 3 / 500 := by
        unfold grid; rw [show ((2 : Fin 1000) : ℕ) = 2 from rfl]; norm_num
      have v3 : grid (1 - -1) 1000 (3 : Fin 1000) = 4 / 500 := by
        unfold grid; rw [show ((3 : Fin 1000) : ℕ) = 3 from rfl]; norm_num
      have : w 0 < w 1 + (w 2 + w 3) := by
        rw [hwval, hwval, hwval, hwval, v0, v1, v2, v3]
        norm_num
      linarith
    intro hs
    obtain ⟨i, i1, i2, i3⟩ := cdfPercentile_cases _ _ hmono _ _ h1
    have hi0 : 0 < (i : ℕ) := by
      rcases Nat.eq_zero_or_pos (i : ℕ) with h | h
      · have : i = 0 := Fin.ext h
        rw [this] at i1
        linarith
      · exact h
    rcases i3 with ⟨i3, -⟩ | ⟨-, i4, i5, i6⟩
    · omega
    · -- the median lies beyond the first sample
      have hi : (i : ℕ) - 1 < 1000 := by omega
      have ex : at0 (grid (1 - -1) 1000) ((i : ℕ) - 1) = grid (1 - -1) 1000 ⟨i - 1, hi⟩ := by unfold at0; rw [dif_pos hi]
      have ep : at0 (cum w) ((i : ℕ) - 1) = cum w ⟨i - 1, hi⟩ := by unfold at0; rw [dif_pos hi]
      have hg0 : grid (1 - -1) 1000 (0 : Fin 1000) = (1 - -1) / (1000 : ℕ) := by unfold grid; norm_num
      have hle0 : (0 : Fin 1000) ≤ ⟨i - 1, hi⟩ := Fin.zero_le _
      rw [ex] at i4
      have hge := hmono.monotone hle0
      have heq : grid (1 - -1) 1000 (⟨i - 1, hi⟩ : Fin 1000) = grid (1 - -1) 1000 0 := by
        rw [hs] at i4
        rw [hg0] at hge ⊢
        linarith
      have hz : (⟨i - 1, hi⟩ : Fin 1000) = 0 := hmono.injective heq
      unfold Stats.segment at i6
      rw [ex, ep, hz, hs, ← hg0, sub_self, zero_div, mul_zero, add_zero] at i6
      linarith

end Verif.Complexity
