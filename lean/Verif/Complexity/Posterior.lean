import Verif.Stats.Props
import Mathlib.Probability.Distributions.Gaussian.Real
import Mathlib.NumberTheory.Harmonic.Bounds
import Mathlib.Analysis.Complex.ExponentialBounds

/-!
# The distribution of the additional scatter
-/

namespace Verif.Complexity

open Verif.NumPy Verif.Stats Finset

variable {n N : ℕ}

/-- The samples of the additional scatter. -/
noncomputable def grid (rng : ℝ) (N : ℕ) (i : Fin N) : ℝ := rng * ((i : ℕ) + 1) / N

/-- The factor of one channel in the likelihood of the scatter `s`. -/
noncomputable def factor (yMed s : ℝ) (y dy : Option ℝ) : ℝ :=
  match dy with
  | none => 1
  | some d =>
    (Real.sqrt (d ^ 2 + s ^ 2))⁻¹ * match y with
      | none => 1
      | some a => Real.exp (-((a - yMed) ^ 2 / (d ^ 2 + s ^ 2) / 2))

/-- What the code takes as probability of the scatter `s`, up to a constant factor. -/
noncomputable def post (y dy : Fin n → Option ℝ) (yMed s : ℝ) : ℝ := s⁻¹ * ∏ j, factor yMed s (y j) (dy j)

/-- The cumulative distribution with weights `w`. -/
noncomputable def cum (w : Fin N → ℝ) (i : Fin N) : ℝ := (∑ k ∈ univ.filter (· ≤ i), w k) / ∑ k, w k

/-- Median and the distances to two other percentiles. -/
noncomputable def three (x p : Fin N → ℝ) : Option (ℝ × ℝ × ℝ) :=
  (cdfPercentile x p (50 / 100)).bind fun s =>
    (cdfPercentile x p (15.72 / 100)).bind fun lo =>
      (cdfPercentile x p (84.27 / 100)).map fun hi => (s, s - lo, hi - s)

theorem cum_mul (w : Fin N → ℝ) (c : ℝ) (hc : c ≠ 0) : cum (fun k => w k * c) = cum w := by
  funext i
  unfold cum
  rw [← Finset.sum_mul, ← Finset.sum_mul, mul_div_mul_right _ _ hc]

theorem linspace_grid (rng : ℝ) (hN : 2 ≤ N) : linspace (rng / N) rng N = grid rng N := by
  funext i
  unfold linspace grid
  have h1 : (2 : ℝ) ≤ N := by exact_mod_cast hN
  have h2 : (N : ℝ) - 1 ≠ 0 := by linarith
  field_simp
  ring

theorem grid_pos (rng : ℝ) (hr : 0 < rng) (i : Fin N) : 0 < grid rng N i := by
  have : (0 : ℝ) < N := by exact_mod_cast (Nat.lt_of_le_of_lt (Nat.zero_le _) i.isLt)
  unfold grid
  positivity

theorem grid_mono (rng : ℝ) (hr : 0 < rng) : StrictMono (grid rng N) := by
  intro a b hab
  have hN : (0 : ℝ) < N := by exact_mod_cast (Nat.lt_of_le_of_lt (Nat.zero_le _) a.isLt)
  have : ((a : ℕ) : ℝ) < ((b : ℕ) : ℝ) := by exact_mod_cast hab
  unfold grid
  apply div_lt_div_of_pos_right _ hN
  exact mul_lt_mul_of_pos_left (by linarith) hr

theorem factor_pos (yMed s : ℝ) (hs : 0 < s) (y dy : Option ℝ) : 0 < factor yMed s y dy := by
  unfold factor
  cases dy with
  | none => exact one_pos
  | some d =>
    have : 0 < d ^ 2 + s ^ 2 := by positivity
    cases y with
    | none => dsimp only; positivity
    | some a => dsimp only; positivity

theorem post_pos (y dy : Fin n → Option ℝ) (yMed s : ℝ) (hs : 0 < s) : 0 < post y dy yMed s :=
  mul_pos (inv_pos.mpr hs) (Finset.prod_pos fun j _ => factor_pos yMed s hs (y j) (dy j))

theorem factor_log (yMed s : ℝ) (hs : 0 < s) (y dy : Option ℝ) :
    Real.log (factor yMed s y dy) =
      -((dy.map fun d => d ^ 2 + s ^ 2).map fun v => Real.log (Real.sqrt v)).getD 0
        - ((dy.map fun d => d ^ 2 + s ^ 2).bind fun v => y.map fun a => (a - yMed) ^ 2 / v).getD 0 / 2 := by
  unfold factor
  cases dy with
  | none => simp
  | some d =>
    have h : 0 < Real.sqrt (d ^ 2 + s ^ 2) := Real.sqrt_pos.mpr (by positivity)
    cases y with
    | none => simp [Real.log_inv]
    | some a =>
      dsimp only [Option.map_some, Option.bind_some, Option.getD_some]
      rw [Real.log_mul (inv_pos.mpr h).ne' (Real.exp_pos _).ne', Real.log_inv, Real.log_exp]
      ring

/-- The distribution that the code builds is the one with weights `post`. -/
theorem core_eq (y dy : Fin n → Option ℝ) (yMed rng : ℝ) [NeZero N] (hr : 0 < rng) (hN : 2 ≤ N) :
    sigmaAddCore y dy yMed rng N = three (grid rng N) (cum fun k => post y dy yMed (grid rng N k)) := by
  unfold sigmaAddCore
  extract_lets sig tot lnSigmaSum chiSq lnProb0 lnProb prob0 A prob cpdf
  have hsig : sig = grid rng N := linspace_grid rng hN
  have hpos : ∀ i, 0 < sig i := fun i => by rw [hsig]; exact grid_pos rng hr i
  have hlog : ∀ i, lnProb0 i = Real.log (post y dy yMed (sig i)) - n * Real.log (2 * Real.pi) / 2 := by
    intro i
    unfold post
    rw [Real.log_mul (inv_pos.mpr (hpos i)).ne'
      (Finset.prod_pos fun j _ => factor_pos yMed _ (hpos i) (y j) (dy j)).ne', Real.log_inv,
      Real.log_prod fun j _ => (factor_pos yMed _ (hpos i) (y j) (dy j)).ne']
    simp only [lnProb0, lnSigmaSum, chiSq, tot]
    rw [Finset.sum_congr rfl fun j _ => factor_log yMed (sig i) (hpos i) (y j) (dy j), Finset.sum_sub_distrib,
      Finset.sum_neg_distrib, Finset.sum_div]
    ring
  have h10 : at0 sig 0 < at0 sig 1 := by
    unfold at0
    rw [dif_pos (by omega), dif_pos (by omega), hsig]
    exact grid_mono rng hr (by show 0 < 1; norm_num)
  have hA : 0 < A :=
    Finset.sum_pos (fun i _ => mul_pos (Real.exp_pos _) (by linarith)) ⟨0, Finset.mem_univ _⟩
  set C := Real.exp (-(n * Real.log (2 * Real.pi) / 2) - npMax lnProb0) / A with hC
  have hCpos : 0 < C := div_pos (Real.exp_pos _) hA
  have hprob : prob = fun k => post y dy yMed (grid rng N k) * C := by
    funext k
    have : prob k = Real.exp (lnProb0 k - npMax lnProb0) / A := rfl
    rw [this, hlog, hC, ← hsig, mul_div_assoc']
    congr 1
    rw [← Real.exp_log (post_pos y dy yMed (sig k) (hpos k)), ← Real.exp_add, Real.exp_log (post_pos y dy yMed (sig k) (hpos k))]
    congr 1
    ring
  have hc : cpdf = cum fun k => post y dy yMed (grid rng N k) := by
    have : cpdf = cum prob := rfl
    rw [this, hprob, cum_mul _ C hCpos.ne']
  rw [hc, hsig]
  rfl

/-! ## Comparing distributions -/

theorem percentile_le (x p p' : Fin N → ℝ) (hx : StrictMono x) (hp : ∀ i, p i ≤ p' i) (t v v' : ℝ)
    (h : cdfPercentile x p t = some v) (h' : cdfPercentile x p' t = some v') :
    v' ≤ v ∧ ((∀ i : Fin N, (i : ℕ) + 1 < N → p i < p' i) → (∀ i : Fin N, (i : ℕ) = 0 → p' i ≤ t) → v' < v) := by
  obtain ⟨i, h1, h2, h3⟩ := cdfPercentile_cases x p hx t v h
  obtain ⟨k, k1, k2, k3⟩ := cdfPercentile_cases x p' hx t v' h'
  have hki : k ≤ i := by
    by_contra hcon
    have := k2 i (not_le.mp hcon)
    linarith [hp i]
  rcases hki.eq_or_lt with rfl | hlt
  · rcases h3 with ⟨a1, a2⟩ | ⟨a1, a2, a3, a4⟩
    · rcases k3 with ⟨b1, b2⟩ | ⟨b1, b2, b3, b4⟩
      · exact ⟨by rw [a2, b2], fun _ hz => absurd (hz k b1) (not_le.mpr k1)⟩
      · omega
    · rcases k3 with ⟨b1, b2⟩ | ⟨b1, b2, b3, b4⟩
      · omega
      · have hi : (k : ℕ) - 1 < N := by omega
        have hlt : (⟨k - 1, hi⟩ : Fin N) < k := by show (k : ℕ) - 1 < k; omega
        have hxlt := hx hlt
        have hA := h2 _ hlt
        have hA' := k2 _ hlt
        have hpp := hp ⟨k - 1, hi⟩
        have hpk := hp k
        unfold Stats.segment at a4 b4
        have ex : at0 x ((k : ℕ) - 1) = x ⟨k - 1, hi⟩ := by unfold at0; rw [dif_pos hi]
        have ep : at0 p ((k : ℕ) - 1) = p ⟨k - 1, hi⟩ := by unfold at0; rw [dif_pos hi]
        have ep' : at0 p' ((k : ℕ) - 1) = p' ⟨k - 1, hi⟩ := by unfold at0; rw [dif_pos hi]
        rw [ex, ep] at a4
        rw [ex, ep'] at b4
        set X := x ⟨k - 1, hi⟩
        set P := p ⟨k - 1, hi⟩
        set P' := p' ⟨k - 1, hi⟩
        have hd : 0 < x k - X := by linarith
        have hB : 0 < p k - P := by linarith
        have hB' : 0 < p' k - P' := by linarith
        have e1 : (v - X) * (p k - P) = (t - P) * (x k - X) := by
          field_simp at a4
          linarith
        have e2 : (v' - X) * (p' k - P') = (t - P') * (x k - X) := by
          field_simp at b4
          linarith
        have hv : v = X + (t - P) * (x k - X) / (p k - P) := by
          field_simp; linarith
        have hv' : v' = X + (t - P') * (x k - X) / (p' k - P') := by
          field_simp; linarith
        constructor
        · rw [hv, hv']
          refine add_le_add le_rfl ?_
          rw [div_le_div_iff₀ hB' hB]
          have : (t - P') * (p k - t) ≤ (t - P) * (p' k - t) :=
            mul_le_mul (by linarith) (by linarith) (by linarith) (by linarith)
          nlinarith
        · intro hstr _
          have hs : P < P' := hstr ⟨k - 1, hi⟩ (by show (k : ℕ) - 1 + 1 < N; have := k.isLt; omega)
          rw [hv, hv']
          refine add_lt_add_of_le_of_lt le_rfl ?_
          rw [div_lt_div_iff₀ hB' hB]
          have : (t - P') * (p k - t) < (t - P) * (p' k - t) :=
            mul_lt_mul (by linarith) (by linarith) (by linarith) (by linarith)
          nlinarith
  · have hpos : 0 < (i : ℕ) := Nat.lt_of_le_of_lt (Nat.zero_le _) hlt
    have hi : (i : ℕ) - 1 < N := by omega
    have hle : k ≤ ⟨i - 1, hi⟩ := by
      show (k : ℕ) ≤ i - 1
      have : (k : ℕ) < i := hlt
      omega
    have hv : x ⟨i - 1, hi⟩ ≤ v := by
      rcases h3 with ⟨a1, -⟩ | ⟨-, a2, -⟩
      · omega
      · unfold at0 at a2
        rwa [dif_pos hi] at a2
    have hxk := hx.monotone hle
    rcases k3 with ⟨b1, b2⟩ | ⟨b1, b2, b3, b4⟩
    · exact ⟨by rw [b2]; exact hxk.trans hv, fun _ hz => absurd (hz k b1) (not_le.mpr k1)⟩
    · exact ⟨(b3.le.trans hxk).trans hv, fun _ _ => (b3.trans_le hxk).trans_le hv⟩

theorem percentile_le_sample (x p : Fin N → ℝ) (hx : StrictMono x) (t v : ℝ) (h : cdfPercentile x p t = some v)
    (k : Fin N) (hk : t < p k) : v ≤ x k := by
  obtain ⟨i, -, h2, h3⟩ := cdfPercentile_cases x p hx t v h
  have hik : i ≤ k := by
    by_contra hcon
    have := h2 k (not_le.mp hcon)
    linarith
  have hvi : v ≤ x i := by
    rcases h3 with ⟨-, h3⟩ | ⟨-, -, h3, -⟩
    · exact h3.le
    · exact h3.le
  exact hvi.trans (hx.monotone hik)

theorem sum_split (w : Fin N → ℝ) (i : Fin N) :
    ∑ k, w k = ∑ k ∈ univ.filter (· ≤ i), w k + ∑ k ∈ univ.filter (fun k => ¬ k ≤ i), w k :=
  (Finset.sum_filter_add_sum_filter_not _ _ _).symm

/-- A falling factor moves the distribution towards small values. -/
theorem cum_falling (w g : Fin N → ℝ) (hw : ∀ k, 0 < w k) (hg : ∀ k, 0 < g k) (hanti : Antitone g) (i : Fin N) :
    cum w i ≤ cum (fun k => w k * g k) i ∧
      (StrictAnti g → (i : ℕ) + 1 < N → cum w i < cum (fun k => w k * g k) i) := by
  have hne : (univ : Finset (Fin N)).Nonempty := ⟨i, mem_univ _⟩
  have h1 : 0 < ∑ k, w k := Finset.sum_pos (fun k _ => hw k) hne
  have h2 : 0 < ∑ k, w k * g k := Finset.sum_pos (fun k _ => mul_pos (hw k) (hg k)) hne
  have hS : 0 < ∑ k ∈ univ.filter (· ≤ i), w k := Finset.sum_pos (fun k _ => hw k) ⟨i, by simp⟩
  have hSg : (∑ k ∈ univ.filter (· ≤ i), w k) * g i ≤ ∑ k ∈ univ.filter (· ≤ i), w k * g k := by
    rw [Finset.sum_mul]
    refine Finset.sum_le_sum fun k hk => mul_le_mul_of_nonneg_left (hanti ?_) (hw k).le
    exact (Finset.mem_filter.mp hk).2
  have hTg : ∑ k ∈ univ.filter (fun k => ¬ k ≤ i), w k * g k ≤ (∑ k ∈ univ.filter (fun k => ¬ k ≤ i), w k) * g i := by
    rw [Finset.sum_mul]
    refine Finset.sum_le_sum fun k hk => mul_le_mul_of_nonneg_left (hanti ?_) (hw k).le
    exact (not_le.mp (Finset.mem_filter.mp hk).2).le
  have hT : 0 ≤ ∑ k ∈ univ.filter (fun k => ¬ k ≤ i), w k := Finset.sum_nonneg fun k _ => (hw k).le
  unfold cum
  constructor
  · rw [div_le_div_iff₀ h1 h2, sum_split w i, sum_split (fun k => w k * g k) i]
    nlinarith [mul_le_mul_of_nonneg_left hTg hS.le, mul_le_mul_of_nonneg_right hSg hT]
  · intro hst hi
    have hTg' : ∑ k ∈ univ.filter (fun k => ¬ k ≤ i), w k * g k < (∑ k ∈ univ.filter (fun k => ¬ k ≤ i), w k) * g i := by
      rw [Finset.sum_mul]
      refine Finset.sum_lt_sum_of_nonempty ⟨⟨i + 1, hi⟩, ?_⟩ fun k hk => mul_lt_mul_of_pos_left (hst ?_) (hw k)
      · rw [Finset.mem_filter]
        refine ⟨mem_univ _, ?_⟩
        rw [not_le]
        show (i : ℕ) < i + 1
        omega
      · exact not_le.mp (Finset.mem_filter.mp hk).2
    rw [div_lt_div_iff₀ h1 h2, sum_split w i, sum_split (fun k => w k * g k) i]
    nlinarith [mul_lt_mul_of_pos_left hTg' hS, mul_le_mul_of_nonneg_right hSg hT]

theorem cum_last (w : Fin N → ℝ) (hw : ∀ k, 0 < w k) (i : Fin N) (hi : (i : ℕ) + 1 = N) : cum w i = 1 := by
  unfold cum
  have : univ.filter (· ≤ i) = (univ : Finset (Fin N)) := by
    apply Finset.filter_true_of_mem
    intro k _
    show (k : ℕ) ≤ i
    have := k.isLt
    omega
  rw [this, div_self (Finset.sum_pos (fun k _ => hw k) ⟨i, mem_univ _⟩).ne']

/-- Every percentile below one hundred exists. -/
theorem percentile_exists (x w : Fin N → ℝ) (hN : 0 < N) (hw : ∀ k, 0 < w k) (t : ℝ) (ht : t < 1) :
    ∃ v, cdfPercentile x (cum w) t = some v := by
  cases h : cdfPercentile x (cum w) t with
  | some v => exact ⟨v, rfl⟩
  | none =>
    have := (cdfPercentile_none x (cum w) t).mp h ⟨N - 1, by omega⟩
    rw [cum_last w hw _ (by show N - 1 + 1 = N; omega)] at this
    linarith

theorem three_exists (x w : Fin N → ℝ) (hN : 0 < N) (hw : ∀ k, 0 < w k) :
    ∃ s lo hi, cdfPercentile x (cum w) (50 / 100) = some s ∧ cdfPercentile x (cum w) (15.72 / 100) = some lo ∧
      cdfPercentile x (cum w) (84.27 / 100) = some hi ∧ three x (cum w) = some (s, s - lo, hi - s) := by
  obtain ⟨s, h1⟩ := percentile_exists x w hN hw (50 / 100) (by norm_num)
  obtain ⟨lo, h2⟩ := percentile_exists x w hN hw (15.72 / 100) (by norm_num)
  obtain ⟨hi, h3⟩ := percentile_exists x w hN hw (84.27 / 100) (by norm_num)
  exact ⟨s, lo, hi, h1, h2, h3, by unfold three; rw [h1, h2, h3]; rfl⟩

/-! ## Data within their errors -/

/-- The factor of a channel whose residual is within the error falls with the scatter. -/
theorem factor_antitone (yMed s s' : ℝ) (hs : 0 < s) (hss : s ≤ s') (y dy : Option ℝ)
    (h : ∀ a d, y = some a → dy = some d → (a - yMed) ^ 2 ≤ d ^ 2) :
    factor yMed s' y dy ≤ factor yMed s y dy := by
  have hs' : 0 < s' := hs.trans_le hss
  rw [← Real.log_le_log_iff (factor_pos _ _ hs' _ _) (factor_pos _ _ hs _ _), factor_log _ _ hs', factor_log _ _ hs]
  cases dy with
  | none => simp
  | some d =>
    have hv : 0 < d ^ 2 + s ^ 2 := by positivity
    have hvv : d ^ 2 + s ^ 2 ≤ d ^ 2 + s' ^ 2 := by nlinarith
    have hv' : 0 < d ^ 2 + s' ^ 2 := hv.trans_le hvv
    cases y with
    | none =>
      simp only [Option.map_some, Option.bind_some, Option.getD_some, Option.map_none, Option.getD_none]
      have := Real.log_le_log (Real.sqrt_pos.mpr hv) (Real.sqrt_le_sqrt hvv)
      linarith
    | some a =>
      simp only [Option.map_some, Option.bind_some, Option.getD_some]
      have hr := h a d rfl rfl
      rw [Real.log_sqrt hv'.le, Real.log_sqrt hv.le]
      set v := d ^ 2 + s ^ 2
      set v' := d ^ 2 + s' ^ 2
      have hlog : 1 - (v' / v)⁻¹ ≤ Real.log (v' / v) := Real.one_sub_inv_le_log_of_pos (by positivity)
      rw [Real.log_div hv'.ne' hv.ne', inv_div] at hlog
      have hrv : (a - yMed) ^ 2 ≤ v := by have := sq_nonneg s; simp only [v]; linarith
      have : (a - yMed) ^ 2 / v - (a - yMed) ^ 2 / v' ≤ 1 - v / v' := by
        have e1 : (a - yMed) ^ 2 / v - (a - yMed) ^ 2 / v' = (a - yMed) ^ 2 / v * (1 - v / v') := by field_simp
        have e2 : 0 ≤ 1 - v / v' := by
          rw [sub_nonneg, div_le_one hv']; exact hvv
        have e3 : (a - yMed) ^ 2 / v ≤ 1 := by rw [div_le_one hv]; exact hrv
        rw [e1]
        nlinarith
      linarith

/-- The factor of a flagged channel with an error falls with the scatter. -/
theorem factor_flagged (yMed s s' d : ℝ) (hs : 0 < s) (hss : s < s') :
    factor yMed s' none (some d) < factor yMed s none (some d) := by
  unfold factor
  dsimp only
  rw [mul_one, mul_one]
  have hv : 0 < d ^ 2 + s ^ 2 := by positivity
  apply inv_strictAnti₀ (Real.sqrt_pos.mpr hv)
  exact Real.sqrt_lt_sqrt hv.le (by nlinarith)

/-- The distribution of the prior alone. -/
theorem cum_prior (rng : ℝ) (hr : 0 < rng) (i : Fin N) :
    cum (fun k => (grid rng N k)⁻¹) i = (harmonic ((i : ℕ) + 1) : ℝ) / harmonic N := by
  have hN : (0 : ℝ) < N := by exact_mod_cast (Nat.lt_of_le_of_lt (Nat.zero_le _) i.isLt)
  have e : (fun k => (grid rng N k)⁻¹) = fun k : Fin N => (((k : ℕ) : ℝ) + 1)⁻¹ * (N / rng) := by
    funext k
    unfold grid
    have : (0 : ℝ) < ((k : ℕ) : ℝ) + 1 := by positivity
    field_simp
  rw [e, cum_mul _ _ (by positivity)]
  unfold cum harmonic
  push_cast
  congr 1
  · rw [Finset.sum_filter]
    refine (Fin.sum_univ_eq_sum_range (fun k => if k ≤ (i : ℕ) then ((k : ℝ) + 1)⁻¹ else 0) N).trans ?_
    rw [← Finset.sum_filter]
    apply Finset.sum_congr _ fun _ _ => rfl
    ext k
    simp only [Finset.mem_filter, Finset.mem_range]
    have := i.isLt
    omega
  · exact Fin.sum_univ_eq_sum_range (fun k => ((k : ℝ) + 1)⁻¹) N

theorem harmonic_half : (harmonic 1000 : ℝ) / 2 < harmonic 30 := by
  have h1 : (harmonic 1000 : ℝ) ≤ 1 + Real.log 1000 := by
    have := harmonic_le_one_add_log 1000
    exact_mod_cast this
  have h2 : Real.log 1000 ≤ 10 * Real.log 2 := by
    rw [show (10 : ℝ) * Real.log 2 = Real.log (2 ^ 10) by rw [Real.log_pow]; norm_num]
    exact Real.log_le_log (by norm_num) (by norm_num)
  have h3 := Real.log_two_lt_d9
  have h4 : (harmonic 30 : ℝ) = 9304682830147 / 2329089562800 := by
    have : harmonic 30 = 9304682830147 / 2329089562800 := by
      unfold harmonic
      simp only [Finset.sum_range_succ, Finset.sum_range_zero]
      norm_num
    rw [this]
    norm_num
  rw [h4]
  linarith

/-- When all residuals are within their errors, the additional scatter is at most 3 percent of the range. -/
theorem core_within (y dy : Fin n → Option ℝ) (yMed rng : ℝ) (hr : 0 < rng)
    (h : ∀ j a d, y j = some a → dy j = some d → (a - yMed) ^ 2 ≤ d ^ 2) :
    ∃ s minus plus, sigmaAddCore y dy yMed rng 1000 = some (s, minus, plus) ∧ 0 < s ∧ s ≤ 0.03 * rng := by
  rw [core_eq y dy yMed rng hr (by norm_num)]
  have hpos := grid_pos (N := 1000) rng hr
  have hw : ∀ k, 0 < post y dy yMed (grid rng 1000 k) := fun k => post_pos y dy yMed _ (hpos k)
  have hmono := grid_mono (N := 1000) rng hr
  obtain ⟨s, lo, hi, h1, h2, h3, h4⟩ := three_exists (grid rng 1000) _ (by norm_num) hw
  refine ⟨s, s - lo, hi - s, h4, ?_, ?_⟩
  · obtain ⟨⟨a, ha⟩, -⟩ := cdfPercentile_range _ _ hmono _ s h1
    exact (hpos a).trans_le ha
  · have hk := percentile_le_sample (grid rng 1000) _ hmono (50 / 100) s h1 ⟨29, by norm_num⟩ ?_
    · have e : grid rng 1000 ⟨29, by norm_num⟩ = 0.03 * rng := by unfold grid; push_cast; ring
      rwa [e] at hk
    · have hf := (cum_falling (fun k => (grid rng 1000 k)⁻¹)
        (fun k => ∏ j, factor yMed (grid rng 1000 k) (y j) (dy j)) (fun k => inv_pos.mpr (hpos k))
        (fun k => Finset.prod_pos fun j _ => factor_pos yMed _ (hpos k) _ _)
        (fun a b hab => Finset.prod_le_prod (fun j _ => (factor_pos yMed _ (hpos b) _ _).le) fun j _ =>
          factor_antitone yMed _ _ (hpos a) (hmono.monotone hab) (y j) (dy j) (h j)) ⟨29, by norm_num⟩).1
      rw [cum_prior rng hr] at hf
      refine lt_of_lt_of_le ?_ hf
      have h5 := harmonic_half
      have h6 : (0 : ℝ) < harmonic 1000 := by 
        have : 0 < harmonic 1000 := Finset.sum_pos (fun k _ => by positivity) ⟨0, by simp⟩
        exact_mod_cast this
      rw [lt_div_iff₀ h6]
      have e : ((⟨29, by norm_num⟩ : Fin 1000) : ℕ) + 1 = 30 := rfl
      rw [e]
      linarith

end Verif.Complexity
