import Mathlib.Analysis.SpecialFunctions.Gaussian.GaussianIntegral
import Mathlib.Analysis.Analytic.IsolatedZeros
import Mathlib.Analysis.Complex.CauchyIntegral
import Mathlib.Analysis.Asymptotics.SpecificAsymptotics
import Mathlib.Data.Finsupp.Basic
import Mathlib.Analysis.Real.Pi.Bounds
import Mathlib.Tactic

/-!
# Linear independence of the functions from which the QU models are made

`l ^ d * exp (-2 s l² + 2 i φ l)` for different `(s, d, φ)`. Helper lemmas for C209 and C210; nothing of the code is here.
-/

open Complex Filter Topology

namespace Verif.QU

/-- A sum of rotations that tends to zero has zero coefficients. -/
theorem char_lim (S : Finset ℝ) : ∀ c : ℝ → ℂ,
    Tendsto (fun l : ℝ => ∑ p ∈ S, c p * exp (2 * I * p * l)) atTop (𝓝 0) → ∀ p ∈ S, c p = 0 := by
  induction S using Finset.induction_on with
  | empty => intro c _ p hp; simp at hp
  | insert q S hq ih =>
    intro c hc
    set h : ℝ := 1 / (1 + ∑ p ∈ S, |p - q|) with hh
    have hs : 0 ≤ ∑ p ∈ S, |p - q| := Finset.sum_nonneg fun _ _ => abs_nonneg _
    have hpos : 0 < h := by positivity
    have hne : ∀ p ∈ S, exp (2 * I * p * h) - exp (2 * I * q * h) ≠ 0 := by
      intro p hp he
      rw [sub_eq_zero, exp_eq_exp_iff_exists_int] at he
      obtain ⟨n, hn⟩ := he
      have h1 : (p - q) * h = n * Real.pi := by
        have h2 : (2 * I) * (((p - q) * h : ℝ) : ℂ) = (2 * I) * ((n * Real.pi : ℝ) : ℂ) := by
          push_cast
          linear_combination hn
        have := mul_left_cancel₀ (by simp) h2
        exact_mod_cast this
      have hpq : p ≠ q := fun e => hq (e ▸ hp)
      have hle : |p - q| ≤ ∑ p ∈ S, |p - q| :=
        Finset.single_le_sum (f := fun p => |p - q|) (fun _ _ => abs_nonneg _) hp
      have h3 : |(p - q) * h| < 1 := by
        rw [abs_mul, abs_of_pos hpos, hh, mul_one_div, div_lt_one (by positivity)]
        linarith
      have h4 : (0 : ℝ) < |(p - q) * h| := abs_pos.2 (mul_ne_zero (sub_ne_zero.2 hpq) hpos.ne')
      rw [h1, abs_mul, abs_of_pos Real.pi_pos] at h3 h4
      have hn0 : n ≠ 0 := by
        rintro rfl
        simp at h4
      have : (1 : ℝ) ≤ |(n : ℝ)| := by exact_mod_cast Int.one_le_abs hn0
      nlinarith [Real.pi_gt_three]
    have hsh : Tendsto (fun l : ℝ => ∑ p ∈ insert q S, c p * exp (2 * I * p * ((l + h : ℝ) : ℂ))) atTop (𝓝 0) :=
      hc.comp (tendsto_atTop_add_const_right _ h tendsto_id)
    have hS : Tendsto (fun l : ℝ => ∑ p ∈ S, (c p * (exp (2 * I * p * h) - exp (2 * I * q * h))) * exp (2 * I * p * l))
        atTop (𝓝 0) := by
      have := hsh.sub (hc.const_mul (exp (2 * I * q * h)))
      simp only [mul_zero, sub_zero] at this
      refine this.congr fun l => ?_
      rw [Finset.mul_sum, ← Finset.sum_sub_distrib, Finset.sum_insert hq]
      have e : ∀ p : ℝ, exp (2 * I * p * ((l + h : ℝ) : ℂ)) = exp (2 * I * p * h) * exp (2 * I * p * l) := by
        intro p
        rw [← exp_add]
        push_cast
        ring_nf
      rw [e q]
      have : c q * (exp (2 * I * q * h) * exp (2 * I * q * l)) - exp (2 * I * q * h) * (c q * exp (2 * I * q * l)) = 0 := by
        ring
      rw [this, zero_add]
      refine Finset.sum_congr rfl fun p _ => ?_
      rw [e p]
      ring
    have hz : ∀ p ∈ S, c p = 0 := fun p hp =>
      (mul_eq_zero.1 (ih _ hS p hp)).resolve_right (hne p hp)
    intro p hp
    rcases Finset.mem_insert.1 hp with rfl | hp
    · have h1 : Tendsto (fun l : ℝ => ‖c p * exp (2 * I * p * l)‖) atTop (𝓝 0) := by
        have := hc.norm
        rw [norm_zero] at this
        refine this.congr fun l => ?_
        rw [Finset.sum_insert hq, Finset.sum_eq_zero (fun r hr => by rw [hz r hr, zero_mul]), add_zero]
      have h2 : (fun l : ℝ => ‖c p * exp (2 * I * p * l)‖) = fun _ => ‖c p‖ := by
        funext l
        rw [norm_mul]
        have : (2 * I * p * l : ℂ) = ((2 * p * l : ℝ) : ℂ) * I := by push_cast; ring
        rw [this, norm_exp_ofReal_mul_I, mul_one]
      rw [h2] at h1
      exact norm_eq_zero.1 (tendsto_nhds_unique tendsto_const_nhds h1)
    · exact hz p hp

/-- Dispersion, power, Faraday depth. -/
abbrev Key := ℝ × ℕ × ℝ

/-- The functions, for a complex argument. -/
noncomputable def term (k : Key) (l : ℂ) : ℂ := l ^ k.2.1 * exp (-2 * k.1 * l ^ 2 + 2 * I * k.2.2 * l)

/-- The factor that does not rotate. -/
noncomputable def envelope (k : Key) (l : ℝ) : ℝ := l ^ k.2.1 * Real.exp (-2 * k.1 * l ^ 2)

theorem term_eq (k : Key) (l : ℝ) : term k l = envelope k l * exp (2 * I * k.2.2 * l) := by
  unfold term envelope
  push_cast
  rw [exp_add, ← mul_assoc]

/-- A greater dispersion, or the same and a smaller power, is negligible. -/
theorem envelope_ratio (k k0 : Key) (h : k0.1 < k.1 ∨ (k.1 = k0.1 ∧ k.2.1 < k0.2.1)) :
    Tendsto (fun l => envelope k l / envelope k0 l) atTop (𝓝 0) := by
  unfold envelope
  rcases h with h | ⟨h, hd⟩
  · have h0 : Tendsto (fun l : ℝ => l ^ (k.2.1 : ℝ) * Real.exp (-(2 * (k.1 - k0.1)) * l ^ 2)) atTop (𝓝 0) := by
      refine (rpow_mul_exp_neg_mul_sq_isLittleO_exp_neg (b := 2 * (k.1 - k0.1)) (by linarith) k.2.1).trans_tendsto ?_
      refine Real.tendsto_exp_atBot.comp ?_
      exact tendsto_id.const_mul_atTop_of_neg (by norm_num)
    refine squeeze_zero' ?_ ?_ h0
    · filter_upwards [eventually_ge_atTop 1] with l hl
      positivity
    · filter_upwards [eventually_ge_atTop 1] with l hl
      have h1 : (1 : ℝ) ≤ l ^ k0.2.1 := one_le_pow₀ hl
      rw [Real.rpow_natCast, mul_div_mul_comm, ← Real.exp_sub]
      refine mul_le_mul (div_le_self (by positivity) h1) (le_of_eq ?_) (by positivity) (by positivity)
      congr 1
      ring
  · refine (tendsto_pow_div_pow_atTop_zero (𝕜 := ℝ) hd).congr fun l => ?_
    rw [h, mul_div_mul_right _ _ (Real.exp_pos _).ne']

/-- Linear independence. -/
theorem independent (S : Finset Key) : ∀ c : Key → ℂ,
    (∀ᶠ l : ℝ in atTop, ∑ k ∈ S, c k * term k l = 0) → ∀ k ∈ S, c k = 0 := by
  induction S using Finset.strongInduction with
  | H S ih =>
    intro c hc
    rcases S.eq_empty_or_nonempty with rfl | hne
    · intro k hk; simp at hk
    obtain ⟨k1, hk1, hmin⟩ := S.exists_min_image (fun k => k.1) hne
    obtain ⟨k0, hk0, hmax⟩ := (S.filter fun k => k.1 = k1.1).exists_max_image (fun k => k.2.1)
      ⟨k1, by simp [hk1]⟩
    rw [Finset.mem_filter] at hk0
    set T := S.filter fun k => k.1 = k0.1 ∧ k.2.1 = k0.2.1 with hT
    have hrest : ∀ k ∈ S.filter (fun k => ¬ (k.1 = k0.1 ∧ k.2.1 = k0.2.1)),
        k0.1 < k.1 ∨ (k.1 = k0.1 ∧ k.2.1 < k0.2.1) := by
      intro k hk
      rw [Finset.mem_filter] at hk
      rcases (hmin k hk.1).lt_or_eq with h | h
      · left
        rw [hk0.2]
        exact h
      · right
        have e : k.1 = k0.1 := by rw [hk0.2, h]
        refine ⟨e, lt_of_le_of_ne (hmax k (Finset.mem_filter.2 ⟨hk.1, h.symm⟩)) fun e' => hk.2 ⟨e, e'⟩⟩
    have hlim : Tendsto (fun l : ℝ => ∑ k ∈ T, c k * exp (2 * I * k.2.2 * l)) atTop (𝓝 0) := by
      have h1 : Tendsto (fun l : ℝ => -∑ k ∈ S.filter (fun k => ¬ (k.1 = k0.1 ∧ k.2.1 = k0.2.1)),
          c k * (((envelope k l / envelope k0 l : ℝ) : ℂ) * exp (2 * I * k.2.2 * l))) atTop (𝓝 0) := by
        suffices h : Tendsto (fun l : ℝ => ∑ k ∈ S.filter (fun k => ¬ (k.1 = k0.1 ∧ k.2.1 = k0.2.1)),
            c k * (((envelope k l / envelope k0 l : ℝ) : ℂ) * exp (2 * I * k.2.2 * l))) atTop
            (𝓝 (∑ k ∈ S.filter (fun k => ¬ (k.1 = k0.1 ∧ k.2.1 = k0.2.1)), c k * 0)) by
          simpa using h.neg
        refine tendsto_finsetSum _ fun k hk => Tendsto.const_mul _ ?_
        rw [tendsto_zero_iff_norm_tendsto_zero]
        have h2 := (envelope_ratio k k0 (hrest k hk)).norm
        rw [norm_zero] at h2
        refine h2.congr fun l => ?_
        have : (2 * I * k.2.2 * l : ℂ) = ((2 * k.2.2 * l : ℝ) : ℂ) * I := by push_cast; ring
        rw [norm_mul, this, norm_exp_ofReal_mul_I, mul_one, norm_real]
      refine h1.congr' ?_
      filter_upwards [hc, eventually_gt_atTop 0] with l hl hl0
      have he0 : (envelope k0 l : ℂ) ≠ 0 := by
        unfold envelope
        have := Real.exp_pos (-2 * k0.1 * l ^ 2)
        exact_mod_cast (mul_pos (pow_pos hl0 _) this).ne'
      rw [← Finset.sum_filter_add_sum_filter_not S (fun k => k.1 = k0.1 ∧ k.2.1 = k0.2.1)] at hl
      have hl' := congrArg (fun z => z / (envelope k0 l : ℂ)) hl
      simp only [zero_div, add_div] at hl'
      rw [Finset.sum_div, Finset.sum_div] at hl'
      rw [neg_eq_iff_add_eq_zero, add_comm, ← hl']
      congr 1
      · refine Finset.sum_congr rfl fun k hk => ?_
        rw [Finset.mem_filter] at hk
        rw [term_eq, eq_div_iff he0]
        have : envelope k l = envelope k0 l := by unfold envelope; rw [hk.2.1, hk.2.2]
        rw [this]
        ring
      · refine Finset.sum_congr rfl fun k hk => ?_
        rw [term_eq]
        push_cast
        ring
    have hinj : Set.InjOn (fun k : Key => k.2.2) T := by
      intro a ha b hb hab
      rw [hT, Finset.coe_filter] at ha hb
      exact Prod.ext (ha.2.1.trans hb.2.1.symm) (Prod.ext (ha.2.2.trans hb.2.2.symm) hab)
    have hT0 : ∀ k ∈ T, c k = 0 := by
      have := char_lim (T.image fun k => k.2.2) (fun p => c (k0.1, k0.2.1, p)) (by
        refine hlim.congr fun l => ?_
        rw [Finset.sum_image hinj]
        refine Finset.sum_congr rfl fun k hk => ?_
        rw [hT, Finset.mem_filter] at hk
        rw [← hk.2.1, ← hk.2.2])
      intro k hk
      have h1 := this k.2.2 (Finset.mem_image_of_mem _ hk)
      rw [hT, Finset.mem_filter] at hk
      rwa [← hk.2.1, ← hk.2.2] at h1
    have hsub : S \ T ⊂ S := by
      refine Finset.sdiff_ssubset (Finset.filter_subset _ _) ⟨k0, ?_⟩
      rw [hT, Finset.mem_filter]
      exact ⟨hk0.1, rfl, rfl⟩
    have hS0 := ih _ hsub c (by
      filter_upwards [hc] with l hl
      rw [← Finset.sum_sdiff (Finset.filter_subset (fun k : Key => k.1 = k0.1 ∧ k.2.1 = k0.2.1) S)] at hl
      rw [Finset.sum_eq_zero (s := S.filter fun k : Key => k.1 = k0.1 ∧ k.2.1 = k0.2.1)
        (fun k hk => by rw [hT0 k hk, zero_mul]), add_zero] at hl
      exact hl)
    intro k hk
    by_cases h : k ∈ T
    · exact hT0 k h
    · exact hS0 k (Finset.mem_sdiff.2 ⟨hk, h⟩)

/-- A combination of the functions. -/
noncomputable def comb (a : Key →₀ ℂ) (l : ℂ) : ℂ := a.sum fun k c => c * term k l

theorem comb_single (k : Key) (c : ℂ) (l : ℂ) : comb (Finsupp.single k c) l = c * term k l := by
  unfold comb
  rw [Finsupp.sum_single_index (by simp)]

theorem comb_add (a b : Key →₀ ℂ) (l : ℂ) : comb (a + b) l = comb a l + comb b l := by
  unfold comb
  rw [Finsupp.sum_add_index' (by simp) (by intros; ring)]

theorem comb_neg (a : Key →₀ ℂ) (l : ℂ) : comb (-a) l = -comb a l := by
  have := comb_add a (-a) l
  rw [add_neg_cancel] at this
  have h0 : comb 0 l = 0 := by simp [comb]
  rw [h0] at this
  linear_combination -this

theorem comb_differentiable (a : Key →₀ ℂ) : Differentiable ℂ (comb a) := by
  unfold comb Finsupp.sum term
  fun_prop

/-- Combinations that agree on an interval are the same. -/
theorem comb_inj (a b : Key →₀ ℂ) (x y : ℝ) (hxy : x < y) (h : ∀ l : ℝ, l ∈ Set.Ioo x y → comb a l = comb b l) : a = b := by
  have hd : ∀ a, AnalyticOnNhd ℂ (comb a) Set.univ := fun a =>
    (comb_differentiable a).differentiableOn.analyticOnNhd isOpen_univ
  set z : ℝ := (x + y) / 2 with hz
  have hfun : comb a = comb b := by
    refine AnalyticOnNhd.eq_of_frequently_eq (z₀ := (z : ℂ)) (hd a) (hd b) ?_
    have h1 : ∃ᶠ l : ℝ in 𝓝[≠] z, comb a l = comb b l := by
      refine Eventually.frequently ?_
      filter_upwards [mem_nhdsWithin_of_mem_nhds (Ioo_mem_nhds (a := x) (b := y) (x := z) (by linarith) (by linarith))] with l hl
      exact h l hl
    have hto : Tendsto (fun l : ℝ => (l : ℂ)) (𝓝[≠] z) (𝓝[≠] (z : ℂ)) := by
      refine tendsto_nhdsWithin_iff.2 ⟨(continuous_ofReal.tendsto z).mono_left nhdsWithin_le_nhds, ?_⟩
      filter_upwards [self_mem_nhdsWithin] with l hl
      simpa using hl
    exact hto.frequently h1
  have hsum : ∀ l : ℝ, ∑ k ∈ (a - b).support, (a - b) k * term k l = 0 := by
    intro l
    have : comb (a + -b) l = 0 := by rw [comb_add, comb_neg, hfun, add_neg_cancel]
    rw [← sub_eq_add_neg] at this
    exact this
  have h0 := independent _ _ (Eventually.of_forall hsum)
  rw [← sub_eq_zero]
  ext k
  by_cases hk : k ∈ (a - b).support
  · exact h0 k hk
  · rw [Finsupp.notMem_support_iff.1 hk]; rfl

end Verif.QU
