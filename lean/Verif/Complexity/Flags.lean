import Verif.Complexity.Props

/-!
# Flagged channels and change of scale (C166, C168)
-/

namespace Verif.Complexity

open Verif.NumPy Verif.Stats Finset

variable {n N m : ℕ}

theorem quot_none (b : Option ℝ) : quot none b = none := rfl

theorem quot_none_right (a : Option ℝ) : quot a none = none := by cases a <;> rfl

theorem quot_self (d : ℝ) (hd : d ≠ 0) : quot (some d) (some d) = some 1 := by
  simp [quot, hd]

theorem quot_eq {a b : Option ℝ} {c : ℝ} (h : quot a b = some c) :
    ∃ x y, a = some x ∧ b = some y ∧ y ≠ 0 ∧ c = x / y := by
  cases a with
  | none => simp [quot] at h
  | some x =>
    cases b with
    | none => simp [quot] at h
    | some y =>
      by_cases hy : y = 0
      · simp [quot, hy] at h
      · simp [quot, hy] at h
        exact ⟨x, y, rfl, rfl, hy, h.symm⟩

/-- The normalised error of a channel is one. -/
theorem quot_one {d : Option ℝ} {e : ℝ} (h : quot d d = some e) : e = 1 := by
  obtain ⟨x, y, h1, h2, h3, h4⟩ := quot_eq h
  rw [h1, Option.some.injEq] at h2
  rw [h4, h2, div_self h3]

/-- C166, refuted in general. A channel that is flagged in Q but has an error lowers the scatter of Q, strictly
unless the scatter is the smallest sample (`(b - a) / 1000`, where `[a, b]` is the extent of the data), compared
to the same data with the error flagged as well. -/
theorem measure_flagged_lowers (freq : Fin n → ℝ) (q u dq du : Fin n → Option ℝ) (frac psi rm : Option ℝ)
    (j : Fin n) (hq : q j = none) (d : ℝ) (hd : dq j = some d) (hd0 : d ≠ 0)
    (hfin : ∃ i, (quot (subNaN (q i) ((thinModel freq frac psi rm i).map Prod.fst)) (dq i)).isSome) :
    ∃ a b s m p s' m' p', IsExtent (fun i => quot (subNaN (q i) ((thinModel freq frac psi rm i).map Prod.fst)) (dq i))
        (fun i => quot (dq i) (dq i)) a b ∧ (measure freq q u dq du frac psi rm).q = some (s, m, p) ∧
      (measure freq q u (Function.update dq j none) du frac psi rm).q = some (s', m', p') ∧ s ≤ s' ∧
      (s ≠ (b - a) / (1000 : ℕ) → s < s') := by
  set mod := thinModel freq frac psi rm with hmod
  set y : Fin n → Option ℝ := fun i => quot (subNaN (q i) ((mod i).map Prod.fst)) (dq i) with hy
  set dy : Fin n → Option ℝ := fun i => quot (dq i) (dq i) with hdy
  obtain ⟨i, hi⟩ := hfin
  obtain ⟨v, hv⟩ := Option.isSome_iff_exists.mp hi
  obtain ⟨x, e, -, h2, h3, -⟩ := quot_eq hv
  have hyi : y i = some v := hv
  have hdi : dy i = some 1 := by simp only [hdy]; rw [h2, quot_self e h3]
  obtain ⟨a, b, hext⟩ := extent_exists y dy ⟨i, v, 1, hyi, hdi⟩
  have hb := hext.1 i v 1 hyi hdi
  have hab : a < b := by linarith [hb.1, hb.2]
  have hyj : y j = none := by simp only [hy]; rw [hq]; rfl
  have hdj : dy j = some 1 := by simp only [hdy]; rw [hd, quot_self d hd0]
  obtain ⟨s, m, p, s', m', p', e1, e2, e3, e4⟩ := flagged_lowers (N := 1000) y dy 0 a b (by norm_num) hext hab j hyj 1 hdj
  refine ⟨a, b, s, m, p, s', m', p', hext, e1, ?_, e3, e4⟩
  rw [← e2]
  change sigmaAdd (fun i => quot (subNaN (q i) ((mod i).map Prod.fst)) (Function.update dq j none i))
    (fun i => quot (Function.update dq j none i) (Function.update dq j none i)) 0 1000 = _
  congr 1
  · funext i
    by_cases hij : i = j
    · subst hij
      rw [Function.update_self, quot_none_right, hyj]
    · rw [Function.update_of_ne hij]
  · funext i
    by_cases hij : i = j
    · subst hij
      rw [Function.update_self, Function.update_self, quot_none_right]
    · rw [Function.update_of_ne hij, Function.update_of_ne hij]

/-- Model of a source without polarisation. -/
theorem thinModel_zero (freq : Fin n → ℝ) (j : Fin n) (hf : freq j ≠ 0) :
    thinModel freq (some 0) (some 0) (some 0) j = some (0, 0) := by
  unfold thinModel Sim.pquBurn
  simp [Sim.lam, hf, Sim.burnSum, Sim.burnTerm, Sim.pqu]

/-- C166 is false: a channel flagged in Q and U whose errors are given changes the result, compared to the
spectrum without that channel. -/
theorem flagged_channel_matters : ∃ (freq : Fin 2 → ℝ) (q u dq du : Fin 2 → Option ℝ),
    q 1 = none ∧ u 1 = none ∧ (q 0).isSome ∧ (u 0).isSome ∧
    (measure freq q u dq du (some 0) (some 0) (some 0)).q ≠
      (measure (fun _ : Fin 1 => freq 0) (fun _ => q 0) (fun _ => u 0) (fun _ => dq 0) (fun _ => du 0)
        (some 0) (some 0) (some 0)).q := by
  refine ⟨fun _ => 1, ![some 0, none], ![some 0, none], fun _ => some 1, fun _ => some 1, rfl, rfl, rfl, rfl, ?_⟩
  have hmod : ∀ (k : ℕ) (j : Fin k), thinModel (fun _ : Fin k => (1 : ℝ)) (some 0) (some 0) (some 0) j = some (0, 0) :=
    fun k j => thinModel_zero _ j one_ne_zero
  have h1 : (measure (fun _ : Fin 2 => (1 : ℝ)) ![some 0, none] ![some 0, none] (fun _ => some 1) (fun _ => some 1)
      (some 0) (some 0) (some 0)).q = sigmaAdd (![some 0, none] : Fin 2 → Option ℝ) ![some 1, some 1] 0 1000 := by
    unfold measure
    dsimp only
    congr 1
    · funext j
      rw [hmod]
      fin_cases j <;> simp [quot, subNaN]
    · funext j
      fin_cases j <;> simp [quot]
  have h2 : (measure (fun _ : Fin 1 => (1 : ℝ)) (fun _ => (![some 0, none] : Fin 2 → Option ℝ) 0)
      (fun _ => (![some 0, none] : Fin 2 → Option ℝ) 0) (fun _ => some 1) (fun _ => some 1) (some 0) (some 0) (some 0)).q
      = sigmaAdd (![some 0, none] : Fin 2 → Option ℝ) (Function.update ![some 1, some 1] 1 none) 0 1000 := by
    rw [← sigmaAdd_reindex (N := 1000) (![some 0, none] : Fin 2 → Option ℝ) (Function.update ![some 1, some 1] 1 none) 0
      (fun _ : Fin 1 => (0 : Fin 2)) (fun a b _ => Subsingleton.elim a b) ?_]
    · unfold measure
      dsimp only
      congr 1
      · funext j
        rw [hmod]
        simp [quot, subNaN]
      · funext j
        simp [quot]
    · intro j hj
      fin_cases j
      · exact absurd rfl (hj 0)
      · simp
  have he : IsExtent (![some 0, none] : Fin 2 → Option ℝ) ![some 1, some 1] (-1) 1 := by
    refine ⟨?_, ⟨0, 0, 1, rfl, rfl, by norm_num⟩, ⟨0, 0, 1, rfl, rfl, by norm_num⟩⟩
    intro j v d h1 h2
    fin_cases j
    · simp at h1 h2; rw [← h1, ← h2]; norm_num
    · simp at h1
  obtain ⟨s, m, p, s', m', p', e1, e2, -, e4⟩ := flagged_lowers (N := 1000) (![some 0, none] : Fin 2 → Option ℝ)
    ![some 1, some 1] 0 (-1) 1 (by norm_num) he (by norm_num) 1 rfl 1 rfl
  obtain ⟨t, m2, p2, f1, f2⟩ := exFlag_first
  rw [e1, Option.some.injEq] at f1
  have hst : s = t := congrArg Prod.fst f1
  have hlt := e4 (hst ▸ f2)
  show (measure (fun _ : Fin 2 => (1 : ℝ)) ![some 0, none] ![some 0, none] (fun _ => some 1) (fun _ => some 1)
      (some 0) (some 0) (some 0)).q ≠ (measure (fun _ : Fin 1 => (1 : ℝ)) (fun _ => (![some 0, none] : Fin 2 → Option ℝ) 0)
      (fun _ => (![some 0, none] : Fin 2 → Option ℝ) 0) (fun _ => some 1) (fun _ => some 1) (some 0) (some 0) (some 0)).q
  rw [h1, h2, e1, e2]
  intro hcon
  rw [Option.some.injEq] at hcon
  have : s = s' := congrArg Prod.fst hcon
  linarith

/-- C166, what holds: channels flagged in the spectra *and* in the errors can be removed, and the order of the
channels does not matter, for all three measures. -/
theorem measure_reindex_partial (freq : Fin n → ℝ) (q u dq du : Fin n → Option ℝ) (frac psi rm : Option ℝ)
    (e : Fin m → Fin n) (he : Function.Injective e)
    (h : ∀ j, (∀ i, e i ≠ j) → dq j = none ∧ du j = none) :
    measure (freq ∘ e) (q ∘ e) (u ∘ e) (dq ∘ e) (du ∘ e) frac psi rm = measure freq q u dq du frac psi rm := by
  have hmod : ∀ i, thinModel (freq ∘ e) frac psi rm i = thinModel freq frac psi rm (e i) := by
    intro i
    unfold thinModel Sim.pquBurn
    simp
  set mod := thinModel freq frac psi rm with hm
  set yq : Fin n → Option ℝ := fun j => quot (subNaN (q j) ((mod j).map Prod.fst)) (dq j) with hyq
  set yu : Fin n → Option ℝ := fun j => quot (subNaN (u j) ((mod j).map Prod.snd)) (du j) with hyu
  set eq : Fin n → Option ℝ := fun j => quot (dq j) (dq j) with heq
  set eu : Fin n → Option ℝ := fun j => quot (du j) (du j) with heu
  have nq : ∀ j, (∀ i, e i ≠ j) → yq j = none ∧ eq j = none := by
    intro j hj
    simp only [hyq, heq]
    rw [(h j hj).1]
    exact ⟨quot_none_right _, quot_none_right _⟩
  have nu : ∀ j, (∀ i, e i ≠ j) → yu j = none ∧ eu j = none := by
    intro j hj
    simp only [hyu, heu]
    rw [(h j hj).2]
    exact ⟨quot_none_right _, quot_none_right _⟩
  have a1 : (fun i => quot (subNaN ((q ∘ e) i) ((thinModel (freq ∘ e) frac psi rm i).map Prod.fst)) ((dq ∘ e) i)) = yq ∘ e := by
    funext i
    rw [hmod]
    rfl
  have a2 : (fun i => quot (subNaN ((u ∘ e) i) ((thinModel (freq ∘ e) frac psi rm i).map Prod.snd)) ((du ∘ e) i)) = yu ∘ e := by
    funext i
    rw [hmod]
    rfl
  have e2 : ∃ E : Fin (m + m) → Fin (n + n), Function.Injective E ∧ (∀ i, E (Fin.castAdd m i) = Fin.castAdd n (e i)) ∧
      ∀ i, E (Fin.natAdd m i) = Fin.natAdd n (e i) := by
    refine ⟨Fin.addCases (fun i => Fin.castAdd n (e i)) (fun i => Fin.natAdd n (e i)), ?_, fun i => Fin.addCases_left i, fun i => Fin.addCases_right i⟩
    intro a b hab
    induction a using Fin.addCases with
    | left a =>
      induction b using Fin.addCases with
      | left b =>
        simp only [Fin.addCases_left] at hab
        rw [he (Fin.castAdd_injective n n hab)]
      | right b =>
        simp only [Fin.addCases_left, Fin.addCases_right] at hab
        have := congrArg Fin.val hab
        simp at this
        have := (e a).isLt
        omega
    | right a =>
      induction b using Fin.addCases with
      | left b =>
        simp only [Fin.addCases_left, Fin.addCases_right] at hab
        have := congrArg Fin.val hab
        simp at this
        have := (e b).isLt
        omega
      | right b =>
        simp only [Fin.addCases_right] at hab
        rw [he (Fin.natAdd_injective n n hab)]
  obtain ⟨E, hE, hl, hr⟩ := e2
  have happ : ∀ f g : Fin n → Option ℝ, Fin.append (f ∘ e) (g ∘ e) = Fin.append f g ∘ E := by
    intro f g
    funext i
    induction i using Fin.addCases with
    | left i => simp [hl]
    | right i => rw [Function.comp, hr, Fin.append_right, Fin.append_right]; rfl
  unfold measure
  dsimp only
  rw [a1, a2]
  have b1 : (fun i => quot ((dq ∘ e) i) ((dq ∘ e) i)) = eq ∘ e := rfl
  have b2 : (fun i => quot ((du ∘ e) i) ((du ∘ e) i)) = eu ∘ e := rfl
  rw [b1, b2, happ, happ, sigmaAdd_reindex yq eq 0 e he nq, sigmaAdd_reindex yu eu 0 e he nu,
    sigmaAdd_reindex (Fin.append yq yu) (Fin.append eq eu) 0 E hE]
  intro j hj
  induction j using Fin.addCases with
  | left j =>
    have := nq j fun i hi => hj (Fin.castAdd m i) (by rw [hl, hi])
    simpa using this
  | right j =>
    have := nu j fun i hi => hj (Fin.natAdd m i) (by rw [hr, hi])
    rw [Fin.append_right, Fin.append_right]
    exact this

/-! ## C168: change of scale -/

theorem percentile_scale (x p : Fin N → ℝ) (t k : ℝ) (hk : k ≠ 0) :
    cdfPercentile (fun i => k * x i) p t = (cdfPercentile x p t).map (k * ·) := by
  unfold cdfPercentile
  rw [Option.map_map]
  congr 1
  funext i
  simp only [Function.comp]
  by_cases h0 : (i : ℕ) = 0
  · rw [if_pos h0, if_pos h0]
  · rw [if_neg h0, if_neg h0]
    have e : at0 (fun i => k * x i) ((i : ℕ) - 1) = k * at0 x ((i : ℕ) - 1) := by
      unfold at0
      split_ifs <;> simp
    rw [e, ← mul_sub]
    set A := p i - at0 p ((i : ℕ) - 1)
    set D := x i - at0 x ((i : ℕ) - 1)
    by_cases hA : A = 0
    · rw [hA]; simp
    · by_cases hD : D = 0
      · rw [hD]; simp
      · field_simp

theorem factor_scale (yMed s k : ℝ) (hk : k ≠ 0) (y dy : Option ℝ) :
    factor (k * yMed) (|k| * s) (y.map (k * ·)) (dy.map (|k| * ·)) =
      factor yMed s y dy * if dy.isSome then |k|⁻¹ else 1 := by
  unfold factor
  cases dy with
  | none => simp
  | some d =>
    have e : (|k| * d) ^ 2 + (|k| * s) ^ 2 = k ^ 2 * (d ^ 2 + s ^ 2) := by
      rw [mul_pow, mul_pow, sq_abs]; ring
    have e2 : Real.sqrt (k ^ 2 * (d ^ 2 + s ^ 2)) = |k| * Real.sqrt (d ^ 2 + s ^ 2) := by
      rw [Real.sqrt_mul (sq_nonneg k), Real.sqrt_sq_eq_abs]
    cases y with
    | none =>
      simp only [Option.map_some, Option.map_none, Option.isSome_some, if_true]
      rw [e, e2, mul_inv]; ring
    | some a =>
      simp only [Option.map_some, Option.isSome_some, if_true]
      rw [e, e2, mul_inv]
      have : (k * a - k * yMed) ^ 2 / (k ^ 2 * (d ^ 2 + s ^ 2)) = (a - yMed) ^ 2 / (d ^ 2 + s ^ 2) := by
        rw [show (k * a - k * yMed) ^ 2 = k ^ 2 * (a - yMed) ^ 2 by ring, mul_div_mul_left _ _ (pow_ne_zero 2 hk)]
      rw [this]; ring

theorem extent_scale (y dy : Fin n → Option ℝ) (a b k : ℝ) (hk : k ≠ 0) (h : IsExtent y dy a b) :
    ∃ a' b', IsExtent (fun j => (y j).map (k * ·)) (fun j => (dy j).map (|k| * ·)) a' b' ∧ b' - a' = |k| * (b - a) := by
  obtain ⟨h1, ⟨i, v, d, i1, i2, i3⟩, ⟨j, w, f, j1, j2, j3⟩⟩ := h
  rcases lt_or_gt_of_ne hk with hneg | hpos
  · rw [abs_of_neg hneg]
    refine ⟨k * b, k * a, ⟨?_, ⟨j, k * w, -k * f, by simp only [j1, Option.map_some], by simp only [j2, Option.map_some], by rw [← j3]; ring⟩,
      ⟨i, k * v, -k * d, by simp only [i1, Option.map_some], by simp only [i2, Option.map_some], by rw [← i3]; ring⟩⟩, by ring⟩
    intro l v' d' hv hd
    rw [Option.map_eq_some_iff] at hv hd
    obtain ⟨v0, hv0, rfl⟩ := hv
    obtain ⟨d0, hd0, rfl⟩ := hd
    have := h1 l v0 d0 hv0 hd0
    constructor <;> nlinarith [this.1, this.2]
  · rw [abs_of_pos hpos]
    refine ⟨k * a, k * b, ⟨?_, ⟨i, k * v, k * d, by simp only [i1, Option.map_some], by simp only [i2, Option.map_some], by rw [← i3]; ring⟩,
      ⟨j, k * w, k * f, by simp only [j1, Option.map_some], by simp only [j2, Option.map_some], by rw [← j3]; ring⟩⟩, by ring⟩
    intro l v' d' hv hd
    rw [Option.map_eq_some_iff] at hv hd
    obtain ⟨v0, hv0, rfl⟩ := hv
    obtain ⟨d0, hd0, rfl⟩ := hd
    have := h1 l v0 d0 hv0 hd0
    constructor <;> nlinarith [this.1, this.2]

/-- C168. Multiplying data and centre by a number `k ≠ 0` and the errors by `|k|` multiplies the additional scatter
and its uncertainties by `|k|`. In particular the unit, and the sign of the data, are irrelevant. -/
theorem sigmaAdd_scale (y dy : Fin n → Option ℝ) (yMed k : ℝ) (hk : k ≠ 0) [NeZero N] :
    sigmaAdd (fun j => (y j).map (k * ·)) (fun j => (dy j).map (|k| * ·)) (k * yMed) N =
      (sigmaAdd y dy yMed N).map fun r => (|k| * r.1, |k| * r.2.1, |k| * r.2.2) := by
  have hk' : 0 < |k| := abs_pos.mpr hk
  by_cases hex : ∃ i v d, y i = some v ∧ dy i = some d
  · obtain ⟨a, b, hext⟩ := extent_exists y dy hex
    obtain ⟨a', b', hext', hlen⟩ := extent_scale y dy a b k hk hext
    unfold sigmaAdd
    rw [yRange_eq _ _ _ _ hext, yRange_eq _ _ _ _ hext', Option.bind_some, Option.bind_some, hlen]
    by_cases hc : b - a ≤ 0 ∨ N < 2
    · rw [if_pos hc, if_pos]
      · rfl
      · rcases hc with hc | hc
        · left; nlinarith
        · right; exact hc
    · rw [if_neg hc]
      push Not at hc
      have hr' : 0 < |k| * (b - a) := mul_pos hk' hc.1
      rw [if_neg (by push Not; exact ⟨hr', hc.2⟩), core_eq _ _ _ _ hr' hc.2, core_eq _ _ _ _ hc.1 hc.2]
      have hg : grid (|k| * (b - a)) N = fun i => |k| * grid (b - a) N i := by
        funext i; unfold grid; ring
      set C : ℝ := |k|⁻¹ * ∏ j, (if (dy j).isSome then |k|⁻¹ else 1) with hC
      have hCpos : 0 < C := by
        refine mul_pos (inv_pos.mpr hk') (Finset.prod_pos fun j _ => ?_)
        split_ifs
        · exact inv_pos.mpr hk'
        · exact one_pos
      have hpost : (fun i => post (fun j => (y j).map (k * ·)) (fun j => (dy j).map (|k| * ·)) (k * yMed)
          (grid (|k| * (b - a)) N i)) = fun i => post y dy yMed (grid (b - a) N i) * C := by
        funext i
        rw [hg]
        unfold post
        dsimp only
        rw [Finset.prod_congr rfl fun j _ => factor_scale yMed (grid (b - a) N i) k hk (y j) (dy j),
          Finset.prod_mul_distrib, mul_inv, hC]
        ring
      rw [hpost, cum_mul _ _ hCpos.ne', hg]
      set P := cum fun i => post y dy yMed (grid (b - a) N i)
      unfold three
      rw [percentile_scale _ _ _ _ hk'.ne', percentile_scale _ _ _ _ hk'.ne', percentile_scale _ _ _ _ hk'.ne']
      cases cdfPercentile (grid (b - a) N) P (50 / 100) with
      | none => rfl
      | some s =>
        cases cdfPercentile (grid (b - a) N) P (15.72 / 100) with
        | none => rfl
        | some lo =>
          cases cdfPercentile (grid (b - a) N) P (84.27 / 100) with
          | none => rfl
          | some hi => simp [mul_sub]
  · have hex' : ¬ ∃ i v d, (y i).map (k * ·) = some v ∧ (dy i).map (|k| * ·) = some d := by
      rintro ⟨i, v, d, h1, h2⟩
      rw [Option.map_eq_some_iff] at h1 h2
      obtain ⟨v0, h1, -⟩ := h1
      obtain ⟨d0, h2, -⟩ := h2
      exact hex ⟨i, v0, d0, h1, h2⟩
    unfold sigmaAdd
    rw [yRange_none _ _ hex, yRange_none _ _ hex']
    rfl

end Verif.Complexity
