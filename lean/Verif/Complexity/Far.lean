import Verif.Complexity.Thin

/-!
# The complexity of sources far from Faraday-thin (C169)
-/

namespace Verif.Complexity

open Verif.NumPy Verif.Stats Finset

variable {n N : ℕ}

/-- Number of channels with an error. -/
def count (dy : Fin n → Option ℝ) : ℕ := (univ.filter fun j => (dy j).isSome).card

/-- Sum of the squared residuals. -/
noncomputable def chi (y : Fin n → Option ℝ) : ℝ := ∑ j, ((y j).getD 0) ^ 2

theorem chi_nonneg (y : Fin n → Option ℝ) : 0 ≤ chi y := Finset.sum_nonneg fun _ _ => sq_nonneg _

theorem post_unit (y dy : Fin n → Option ℝ) (hdy : ∀ j d, dy j = some d → d = 1)
    (hy : ∀ j v, y j = some v → dy j = some 1) (s : ℝ) :
    post y dy 0 s = s⁻¹ * ((Real.sqrt (1 + s ^ 2))⁻¹ ^ count dy * Real.exp (-(chi y / (1 + s ^ 2) / 2))) := by
  unfold post
  congr 1
  have e : ∀ j, factor 0 s (y j) (dy j) = (if (dy j).isSome then (Real.sqrt (1 + s ^ 2))⁻¹ else 1) *
      Real.exp (-(((y j).getD 0) ^ 2 / (1 + s ^ 2) / 2)) := by
    intro j
    cases hd : dy j with
    | none =>
      cases hj : y j with
      | none => simp [factor]
      | some v => rw [hy j v hj] at hd; exact absurd hd (by simp)
    | some d =>
      rw [hdy j d hd]
      cases y j <;> simp [factor]
  rw [Finset.prod_congr rfl fun j _ => e j, Finset.prod_mul_distrib, ← Real.exp_sum, Finset.prod_ite,
    Finset.prod_const_one, mul_one, Finset.prod_const]
  congr 2
  unfold chi
  rw [Finset.sum_neg_distrib, Finset.sum_div, Finset.sum_div]

/-- Far residuals: half of the probability lies beyond a scatter of one half. -/
theorem cum_far (y dy : Fin n → Option ℝ) (hdy : ∀ j d, dy j = some d → d = 1)
    (hy : ∀ j v, y j = some v → dy j = some 1) (rng : ℝ) (h2 : 2 ≤ rng) (h250 : rng ≤ 250) (hK : 1 ≤ count dy)
    (hchi : 64 * count dy ≤ chi y) (k : Fin 1000) (hk : grid rng 1000 k ≤ 1 / 2) :
    cum (fun i => post y dy 0 (grid rng 1000 i)) k ≤ 50 / 100 := by
  have hr : 0 < rng := by linarith
  have hpos : ∀ i, 0 < grid rng 1000 i := grid_pos (N := 1000) rng hr
  set w : Fin 1000 → ℝ := fun i => post y dy 0 (grid rng 1000 i) with hw
  have hw0 : ∀ i, 0 < w i := fun i => post_pos y dy 0 _ (hpos i)
  set X := chi y with hX
  set K := count dy with hKd
  -- a sample near two
  obtain ⟨S, hS1, hS2⟩ : ∃ S : Fin 1000, 3 / 2 ≤ grid rng 1000 S ∧ grid rng 1000 S ≤ 2 := by
    set m := ⌊2000 / rng⌋₊ with hm
    have hm1 : (m : ℝ) ≤ 2000 / rng := Nat.floor_le (by positivity)
    have hm2 : 2000 / rng < m + 1 := Nat.lt_floor_add_one _
    have hm3 : 2000 / rng ≤ 1000 := by rw [div_le_iff₀ hr]; linarith
    have hm4 : m ≤ 1000 := by exact_mod_cast hm1.trans hm3
    have hm5 : 1 ≤ m := by
      rw [hm, Nat.one_le_floor_iff, le_div_iff₀ hr]; linarith
    refine ⟨⟨m - 1, by omega⟩, ?_, ?_⟩
    · unfold grid
      have e : ((m - 1 : ℕ) : ℝ) + 1 = m := by rw [Nat.cast_sub hm5]; simp
      dsimp only
      rw [e]
      rw [div_lt_iff₀ hr] at hm2
      push_cast
      linarith
    · unfold grid
      have e : ((m - 1 : ℕ) : ℝ) + 1 = m := by rw [Nat.cast_sub hm5]; simp
      dsimp only
      rw [e]
      rw [le_div_iff₀ hr] at hm1
      push_cast
      linarith
  have hkS : k < S := by
    rw [← (grid_mono (N := 1000) rng hr).lt_iff_lt]; linarith
  -- the samples below one half
  have hlow : ∀ i ∈ univ.filter (· ≤ k), w i ≤ 500 * Real.exp (-(X / 1.25 / 2)) := by
    intro i hi
    have hik : i ≤ k := by simpa using hi
    have hgi : grid rng 1000 i ≤ 1 / 2 := ((grid_mono (N := 1000) rng hr).monotone hik).trans hk
    have hg0 := hpos i
    have hgl : 1 / 500 ≤ grid rng 1000 i := by
      unfold grid
      have : (0 : ℝ) ≤ ((i : ℕ) : ℝ) := Nat.cast_nonneg _
      rw [le_div_iff₀ (by norm_num)]
      push_cast
      nlinarith
    simp only [hw]
    rw [post_unit y dy hdy hy]
    set g := grid rng 1000 i
    have a1 : g⁻¹ ≤ 500 := by
      rw [inv_le_comm₀ hg0 (by norm_num)]
      linarith
    have a2 : (Real.sqrt (1 + g ^ 2))⁻¹ ^ K ≤ 1 := by
      apply pow_le_one₀ (by positivity)
      apply inv_le_one_of_one_le₀
      rw [Real.one_le_sqrt]
      nlinarith
    have a3 : Real.exp (-(X / (1 + g ^ 2) / 2)) ≤ Real.exp (-(X / 1.25 / 2)) := by
      apply Real.exp_le_exp.mpr
      have : X / 1.25 ≤ X / (1 + g ^ 2) := by
        apply div_le_div_of_nonneg_left (chi_nonneg y) (by positivity)
        nlinarith
      linarith
    calc g⁻¹ * ((Real.sqrt (1 + g ^ 2))⁻¹ ^ K * Real.exp (-(X / (1 + g ^ 2) / 2)))
        ≤ 500 * (1 * Real.exp (-(X / 1.25 / 2))) := by gcongr
      _ = _ := by ring
  have hcard : ((univ.filter (· ≤ k)).card : ℝ) ≤ 250 := by
    have e : (univ.filter (· ≤ k)) = Finset.Iic k := by ext; simp
    rw [e, Fin.card_Iic]
    unfold grid at hk
    push_cast at hk ⊢
    have : (0 : ℝ) ≤ ((k : ℕ) : ℝ) := Nat.cast_nonneg _
    rw [div_le_iff₀ (by norm_num)] at hk
    nlinarith
  have hsum : ∑ i ∈ univ.filter (· ≤ k), w i ≤ 125000 * Real.exp (-(X / 1.25 / 2)) := by
    refine (Finset.sum_le_card_nsmul _ _ _ hlow).trans ?_
    rw [nsmul_eq_mul]
    have := Real.exp_pos (-(X / 1.25 / 2))
    nlinarith
  -- the sample near two
  have hhigh : 1 / 2 * ((Real.sqrt 5)⁻¹ ^ K * Real.exp (-(X / 3.25 / 2))) ≤ w S := by
    simp only [hw]
    rw [post_unit y dy hdy hy]
    set g := grid rng 1000 S
    have hg0 : 0 < g := by linarith
    have a1 : 1 / 2 ≤ g⁻¹ := by
      rw [one_div]
      exact inv_anti₀ hg0 hS2
    have a2 : (Real.sqrt 5)⁻¹ ≤ (Real.sqrt (1 + g ^ 2))⁻¹ := by
      apply inv_anti₀ (Real.sqrt_pos.mpr (by positivity))
      apply Real.sqrt_le_sqrt
      nlinarith
    have a3 : Real.exp (-(X / 3.25 / 2)) ≤ Real.exp (-(X / (1 + g ^ 2) / 2)) := by
      apply Real.exp_le_exp.mpr
      have : X / (1 + g ^ 2) ≤ X / 3.25 := by
        apply div_le_div_of_nonneg_left (chi_nonneg y) (by norm_num)
        nlinarith
      linarith
    gcongr
  have hmain : 125000 * Real.exp (-(X / 1.25 / 2)) ≤ 1 / 2 * ((Real.sqrt 5)⁻¹ ^ K * Real.exp (-(X / 3.25 / 2))) := by
    have e1 : Real.exp (-(X / 1.25 / 2)) = Real.exp (-(X / 3.25 / 2)) * Real.exp (-(X * (16 / 65))) := by
      rw [← Real.exp_add]; congr 1; ring
    have h5 : 0 < Real.sqrt 5 := Real.sqrt_pos.mpr (by norm_num)
    have e15 : 250000 * Real.sqrt 5 ≤ Real.exp 15 := by
      have h1 : Real.sqrt 5 ≤ 3 := by rw [Real.sqrt_le_left (by norm_num)]; norm_num
      have h2 : (2.7 : ℝ) ^ 15 ≤ Real.exp 15 := by
        rw [show (15 : ℝ) = ((15 : ℕ) : ℝ) * 1 by norm_num, Real.exp_nat_mul]
        have := Real.exp_one_gt_d9
        exact pow_le_pow_left₀ (by norm_num) (by linarith) 15
      have h3 : (750000 : ℝ) ≤ 2.7 ^ 15 := by norm_num
      linarith
    have e2 : 250000 * Real.sqrt 5 ^ K ≤ Real.exp (X * (16 / 65)) := by
      calc 250000 * Real.sqrt 5 ^ K ≤ 250000 ^ K * Real.sqrt 5 ^ K := by
            gcongr
            exact le_self_pow₀ (by norm_num) (by omega)
        _ = (250000 * Real.sqrt 5) ^ K := by rw [mul_pow]
        _ ≤ Real.exp 15 ^ K := by gcongr
        _ = Real.exp (K * 15) := by rw [Real.exp_nat_mul]
        _ ≤ _ := by
          apply Real.exp_le_exp.mpr
          have : (0 : ℝ) ≤ K := Nat.cast_nonneg _
          linarith
    rw [e1, Real.exp_neg (X * (16 / 65)), inv_pow]
    have hE := Real.exp_pos (-(X / 3.25 / 2))
    have hF := Real.exp_pos (X * (16 / 65))
    have h5K : 0 < Real.sqrt 5 ^ K := by positivity
    have e3 : 125000 * (Real.exp (X * (16 / 65)))⁻¹ ≤ 1 / 2 * (Real.sqrt 5 ^ K)⁻¹ := by
      rw [← div_eq_mul_inv, ← div_eq_mul_inv, div_le_div_iff₀ hF h5K]
      linarith
    nlinarith
  have hrest : w S ≤ ∑ i ∈ univ.filter (fun i => ¬ i ≤ k), w i :=
    Finset.single_le_sum (f := w) (fun i _ => (hw0 i).le) (by simpa using hkS)
  have htot := sum_split w k
  have hA : 0 < ∑ i ∈ univ.filter (· ≤ k), w i := Finset.sum_pos (fun i _ => hw0 i) ⟨k, by simp⟩
  unfold cum
  rw [htot, div_le_div_iff₀ (by linarith [hw0 S]) (by norm_num)]
  linarith

/-- Normalised residuals with an rms of at least eight and no larger than 124: a scatter of at least 1/4. -/
theorem unit_far (y dy : Fin n → Option ℝ) (hdy : ∀ j d, dy j = some d → d = 1)
    (hyd : ∀ j v, y j = some v → dy j = some 1) (hy : ∀ j v, y j = some v → |v| ≤ 124)
    (hchi : 64 * count dy ≤ chi y) (hex : ∃ j v, y j = some v) :
    ∃ s m p, sigmaAdd y dy 0 1000 = some (s, m, p) ∧ 1 / 4 < s := by
  obtain ⟨j, v, h1⟩ := hex
  have h2 := hyd j v h1
  obtain ⟨a, b, hext⟩ := extent_exists y dy ⟨j, v, 1, h1, h2⟩
  have hj := hext.1 j v 1 h1 h2
  have hr2 : 2 ≤ b - a := by linarith [hj.1, hj.2]
  have hr : 0 < b - a := by linarith
  have hle : b - a ≤ 250 := by
    obtain ⟨-, ⟨i, w, d, i1, i2, i3⟩, ⟨k, w', d', k1, k2, k3⟩⟩ := hext
    have e1 := hdy i d i2
    have e2 := hdy k d' k2
    have e3 := abs_le.mp (hy i w i1)
    have e4 := abs_le.mp (hy k w' k1)
    linarith [e3.1, e4.2]
  have hK : 1 ≤ count dy := by
    unfold count
    exact Finset.card_pos.mpr ⟨j, by simp [h2]⟩
  have hpos := grid_pos (N := 1000) (b - a) hr
  have hmono := grid_mono (N := 1000) (b - a) hr
  have hw : ∀ k, 0 < post y dy 0 (grid (b - a) 1000 k) := fun k => post_pos y dy 0 _ (hpos k)
  obtain ⟨s, lo, hi, t1, -, -, t4⟩ := three_exists (grid (b - a) 1000) _ (by norm_num) hw
  refine ⟨s, s - lo, hi - s, ?_, ?_⟩
  · unfold sigmaAdd
    rw [yRange_eq y dy a b hext, Option.bind_some, if_neg (by push Not; exact ⟨hr, by norm_num⟩),
      core_eq y dy 0 _ hr (by norm_num), t4]
  · obtain ⟨i, c1, -, c3⟩ := cdfPercentile_cases _ _ hmono _ s t1
    have hgi : 1 / 2 < grid (b - a) 1000 i := by
      by_contra hcon
      have := cum_far y dy hdy hyd (b - a) hr2 hle hK hchi i (not_lt.mp hcon)
      linarith
    rcases c3 with ⟨-, h⟩ | ⟨h0, h, -⟩
    · rw [h]; linarith
    · have hlt : (i : ℕ) - 1 < 1000 := by omega
      have e : at0 (grid (b - a) 1000) ((i : ℕ) - 1) = grid (b - a) 1000 i - (b - a) / 1000 := by
        unfold at0
        rw [dif_pos hlt]
        unfold grid
        dsimp only
        rw [Nat.cast_sub (by omega)]
        push_cast
        ring
      rw [e] at h
      linarith

/-! ## Specification -/

/-- The residual of a channel in units of its error, where data, model and a non-zero error are given. -/
noncomputable def pull : Option ℝ → Option ℝ → Option ℝ → Option ℝ
  | some a, some m, some d => open Classical in if d = 0 then none else some ((a - m) / d)
  | _, _, _ => none

/-- A channel has an error: a number other than zero. -/
def HasErr (d : Option ℝ) : Prop := ∃ e, d = some e ∧ e ≠ 0

/-- Far from the model: the squares of the pulls sum up to at least 64 for each channel with an error, none is
larger than 124, and there is at least one. -/
def Far {m : ℕ} (r : Fin m → Option ℝ) (d : Fin m → Option ℝ) : Prop := open Classical in
  (∃ j v, r j = some v) ∧ (∀ j v, r j = some v → |v| ≤ 124) ∧
    64 * ((univ.filter fun j => HasErr (d j)).card : ℝ) ≤ ∑ j, ((r j).getD 0) ^ 2

theorem pull_eq (a m d : Option ℝ) : pull a m d = quot (subNaN a m) d := by
  cases a <;> cases m <;> cases d <;> simp [pull, quot, subNaN]

theorem hasErr_iff (d : Option ℝ) : HasErr d ↔ (quot d d).isSome := by
  cases d with
  | none => simp [HasErr, quot]
  | some e => by_cases h : e = 0 <;> simp [HasErr, quot, h]

theorem far_core (y dy d : Fin n → Option ℝ) (hdy : ∀ j, dy j = quot (d j) (d j))
    (hy : ∀ j v, y j = some v → HasErr (d j)) (h : Far y d) :
    ∃ s m p, sigmaAdd y dy 0 1000 = some (s, m, p) ∧ 1 / 4 < s := by
  classical
  obtain ⟨h1, h2, h3⟩ := h
  refine unit_far y dy (fun j e he => quot_one (by rw [← hdy j]; exact he)) ?_ h2 ?_ h1
  · intro j v hv
    obtain ⟨e, he, he0⟩ := hy j v hv
    rw [hdy, he, quot_self e he0]
  · refine le_trans (le_of_eq ?_) h3
    unfold count
    congr 3
    ext j
    simp only [mem_filter, mem_univ, true_and]
    rw [hdy, hasErr_iff]

theorem pull_hasErr {a m d : Option ℝ} {v : ℝ} (h : pull a m d = some v) : HasErr d := by
  rw [pull_eq] at h
  obtain ⟨x, y, -, h2, h3, -⟩ := quot_eq h
  exact ⟨y, h2, h3⟩

/-- C169. A spectrum far from the model of a Faraday-thin source (rms of the residuals of at least eight errors, in
the sense of `Far`) is reported as complex: the scatter is above a quarter of the errors. -/
theorem measure_far (freq : Fin n → ℝ) (q u dq du : Fin n → Option ℝ) (frac psi rm : Option ℝ) :
    let r := measure freq q u dq du frac psi rm
    let mod := thinModel freq frac psi rm
    let rq := fun j => pull (q j) ((mod j).map Prod.fst) (dq j)
    let ru := fun j => pull (u j) ((mod j).map Prod.snd) (du j)
    (Far rq dq → ∃ s m p, r.q = some (s, m, p) ∧ 1 / 4 < s) ∧
      (Far ru du → ∃ s m p, r.u = some (s, m, p) ∧ 1 / 4 < s) ∧
      (Far (Fin.append rq ru) (Fin.append dq du) → ∃ s m p, r.c = some (s, m, p) ∧ 1 / 4 < s) := by
  intro r mod rq ru
  have e1 : r.q = sigmaAdd rq (fun j => quot (dq j) (dq j)) 0 1000 := by
    show sigmaAdd _ _ _ _ = _
    congr 1
    funext j
    exact (pull_eq _ _ _).symm
  have e2 : r.u = sigmaAdd ru (fun j => quot (du j) (du j)) 0 1000 := by
    show sigmaAdd _ _ _ _ = _
    congr 1
    funext j
    exact (pull_eq _ _ _).symm
  have e3 : r.c = sigmaAdd (Fin.append rq ru)
      (Fin.append (fun j => quot (dq j) (dq j)) fun j => quot (du j) (du j)) 0 1000 := by
    show sigmaAdd _ _ _ _ = _
    congr 2
    · funext j
      exact (pull_eq _ _ _).symm
    · funext j
      exact (pull_eq _ _ _).symm
  rw [e1, e2, e3]
  refine ⟨far_core rq _ dq (fun _ => rfl) fun j v h => pull_hasErr h,
    far_core ru _ du (fun _ => rfl) fun j v h => pull_hasErr h,
    far_core (Fin.append rq ru) _ (Fin.append dq du) ?_ ?_⟩
  · intro j
    induction j using Fin.addCases with
    | left j => rw [Fin.append_left, Fin.append_left]
    | right j => rw [Fin.append_right, Fin.append_right]
  · intro j v
    induction j using Fin.addCases with
    | left j => rw [Fin.append_left, Fin.append_left]; exact fun h => pull_hasErr h
    | right j => rw [Fin.append_right, Fin.append_right]; exact fun h => pull_hasErr h

/-- A case: two channels of an unpolarised model, with residuals of plus and minus ten errors. -/
example : ∃ s m p, (measure (fun _ : Fin 2 => 1) ![some 10, some (-10)] (fun _ => some 0) (fun _ => some 1)
    (fun _ => some 1) (some 0) (some 0) (some 0)).q = some (s, m, p) ∧ 1 / 4 < s := by
  have hm : ∀ j, thinModel (fun _ : Fin 2 => (1 : ℝ)) (some 0) (some 0) (some 0) j = some (0, 0) :=
    fun j => thinModel_zero _ j one_ne_zero
  refine (measure_far _ _ _ _ _ _ _ _).1 ⟨⟨0, 10, ?_⟩, ?_, ?_⟩
  · dsimp only; rw [hm]; simp [pull]
  · intro j v
    dsimp only
    rw [hm]
    fin_cases j <;> simp [pull] <;> rintro rfl <;> norm_num
  · rw [Fin.sum_univ_two]
    dsimp only
    rw [hm, hm]
    simp [pull, HasErr]
    norm_num

end Verif.Complexity
