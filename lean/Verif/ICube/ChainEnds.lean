import Verif.ICube.Chain

/-!
# How Stokes I fits of cubes end, and the planes of coefficients (C234, C235)

Source: as `Verif.ICube.Chain`.
-/

namespace Verif.ICube

open Verif.StokesI Verif.StokesFit Verif.Mpfit Verif.NumPy

variable {n ny nx : ℕ}

/-- C235. All ways a run ends, in the order in which the program finds them: a number of frequencies other than the number of channels; an
axis of length one; a fit that does not end; a fit that divides by zero; no `BUNIT`; an order above five. In every other case there are files. -/
theorem run_ends (c : Cfg) (freq : Fin n → ℝ) (fn : FitFun) (x : Input n ny nx) :
    (n ≠ x.nFreq → runModel c freq fn x = some (.error (.known .exit))) ∧
    (n = x.nFreq → (n = 1 ∨ ny = 1 ∨ nx = 1) → runModel c freq fn x = some (.error (.known .indexError))) ∧
    (n = x.nFreq → n ≠ 1 → ny ≠ 1 → nx ≠ 1 →
      ((∃ i j, x.mask i j = true ∧ outcome c freq fn x i j = none) → runModel c freq fn x = none) ∧
      ((∀ i j, x.mask i j = true → outcome c freq fn x i j ≠ none) →
        ((∃ i j, x.mask i j = true ∧ outcome c freq fn x i j = some .raised) → runModel c freq fn x = some (.error .zeroDivision)) ∧
        ((∀ i j, x.mask i j = true → outcome c freq fn x i j ≠ some .raised) →
          (x.hasBUNIT = false → runModel c freq fn x = some (.error (.known .keyError))) ∧
          (x.hasBUNIT = true → 5 < x.polyOrd.natAbs → runModel c freq fn x = some (.error (.known .indexError))) ∧
          (x.hasBUNIT = true → x.polyOrd.natAbs ≤ 5 → ∃ F, runModel c freq fn x = some (.ok F))))) := by
  refine ⟨fun h => ?_, fun h h1 => ?_, fun h a1 a2 a3 => ⟨fun hn => ?_, fun hn => ⟨fun hr => ?_, fun hr => ?_⟩⟩⟩
  · unfold runModel
    rw [if_pos h]
  · have hs : (sqz [n, ny, nx]).length < 3 := by
      have hle : ∀ a b : ℕ, (sqz [a, b]).length ≤ 2 := fun a b => (List.length_filter_le _ _)
      rcases h1 with h1 | h1 | h1
      · have e : sqz [n, ny, nx] = sqz [ny, nx] := by simp [sqz, h1]
        rw [e]; exact Nat.lt_succ_of_le (hle _ _)
      · have e : sqz [n, ny, nx] = sqz [n, nx] := by simp [sqz, h1, List.filter_cons]
        rw [e]; exact Nat.lt_succ_of_le (hle _ _)
      · have e : sqz [n, ny, nx] = sqz [n, ny] := by simp [sqz, h1, List.filter_cons]
        rw [e]; exact Nat.lt_succ_of_le (hle _ _)
    unfold runModel
    rw [if_neg (not_not.mpr h), if_pos hs]
  all_goals have hs : ¬ (sqz [n, ny, nx]).length < 3 := by simp [sqz, a1, a2, a3]
  · unfold runModel
    rw [if_neg (not_not.mpr h), if_neg hs, if_pos hn]
  · have hn' : ¬ ∃ i j, x.mask i j = true ∧ outcome c freq fn x i j = none := by rintro ⟨i, j, hm, h⟩; exact hn i j hm h
    unfold runModel
    rw [if_neg (not_not.mpr h), if_neg hs, if_neg hn', if_pos hr]
  · have hn' : ¬ ∃ i j, x.mask i j = true ∧ outcome c freq fn x i j = none := by rintro ⟨i, j, hm, h⟩; exact hn i j hm h
    have hr' : ¬ ∃ i j, x.mask i j = true ∧ outcome c freq fn x i j = some .raised := by rintro ⟨i, j, hm, h⟩; exact hr i j hm h
    refine ⟨fun hb => ?_, fun hb ho => ?_, fun hb ho => ?_⟩
    all_goals
      unfold runModel
      rw [if_neg (not_not.mpr h), if_neg hs, if_neg hn', if_neg hr']
      unfold makeModel
      rw [if_neg (not_not.mpr h), if_neg hs]
      dsimp only
    · rw [if_pos hb]
      rfl
    · rw [if_neg (by simp [hb]), if_pos ho]
      rfl
    · rw [if_neg (by simp [hb]), if_neg (by omega)]
      exact ⟨_, rfl⟩

/-- C234. The planes of a fitted pixel: file `coeff{k}` has the coefficient of the `k`-th power (for the orders written), the covariance is that of the
fit or NaN if the fitter gave none, and the reference frequency that of the fit. -/
theorem fit_planes (c : Cfg) (freq : Fin n → ℝ) (fn : FitFun) (x : Input n ny nx) (F : Files n ny nx)
    (h : runModel c freq fn x = some (.ok F)) (i : Fin ny) (j : Fin nx) (hm : x.mask i j = true) (r : FitResult) (cov : Bool)
    (hr : outcome c freq fn x i j = some (.fit r cov)) :
    (∀ ch, F.model ch i j = some (calcModel r (freq ch))) ∧ F.refFreq i j = some r.refFreq ∧
    (∀ a b, F.covar a b i j = if cov = true then some (r.pcov a b) else none) ∧
    (∀ k : Fin 6, (k : ℕ) ≤ x.polyOrd.natAbs →
      (∃ A, F.coeff k = some A ∧ A i j = some (r.params k.rev)) ∧ ∃ B, F.coeffErr k = some B ∧ B i j = r.perror k.rev) ∧
    (∀ k : ℕ, x.polyOrd.natAbs < k → F.coeff k = none ∧ F.coeffErr k = none) ∧
    (∀ i j, F.mask i j = if x.mask i j then some 1 else none) := by
  have hf0 : ((fitRaw freq x.polyOrd fn (noise x.d x.threshold) fun ch => x.d ch i j).fitStokes c).bind (pixFit freq) =
      some { PixFit.ofFit freq r with covar := fun i j => if cov then some (r.pcov i j) else none } := by
    have : (fitRaw freq x.polyOrd fn (noise x.d x.threshold) fun ch => x.d ch i j).fitStokes c = some (.fit r cov) := hr
    rw [this]
    rfl
  unfold runModel at h
  split_ifs at h with h1 h2 h3 h4
  · simp at h
  · simp at h
  · simp at h
  rw [Option.some.injEq] at h
  set fit := (fun rms s =>
      match ((fitRaw freq x.polyOrd fn rms s).fitStokes c).bind (pixFit freq) with
      | some f => f
      | none => PixFit.ofFit freq (dummyFit n 0 fn 0)) with hfit
  change (makeModel fit x).mapError RunErr.known = .ok F at h
  have hmk : makeModel fit x = .ok F := by
    cases hmk : makeModel fit x with
    | error e => rw [hmk] at h; simp [Except.mapError] at h
    | ok G => rw [hmk] at h; simp [Except.mapError] at h; rw [h]
  have hf' : fit (noise x.d x.threshold) (fun ch => x.d ch i j) =
      { PixFit.ofFit freq r with covar := fun i j => if cov then some (r.pcov i j) else none } := by
    rw [hfit]
    dsimp only
    rw [hf0]
  unfold makeModel at hmk
  rw [if_neg h1, if_neg h2] at hmk
  dsimp only at hmk
  split_ifs at hmk with h5 h6
  injection hmk with hmk
  have key := (C108_own_fit (fit (noise x.d x.threshold)) x.d x.mask i j).1 hm
  rw [hf'] at key
  obtain ⟨k1, k2, k3, k4, k5⟩ := key
  subst hmk
  dsimp only
  refine ⟨k1, k4, k5, fun k hk => ⟨⟨_, dif_pos ⟨hk, k.2⟩, k2 k⟩, ⟨_, dif_pos ⟨hk, k.2⟩, k3 k⟩⟩, fun k hk => ⟨dif_neg (by omega), dif_neg (by omega)⟩,
    fun i j => rfl⟩

/-- The four pixels: the files of pixel (1, 0) have the fitted constant, and a run with another number of frequencies exits. -/
theorem case_ends (c : Cfg) (hc : c.Ok) (freq : Fin 2 → ℝ) (fn : FitFun) (hd : Header) :
    runModel c freq fn { four hd with nFreq := 3 } = some (.error (.known .exit)) ∧
    ∃ r, outcome c freq fn (four hd) 1 0 = some (.fit r true) := by
  refine ⟨(run_ends c freq fn { four hd with nFreq := 3 }).1 (by norm_num), ?_⟩
  obtain ⟨r, hr, -⟩ := four_flat c hc freq fn hd 1 0 2 fun _ => rfl
  exact ⟨r, hr⟩

end Verif.ICube
