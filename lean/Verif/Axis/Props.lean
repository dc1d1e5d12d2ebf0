import Verif.Axis.Lemmas

/-! # Properties of the Faraday depth axes (C16, C19, C20, C21) -/

namespace Verif.Axis

open Verif.NumPy Verif.SynthSpec

/-- C19. The axis built by `run_rmsynth`: an odd number `2c+1` of samples, sample `i` at
`(i-c)*dPhi` (so equally spaced, zero at the centre), symmetric, and its half-range `c*dPhi` is
within half a sample of the requested `phiMax`. -/
theorem phiAxis_spec (phiMax dPhi : ℝ) (hd : 0 < dPhi) :
    ∃ c : ℕ, nChanRM phiMax dPhi = 2 * c + 1 ∧
      (∀ i : Fin (nChanRM phiMax dPhi), phiAxis phiMax dPhi i = ((i : ℝ) - c) * dPhi) ∧
      SymGrid (phiAxis phiMax dPhi) ∧
      |(c : ℝ) * dPhi - abs phiMax| ≤ dPhi / 2 := by
  set r := pyRound |phiMax / dPhi| with hr
  have hr0 : 0 ≤ r := pyRound_nonneg (abs_nonneg _)
  have hN : nChanRM phiMax dPhi = 2 * r.toNat + 1 := by unfold nChanRM; rw [← hr]; ring
  have hform : ∀ i : Fin (nChanRM phiMax dPhi),
      phiAxis phiMax dPhi i = ((i : ℝ) - r.toNat) * dPhi := by
    intro i
    unfold phiAxis linspace
    have hi := i.isLt
    by_cases h0 : r.toNat = 0
    · have : (i : ℕ) = 0 := by omega
      rw [this, hN, h0]; norm_num
    · have hc : ((nChanRM phiMax dPhi : ℕ) : ℝ) - 1 = 2 * (r.toNat : ℝ) := by
        rw [hN]; push_cast; ring
      rw [hc]
      have : (r.toNat : ℝ) ≠ 0 := by exact_mod_cast h0
      field_simp
      ring
  refine ⟨r.toNat, hN, hform, ?_, ?_⟩
  · intro l
    rw [hform, hform]
    have hl := l.isLt
    have : ((Fin.rev l : Fin _) : ℕ) + (l : ℕ) = 2 * r.toNat := by
      rw [Fin.val_rev]; omega
    have h' : ((Fin.rev l : Fin _) : ℝ) = 2 * (r.toNat : ℝ) - (l : ℝ) := by
      rw [eq_sub_iff_add_eq]; exact_mod_cast this
    rw [h']; ring
  · have hnear := pyRound_near |phiMax / dPhi|
    rw [← hr] at hnear
    have hcast : (r.toNat : ℝ) = (r : ℝ) := by
      have : ((r.toNat : ℤ) : ℝ) = (r : ℝ) := by rw [Int.toNat_of_nonneg hr0]
      exact_mod_cast this
    rw [hcast]
    rw [abs_div, abs_of_pos hd] at hnear
    have : (r : ℝ) * dPhi - |phiMax| = ((r : ℝ) - |phiMax| / dPhi) * dPhi := by
      field_simp
    rw [this, abs_mul, abs_of_pos hd]
    nlinarith

/-- Instance: 7 samples for `phiMax = 3`, `dPhi = 1`. -/
example : nChanRM 3 1 = 7 := by
  have : pyRound |(3 : ℝ) / 1| = 3 := by
    have : |(3 : ℝ) / 1| = ((3 : ℤ) : ℝ) := by norm_num
    rw [this]; unfold pyRound; simp
  unfold nChanRM; rw [this]; rfl

/-- A tie is rounded to the even neighbour: `phiMax = 2.5`, `dPhi = 1` gives 5 samples, not 7. -/
example : nChanRM (5 / 2) 1 = 5 := by
  have hf : ⌊(5 / 2 : ℝ)⌋ = 2 := by rw [Int.floor_eq_iff]; norm_num
  have : pyRound |(5 / 2 : ℝ) / 1| = 2 := by
    have : |(5 / 2 : ℝ) / 1| = 5 / 2 := by norm_num [abs_of_pos]
    rw [this]; unfold pyRound; rw [hf]; norm_num
  unfold nChanRM; rw [this]; rfl

/-- C20. Header round trip: an equally spaced increasing axis with at least two samples is
described by `writefits` and rebuilt unchanged by `fits_make_lin_axis`. -/
theorem header_roundTrip {N : ℕ} (hN : 2 ≤ N) (a d : ℝ) (hd : 0 < d) :
    ∃ h, writeAxis (fun i : Fin N => a + (i : ℝ) * d) = some h ∧
      makeLinAxis h = .arr N (fun i => a + (i : ℝ) * d) := by
  refine ⟨_, by unfold writeAxis; rw [if_pos hN], ?_⟩
  have h0 : at0 (fun i : Fin N => a + (i : ℝ) * d) 0 = a := by
    rw [at0_of_lt _ (by omega)]; simp
  have h1 : at0 (fun i : Fin N => a + (i : ℝ) * d) 1 = a + d := by
    rw [at0_of_lt _ (by omega)]; simp
  have hm : at0 (fun i : Fin N => a + (i : ℝ) * d) (N / 2) = a + ((N / 2 : ℕ) : ℝ) * d := by
    rw [at0_of_lt _ (by omega)]
  have hd' : a + d - a = d := by ring
  rw [makeLinAxis_arr _ (by simp only; omega) (by simp only [h0, h1, hd']; exact hd)]
  simp only [h0, h1, hm]
  congr 1
  funext i
  push_cast
  ring

/-- Instance of `header_roundTrip`: the three samples -10, 0, 10. -/
example : ∃ h, writeAxis (fun i : Fin 3 => (-10 : ℝ) + (i : ℝ) * 10) = some h ∧
    makeLinAxis h = .arr 3 (fun i => -10 + (i : ℝ) * 10) :=
  header_roundTrip (by norm_num) (-10) 10 (by norm_num)

/-- C20 for the axis which `run_rmsynth` builds (needs at least three samples, i.e. a rounded
ratio of at least one; a one-sample axis cannot be written). -/
theorem phiAxis_header_roundTrip (phiMax dPhi : ℝ) (hd : 0 < dPhi) (h2 : 2 ≤ nChanRM phiMax dPhi) :
    ∃ h, writeAxis (phiAxis phiMax dPhi) = some h ∧
      makeLinAxis h = .arr (nChanRM phiMax dPhi) (phiAxis phiMax dPhi) := by
  obtain ⟨c, -, hf, -, -⟩ := phiAxis_spec phiMax dPhi hd
  have : phiAxis phiMax dPhi = fun i : Fin (nChanRM phiMax dPhi) => (-(c : ℝ) * dPhi) + (i : ℝ) * dPhi := by
    funext i; rw [hf]; ring
  rw [this]
  exact header_roundTrip h2 _ _ hd

/-- What `fits_make_lin_axis` promises for a header axis: one sample per pixel, at
`CRVAL + (pixel - CRPIX)*CDELT` with 1-based pixel numbers. -/
def IsAxisOf (h : AxisHeader) : LinAxis → Prop
  | .raised => False
  | .arr n v => n = h.naxis ∧ ∀ i : Fin n, v i = h.crval + ((i : ℝ) + 1 - h.crpix) * h.cdelt

/-- C21, the part that holds: increasing axes, any reference pixel. -/
theorem makeLinAxis_partial (h : AxisHeader) (hn : 1 ≤ h.naxis) (hc : 0 < h.cdelt) :
    IsAxisOf h (makeLinAxis h) := by
  rw [makeLinAxis_arr h hn hc]
  exact ⟨rfl, fun i => rfl⟩

/-- C21 is false for the code: for *every* decreasing axis of at least two samples the result is
not the axis described by the header (it is empty, or `np.linspace` raises). -/
theorem makeLinAxis_negative_cdelt (h : AxisHeader) (hn : 2 ≤ h.naxis) (hc : h.cdelt < 0) :
    ¬ IsAxisOf h (makeLinAxis h) := by
  unfold makeLinAxis
  simp only [if_neg hc.ne]
  have hN1 : (2 : ℝ) ≤ h.naxis := by exact_mod_cast hn
  have hq : |h.crval + (1 - h.crpix) * h.cdelt - (h.crval + ((h.naxis : ℝ) - h.crpix) * h.cdelt)|
      / h.cdelt + 1 = (2 : ℝ) - (h.naxis : ℝ) := by
    have : h.crval + (1 - h.crpix) * h.cdelt - (h.crval + ((h.naxis : ℝ) - h.crpix) * h.cdelt)
      = -(((h.naxis : ℝ) - 1) * h.cdelt) := by ring
    have hne := hc.ne
    rw [this, abs_of_nonneg (by nlinarith)]
    field_simp
    ring
  rw [hq]
  have hint : pyInt ((2 : ℝ) - (h.naxis : ℝ)) = 2 - (h.naxis : ℤ) := by
    have hcast : (2 : ℝ) - (h.naxis : ℝ) = ((2 - (h.naxis : ℤ) : ℤ) : ℝ) := by push_cast; ring
    rw [hcast]; unfold pyInt; simp
  rw [hint]
  split_ifs with hneg
  · exact id
  · intro hh
    have := hh.1
    omega

/-- Witness for `makeLinAxis_negative_cdelt`: three samples with increment -1. -/
example : ¬ IsAxisOf ⟨3, 1, 0, -1⟩ (makeLinAxis ⟨3, 1, 0, -1⟩) :=
  makeLinAxis_negative_cdelt _ (by norm_num) (by norm_num)

/-- C16. The doubled axis: at least twice the samples, the FDF axis as its central block, the same
spacing when the FDF axis is equally spaced, and symmetric whenever the FDF axis is. -/
theorem phi2_spec {n : ℕ} (hn : 2 ≤ n) (phi : Fin n → ℝ) :
    ∃ g : Fin (nPhi2 n) → ℝ, phi2 phi = some g ∧
      nPhi2 n = n + 2 * ((n + 1) / 2) ∧ 2 * n ≤ nPhi2 n ∧
      (∀ i : Fin n, ∀ h : (i : ℕ) + (n + 1) / 2 < nPhi2 n, g ⟨i + (n + 1) / 2, h⟩ = phi i) ∧
      (∀ a d : ℝ, (∀ i : Fin n, phi i = a + (i : ℝ) * d) →
        ∀ i : Fin (nPhi2 n), g i = a + ((i : ℝ) - ((n + 1) / 2 : ℕ)) * d) ∧
      (SymGrid phi → SymGrid g) := by
  obtain ⟨g, hg, hform⟩ := phi2_eq hn phi
  refine ⟨g, hg, by unfold nPhi2 nExt; omega, nPhi2_ge n, ?_, ?_, ?_⟩
  · intro i h
    rw [hform]
    have hi := i.isLt
    have e : nExt n = (n + 1) / 2 := rfl
    rw [if_neg (by simp only [e]; omega), if_pos (by simp only [e]; omega)]
    simp only [e, Nat.add_sub_cancel]
    rw [at0_of_lt _ hi]
  · intro a d hu i
    have hat : ∀ j, j < n → at0 phi j = a + (j : ℝ) * d := by
      intro j hj; rw [at0_of_lt _ hj, hu]
    rw [hform]
    have e : nExt n = (n + 1) / 2 := rfl
    rw [e]
    have hi := i.isLt
    split_ifs with h1 h2
    · rw [hat 0 (by omega), hat 1 (by omega)]; push_cast; ring
    · rw [hat _ (by omega)]
      rw [Nat.cast_sub (by omega)]
    · rw [hat _ (by omega), hat _ (by omega)]
      rw [Nat.cast_sub (by omega : 1 ≤ n), Nat.cast_sub (by omega : 2 ≤ n)]
      push_cast; ring
  · intro hs l
    have hat : ∀ j, j < n → at0 phi (n - 1 - j) = - at0 phi j := by
      intro j hj
      have := hs ⟨j, hj⟩
      rw [at0_of_lt _ hj, at0_of_lt _ (by omega), ← this]
      congr 1
      ext; simp [Fin.val_rev]; omega
    rw [hform, hform]
    have hl := l.isLt
    have hrev : ((Fin.rev l : Fin _) : ℕ) = nPhi2 n - 1 - l := by rw [Fin.val_rev]; omega
    rw [hrev]
    have hnp : nPhi2 n = 2 * nExt n + n := rfl
    have e : nExt n = (n + 1) / 2 := rfl
    have hcast : ((nPhi2 n - 1 - (l : ℕ) : ℕ) : ℝ) = 2 * (nExt n : ℝ) + n - 1 - (l : ℝ) := by
      have : nPhi2 n - 1 - (l : ℕ) + 1 + (l : ℕ) = 2 * nExt n + n := by omega
      have h' : ((nPhi2 n - 1 - (l : ℕ) : ℕ) : ℝ) + 1 + ((l : ℕ) : ℝ) = 2 * (nExt n : ℝ) + n := by
        exact_mod_cast this
      linarith
    rw [hcast]
    have hend := hat 0 (by omega)
    have hend1 := hat 1 (by omega)
    simp only [Nat.sub_zero] at hend
    have h21 : n - 1 - 1 = n - 2 := by omega
    rw [h21] at hend1
    by_cases h1 : (l : ℕ) < nExt n
    · rw [if_neg (by omega), if_neg (by omega), if_pos h1, hend, hend1]
      ring
    · by_cases h2 : (l : ℕ) < nExt n + n
      · rw [if_neg (by omega), if_pos (by omega), if_neg h1, if_pos h2]
        have := hat (l - nExt n) (by omega)
        rw [← this]
        congr 1
        omega
      · rw [if_pos (by omega), if_neg h1, if_neg h2, hend, hend1]
        ring

/-- Instance: the axis -1, 0, 1 is doubled to -3, …, 3. -/
example : ∃ g : Fin 7 → ℝ, phi2 (fun i : Fin 3 => (-1 : ℝ) + (i : ℝ) * 1) = some g ∧
    ∀ i, g i = -1 + ((i : ℝ) - 2) * 1 := by
  obtain ⟨g, hg, -, -, -, hu, -⟩ := phi2_spec (n := 3) (by norm_num)
    (fun i : Fin 3 => (-1 : ℝ) + (i : ℝ) * 1)
  refine ⟨g, hg, ?_⟩
  intro i
  have := hu (-1) 1 (fun i => rfl) i
  simpa using this

/-- The error branch: with fewer than two samples the doubling raises `IndexError`. -/
theorem phi2_short {n : ℕ} (hn : n < 2) (phi : Fin n → ℝ) : phi2 phi = none := by
  unfold phi2; rw [if_neg (by omega)]

end Verif.Axis
