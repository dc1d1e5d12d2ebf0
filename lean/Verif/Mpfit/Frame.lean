import Verif.Mpfit.Rank

/-!
# The least-squares fitter: what the step leaves alone

For any number of parameters the step keeps the triangular factor, and its damping parameter is not
negative.
-/

namespace Verif.Mpfit

open Verif.NumPy Finset

theorem rot_frame (n j : ℕ) (hj : j ≤ n) (s : Giv) :
    let s2 := forBreak j n rotStep s
    (∀ i c, i < c → s2.r i c = s.r i c) ∧ ∀ t < j, s2.r t t = s.r t t := by
  refine forBreak_ind (fun _ u => (∀ i c, i < c → u.r i c = s.r i c) ∧ ∀ t < j, u.r t t = s.r t t)
    (fun u => (∀ i c, i < c → u.r i c = s.r i c) ∧ ∀ t < j, u.r t t = s.r t t) j n hj rotStep s
    ⟨fun _ _ _ => rfl, fun _ _ => rfl⟩ ?_ ?_ fun _ h => h
  · rintro k u u' hk1 hk2 ⟨h1, h2⟩ h
    unfold rotStep at h
    by_cases h0 : u.sd k = 0
    · rw [if_pos h0] at h; exact absurd h (by simp)
    · rw [if_neg h0] at h
      injection h with h
      rw [← h]
      refine ⟨fun i c hic => ?_, fun t ht => ?_⟩
      · dsimp only
        rw [if_neg (by omega), h1 i c hic]
      · dsimp only
        rw [if_neg (by omega), h2 t ht]
  · rintro k u u' hk1 hk2 hu h
    unfold rotStep at h
    by_cases h0 : u.sd k = 0
    · rw [if_pos h0] at h
      injection h with h
      rw [← h]
      exact hu
    · rw [if_neg h0] at h; exact absurd h (by simp)

/-- `qrsolv` returns the upper triangle and the diagonal as they came. -/
theorem qrsolv_same (n : ℕ) (R : Mat) (ipvt : ℕ → ℕ) (d qtb sd : Vec) (hd : ∀ j < n, d (ipvt j) ≠ 0) :
    SameUp n R (qrsolv n R ipvt d qtb sd).1 := by
  have hx : (fun j => symm R j j) = fun j => R j j := by
    funext j; unfold symm; rw [if_pos le_rfl]
  unfold qrsolv
  dsimp only
  rw [hx]
  have := forBreak_ind (fun j (s : Giv) => (∀ i c, i < c → s.r i c = R i c) ∧ ∀ t < j, s.r t t = R t t)
    (fun s => (∀ i c, i < c → s.r i c = R i c) ∧ ∀ t < n, s.r t t = R t t) 0 n (Nat.zero_le n)
    (elimStep n ipvt d fun j => R j j) { r := symm R, wa := qtb, sd := sd, q := 0 } ?_ ?_ ?_ ?_
  · intro i c hic hc
    rcases Nat.lt_or_ge i c with h | h
    · exact this.1 i c h
    · obtain rfl : i = c := by omega
      exact this.2 i hc
  · refine ⟨fun i c hic => ?_, fun t ht => by omega⟩
    unfold symm
    dsimp only
    rw [if_neg (by omega)]
  · rintro j s s' - hj ⟨h1, h2⟩ h
    unfold elimStep at h
    rw [if_neg (hd j hj)] at h
    injection h with h
    rw [← h]
    obtain ⟨f1, f2⟩ := rot_frame n j hj.le
      { s with sd := fun k => if k = j then d (ipvt j) else if j < k then 0 else s.sd k, q := 0 }
    refine ⟨fun i c hic => ?_, fun t ht => ?_⟩
    · dsimp only
      rw [if_neg (by omega), f1 i c hic, h1 i c hic]
    · dsimp only
      rcases Nat.lt_succ_iff_lt_or_eq.mp ht with h3 | h3
      · rw [if_neg (by omega), f2 t h3, h2 t h3]
      · rw [if_pos ⟨h3, h3⟩, h3]
  · rintro j s s' - hj - h
    unfold elimStep at h
    rw [if_neg (hd j hj)] at h
    exact absurd h (by simp)
  · exact fun s h => h

theorem lmLoop_same (dwarf : ℝ) (hdw : 0 < dwarf) (n : ℕ) (R : Mat) (ipvt : ℕ → ℕ)
    (d qtb : Vec) (delta : ℝ) (hd : ∀ j < n, 0 < d (ipvt j)) (left : ℕ) (s : LmSt) (hs : SameUp n R s.r)
    (hp : 0 ≤ s.par) (hpl : 0 ≤ s.parl) :
    let o := lmLoop dwarf n ipvt d qtb delta left s
    0 < o.par ∧ SameUp n R o.r := by
  induction left generalizing s with
  | zero =>
    unfold lmLoop
    dsimp only
    set par := if s.par = 0 then max dwarf (s.paru * 0.001) else s.par with hpar
    have hpos : 0 < par := by
      rw [hpar]
      split_ifs with h
      · exact lt_max_of_lt_left hdw
      · exact lt_of_le_of_ne hp (Ne.symm h)
    have q1 := qrsolv_same n s.r ipvt (fun i => Real.sqrt par * d i) qtb s.sd
      fun j hj => (mul_pos (Real.sqrt_pos.mpr hpos) (hd j hj)).ne'
    rw [ite_self]
    exact ⟨hpos, hs.trans q1⟩
  | succ left ih =>
    unfold lmLoop
    dsimp only
    set par := if s.par = 0 then max dwarf (s.paru * 0.001) else s.par with hpar
    have hpos : 0 < par := by
      rw [hpar]
      split_ifs with h
      · exact lt_max_of_lt_left hdw
      · exact lt_of_le_of_ne hp (Ne.symm h)
    have q1 := qrsolv_same n s.r ipvt (fun i => Real.sqrt par * d i) qtb s.sd
      fun j hj => (mul_pos (Real.sqrt_pos.mpr hpos) (hd j hj)).ne'
    set o := qrsolv n s.r ipvt (fun i => Real.sqrt par * d i) qtb s.sd
    set fp := nrm 0 n (fun i => d i * o.2.1 i) - delta
    by_cases hc : |fp| ≤ 0.1 * delta ∨ (s.parl = 0 ∧ fp ≤ s.fp ∧ s.fp < 0)
    · rw [if_pos hc]
      exact ⟨hpos, hs.trans q1⟩
    · rw [if_neg hc]
      have hl : 0 ≤ if fp > 0 then max s.parl par else s.parl := by
        split_ifs
        · exact le_max_of_le_left hpl
        · exact hpl
      exact ih _ (hs.trans q1) (le_max_of_le_left hl) hl

/-- `lmpar` keeps the triangular factor and returns a parameter that is not negative. -/
theorem lmpar_same (eps dwarf : ℝ) (hdw : 0 < dwarf) (n : ℕ) (R : Mat) (ipvt : ℕ → ℕ) (d qtf : Vec)
    (delta : ℝ) (hdel : 0 < delta) (x sd : Vec) (par : ℝ) (hpar : 0 ≤ par) (hd : ∀ j < n, 0 < d (ipvt j)) :
    let o := lmpar eps dwarf n R ipvt d qtf delta x sd par
    0 ≤ o.par ∧ SameUp n R o.r := by
  unfold lmpar
  dsimp only
  set g := gnDir eps n R qtf
  set x1 := scatter n ipvt g.2 x
  set fp := nrm 0 n (fun i => d i * x1 i) - delta with hfp
  by_cases hc : fp ≤ 0.1 * delta
  · rw [if_pos hc]
    exact ⟨le_rfl, fun _ _ _ _ => rfl⟩
  · rw [if_neg hc]
    have hfp0 : 0 < fp := by
      push Not at hc
      linarith [mul_pos (by norm_num : (0 : ℝ) < 0.1) hdel]
    have hdx : 0 < nrm 0 n (fun i => d i * x1 i) := by linarith
    have hparl : ∀ t : ℝ, 0 ≤ if n ≤ g.1 then fp / delta / t / t else 0 := by
      intro t
      split_ifs
      · rw [div_div]
        exact div_nonneg (div_nonneg hfp0.le hdel.le) (mul_self_nonneg t)
      · exact le_rfl
    set gn := nrm 0 n fun j => (∑ i ∈ range (j + 1), R i j * qtf i) / d (ipvt j)
    have hgn : 0 ≤ gn := nrm_nonneg _ _ _
    have hparu : 0 ≤ if gn / delta = 0 then dwarf / min delta 0.1 else gn / delta := by
      split_ifs
      · exact div_nonneg hdw.le (le_min hdel.le (by norm_num))
      · exact div_nonneg hgn hdel.le
    refine (lmLoop_same dwarf hdw n R ipvt d qtf delta hd 9 _ (fun _ _ _ _ => rfl) ?_ (hparl _)).imp_left
      fun h => h.le
    dsimp only
    set pu := if gn / delta = 0 then dwarf / min delta 0.1 else gn / delta
    by_cases h2 : min (max par (if n ≤ g.1 then fp / delta /
        nrm 0 n (fwdSub n R fun j => d (ipvt j) * (d (ipvt j) * x1 (ipvt j)) / nrm 0 n fun i => d i * x1 i) /
        nrm 0 n (fwdSub n R fun j => d (ipvt j) * (d (ipvt j) * x1 (ipvt j)) / nrm 0 n fun i => d i * x1 i)
        else 0)) pu = 0
    · rw [if_pos h2]
      exact div_nonneg hgn hdx.le
    · rw [if_neg h2]
      exact le_min (le_max_of_le_left hpar) hparu

end Verif.Mpfit
