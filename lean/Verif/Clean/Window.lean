import Verif.Clean.Props

/-!
# C27 and C28 in units of Faraday depth

`Clean/Props` states the window of the second stage in samples, through the model's own width in samples. Here
the claims are stated with the Faraday depth axis and the width of the RMSF alone, on a regular axis, and C28 by
what remains in the residual.
-/

namespace Verif.Clean

open Verif.NumPy

variable {N N2 : ℕ} [NeZero N] [NeZero N2]

/-- A regular Faraday depth axis with spacing `h > 0` and at least two samples. -/
def RegularAxis (phi : Fin N → ℝ) (h : ℝ) : Prop := 2 ≤ N ∧ 0 < h ∧ ∀ i : Fin N, phi i = phi 0 + (i : ℝ) * h

omit [NeZero N2] in
theorem fwhmPix_regular (P : Params N N2) (h : ℝ) (hP : RegularAxis P.phi h) : fwhmPix P = P.fwhm / h := by
  obtain ⟨h2, _, hp⟩ := hP
  unfold fwhmPix at0
  rw [dif_pos (by omega : 1 < N), dif_pos (by omega : 0 < N), hp ⟨1, by omega⟩, hp ⟨0, by omega⟩]
  congr 1
  push_cast
  ring

/-- **C27** in Faraday depth: wherever the second stage changes a component, a component of the first stage lies
at that sample, or at most half a width of the RMSF to the left of it, or less than half a width and one sample
to the right of it. -/
theorem window_respected_depth (P : Params N N2) (dirty : Fin N → ℂ) (h : ℝ) (hP : RegularAxis P.phi h) (hf : 0 ≤ P.fwhm)
    (j : Fin N) (hj : (stage2 P dirty).cc j ≠ (stage1 P dirty).cc j) :
    ∃ i, (stage1 P dirty).cc i ≠ 0 ∧
      (j = i ∨ (P.phi i - P.fwhm / 2 - h < P.phi j ∧ P.phi j < P.phi i + P.fwhm / 2)) := by
  have e := fwhmPix_regular P h hP
  obtain ⟨-, hh, hp⟩ := hP
  have e' : fwhmPix P * h = P.fwhm := by rw [e]; field_simp
  obtain ⟨-, i, hi, hc⟩ := window_respected P dirty (by rw [e]; positivity) j hj
  refine ⟨i, hi, hc.imp id fun ⟨h1, h2⟩ => ?_⟩
  rw [hp i, hp j, ← e']
  constructor <;> nlinarith

/-- **C28**, the part that holds, in Faraday depth: when the second stage ends before the greatest number of
iterations, the residual is below its threshold at every sample from half a width left of a component of the first
stage up to one sample before half a width right of it, provided that the component is at least half a width away
from the left end of the axis. -/
theorem window_covers_depth_partial (P : Params N N2) (dirty : Fin N → ℂ) (h : ℝ) (hP : RegularAxis P.phi h) (hf : 0 ≤ P.fwhm)
    (w : ℝ) (hw : P.window = some w) (hit : (stage2 P dirty).iter < P.maxIter)
    (i j : Fin N) (hi : (stage1 P dirty).cc i ≠ 0) (hleft : P.phi 0 ≤ P.phi i - P.fwhm / 2)
    (h1 : P.phi i - P.fwhm / 2 ≤ P.phi j) (h2 : P.phi j ≤ P.phi i + P.fwhm / 2 - h) :
    ‖(stage2 P dirty).resid j‖ < w := by
  have e := fwhmPix_regular P h hP
  obtain ⟨-, hh, hp⟩ := hP
  have e' : fwhmPix P * h = P.fwhm := by rw [e]; field_simp
  refine (clean_stops P dirty).2.2.2.1 hit w hw j (window_covers_partial P _ i j hi (by rw [e]; positivity) ?_ ?_ ?_)
  · rw [hp i, ← e'] at hleft
    by_contra hc
    push Not at hc
    nlinarith
  · rw [hp i, hp j, ← e'] at h1
    by_contra hc
    push Not at hc
    nlinarith
  · rw [hp i, hp j, ← e'] at h2
    by_contra hc
    push Not at hc
    nlinarith

/-- **C28** fails near the left end, in Faraday depth: when every component of the first stage is nearer to the left
end than half a width, by at least one sample, and the width is at most the length of the axis, the second stage
changes no sample but those components themselves. -/
theorem window_left_depth_wrong (P : Params N N2) (dirty : Fin N → ℂ) (h : ℝ) (hP : RegularAxis P.phi h)
    (hN : P.fwhm ≤ N * h) (hall : ∀ i, (stage1 P dirty).cc i ≠ 0 → P.phi i - P.fwhm / 2 ≤ P.phi 0 - h)
    (j : Fin N) (hj : (stage2 P dirty).cc j ≠ (stage1 P dirty).cc j) : (stage1 P dirty).cc j ≠ 0 := by
  have e := fwhmPix_regular P h hP
  obtain ⟨-, hh, hp⟩ := hP
  have e' : fwhmPix P * h = P.fwhm := by rw [e]; field_simp
  by_contra hz
  have hM : ¬ mask P (stage1 P dirty) j := by
    rintro (hc | ⟨i, hi, hsl⟩)
    · exact hc hz
    · have hb := hall i hi
      rw [hp i, ← e'] at hb
      have hb' : (i : ℝ) - fwhmPix P / 2 ≤ -1 := by
        by_contra hc
        push Not at hc
        nlinarith
      have hN' : fwhmPix P ≤ N := by
        rw [← e'] at hN
        exact le_of_mul_le_mul_right hN hh
      refine window_left_edge P i j hb' ?_ hsl
      have : ⌊(i : ℝ) + fwhmPix P / 2⌋ ≤ ⌊((N : ℤ) : ℝ) + ((⌈(i : ℝ) - fwhmPix P / 2⌉ : ℤ) : ℝ)⌋ := by
        apply Int.floor_le_floor
        have := Int.le_ceil ((i : ℝ) - fwhmPix P / 2)
        push_cast
        linarith
      rw [← Int.cast_add, Int.floor_intCast] at this
      exact this
  by_cases hfp : 0 ≤ fwhmPix P
  · exact hM (window_respected P dirty hfp j hj).1
  · obtain ⟨i, hi⟩ : ∃ i, (stage1 P dirty).cc i ≠ 0 := by
      by_contra hc
      push Not at hc
      have hm : ∀ k, ¬ mask P (stage1 P dirty) k := by
        rintro k (hk | ⟨i, hi, -⟩)
        · exact hk (hc k)
        · exact hi (hc i)
      apply hj
      have : ∀ fuel, loop2 P (mask P (stage1 P dirty)) fuel (stage1 P dirty) = stage1 P dirty := by
        intro fuel
        cases fuel with
        | zero => rfl
        | succ f =>
          unfold loop2
          rw [if_neg]
          rw [cond2_iff]
          rintro ⟨_, _, k, hk, _⟩
          exact hm k hk
      unfold stage2
      exact congrFun (congrArg State.cc (this _)) j
    have hb := hall i hi
    rw [hp i, ← e'] at hb
    push Not at hfp
    have : (0 : ℝ) ≤ (i : ℝ) := Nat.cast_nonneg _
    nlinarith

/-! ### Cases -/

/-- Parameters with five samples of spacing 2, a width of 4 and an RMSF of one sample. -/
theorem point_case (gain w : ℝ) (m : ℕ) : ∃ P : Params 5 11, P.phi = (fun i : Fin 5 => ((i : ℝ) - (2 : ℕ)) * 2) ∧ P.fwhm = 4 ∧
    P.maxIter = m ∧ P.gain = gain ∧ P.cutoff = 1 ∧ P.window = some w ∧ ∀ k i, shifted P k i = if i = k then 1 else 0 := by
  obtain ⟨g, hg, -⟩ := Axis.phi2_eq (n := 5) (by norm_num) (fun i : Fin 5 => ((i : ℝ) - (2 : ℕ)) * 2)
  set R : ℝ → ℂ := fun t => if t = 0 then 1 else 0 with hR
  let P : Params 5 11 :=
    { phi := fun i : Fin 5 => ((i : ℝ) - (2 : ℕ)) * 2
      rmsf := fun l => R (g l)
      fwhm := 4
      maxIter := m
      gain := gain
      cutoff := 1
      window := some w }
  refine ⟨P, rfl, rfl, rfl, rfl, rfl, rfl, fun k i => ?_⟩
  rw [shifted_is_rmsf (N := 5) (N2 := 11) 2 2 (by norm_num) (by norm_num) (by norm_num)
    (fun i : Fin 5 => ((i : ℝ) - (2 : ℕ)) * 2) (fun i => rfl) P rfl g hg R (fun l => rfl)
    (by intro l hl; simp [hR, hl])]
  simp only [hR]
  by_cases h : i = k
  · rw [if_pos h, h, sub_self, if_pos rfl]
  · rw [if_neg h, if_neg]
    intro hc
    apply h
    have : ((i : ℕ) : ℝ) = ((k : ℕ) : ℝ) := by linarith
    ext
    exact_mod_cast this

/-- The axis of the cases is regular. -/
theorem point_axis (phi : Fin 5 → ℝ) (h : phi = fun i : Fin 5 => ((i : ℝ) - (2 : ℕ)) * 2) : RegularAxis phi 2 := by
  refine ⟨by norm_num, by norm_num, fun i => ?_⟩
  rw [h]
  push_cast
  simp only [Fin.val_zero, Nat.cast_zero]
  ring

/-- A case of `window_covers_depth_partial`: a source of modulus 5 in the middle, gain 1, is removed in one
iteration; the second stage ends at once, and the sample before the source lies in its window. -/
example : ∃ (P : Params 5 11) (dirty : Fin 5 → ℂ), RegularAxis P.phi 2 ∧ 0 ≤ P.fwhm ∧ P.window = some (1 / 2) ∧
    (stage2 P dirty).iter < P.maxIter ∧ (stage1 P dirty).cc 2 ≠ 0 ∧ P.phi 0 ≤ P.phi 2 - P.fwhm / 2 ∧
    P.phi 2 - P.fwhm / 2 ≤ P.phi 1 ∧ P.phi 1 ≤ P.phi 2 + P.fwhm / 2 - 2 := by
  obtain ⟨P, hphi, hf, hm, hg, hc, hw, hs⟩ := point_case 1 (1 / 2) 10
  obtain ⟨m, _, hit, hr, hcc, hend, hgo⟩ := clean_single_source P 2 5 (fun i => 5 * shifted P 2 i) (fun _ => rfl)
    (by rw [hs, if_pos rfl]) (fun i hi => by rw [hs, if_neg hi]; simp) (by rw [hc]; norm_num)
  rw [hg, hc] at hgo hend
  have h1 : m = 1 := by
    rcases Nat.lt_trichotomy m 1 with h | h | h
    · have hm0 : m = 0 := by omega
      have := hend (by rw [hm]; omega)
      rw [hm0] at this
      norm_num at this
    · exact h
    · have := hgo 1 h
      norm_num at this
  have hr0 : ∀ i, (stage1 P fun i => 5 * shifted P 2 i).resid i = 0 := by
    intro i
    rw [hr, hg, h1]
    norm_num
  refine ⟨P, fun i => 5 * shifted P 2 i, point_axis _ hphi, by rw [hf]; norm_num, hw, ?_, ?_, ?_, ?_, ?_⟩
  · have : ∀ fuel M, loop2 P M fuel (stage1 P fun i => 5 * shifted P 2 i) = stage1 P fun i => 5 * shifted P 2 i := by
      intro fuel M
      cases fuel with
      | zero => rfl
      | succ f =>
        unfold loop2
        rw [if_neg]
        rw [cond2_iff]
        rintro ⟨w, hw', i, _, hle⟩
        rw [hr0, norm_zero] at hle
        rw [hw] at hw'
        have := Option.some.inj hw'
        linarith
    unfold stage2
    rw [this, hit, h1, hm]
    norm_num
  · rw [hcc, if_pos rfl, hg, h1]
    norm_num
  all_goals (rw [hphi, hf]; norm_num)

/-- A case of `window_respected_depth` and `window_left_depth_wrong`: a source of modulus 3/2 at the left end, gain
1/2, two iterations; the second stage takes a second step at the source. -/
example : ∃ (P : Params 5 11) (dirty : Fin 5 → ℂ), RegularAxis P.phi 2 ∧ 0 ≤ P.fwhm ∧ P.fwhm ≤ (5 : ℕ) * 2 ∧
    (∀ i, (stage1 P dirty).cc i ≠ 0 → P.phi i - P.fwhm / 2 ≤ P.phi 0 - 2) ∧
    (stage2 P dirty).cc 0 ≠ (stage1 P dirty).cc 0 := by
  obtain ⟨P, hphi, hf, hm, hg, hc, hw, hs⟩ := point_case (1 / 2) (1 / 2) 2
  obtain ⟨m, hle, hit, hr, hcc, hend, hgo⟩ := clean_single_source P 0 (3 / 2) (fun i => 3 / 2 * shifted P 0 i) (fun _ => rfl)
    (by rw [hs, if_pos rfl]) (fun i hi => by rw [hs, if_neg hi]; simp) (by rw [hc]; norm_num)
  rw [hg, hc] at hgo hend
  have h1 : m = 1 := by
    rcases Nat.lt_trichotomy m 1 with h | h | h
    · have hm0 : m = 0 := by omega
      have := hend (by rw [hm]; omega)
      rw [hm0] at this
      norm_num at this
    · exact h
    · have := hgo 1 h
      norm_num [abs_of_pos] at this
  have hr0 : ∀ i, (stage1 P fun i => 3 / 2 * shifted P 0 i).resid i = if i = 0 then 3 / 4 else 0 := by
    intro i
    rw [hr, hg, h1, hs]
    by_cases hi : i = 0
    · rw [if_pos hi, if_pos hi]
      norm_num
    · rw [if_neg hi, if_neg hi, mul_zero, mul_zero]
  have hcc0 : (stage1 P fun i => 3 / 2 * shifted P 0 i).cc 0 ≠ 0 := by
    rw [hcc, if_pos rfl, hg, h1]
    norm_num
  refine ⟨P, fun i => 3 / 2 * shifted P 0 i, point_axis _ hphi, by rw [hf]; norm_num, by rw [hf]; norm_num, ?_, ?_⟩
  · intro i hi
    have : i = 0 := by
      by_contra hne
      rw [hcc, if_neg hne] at hi
      exact hi rfl
    rw [this, hf]
    norm_num
  · unfold stage2
    dsimp only
    rw [hit, h1, hm]
    generalize hS : (stage1 P fun i => 3 / 2 * shifted P 0 i) = s at *
    have hM : mask P s 0 := Or.inl hcc0
    have hidx : npArgmax (maskedAbs (mask P s) s.resid) = 0 := by
      rw [npArgmax_eq_iff]
      refine ⟨fun j => ?_, fun j hj => absurd hj (by simp)⟩
      rw [maskedAbs_pos hM]
      by_cases hMj : mask P s j
      · rw [maskedAbs_pos hMj, hr0, hr0, if_pos rfl, WithBot.coe_le_coe]
        split_ifs
        · exact le_rfl
        · rw [norm_zero]
          positivity
      · rw [maskedAbs_neg hMj]
        exact bot_le
    have hc2 : cond2 P (mask P s) s := by
      rw [cond2_iff]
      refine ⟨_, hw, 0, hM, ?_⟩
      rw [hr0, if_pos rfl]
      norm_num
    show (loop2 P (mask P s) 1 s).cc 0 ≠ s.cc 0
    unfold loop2
    rw [if_pos hc2, hidx]
    show (if (0 : Fin 5) = 0 then s.cc 0 + (P.gain : ℂ) * s.resid 0 else s.cc 0) ≠ s.cc 0
    rw [if_pos rfl, hr0, if_pos rfl, hg]
    intro h
    have := add_eq_left.mp h
    norm_num at this

end Verif.Clean
