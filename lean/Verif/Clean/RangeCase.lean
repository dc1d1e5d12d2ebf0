import Verif.Clean.Range

/-!
# C281: a concrete case

A source of amplitude 4 at depth zero, a delta RMSF, gain 1/2, cutoff 3/2, at most two iterations; three depths and five.
-/

open Complex

namespace Verif.Clean

open Verif.NumPy

instance (c : ℕ) : NeZero (Axis.nPhi2 (2 * c + 1)) := ⟨by unfold Axis.nPhi2; omega⟩

/-- The depths `-c … c`. -/
noncomputable def centreAxis (c : ℕ) : Fin (2 * c + 1) → ℝ := fun i => (i : ℝ) - c

noncomputable def centreTwice (c : ℕ) : Fin (Axis.nPhi2 (2 * c + 1)) → ℝ := (Axis.phi2 (centreAxis c)).getD 0

/-- The RMSF. -/
noncomputable def centreR (x : ℝ) : ℂ := if x = 0 then 1 else 0

noncomputable def centreData (c : ℕ) : Fin (2 * c + 1) → ℂ := fun i => if (i : ℕ) = c then 4 else 0

noncomputable def centreCube (c : ℕ) : Cube (2 * c + 1) (Axis.nPhi2 (2 * c + 1)) 1 where
  dirty := fun i _ => some (centreData c i)
  phi := centreAxis c
  rmsf := fun l _ => centreR (centreTwice c l)
  fwhm := fun _ => 1
  maxIter := 2
  gain := 1 / 2
  cutoff := 3 / 2
  window := none
  mskArr := none

theorem centre_twice (c : ℕ) (hc : 1 ≤ c) : Axis.phi2 (centreAxis c) = some (centreTwice c) := by
  unfold centreTwice Axis.phi2
  rw [if_pos (by omega)]
  rfl

theorem centre_shifted (c : ℕ) (hc : 1 ≤ c) (k i : Fin (2 * c + 1)) : shifted ((centreCube c).params 0) k i = if i = k then 1 else 0 := by
  rw [shifted_is_rmsf c 1 rfl hc one_ne_zero (centreAxis c) (fun i => (mul_one _).symm) ((centreCube c).params 0) rfl (centreTwice c) (centre_twice c hc) centreR
    (fun l => rfl) (fun l hl => by unfold centreR; rw [if_neg hl, if_pos rfl]; norm_num)]
  unfold centreR centreAxis
  have : ((i : ℝ) - c - ((k : ℝ) - c) = 0) ↔ i = k := by
    rw [sub_sub_sub_cancel_right, sub_eq_zero, Nat.cast_inj, Fin.ext_iff]
  simp only [this]

/-- All the residual and all the components are at the centre. -/
theorem centre_only (c : ℕ) (hc : 1 ≤ c) (t : ℕ) (j : Fin (2 * c + 1)) (hj : (j : ℕ) ≠ c) :
    (loop1 ((centreCube c).params 0) t (start (centreData c))).cc j = 0 := by
  have key : ∀ t (s : State (2 * c + 1)), (∀ j : Fin (2 * c + 1), (j : ℕ) ≠ c → s.cc j = 0 ∧ s.resid j = 0) →
      ∀ j : Fin (2 * c + 1), (j : ℕ) ≠ c → (loop1 ((centreCube c).params 0) t s).cc j = 0 := by
    intro t
    induction t with
    | zero => intro s hs j hj; exact (hs j hj).1
    | succ t ih =>
      intro s hs
      unfold loop1
      by_cases hcut : ((centreCube c).params 0).cutoff ≤ npMax (fun i => ‖s.resid i‖)
      · rw [if_pos hcut]
        set k := npArgmax fun i => ‖s.resid i‖ with hk
        have hcut : (3 / 2 : ℝ) ≤ ‖s.resid k‖ := hcut
        have hkc : (k : ℕ) = c := by
          by_contra hne
          rw [(hs k hne).2, norm_zero] at hcut
          norm_num at hcut
        refine ih _ fun j hj => ?_
        have hjk : j ≠ k := fun h => hj (by rw [h, hkc])
        constructor
        · change (if j = k then _ else s.cc j) = 0
          rw [if_neg hjk, (hs j hj).1]
        · change s.resid j - _ * shifted ((centreCube c).params 0) k j = 0
          rw [centre_shifted c hc, if_neg hjk, (hs j hj).2]
          simp
      · rw [if_neg hcut]
        exact fun j hj => (hs j hj).1
  refine key t _ (fun j hj => ⟨rfl, ?_⟩) j hj
  change centreData c j = 0
  unfold centreData
  rw [if_neg hj]

/-- A case of `clean_range`: the runs in three and five depths agree, and clean. -/
theorem clean_range_case : ∃ r r', hogbom (centreCube 1) = some r ∧ hogbom (centreCube 2) = some r' ∧
    (∀ i j, (centreCube 2).phi j = (centreCube 1).phi i → r.cc i 0 = r'.cc j 0 ∧ r.resid i 0 = r'.resid j 0 ∧ r.clean i 0 = r'.clean j 0) ∧
    r.iterCount 0 = r'.iterCount 0 ∧ r.iterCount 0 = 2 := by
  have hpk : ∀ c (l : Fin (Axis.nPhi2 (2 * c + 1))) (p : Fin 1), centreTwice c l ≠ 0 → (centreR (centreTwice c l)).re < (centreR 0).re := by
    intro c l p hl
    unfold centreR
    rw [if_neg hl, if_pos rfl]
    norm_num
  obtain ⟨r, r', hr, hr', h1, h2⟩ := clean_range (centreCube 1) (centreCube 2) rfl rfl 1 2 le_rfl (by norm_num) 1 one_ne_zero rfl rfl
    (fun i => (mul_one _).symm) (fun i => (mul_one _).symm) rfl rfl (centreTwice 1) (centreTwice 2) (centre_twice 1 le_rfl) (centre_twice 2 (by norm_num))
    (fun _ => centreR) (fun l p => rfl) (fun l p => rfl) (hpk 1) (hpk 2) rfl rfl rfl rfl (show (1 / 2 : ℝ) ≠ 0 by norm_num) (show (0 : ℝ) < 3 / 2 by norm_num)
    (by
      intro i j p h
      change some (centreData 2 j) = some (centreData 1 i)
      have h : (j : ℝ) - (2 : ℕ) = (i : ℝ) - (1 : ℕ) := h
      push_cast at h
      have h : (j : ℝ) = i + 1 := by linarith
      have h : (j : ℕ) = i + 1 := by exact_mod_cast h
      unfold centreData
      have : ((j : ℕ) = 2) ↔ ((i : ℕ) = 1) := by omega
      simp only [this])
    0 (fun j => by change some (centreData 2 j) ≠ none; exact Option.some_ne_none _)
    (by
      intro t ht rt hrt j hj
      obtain ⟨-, h2, -, -⟩ := hogbom_stage1 ((centreCube 2).again (centreCube 2).dirty (centreCube 2).cutoff t) rfl rt hrt 0 (centreData 2) (fun i => rfl)
      rw [h2]
      change (loop1 (((centreCube 2).params 0).deeper ((centreCube 2).params 0).cutoff t) t (start (centreData 2))).cc j = 0
      rw [loop1_limit]
      refine centre_only 2 (by norm_num) t j fun hj2 => ?_
      have : (centreCube 2).phi j = 0 := by
        change (j : ℝ) - (2 : ℕ) = 0
        rw [hj2, sub_self]
      rw [this] at hj
      norm_num at hj)
  refine ⟨r, r', hr, hr', h1, h2, ?_⟩
  obtain ⟨-, -, -, r4⟩ := hogbom_stage1 (centreCube 1) rfl r hr 0 (centreData 1) (fun i => rfl)
  rw [r4]
  change (loop1 ((centreCube 1).params 0) 2 (start (centreData 1))).iter = 2
  have harg : (npArgmax fun i => ‖(start (centreData 1)).resid i‖) = 1 := by
    rw [npArgmax_eq_iff]
    constructor
    · intro j; fin_cases j <;> simp [centreData, start]
    · intro j hj; fin_cases j <;> simp_all [centreData, start]
  unfold loop1
  rw [if_pos, harg]
  · unfold loop1
    rw [if_pos]
    · rfl
    · refine le_trans ?_ (le_npMax _ 1)
      change (3 / 2 : ℝ) ≤ ‖centreData 1 1 - ((1 / 2 : ℝ) : ℂ) * centreData 1 1 * shifted ((centreCube 1).params 0) 1 1‖
      rw [centre_shifted 1 le_rfl, if_pos rfl]
      have : centreData 1 1 = 4 := if_pos rfl
      rw [this]
      norm_num
  · refine le_trans ?_ (le_npMax _ 1)
    change (3 / 2 : ℝ) ≤ ‖centreData 1 1‖
    have : centreData 1 1 = 4 := if_pos rfl
    rw [this]
    norm_num

end Verif.Clean
