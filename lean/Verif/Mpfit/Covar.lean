import Mathlib.LinearAlgebra.Matrix.NonsingularInverse
import Verif.Mpfit.Qr

/-!
# The least-squares fitter: covariance matrix

Source: `/repo/RMutils/mpfit.py` 2360-2422 (`calc_covar`). The checks of the shape (lines 2363-2371)
are left out: the caller passes a square matrix (line 1446).
-/

namespace Verif.Mpfit

open Verif.NumPy Finset

/-- `r[i, j] = v`. -/
noncomputable def setAt (r : Mat) (i j : ℕ) (v : ℝ) : Mat := fun a b => if a = i ∧ b = j then v else r a b

/-- Lines 2386-2389, one iteration of the loop over `j` for column `k`. -/
noncomputable def invCol (k j : ℕ) (r : Mat) : Mat :=
  let temp := r k k * r j k
  let r' := setAt r j k 0
  fun i c => if c = k ∧ i ≤ j then r' i k - temp * r' i j else r' i c

/-- Matrix and `l + 1`. -/
structure Cov where
  r : Mat
  cnt : ℕ

/-- Lines 2382-2390, one iteration of the loop over `k`. -/
noncomputable def invStep (tolr : ℝ) (k : ℕ) (s : Cov) : Ctl Cov :=
  if |s.r k k| ≤ tolr then .brk s
  else .next { r := forRange 0 k (invCol k) (setAt s.r k k (1 / s.r k k)), cnt := k + 1 }

/-- Lines 2379-2390: invert the triangular factor in place. -/
noncomputable def invert (tol : ℝ) (n : ℕ) (r : Mat) : Cov :=
  forBreak 0 n (invStep (tol * |r 0 0|)) { r := r, cnt := 0 }

/-- Lines 2397-2398. -/
noncomputable def sqCol (k j : ℕ) (r : Mat) : Mat :=
  let temp := r j k
  fun i c => if c = j ∧ i ≤ j then r i j + temp * r i k else r i c

/-- Lines 2395-2400, one iteration of the loop over `k`. -/
noncomputable def sqStep (k : ℕ) (r : Mat) : Mat :=
  let r1 := forRange 0 k (sqCol k) r
  let temp := r1 k k
  fun i c => if c = k ∧ i ≤ k then temp * r1 i k else r1 i c

/-- Matrix and `wa`. -/
structure Low where
  r : Mat
  wa : Vec

/-- Lines 2408-2415: the body of the loop over `i`. -/
noncomputable def lowCol (ipvt : ℕ → ℕ) (cnt j i : ℕ) (r : Mat) : Mat :=
  let r1 := if cnt ≤ j then setAt r i j 0 else r
  let r2 := if ipvt j < ipvt i then setAt r1 (ipvt i) (ipvt j) (r1 i j) else r1
  if ipvt i < ipvt j then setAt r2 (ipvt j) (ipvt i) (r2 i j) else r2

/-- Lines 2405-2416: the body of the loop over `j`. -/
noncomputable def lowStep (ipvt : ℕ → ℕ) (cnt j : ℕ) (s : Low) : Low :=
  let r := forRange 0 (j + 1) (lowCol ipvt cnt j) s.r
  { r := r, wa := Function.update s.wa (ipvt j) (r j j) }

/-- Lines 2419-2421. -/
noncomputable def symStep (wa : Vec) (j : ℕ) (r : Mat) : Mat :=
  setAt (fun i c => if c = j ∧ i ≤ j then r j i else r i c) j j (wa j)

/-- `calc_covar(rr, ipvt)`, lines 2360-2423. -/
noncomputable def calcCovar (tol : ℝ) (n : ℕ) (rr : Mat) (ipvt : ℕ → ℕ) : Mat :=
  let s := invert tol n rr
  let r2 := forRange 0 s.cnt sqStep s.r
  let low := forRange 0 n (lowStep ipvt s.cnt) { r := r2, wa := fun _ => r2 0 0 }
  forRange 0 n (symStep low.wa) low.r

/-! ## Proofs -/

theorem setAt_self (r : Mat) (i j : ℕ) (v : ℝ) : setAt r i j v i j = v := by simp [setAt]

theorem setAt_ne (r : Mat) (i j : ℕ) (v : ℝ) (a b : ℕ) (h : ¬(a = i ∧ b = j)) :
    setAt r i j v a b = r a b := by simp only [setAt, if_neg h]

/-- Column `k` after the inner loop of the inversion. -/
theorem invCol_loop (k : ℕ) (r : Mat) :
    let r' := forRange 0 k (invCol k) r
    (∀ i c, c ≠ k → r' i c = r i c) ∧ (∀ i, k ≤ i → r' i k = r i k) ∧
      ∀ i < k, r' i k = -(r k k * ∑ j ∈ Ico i k, r i j * r j k) := by
  have := forRange_ind (fun J (s : Mat) => (∀ i c, c ≠ k → s i c = r i c) ∧
    (∀ i, J ≤ i → s i k = r i k) ∧ ∀ i < J, s i k = -(r k k * ∑ j ∈ Ico i J, r i j * r j k))
    0 k (Nat.zero_le k) (invCol k) r ⟨fun _ _ _ => rfl, fun _ _ => rfl, fun i hi => by omega⟩ ?_
  · exact this
  · rintro J s - hJ ⟨h1, h2, h3⟩
    refine ⟨fun i c hc => ?_, fun i hi => ?_, fun i hi => ?_⟩
    · unfold invCol
      rw [if_neg (by tauto), setAt_ne _ _ _ _ _ _ (by tauto), h1 i c hc]
    · unfold invCol
      rw [if_neg (by omega), setAt_ne _ _ _ _ _ _ (by omega), h2 i (by omega)]
    · unfold invCol
      rw [if_pos ⟨rfl, by omega⟩, h2 k (by omega), h2 J le_rfl,
        setAt_ne _ _ _ _ i J (by omega), h1 i J (by omega),
        Finset.sum_Ico_succ_top (by omega : i ≤ J)]
      rcases Nat.lt_succ_iff_lt_or_eq.mp hi with h | h
      · rw [setAt_ne _ _ _ _ _ _ (by omega), h3 i h]
        ring
      · subst h
        rw [setAt_self]
        simp
        ring

/-- The inversion: on the leading block the result is the inverse of the upper triangle. -/
structure InvSpec (R r : Mat) (K : ℕ) : Prop where
  diag : ∀ k < K, r k k * R k k = 1
  off : ∀ k < K, ∀ i < k, ∑ j ∈ Ico i k, r i j * R j k + r i k * R k k = 0
  rest : ∀ k, K ≤ k → ∀ i, r i k = R i k

theorem invStep_next (tolr : ℝ) (ht : 0 ≤ tolr) (R : Mat) (K : ℕ) (s s' : Cov) (hs : InvSpec R s.r K)
    (h : invStep tolr K s = .next s') : InvSpec R s'.r (K + 1) ∧ s'.cnt = K + 1 ∧ tolr < |R K K| := by
  unfold invStep at h
  by_cases hc : |s.r K K| ≤ tolr
  · rw [if_pos hc] at h; exact absurd h (by simp)
  rw [if_neg hc] at h
  injection h with h
  subst h
  dsimp only
  have hK : s.r K K = R K K := hs.rest K le_rfl K
  rw [hK] at hc ⊢
  push Not at hc
  have hne : R K K ≠ 0 := by
    intro h0
    rw [h0, abs_zero] at hc
    linarith
  obtain ⟨h1, h2, h3⟩ := invCol_loop K (setAt s.r K K (1 / R K K))
  set r' := forRange 0 K (invCol K) (setAt s.r K K (1 / R K K))
  have hold : ∀ i c, c ≠ K → r' i c = s.r i c := fun i c hcK => by
    rw [h1 i c hcK, setAt_ne _ _ _ _ _ _ (by tauto)]
  have hdK : r' K K = 1 / R K K := by rw [h2 K le_rfl, setAt_self]
  refine ⟨⟨?_, ?_, ?_⟩, rfl, hc⟩
  · intro k hk
    rcases Nat.lt_succ_iff_lt_or_eq.mp hk with h | h
    · rw [hold _ _ (by omega), hs.diag k h]
    · subst h
      rw [hdK]
      field_simp
  · intro k hk i hi
    rcases Nat.lt_succ_iff_lt_or_eq.mp hk with h | h
    · rw [hold i k (by omega), ← hs.off k h i hi]
      congr 1
      refine Finset.sum_congr rfl fun j hj => ?_
      rw [Finset.mem_Ico] at hj
      rw [hold i j (by omega)]
    · subst h
      rw [h3 i hi, setAt_self]
      have : ∑ j ∈ Ico i k, setAt s.r k k (1 / R k k) i j * setAt s.r k k (1 / R k k) j k
          = ∑ j ∈ Ico i k, r' i j * R j k := by
        refine Finset.sum_congr rfl fun j hj => ?_
        rw [Finset.mem_Ico] at hj
        rw [hold i j (by omega), setAt_ne _ _ _ _ _ _ (by omega), setAt_ne _ _ _ _ _ _ (by omega),
          hs.rest k le_rfl]
      rw [this]
      field_simp
      ring
  · intro k hk i
    rw [hold i k (by omega), hs.rest k (by omega)]

theorem invert_spec (tol : ℝ) (ht : 0 ≤ tol) (n : ℕ) (R : Mat) :
    InvSpec R (invert tol n R).r (invert tol n R).cnt ∧ (invert tol n R).cnt ≤ n ∧
      (∀ k < (invert tol n R).cnt, tol * |R 0 0| < |R k k|) ∧
      ((invert tol n R).cnt < n → |R (invert tol n R).cnt (invert tol n R).cnt| ≤ tol * |R 0 0|) := by
  have h0 : 0 ≤ tol * |R 0 0| := by positivity
  refine forBreak_ind (fun K (s : Cov) => InvSpec R s.r K ∧ s.cnt = K ∧ ∀ k < K, tol * |R 0 0| < |R k k|)
    (fun s => InvSpec R s.r s.cnt ∧ s.cnt ≤ n ∧ (∀ k < s.cnt, tol * |R 0 0| < |R k k|) ∧
      (s.cnt < n → |R s.cnt s.cnt| ≤ tol * |R 0 0|)) 0 n (Nat.zero_le n) _ _ ?_ ?_ ?_ ?_
  · exact ⟨⟨fun k hk => by omega, fun k hk => by omega, fun _ _ _ => rfl⟩, rfl, fun k hk => by omega⟩
  · rintro k s s' - hk ⟨hs, hc, hl⟩ h
    obtain ⟨h1, h2, h3⟩ := invStep_next _ h0 R k s s' hs h
    refine ⟨h1, h2, fun t ht => ?_⟩
    rcases Nat.lt_succ_iff_lt_or_eq.mp ht with h4 | h4
    · exact hl t h4
    · rw [h4]; exact h3
  · rintro k s s' - hk ⟨hs, hc, hl⟩ h
    unfold invStep at h
    by_cases hcs : |s.r k k| ≤ tol * |R 0 0|
    · rw [if_pos hcs] at h
      injection h with h
      subst h
      subst hc
      refine ⟨hs, by omega, hl, fun _ => ?_⟩
      rw [← hs.rest _ le_rfl]
      exact hcs
    · rw [if_neg hcs] at h; exact absurd h (by simp)
  · rintro s ⟨hs, hc, hl⟩
    subst hc
    exact ⟨hs, le_rfl, hl, fun h => absurd h (lt_irrefl _)⟩

/-- Squaring: the upper triangle of `V V^T` on the leading block. -/
theorem sqLoop (V : Mat) (L : ℕ) :
    ∀ j < L, ∀ i ≤ j, forRange 0 L sqStep V i j = ∑ k ∈ Ico j L, V i k * V j k := by
  have := forRange_ind (fun K (r : Mat) => (∀ j < K, ∀ i ≤ j, r i j = ∑ k ∈ Ico j K, V i k * V j k) ∧
    ∀ j, K ≤ j → ∀ i, r i j = V i j) 0 L (Nat.zero_le L) sqStep V
    ⟨fun j hj => by omega, fun _ _ _ => rfl⟩ ?_
  · exact this.1
  · rintro K r - hK ⟨h1, h2⟩
    have hin := forRange_ind (fun J (s : Mat) =>
      (∀ j < J, ∀ i ≤ j, s i j = r i j + V j K * V i K) ∧ ∀ j, J ≤ j → ∀ i, s i j = r i j)
      0 K (Nat.zero_le K) (sqCol K) r ⟨fun j hj => by omega, fun _ _ _ => rfl⟩ ?_
    · obtain ⟨g1, g2⟩ := hin
      refine ⟨fun j hj i hi => ?_, fun j hj i => ?_⟩
      · unfold sqStep
        rcases Nat.lt_succ_iff_lt_or_eq.mp hj with h | h
        · rw [if_neg (by omega), g1 j h i hi, h1 j h i hi, Finset.sum_Ico_succ_top (by omega)]
          ring
        · subst h
          rw [if_pos ⟨rfl, hi⟩, g2 _ le_rfl, g2 _ le_rfl, h2 _ le_rfl, h2 _ le_rfl]
          simp
          ring
      · unfold sqStep
        rw [if_neg (by omega), g2 j (by omega), h2 j (by omega)]
    · rintro J s - hJ ⟨g1, g2⟩
      have e : ∀ i, s i K = V i K := fun i => by rw [g2 K (by omega), h2 K le_rfl]
      refine ⟨fun j hj i hi => ?_, fun j hj i => ?_⟩
      · unfold sqCol
        rcases Nat.lt_succ_iff_lt_or_eq.mp hj with h | h
        · rw [if_neg (by omega), g1 j h i hi]
        · subst h
          rw [if_pos ⟨rfl, hi⟩, g2 j le_rfl, e, e]
      · unfold sqCol
        rw [if_neg (by omega), g2 j (by omega)]

/-- Entry `(i, j)` of the permuted covariance: zero from column `cnt` on. -/
noncomputable def cut (cnt : ℕ) (r : Mat) (i j : ℕ) : ℝ := if cnt ≤ j then 0 else r i j

structure LowInv (r0 : Mat) (ipvt : ℕ → ℕ) (cnt J I : ℕ) (r : Mat) : Prop where
  done : ∀ j < J, ∀ i ≤ j, r i j = cut cnt r0 i j
  now : ∀ i ≤ J, i < I → r i J = cut cnt r0 i J
  todo : ∀ i ≤ J, I ≤ i → r i J = r0 i J
  rest : ∀ j, J < j → ∀ i ≤ j, r i j = r0 i j
  low : ∀ j < J, ∀ i < j, r (max (ipvt i) (ipvt j)) (min (ipvt i) (ipvt j)) = cut cnt r0 i j
  lowNow : ∀ i < J, i < I → r (max (ipvt i) (ipvt J)) (min (ipvt i) (ipvt J)) = cut cnt r0 i J

theorem lowCol_inv (r0 : Mat) (ipvt : ℕ → ℕ) (n cnt J I : ℕ) (hJ : J < n) (hI : I < J + 1)
    (hinj : ∀ k < n, ∀ k' < n, ipvt k = ipvt k' → k = k') (r : Mat)
    (h : LowInv r0 ipvt cnt J I r) : LowInv r0 ipvt cnt J (I + 1) (lowCol ipvt cnt J I r) := by
  set r1 := if cnt ≤ J then setAt r I J 0 else r with hr1
  have e1 : r1 I J = cut cnt r0 I J := by
    rw [hr1]
    unfold cut
    split_ifs with hc
    · rw [setAt_self]
    · exact h.todo I (by omega) le_rfl
  have e2 : ∀ a b, ¬(a = I ∧ b = J) → r1 a b = r a b := by
    intro a b hab
    rw [hr1]
    split_ifs with hc
    · rw [setAt_ne _ _ _ _ _ _ hab]
    · rfl
  -- the result as one assignment
  have key : lowCol ipvt cnt J I r = if ipvt I = ipvt J then r1 else
      setAt r1 (max (ipvt I) (ipvt J)) (min (ipvt I) (ipvt J)) (cut cnt r0 I J) := by
    unfold lowCol
    dsimp only
    rw [← hr1, ← e1]
    rcases lt_trichotomy (ipvt I) (ipvt J) with hlt | heq | hgt
    · rw [if_pos hlt, if_neg (by omega), if_neg (by omega), max_eq_right hlt.le, min_eq_left hlt.le]
    · rw [if_neg (by omega), if_neg (by omega), if_pos heq]
    · rw [if_neg (by omega), if_pos hgt, if_neg (by omega), max_eq_left hgt.le, min_eq_right hgt.le]
  have up : ∀ a b, a ≤ b → lowCol ipvt cnt J I r a b = r1 a b := by
    intro a b hab
    rw [key]
    split_ifs with hc
    · rfl
    · rw [setAt_ne]
      rintro ⟨ha, hb⟩
      rcases lt_or_gt_of_ne hc with hlt | hgt
      · rw [max_eq_right hlt.le] at ha; rw [min_eq_left hlt.le] at hb; omega
      · rw [max_eq_left hgt.le] at ha; rw [min_eq_right hgt.le] at hb; omega
  have pair : ∀ i < n, ∀ j < n, ∀ i' < n, ∀ j' < n, i < j → i' < j' →
      max (ipvt i) (ipvt j) = max (ipvt i') (ipvt j') → min (ipvt i) (ipvt j) = min (ipvt i') (ipvt j') →
      i = i' ∧ j = j' := by
    intro i hi j hj i' hi' j' hj' hij hij' hM hm
    have hne : ipvt i ≠ ipvt j := fun h => by have := hinj i hi j hj h; omega
    have h2 : (ipvt i = ipvt i' ∧ ipvt j = ipvt j') ∨ (ipvt i = ipvt j' ∧ ipvt j = ipvt i') := by
      rcases le_total (ipvt i) (ipvt j) with ha | ha <;> rcases le_total (ipvt i') (ipvt j') with hb | hb
      all_goals simp only [max_eq_left, max_eq_right, min_eq_left, min_eq_right, ha, hb] at hM hm
      all_goals omega
    rcases h2 with ⟨h3, h4⟩ | ⟨h3, h4⟩
    · exact ⟨hinj i hi i' hi' h3, hinj j hj j' hj' h4⟩
    · have h5 := hinj i hi j' hj' h3
      have h6 := hinj j hj i' hi' h4
      omega
  have lowO : ∀ j < n, ∀ i < j, ¬(i = I ∧ j = J) →
      lowCol ipvt cnt J I r (max (ipvt i) (ipvt j)) (min (ipvt i) (ipvt j))
        = r (max (ipvt i) (ipvt j)) (min (ipvt i) (ipvt j)) := by
    intro j hj i hi hne
    have hlt : min (ipvt i) (ipvt j) < max (ipvt i) (ipvt j) := by
      have : ipvt i ≠ ipvt j := fun h => by have := hinj i (by omega) j hj h; omega
      rcases lt_or_gt_of_ne this with h | h
      · rw [max_eq_right h.le, min_eq_left h.le]; exact h
      · rw [max_eq_left h.le, min_eq_right h.le]; exact h
    have e3 : r1 (max (ipvt i) (ipvt j)) (min (ipvt i) (ipvt j))
        = r (max (ipvt i) (ipvt j)) (min (ipvt i) (ipvt j)) := e2 _ _ (by omega)
    rw [← e3, key]
    split_ifs with hc
    · rfl
    · have hIJ : I < J := by
        rcases Nat.lt_succ_iff_lt_or_eq.mp hI with h | h
        · exact h
        · exact absurd (by rw [h]) hc
      rw [setAt_ne]
      rintro ⟨ha, hb⟩
      exact hne (pair i (by omega) j hj I (by omega) J hJ hi hIJ ha hb)
  refine ⟨?_, ?_, ?_, ?_, ?_, ?_⟩
  · intro j hj i hi
    rw [up i j hi, e2 _ _ (by omega), h.done j hj i hi]
  · intro i hi hi'
    rw [up i J hi]
    rcases Nat.lt_succ_iff_lt_or_eq.mp hi' with h1 | h1
    · rw [e2 _ _ (by omega), h.now i hi h1]
    · rw [h1, e1]
  · intro i hi hi'
    rw [up i J hi, e2 _ _ (by omega), h.todo i hi (by omega)]
  · intro j hj i hi
    rw [up i j hi, e2 _ _ (by omega), h.rest j hj i hi]
  · intro j hj i hi
    rw [lowO j (by omega) i hi (by omega), h.low j hj i hi]
  · intro i hi hi'
    rcases Nat.lt_succ_iff_lt_or_eq.mp hi' with h1 | h1
    · rw [lowO J hJ i hi (by omega), h.lowNow i hi h1]
    · subst h1
      have hc : ipvt i ≠ ipvt J := fun hc => by have := hinj i (by omega) J hJ hc; omega
      rw [key, if_neg hc, setAt_self]

theorem lowLoop (r0 : Mat) (w0 : Vec) (ipvt : ℕ → ℕ) (n cnt : ℕ)
    (hinj : ∀ k < n, ∀ k' < n, ipvt k = ipvt k' → k = k') :
    let s := forRange 0 n (lowStep ipvt cnt) { r := r0, wa := w0 }
    (∀ j < n, ∀ i < j, s.r (max (ipvt i) (ipvt j)) (min (ipvt i) (ipvt j)) = cut cnt r0 i j) ∧
      ∀ j < n, s.wa (ipvt j) = cut cnt r0 j j := by
  have := forRange_ind (fun J (s : Low) => LowInv r0 ipvt cnt J 0 s.r ∧ ∀ j < J, s.wa (ipvt j) = cut cnt r0 j j)
    0 n (Nat.zero_le n) (lowStep ipvt cnt) { r := r0, wa := w0 }
    ⟨⟨fun j hj => by omega, fun i _ hi => by omega, fun _ _ _ => rfl, fun _ _ _ _ => rfl,
      fun j hj => by omega, fun i hi => by omega⟩, fun j hj => by omega⟩ ?_
  · exact ⟨this.1.low, this.2⟩
  · rintro J s - hJ ⟨h1, h2⟩
    have hin := forRange_ind (fun I (r : Mat) => LowInv r0 ipvt cnt J I r) 0 (J + 1) (Nat.zero_le _)
      (lowCol ipvt cnt J) s.r h1 fun I r _ hI h => lowCol_inv r0 ipvt n cnt J I hJ hI hinj r h
    refine ⟨⟨?_, fun i _ hi => by omega, ?_, ?_, ?_, fun i _ hi => by omega⟩, ?_⟩
    · intro j hj i hi
      rcases Nat.lt_succ_iff_lt_or_eq.mp hj with h | h
      · exact hin.done j h i hi
      · subst h; exact hin.now i hi (by omega)
    · intro i hi _
      exact hin.rest (J + 1) (by omega) i hi
    · intro j hj i hi
      exact hin.rest j (by omega) i hi
    · intro j hj i hi
      rcases Nat.lt_succ_iff_lt_or_eq.mp hj with h | h
      · exact hin.low j h i hi
      · subst h; exact hin.lowNow i hi (by omega)
    · intro j hj
      unfold lowStep
      dsimp only
      rcases Nat.lt_succ_iff_lt_or_eq.mp hj with h | h
      · rw [Function.update_of_ne, h2 j h]
        intro he
        have := hinj j (by omega) J hJ he
        omega
      · subst h
        rw [Function.update_self]
        exact hin.now j le_rfl (by omega)

theorem symLoop (wa : Vec) (r0 : Mat) (n : ℕ) :
    let r := forRange 0 n (symStep wa) r0
    (∀ j < n, r j j = wa j) ∧ ∀ j < n, ∀ i < j, r i j = r0 j i ∧ r j i = r0 j i := by
  have := forRange_ind (fun J (r : Mat) => (∀ j < J, r j j = wa j) ∧ (∀ j < J, ∀ i < j, r i j = r0 j i) ∧
    ∀ j, ∀ i < j, r j i = r0 j i) 0 n (Nat.zero_le n) (symStep wa) r0
    ⟨fun j hj => by omega, fun j hj => by omega, fun _ _ _ => rfl⟩ ?_
  · exact ⟨this.1, fun j hj i hi => ⟨this.2.1 j hj i hi, this.2.2 j i hi⟩⟩
  · rintro J r - hJ ⟨h1, h2, h3⟩
    refine ⟨fun j hj => ?_, fun j hj i hi => ?_, fun j i hi => ?_⟩
    · unfold symStep
      rcases Nat.lt_succ_iff_lt_or_eq.mp hj with h | h
      · rw [setAt_ne _ _ _ _ _ _ (by omega)]
        rw [if_neg (by omega), h1 j h]
      · subst h; rw [setAt_self]
    · unfold symStep
      rw [setAt_ne _ _ _ _ _ _ (by omega)]
      rcases Nat.lt_succ_iff_lt_or_eq.mp hj with h | h
      · rw [if_neg (by omega), h2 j h i hi]
      · subst h; rw [if_pos ⟨rfl, by omega⟩, h3 j i hi]
    · unfold symStep
      rw [setAt_ne _ _ _ _ _ _ (by omega)]
      rw [if_neg (by omega), h3 j i hi]

/-- The result of `calc_covar`: symmetric; entries of the determined columns are those of `V V^T` with
`V` the inverse of the leading block of the triangular factor, the others are zero. -/
theorem calcCovar_entries (tol : ℝ) (ht : 0 ≤ tol) (n : ℕ) (R : Mat) (ipvt : ℕ → ℕ)
    (hlt : ∀ k < n, ipvt k < n) (hinj : ∀ k < n, ∀ k' < n, ipvt k = ipvt k' → k = k') :
    ∃ (L : ℕ) (V : Mat), InvSpec R V L ∧ L ≤ n ∧ (∀ k < L, tol * |R 0 0| < |R k k|) ∧
      (L < n → |R L L| ≤ tol * |R 0 0|) ∧
      ∀ j < n, ∀ i ≤ j,
        calcCovar tol n R ipvt (ipvt i) (ipvt j) = (if j < L then ∑ k ∈ Ico j L, V i k * V j k else 0) ∧
        calcCovar tol n R ipvt (ipvt j) (ipvt i) = (if j < L then ∑ k ∈ Ico j L, V i k * V j k else 0) := by
  obtain ⟨h1, h2, h3, h4⟩ := invert_spec tol ht n R
  refine ⟨(invert tol n R).cnt, (invert tol n R).r, h1, h2, h3, h4, ?_⟩
  have hsq := sqLoop (invert tol n R).r (invert tol n R).cnt
  unfold calcCovar
  set s := invert tol n R
  set r2 := forRange 0 s.cnt sqStep s.r
  obtain ⟨g1, g2⟩ := lowLoop r2 (fun _ => r2 0 0) ipvt n s.cnt hinj
  set low := forRange 0 n (lowStep ipvt s.cnt) { r := r2, wa := fun _ => r2 0 0 }
  obtain ⟨k1, k2⟩ := symLoop low.wa low.r n
  intro j hj i hi
  have hv : (if j < s.cnt then ∑ k ∈ Ico j s.cnt, s.r i k * s.r j k else 0) = cut s.cnt r2 i j := by
    unfold cut
    by_cases hc : j < s.cnt
    · rw [if_pos hc, if_neg (by omega), hsq j hc i hi]
    · rw [if_neg hc, if_pos (by omega)]
  rw [hv]
  rcases Nat.lt_or_ge i j with hij | hij
  · have hne : ipvt i ≠ ipvt j := fun h => by have := hinj i (by omega) j hj h; omega
    have := g1 j hj i hij
    rcases lt_or_gt_of_ne hne with h | h
    · rw [max_eq_right h.le, min_eq_left h.le] at this
      obtain ⟨a1, a2⟩ := k2 (ipvt j) (hlt j hj) (ipvt i) h
      exact ⟨a1.trans this, a2.trans this⟩
    · rw [max_eq_left h.le, min_eq_right h.le] at this
      obtain ⟨a1, a2⟩ := k2 (ipvt i) (hlt i (by omega)) (ipvt j) h
      exact ⟨a2.trans this, a1.trans this⟩
  · obtain rfl : i = j := by omega
    rw [k1 _ (hlt i hj), g2 i hj]
    exact ⟨rfl, rfl⟩

end Verif.Mpfit
