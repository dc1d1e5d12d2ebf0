import Verif.Fwhm.Model
import Verif.Rmsf.Props

/-!
# The samples and the width of the RMSF fit (C124, C125)
-/

namespace Verif.Fwhm

open Verif.NumPy

variable {k : ℕ}

/-- `m` marks the lobe around sample `c`: the samples which one reaches from `c` without falling below `thr`. -/
def IsLobe (a : Fin (k + 1) → ℝ) (thr : ℝ) (c : Fin (k + 1)) (m : Fin (k + 1) → Bool) : Prop :=
  ∀ i, m i = true ↔ ∀ j, (c ≤ j ∧ j ≤ i ∨ i ≤ j ∧ j ≤ c) → thr ≤ a j

theorem shift_eq_none (a : Fin (k + 1) → ℝ) (thr : ℝ) (h : ∀ j, npArgmax a ≤ j → thr ≤ a j) : shift a thr = none := by
  unfold shift
  rw [List.find?_eq_none]
  intro s hs
  rw [List.mem_range] at hs
  have hlt : (npArgmax a : ℕ) + s < k + 1 := by omega
  have := h ⟨(npArgmax a : ℕ) + s, hlt⟩ (by rw [Fin.le_def]; simp)
  rw [decide_eq_true_iff, not_lt]
  unfold at0
  rw [dif_pos hlt]
  exact this

theorem shift_eq_some (a : Fin (k + 1) → ℝ) (thr : ℝ) (s : ℕ) (hs : shift a thr = some s) :
    ∃ h : (npArgmax a : ℕ) + s < k + 1, a ⟨(npArgmax a : ℕ) + s, h⟩ < thr ∧
      ∀ j : Fin (k + 1), npArgmax a ≤ j → (j : ℕ) < (npArgmax a : ℕ) + s → thr ≤ a j := by
  unfold shift at hs
  have h1 := List.mem_of_find?_eq_some hs
  rw [List.mem_range] at h1
  have hlt : (npArgmax a : ℕ) + s < k + 1 := by omega
  refine ⟨hlt, ?_, ?_⟩
  · have := List.find?_some hs
    rw [decide_eq_true_iff] at this
    unfold at0 at this
    rwa [dif_pos hlt] at this
  · intro j hj hjs
    by_contra hcon
    rw [not_le] at hcon
    rw [List.find?_eq_some_iff_append] at hs
    obtain ⟨-, as, bs, hab, hno⟩ := hs
    have hidx : as.length = s := by
      have h2 : (List.range (k + 1 - (npArgmax a : ℕ)))[as.length]? = some s := by rw [hab]; simp
      rw [List.getElem?_range (by
        have : as.length < (List.range (k + 1 - (npArgmax a : ℕ))).length := by rw [hab]; simp
        simpa using this)] at h2
      exact Option.some.inj h2
    rw [Fin.le_def] at hj
    have hmem : (j : ℕ) - npArgmax a ∈ as := by
      have hlen : (j : ℕ) - npArgmax a < as.length := by omega
      have h2 : (List.range (k + 1 - (npArgmax a : ℕ)))[(j : ℕ) - npArgmax a]? = some ((j : ℕ) - npArgmax a) :=
        List.getElem?_range (by omega)
      rw [hab, List.getElem?_append_left hlen] at h2
      exact List.mem_of_getElem? h2
    have := hno _ hmem
    have e : (npArgmax a : ℕ) + ((j : ℕ) - npArgmax a) = j := by omega
    rw [e] at this
    have hat : at0 a (j : ℕ) = a j := by unfold at0; rw [dif_pos j.isLt]
    rw [hat] at this
    simp at this
    linarith

/-- C124, the part that holds: if the array is symmetric about its largest sample in the middle, and falls below the
threshold, the mask is the lobe around the peak. -/
theorem detect_lobe (c : ℕ) (hk : k = 2 * c) (a : Fin (k + 1) → ℝ) (thr : ℝ) (hpk : (npArgmax a : ℕ) = c)
    (hsym : ∀ i, a (Fin.rev i) = a i) (hlow : ∃ i, a i < thr) :
    ∃ m, detectPeak a thr = some m ∧ IsLobe a thr (npArgmax a) m := by
  have hs : ∃ s, shift a thr = some s := by
    by_contra hno
    push Not at hno
    obtain ⟨i, hi⟩ := hlow
    have hnone : shift a thr = none := by
      cases h : shift a thr with
      | none => rfl
      | some s => exact absurd h (hno s)
    unfold shift at hnone
    rw [List.find?_eq_none] at hnone
    have key : ∀ j : Fin (k + 1), c ≤ (j : ℕ) → ¬ a j < thr := by
      intro j hj hlt
      have := hnone ((j : ℕ) - c) (by rw [List.mem_range, hpk]; have := j.isLt; omega)
      rw [hpk] at this
      have e : c + ((j : ℕ) - c) = j := by omega
      rw [e] at this
      have hat : at0 a (j : ℕ) = a j := by unfold at0; rw [dif_pos j.isLt]
      rw [hat] at this
      simp at this
      linarith
    by_cases hic : c ≤ (i : ℕ)
    · exact key i hic hi
    · refine key (Fin.rev i) ?_ (by rw [hsym]; exact hi)
      rw [Fin.val_rev]; omega
  obtain ⟨s, hs⟩ := hs
  obtain ⟨hlt, hbelow, habove⟩ := shift_eq_some a thr s hs
  refine ⟨_, by unfold detectPeak; rw [hs]; rfl, ?_⟩
  intro i
  rw [decide_eq_true_iff, hpk]
  have hslice : inSlice (k + 1) ((c : ℤ) - s + 1) ((c : ℤ) + s) i ↔ (c : ℤ) - s + 1 ≤ i ∧ (i : ℤ) < c + s := by
    unfold inSlice sliceBound
    rw [hpk] at hlt
    have := i.isLt
    rw [if_neg (by omega), if_neg (by omega)]
    omega
  rw [hslice]
  have habove' : ∀ j : Fin (k + 1), (c : ℤ) - s + 1 ≤ j → (j : ℤ) < c + s → thr ≤ a j := by
    intro j h1 h2
    by_cases hj : c ≤ (j : ℕ)
    · exact habove j (by rw [Fin.le_def, hpk]; exact hj) (by rw [hpk]; omega)
    · rw [← hsym j]
      refine habove _ ?_ ?_
      · rw [Fin.le_def, hpk, Fin.val_rev]; omega
      · rw [hpk, Fin.val_rev]; omega
  constructor
  · rintro ⟨h1, h2⟩ j hj
    apply habove' j
    · rcases hj with ⟨u, v⟩ | ⟨u, v⟩ <;> rw [Fin.le_def] at u v <;> rw [hpk] at * <;> omega
    · rcases hj with ⟨u, v⟩ | ⟨u, v⟩ <;> rw [Fin.le_def] at u v <;> rw [hpk] at * <;> omega
  · intro h
    by_contra hcon
    rw [not_and_or, not_le, not_lt] at hcon
    rcases hcon with hcon | hcon
    · have hr : (Fin.rev (⟨(npArgmax a : ℕ) + s, hlt⟩ : Fin (k + 1)) : ℕ) = c - s := by
        rw [Fin.val_rev]; simp only; rw [hpk] at hlt ⊢; omega
      have := h (Fin.rev ⟨(npArgmax a : ℕ) + s, hlt⟩) (Or.inr ⟨by rw [Fin.le_def, hr]; rw [hpk] at hlt; omega,
        by rw [Fin.le_def, hr, hpk]; omega⟩)
      rw [hsym] at this
      linarith
    · have := h ⟨(npArgmax a : ℕ) + s, hlt⟩ (Or.inl ⟨by rw [Fin.le_def]; simp, by
        rw [Fin.le_def]; simp only; rw [hpk]; omega⟩)
      linarith

/-- C124 for the RMSF: on a symmetric axis with zero in the middle, when no other sample of the RMSF reaches one (no
alias on the axis) and some sample is below 0.4, the mask of `detect_peak` is the main lobe: the samples around zero
depth that one reaches without falling below 0.4. -/
theorem rmsf_lobe_partial {n m c : ℕ} (x : Rmsf.Input n m (2 * c + 1)) (hs : SynthSpec.SymGrid x.phi2) (L : ℝ)
    (hL : Rmsf.lam0Sq x = some L) (p : Fin m) (hw : Rmsf.pixelWeight x p ≠ 0) (R : Fin (2 * c + 1) → ℂ)
    (hR : ∀ l, Rmsf.rmsf x l p = some (R l))
    (huniq : ∀ l, x.phi2 l ≠ 0 → ‖R l‖ < 1) (hinj : Function.Injective x.phi2) (hlow : ∃ l, ‖R l‖ < 0.4) :
    ∃ msk, detectPeak (fun l => ‖R l‖) 0.4 = some msk ∧
      ∃ z, x.phi2 z = 0 ∧ IsLobe (fun l => ‖R l‖) 0.4 z msk := by
  have hc : c < 2 * c + 1 := by omega
  set z : Fin (2 * c + 1) := ⟨c, hc⟩ with hz
  have hz0 : x.phi2 z = 0 := by
    have h1 := hs z
    have : Fin.rev z = z := by ext; rw [Fin.val_rev]; simp only [hz]; omega
    rw [this] at h1
    linarith
  have hRz : R z = 1 := by
    have := Rmsf.rmsf_at_zero x hs L hL z p hw hz0
    rw [hR z] at this
    exact Option.some.inj this
  have hother : ∀ l, l ≠ z → ‖R l‖ < 1 := fun l hl => huniq l fun h0 => hl (hinj (h0.trans hz0.symm))
  have hpk : npArgmax (fun l => ‖R l‖) = z := by
    rw [npArgmax_eq_iff]
    constructor
    · intro j
      by_cases hj : j = z
      · rw [hj]
      · simp only [hRz, norm_one]; exact (hother j hj).le
    · intro j hj
      simp only [hRz, norm_one]
      exact hother j hj.ne
  have hsym : ∀ i, ‖R (Fin.rev i)‖ = ‖R i‖ := by
    intro i
    have := Rmsf.rmsf_hermitian x hs L hL i (Fin.rev i) p hw (hs i)
    rw [hR, hR] at this
    have e : R (Fin.rev i) = (starRingEnd ℂ) (R i) := Option.some.inj this
    rw [e, RCLike.norm_conj]
  obtain ⟨msk, hm, hlobe⟩ := detect_lobe (k := 2 * c) c rfl (fun l => ‖R l‖) 0.4 (by rw [hpk]) hsym hlow
  exact ⟨msk, hm, z, hz0, by rw [← hpk]; exact hlobe⟩

/-- The fit itself uses these samples: with the same threshold the second mask is the first one on the lobe. -/
theorem fitMask_eq (a : Fin (k + 1) → ℝ) (thr : ℝ) (c : Fin (k + 1)) (m : Fin (k + 1) → Bool)
    (h : detectPeak a thr = some m) (hl : IsLobe a thr c m) : fitMask a thr thr = some m := by
  unfold fitMask
  rw [h, Option.map_some]
  have : (fun i => if a i < thr then false else m i) = m := by
    funext i
    split_ifs with hi
    · by_contra hne
      have hmt : m i = true := by
        cases hmi : m i with
        | true => rfl
        | false => exact absurd hmi.symm hne
      have := (hl i).mp hmt i (by
        rcases le_total c i with h | h
        · exact Or.inl ⟨h, le_refl _⟩
        · exact Or.inr ⟨le_refl _, h⟩)
      linarith
    · rfl
  dsimp only
  congr 1
  split_ifs
  · rfl
  · exact this

theorem foldl_best (r : List (ℝ × ℝ)) (p : ℝ × ℝ) (L : List (ℝ × ℝ)) (hp : ∀ q ∈ L, q.2 ≤ p.2) (k : ℕ) (hk : k < L.length) (hpk : L[k]'hk = p)
    (hf : ∀ i (hi : i < k), (L[i]'(hi.trans hk)).2 < p.2) :
    ∃ k', ∃ hk' : k' < (L ++ r).length, (L ++ r)[k'] = r.foldl (fun b q => if b.2 < q.2 then q else b) p ∧
      (∀ q ∈ L ++ r, q.2 ≤ (L ++ r)[k'].2) ∧ ∀ i (hi : i < k'), ((L ++ r)[i]'(hi.trans hk')).2 < (L ++ r)[k'].2 := by
  induction r generalizing p L k with
  | nil =>
    refine ⟨k, by simpa using hk, ?_, ?_, ?_⟩
    · simpa using hpk
    · intro q hq
      have := hp q (by simpa using hq)
      simpa [hpk] using this
    · intro i hi
      have := hf i hi
      simpa [hpk] using this
  | cons q r ih =>
    have e : L ++ q :: r = (L ++ [q]) ++ r := by simp
    simp only [List.foldl_cons]
    simp only [e]
    by_cases hq : p.2 < q.2
    · simp only [if_pos hq]
      refine ih q (L ++ [q]) ?_ L.length (by simp) (by simp) ?_
      · intro x hx
        rcases List.mem_append.mp hx with hx | hx
        · exact (hp x hx).trans hq.le
        · rw [List.mem_singleton.mp hx]
      · intro i hi
        rw [List.getElem_append_left hi]
        exact (hp _ (List.getElem_mem _)).trans_lt hq
    · simp only [if_neg hq]
      refine ih p (L ++ [q]) ?_ k (by simp; omega) (by rw [List.getElem_append_left hk, hpk]) ?_
      · intro x hx
        rcases List.mem_append.mp hx with hx | hx
        · exact hp x hx
        · rw [List.mem_singleton.mp hx]
          exact not_lt.mp hq
      · intro i hi
        rw [List.getElem_append_left (hi.trans hk)]
        exact hf i hi

theorem foldl_hi (r : List (ℝ × ℝ)) (v : ℝ) : v ≤ r.foldl (fun b q => max b q.1) v ∧ (∀ q ∈ r, q.1 ≤ r.foldl (fun b q => max b q.1) v) ∧
    (r.foldl (fun b q => max b q.1) v = v ∨ ∃ q ∈ r, r.foldl (fun b q => max b q.1) v = q.1) := by
  induction r generalizing v with
  | nil => simp
  | cons q r ih =>
    obtain ⟨h1, h2, h3⟩ := ih (max v q.1)
    simp only [List.foldl_cons]
    refine ⟨(le_max_left _ _).trans h1, ?_, ?_⟩
    · intro x hx
      rcases List.mem_cons.mp hx with rfl | hx
      · exact (le_max_right _ _).trans h1
      · exact h2 x hx
    · rcases h3 with h3 | ⟨x, hx, h3⟩
      · rw [h3]
        rcases max_choice v q.1 with h | h
        · exact Or.inl h
        · exact Or.inr ⟨q, by simp, h⟩
      · exact Or.inr ⟨x, List.mem_cons_of_mem _ hx, h3⟩

theorem foldl_lo (r : List (ℝ × ℝ)) (v : ℝ) : r.foldl (fun b q => min b q.1) v ≤ v ∧ (∀ q ∈ r, r.foldl (fun b q => min b q.1) v ≤ q.1) ∧
    (r.foldl (fun b q => min b q.1) v = v ∨ ∃ q ∈ r, r.foldl (fun b q => min b q.1) v = q.1) := by
  induction r generalizing v with
  | nil => simp
  | cons q r ih =>
    obtain ⟨h1, h2, h3⟩ := ih (min v q.1)
    simp only [List.foldl_cons]
    refine ⟨h1.trans (min_le_left _ _), ?_, ?_⟩
    · intro x hx
      rcases List.mem_cons.mp hx with rfl | hx
      · exact h1.trans (min_le_right _ _)
      · exact h2 x hx
    · rcases h3 with h3 | ⟨x, hx, h3⟩
      · rw [h3]
        rcases min_choice v q.1 with h | h
        · exact Or.inl h
        · exact Or.inr ⟨q, by simp, h⟩
      · exact Or.inr ⟨x, List.mem_cons_of_mem _ hx, h3⟩

/-- C124, the call of the fitter. If the samples marked by `m` are fitted (see `fitMask_eq`), and there are any, the fitter gets their depths and
values in order, and starts from amplitude one, the depth of the largest of them, and the range of their depths. -/
theorem fit_start (mpfit : List (ℝ × ℝ) → ℝ × ℝ × ℝ → Option Mp) (phi a : Fin (k + 1) → ℝ) (m : Fin (k + 1) → Bool)
    (h : fitMask a 0.4 0.4 = some m) (hne : ∃ i, m i = true) : ∃ pts b lo hi, fitRmsf mpfit phi a = mpfit pts (1, b, hi - lo) ∧
      pts = ((List.finRange (k + 1)).filter fun i => m i).map (fun i => (phi i, a i)) ∧
      (∃ i, m i = true ∧ phi i = b ∧ ∀ j, m j = true → a j ≤ a i) ∧
      (∃ i, m i = true ∧ phi i = hi) ∧ (∃ i, m i = true ∧ phi i = lo) ∧ ∀ j, m j = true → lo ≤ phi j ∧ phi j ≤ hi := by
  have hmem : ∀ q, q ∈ samples phi a m ↔ ∃ i, m i = true ∧ (phi i, a i) = q := by
    intro q
    unfold samples
    simp
  unfold fitRmsf
  rw [h, Option.bind_some]
  cases hS : samples phi a m with
  | nil =>
    obtain ⟨i, hi⟩ := hne
    have := (hmem (phi i, a i)).mpr ⟨i, hi, rfl⟩
    rw [hS] at this
    cases this
  | cons p r =>
    rw [hS] at hmem
    dsimp only
    refine ⟨_, _, _, _, rfl, hS.symm, ?_, ?_, ?_, ?_⟩
    · obtain ⟨k', hk', h1, h2, -⟩ := foldl_best r p [p] (by simp) 0 (by simp) rfl (fun i hi => by omega)
      obtain ⟨i, hi, e⟩ := (hmem _).mp (show ([p] ++ r)[k'] ∈ p :: r from List.getElem_mem _)
      refine ⟨i, hi, ?_, ?_⟩
      · rw [← h1, ← e]
      · intro j hj
        have := h2 (phi j, a j) ((hmem _).mpr ⟨j, hj, rfl⟩)
        rw [← e] at this
        exact this
    · obtain ⟨-, -, h3⟩ := foldl_hi r p.1
      rcases h3 with h3 | ⟨q, hq, h3⟩
      · obtain ⟨i, hi, e⟩ := (hmem p).mp (by simp)
        exact ⟨i, hi, by rw [h3, ← e]⟩
      · obtain ⟨i, hi, e⟩ := (hmem q).mp (List.mem_cons_of_mem _ hq)
        exact ⟨i, hi, by rw [h3, ← e]⟩
    · obtain ⟨-, -, h3⟩ := foldl_lo r p.1
      rcases h3 with h3 | ⟨q, hq, h3⟩
      · obtain ⟨i, hi, e⟩ := (hmem p).mp (by simp)
        exact ⟨i, hi, by rw [h3, ← e]⟩
      · obtain ⟨i, hi, e⟩ := (hmem q).mp (List.mem_cons_of_mem _ hq)
        exact ⟨i, hi, by rw [h3, ← e]⟩
    · intro j hj
      obtain ⟨a1, a2, -⟩ := foldl_hi r p.1
      obtain ⟨b1, b2, -⟩ := foldl_lo r p.1
      rcases List.mem_cons.mp ((hmem _).mpr ⟨j, hj, rfl⟩) with e | e
      · rw [← e] at a1 b1
        rw [← e]
        exact ⟨b1, a1⟩
      · exact ⟨b2 _ e, a2 _ e⟩

/-- C124 is false for the code when an alias of the main lobe lies at the left end of the axis: no sample is marked,
the fit fails and the analytical width is reported instead. -/
theorem alias_left_wrong (a : Fin (k + 1) → ℝ) (thr : ℝ) (s : ℕ) (hpk : npArgmax a = 0) (hs : shift a thr = some s)
    (h2 : 2 ≤ s) (hsk : 2 * s ≤ k + 2) (phi : Fin (k + 1) → ℝ) (hthr : thr = 0.4)
    (mpfit : List (ℝ × ℝ) → ℝ × ℝ × ℝ → Option Mp) (w : ℝ) :
    (∃ m, detectPeak a thr = some m ∧ ∀ i, m i = false) ∧ width (fitRmsf mpfit phi a) w = (w, -1) := by
  have hm : detectPeak a thr = some fun _ => false := by
    unfold detectPeak
    rw [hs, Option.map_some, hpk]
    congr 1
    funext i
    rw [decide_eq_false_iff_not]
    unfold inSlice sliceBound
    simp only [Fin.val_zero, Nat.cast_zero, zero_sub, zero_add]
    rw [if_pos (by omega), if_neg (by omega)]
    omega
  refine ⟨⟨_, hm, fun _ => rfl⟩, ?_⟩
  have hf : fitMask a 0.4 0.4 = some fun _ => false := by
    unfold fitMask
    rw [← hthr, hm, Option.map_some]
    simp
  unfold fitRmsf
  rw [hf, Option.bind_some]
  have : samples phi a (fun _ => false) = [] := by unfold samples; simp
  rw [this]
  rfl

/-- Two channels at `λ² = 0` and `1`, reference `1/2`, depths `-cπ/4` to `cπ/4` in steps of `π/4`. -/
noncomputable def twoChan (c : ℕ) : Rmsf.Input 2 1 (2 * c + 1) where
  lamSq := ![0, 1]
  phi2 := fun i => ((i : ℕ) - c : ℝ) * (Real.pi / 4)
  weight := none
  msk := fun _ _ => false
  lam0 := none

theorem twoChan_rmsf (c : ℕ) (l : Fin (2 * c + 1)) :
    Rmsf.rmsf (twoChan c) l 0 = some (Real.cos (((l : ℕ) - c : ℝ) * (Real.pi / 4)) : ℂ) := by
  have hw : ∀ j, Rmsf.weight1 (twoChan c) j = 1 := by
    intro j
    simp [Rmsf.weight1, Rmsf.weight0, Rmsf.xySum, twoChan]
  have hlam : Rmsf.lam0Sq (twoChan c) = some (1 / 2) := by
    unfold Rmsf.lam0Sq
    simp only [hw]
    simp [twoChan]
  have hd : Rmsf.do1D (twoChan c) := fun j => Or.inl (by simp [Rmsf.xySum, twoChan])
  unfold Rmsf.rmsf
  rw [hlam]
  dsimp only
  rw [if_pos hd]
  unfold Rmsf.rmsf1D
  simp only [hw]
  rw [if_neg (by simp)]
  congr 1
  set t : ℝ := ((l : ℕ) - c : ℝ) * (Real.pi / 4) with ht
  have e : (twoChan c).phi2 l = t := rfl
  simp only [e, Fin.sum_univ_two]
  have l0 : (twoChan c).lamSq 0 = 0 := rfl
  have l1 : (twoChan c).lamSq 1 = 1 := rfl
  rw [l0, l1, Complex.ofReal_cos, Complex.cos]
  push_cast
  have a1 : -2 * Complex.I * (t : ℂ) * (0 - 1 / 2) = (t : ℂ) * Complex.I := by ring
  have a2 : -2 * Complex.I * (t : ℂ) * (1 - 1 / 2) = -(t : ℂ) * Complex.I := by ring
  rw [a1, a2]
  norm_num
  ring

/-- Concrete case of `rmsf_lobe_partial`: the depths `-π/2` to `π/2`. -/
theorem twoChan_lobe : ∃ msk, detectPeak (fun l : Fin 5 => ‖(Real.cos (((l : ℕ) - (2 : ℕ) : ℝ) * (Real.pi / 4)) : ℂ)‖) 0.4 = some msk ∧
    ∃ z, (twoChan 2).phi2 z = 0 ∧
      IsLobe (fun l : Fin 5 => ‖(Real.cos (((l : ℕ) - (2 : ℕ) : ℝ) * (Real.pi / 4)) : ℂ)‖) 0.4 z msk := by
  have hw : ∀ j, Rmsf.weight1 (twoChan 2) j = 1 := by
    intro j
    simp [Rmsf.weight1, Rmsf.weight0, Rmsf.xySum, twoChan]
  have hlam : Rmsf.lam0Sq (twoChan 2) = some (1 / 2) := by
    unfold Rmsf.lam0Sq
    simp only [hw]
    simp [twoChan]
  have hs2 : Real.sqrt 2 / 2 < 1 := by
    have : Real.sqrt 2 < 2 := by rw [Real.sqrt_lt' (by norm_num)]; norm_num
    linarith
  refine rmsf_lobe_partial (twoChan 2) ?_ (1 / 2) hlam 0 ?_ _ (twoChan_rmsf 2) ?_ ?_ ?_
  · intro i
    fin_cases i <;> simp [twoChan, Fin.rev] <;> ring
  · simp [Rmsf.pixelWeight, SynthSpec.weightSum, SynthSpec.effWeight, twoChan]
  · intro l hl
    rw [Complex.norm_real, Real.norm_eq_abs]
    have e1 : ((1 : ℝ) - 2) * (Real.pi / 4) = -(Real.pi / 4) := by ring
    have e3 : ((3 : ℝ) - 2) * (Real.pi / 4) = Real.pi / 4 := by ring
    have e0 : ((0 : ℝ) - 2) * (Real.pi / 4) = -(Real.pi / 2) := by ring
    have e4 : ((4 : ℝ) - 2) * (Real.pi / 4) = Real.pi / 2 := by ring
    have hp : |Real.sqrt 2 / 2| < 1 := by rw [abs_of_nonneg (by positivity)]; exact hs2
    fin_cases l
    · simp only [Nat.cast_zero, Nat.cast_ofNat, e0, Real.cos_neg, Real.cos_pi_div_two]; norm_num
    · simp only [Nat.cast_one, Nat.cast_ofNat, e1, Real.cos_neg, Real.cos_pi_div_four]; exact hp
    · exact absurd (by simp [twoChan]) hl
    · simp only [Nat.cast_ofNat, e3, Real.cos_pi_div_four]; exact hp
    · simp only [Nat.cast_ofNat, e4, Real.cos_pi_div_two]; norm_num
  · intro i j hij
    have hpi := Real.pi_pos
    simp only [twoChan] at hij
    have := mul_right_cancel₀ (by positivity) hij
    ext
    have h2 : ((i : ℕ) : ℝ) = (j : ℕ) := by linarith
    exact_mod_cast h2
  · refine ⟨0, ?_⟩
    have e0 : ((0 : ℝ) - 2) * (Real.pi / 4) = -(Real.pi / 2) := by ring
    simp only [Fin.val_zero, Nat.cast_zero, Nat.cast_ofNat, e0, Real.cos_neg, Real.cos_pi_div_two]
    norm_num

/-- The hypotheses of `fit_start` hold in the same case. -/
example : ∃ m, fitMask (fun l : Fin 5 => ‖(Real.cos (((l : ℕ) - (2 : ℕ) : ℝ) * (Real.pi / 4)) : ℂ)‖) 0.4 0.4 = some m ∧ ∃ i, m i = true := by
  obtain ⟨m, h1, z, hz, h2⟩ := twoChan_lobe
  refine ⟨m, fitMask_eq _ _ z _ h1 h2, z, (h2 z).mpr ?_⟩
  intro j hj
  have hjz : j = z := by omega
  have h0 : ((z : ℕ) - (2 : ℕ) : ℝ) * (Real.pi / 4) = 0 := hz
  rw [hjz]
  beta_reduce
  rw [h0, Real.cos_zero]
  norm_num

/-- Instance of `alias_left_wrong`: the modulus of the RMSF of `twoChan 4` (`twoChan_rmsf`) has its first largest sample at the left end, and the
second one below the threshold. -/
theorem alias_instance : npArgmax (fun l : Fin 9 => |Real.cos (((l : ℕ) - 4 : ℝ) * (Real.pi / 4))|) = 0 ∧
    shift (fun l : Fin 9 => |Real.cos (((l : ℕ) - 4 : ℝ) * (Real.pi / 4))|) 0.4 = some 2 := by
  have hpk : npArgmax (fun l : Fin 9 => |Real.cos (((l : ℕ) - 4 : ℝ) * (Real.pi / 4))|) = 0 := by
    rw [npArgmax_eq_iff]
    constructor
    · intro j
      have : ((((0 : Fin 9) : ℕ) : ℝ) - 4) * (Real.pi / 4) = -Real.pi := by push_cast; simp; ring
      rw [this, Real.cos_neg, Real.cos_pi, abs_neg, abs_one]
      exact Real.abs_cos_le_one _
    · intro j hj
      exact absurd hj (by simp)
  refine ⟨hpk, ?_⟩
  unfold shift
  rw [hpk]
  have h0 : at0 (fun l : Fin 9 => |Real.cos (((l : ℕ) - 4 : ℝ) * (Real.pi / 4))|) 0 = 1 := by
    unfold at0
    rw [dif_pos (by norm_num)]
    have : (((0 : ℕ) : ℝ) - 4) * (Real.pi / 4) = -Real.pi := by push_cast; ring
    simp only [this, Real.cos_neg, Real.cos_pi, abs_neg, abs_one]
  have h1 : at0 (fun l : Fin 9 => |Real.cos (((l : ℕ) - 4 : ℝ) * (Real.pi / 4))|) 1 = Real.sqrt 2 / 2 := by
    unfold at0
    rw [dif_pos (by norm_num)]
    have : (((1 : ℕ) : ℝ) - 4) * (Real.pi / 4) = Real.pi / 4 - Real.pi := by push_cast; ring
    simp only [this, Real.cos_sub_pi, Real.cos_pi_div_four, abs_neg]
    exact abs_of_nonneg (by positivity)
  have h2 : at0 (fun l : Fin 9 => |Real.cos (((l : ℕ) - 4 : ℝ) * (Real.pi / 4))|) 2 = 0 := by
    unfold at0
    rw [dif_pos (by norm_num)]
    have : (((2 : ℕ) : ℝ) - 4) * (Real.pi / 4) = -(Real.pi / 2) := by push_cast; ring
    simp only [this, Real.cos_neg, Real.cos_pi_div_two, abs_zero]
  have hs2 : (0.4 : ℝ) ≤ Real.sqrt 2 / 2 := by
    have : (1 : ℝ) ≤ Real.sqrt 2 := by rw [Real.one_le_sqrt]; norm_num
    linarith
  have hr : List.range (8 + 1 - ((0 : Fin 9) : ℕ)) = 0 :: 1 :: 2 :: List.range' 3 6 := by decide
  rw [hr]
  have d0 : decide (at0 (fun l : Fin 9 => |Real.cos (((l : ℕ) - 4 : ℝ) * (Real.pi / 4))|)
      (((0 : Fin 9) : ℕ) + 0) < 0.4) = false := by
    rw [decide_eq_false_iff_not]; simp only [Fin.val_zero, add_zero]; rw [h0]; norm_num
  have d1 : decide (at0 (fun l : Fin 9 => |Real.cos (((l : ℕ) - 4 : ℝ) * (Real.pi / 4))|)
      (((0 : Fin 9) : ℕ) + 1) < 0.4) = false := by
    rw [decide_eq_false_iff_not]; simp only [Fin.val_zero, zero_add]; rw [h1]; linarith
  have d2 : decide (at0 (fun l : Fin 9 => |Real.cos (((l : ℕ) - 4 : ℝ) * (Real.pi / 4))|)
      (((0 : Fin 9) : ℕ) + 2) < 0.4) = true := by
    rw [decide_eq_true_iff]; simp only [Fin.val_zero, zero_add]; rw [h2]; norm_num
  rw [List.find?_cons, d0, List.find?_cons, d1, List.find?_cons, d2]

/-- C124 is false for arrays that are not symmetric: a low sample to the left of the peak is marked. -/
theorem asymmetric_wrong : ∃ a : Fin 5 → ℝ, (∃ m, detectPeak a 0.4 = some m ∧ m 1 = true) ∧ a 1 < 0.4 := by
  refine ⟨![0, 0, 1, 1, 0], ?_, by norm_num⟩
  have hpk : npArgmax (![0, 0, 1, 1, 0] : Fin 5 → ℝ) = 2 := by
    rw [npArgmax_eq_iff]
    constructor
    · intro j
      show _ ≤ (1 : ℝ)
      fin_cases j <;> norm_num
    · intro j hj
      show _ < (1 : ℝ)
      fin_cases j <;> first | (norm_num; done) | (exact absurd hj (by decide))
  have hs : shift (![0, 0, 1, 1, 0] : Fin 5 → ℝ) 0.4 = some 2 := by
    unfold shift
    rw [hpk]
    have hr : List.range (4 + 1 - ((2 : Fin 5) : ℕ)) = [0, 1, 2] := by decide
    rw [hr]
    norm_num [at0, List.find?_cons]
  unfold detectPeak
  rw [hs, hpk]
  exact ⟨_, rfl, by decide⟩

/-! ## C125 -/

/-- The sum of the squared residuals of the samples; `none` for a zero width. -/
noncomputable def resid (pts : List (ℝ × ℝ)) (p : ℝ × ℝ × ℝ) : Option ℝ :=
  (pts.mapM fun q => (gauss p q.1).map fun y => (y - q.2) ^ 2).map List.sum

/-- `p` is a best fit. -/
def Best (pts : List (ℝ × ℝ)) (p : ℝ × ℝ × ℝ) : Prop :=
  ∃ r, resid pts p = some r ∧ ∀ p' r', resid pts p' = some r' → r ≤ r'

theorem gauss_some (p : ℝ × ℝ × ℝ) (hw : p.2.2 ≠ 0) (x : ℝ) :
    gauss p x = some (p.1 * Real.exp (-(4 * Real.log 2) * ((x - p.2.1) / p.2.2) ^ 2)) := by
  have hl : 0 < Real.log 2 := Real.log_pos (by norm_num)
  have hs : Real.sqrt (2 * Real.log 2) ≠ 0 := (Real.sqrt_pos.mpr (by positivity)).ne'
  have hsq : Real.sqrt (2 * Real.log 2) ^ 2 = 2 * Real.log 2 := Real.sq_sqrt (by positivity)
  unfold gauss
  dsimp only
  rw [if_neg (div_ne_zero hw (mul_ne_zero two_ne_zero hs))]
  congr 3
  rw [div_pow, mul_pow, hsq]
  field_simp
  ring

theorem gauss_none (p : ℝ × ℝ × ℝ) (hw : p.2.2 = 0) (x : ℝ) : gauss p x = none := by
  unfold gauss; dsimp only; rw [hw, zero_div, if_pos rfl]

/-- The value of a Gaussian of amplitude, centre and full width at half maximum. -/
noncomputable def bell (p : ℝ × ℝ × ℝ) (x : ℝ) : ℝ := p.1 * Real.exp (-(4 * Real.log 2) * ((x - p.2.1) / p.2.2) ^ 2)

/-- `bell` is half its largest value at half the width from the centre. -/
theorem bell_half (p : ℝ × ℝ × ℝ) (hw : p.2.2 ≠ 0) : bell p (p.2.1 + p.2.2 / 2) = bell p p.2.1 / 2 := by
  unfold bell
  have h1 : (p.2.1 + p.2.2 / 2 - p.2.1) / p.2.2 = 1 / 2 := by field_simp; ring
  have h2 : -(4 * Real.log 2) * (1 / 2) ^ 2 = -Real.log 2 := by ring
  rw [h1, h2, Real.exp_neg, Real.exp_log (by norm_num), sub_self, zero_div]
  simp
  ring

theorem resid_some (pts : List (ℝ × ℝ)) (p : ℝ × ℝ × ℝ) (hw : p.2.2 ≠ 0) :
    resid pts p = some (pts.map fun q => (bell p q.1 - q.2) ^ 2).sum := by
  unfold resid
  have : (fun q : ℝ × ℝ => (gauss p q.1).map fun y => (y - q.2) ^ 2) =
      fun q => some ((bell p q.1 - q.2) ^ 2) := by
    funext q; rw [gauss_some p hw]; rfl
  rw [this]
  have h2 : ∀ l : List (ℝ × ℝ), (l.mapM fun q => some ((bell p q.1 - q.2) ^ 2)) =
      some (l.map fun q => (bell p q.1 - q.2) ^ 2) := by
    intro l
    induction l with
    | nil => rfl
    | cons q l ih => rw [List.mapM_cons, ih]; rfl
  rw [h2]
  rfl

theorem resid_none (q : ℝ × ℝ) (pts : List (ℝ × ℝ)) (p : ℝ × ℝ × ℝ) (hw : p.2.2 = 0) :
    resid (q :: pts) p = none := by
  unfold resid
  rw [List.mapM_cons, gauss_none p hw]
  rfl

theorem sum_sq_zero (l : List (ℝ × ℝ)) (f : ℝ × ℝ → ℝ) (h : (l.map fun q => f q ^ 2).sum ≤ 0) : ∀ q ∈ l, f q = 0 := by
  have hn : ∀ l : List (ℝ × ℝ), 0 ≤ (l.map fun q => f q ^ 2).sum := by
    intro l
    apply List.sum_nonneg
    intro x hx
    rw [List.mem_map] at hx
    obtain ⟨q, -, rfl⟩ := hx
    positivity
  induction l with
  | nil => intro q hq; simp at hq
  | cons a l ih =>
    rw [List.map_cons, List.sum_cons] at h
    have h1 := hn l
    have h2 := sq_nonneg (f a)
    intro q hq
    rcases List.mem_cons.mp hq with rfl | hq
    · exact pow_eq_zero_iff two_ne_zero |>.mp (by linarith)
    · exact ih (by linarith) q hq

/-- Two Gaussians with positive amplitude that agree at three points have the same amplitude, centre and, up to its
sign, width. -/
theorem bell_unique (p q : ℝ × ℝ × ℝ) (hp : p.2.2 ≠ 0) (hq : q.2.2 ≠ 0) (ha : 0 < q.1) (x y z : ℝ) (hxy : x ≠ y)
    (hxz : x ≠ z) (hyz : y ≠ z) (h1 : bell p x = bell q x) (h2 : bell p y = bell q y) (h3 : bell p z = bell q z) :
    p.1 = q.1 ∧ p.2.1 = q.2.1 ∧ |p.2.2| = |q.2.2| := by
  have hl : 0 < Real.log 2 := Real.log_pos (by norm_num)
  have hpa : 0 < p.1 := by
    have : 0 < bell p x := by rw [h1]; unfold bell; positivity
    unfold bell at this
    exact pos_of_mul_pos_left this (Real.exp_pos _).le
  have hlog : ∀ t, bell p t = bell q t →
      Real.log p.1 - 4 * Real.log 2 * ((t - p.2.1) / p.2.2) ^ 2 =
        Real.log q.1 - 4 * Real.log 2 * ((t - q.2.1) / q.2.2) ^ 2 := by
    intro t ht
    have := congrArg Real.log ht
    unfold bell at this
    rw [Real.log_mul hpa.ne' (Real.exp_pos _).ne', Real.log_mul ha.ne' (Real.exp_pos _).ne', Real.log_exp,
      Real.log_exp] at this
    linarith
  set u : ℝ := 1 / p.2.2 ^ 2 with hu
  set v : ℝ := 1 / q.2.2 ^ 2 with hv
  have hpos : 0 < u := by positivity
  have e : ∀ t, bell p t = bell q t →
      Real.log p.1 - 4 * Real.log 2 * ((t - p.2.1) ^ 2 * u) =
        Real.log q.1 - 4 * Real.log 2 * ((t - q.2.1) ^ 2 * v) := by
    intro t ht
    have := hlog t ht
    rw [div_pow, div_pow] at this
    rw [hu, hv]
    simpa [div_eq_mul_inv] using this
  have e1 := e x h1
  have e2 := e y h2
  have e3 := e z h3
  have k1 : (x - y) * ((x + y) * (u - v) - 2 * (p.2.1 * u - q.2.1 * v)) = 0 := by
    have : 4 * Real.log 2 * ((x - y) * ((x + y) * (u - v) - 2 * (p.2.1 * u - q.2.1 * v))) = 0 := by
      linear_combination e2 - e1
    rcases mul_eq_zero.mp this with h | h
    · exact absurd h (by positivity)
    · exact h
  have k2 : (x - z) * ((x + z) * (u - v) - 2 * (p.2.1 * u - q.2.1 * v)) = 0 := by
    have : 4 * Real.log 2 * ((x - z) * ((x + z) * (u - v) - 2 * (p.2.1 * u - q.2.1 * v))) = 0 := by
      linear_combination e3 - e1
    rcases mul_eq_zero.mp this with h | h
    · exact absurd h (by positivity)
    · exact h
  have m1 := (mul_eq_zero.mp k1).resolve_left (sub_ne_zero.mpr hxy)
  have m2 := (mul_eq_zero.mp k2).resolve_left (sub_ne_zero.mpr hxz)
  have huv : u = v := by
    have : (y - z) * (u - v) = 0 := by linear_combination m1 - m2
    exact sub_eq_zero.mp ((mul_eq_zero.mp this).resolve_left (sub_ne_zero.mpr hyz))
  have hb : p.2.1 = q.2.1 := by
    rw [← huv] at m1
    have : (p.2.1 - q.2.1) * u = 0 := by linear_combination (-1 / 2) * m1
    exact sub_eq_zero.mp ((mul_eq_zero.mp this).resolve_right hpos.ne')
  refine ⟨?_, hb, ?_⟩
  · rw [← huv, hb] at e1
    have : Real.log p.1 = Real.log q.1 := by linarith
    exact Real.log_injOn_pos hpa ha this
  · rw [← sq_eq_sq_iff_abs_eq_abs]
    rw [hu, hv, one_div, one_div] at huv
    exact inv_injective huv

/-- C125, the part that holds: if the fitted samples lie on a Gaussian and are at least three, every best fit has its
amplitude, centre and, up to its sign, full width at half maximum. -/
theorem gaussian_width_partial (pts : List (ℝ × ℝ)) (q : ℝ × ℝ × ℝ) (hq : q.2.2 ≠ 0) (ha : 0 < q.1)
    (hpts : ∀ t ∈ pts, t.2 = bell q t.1) (s t r : ℝ × ℝ) (hs : s ∈ pts) (ht : t ∈ pts) (hr : r ∈ pts)
    (hst : s.1 ≠ t.1) (hsr : s.1 ≠ r.1) (htr : t.1 ≠ r.1) (p : ℝ × ℝ × ℝ) (hp : Best pts p) :
    p.1 = q.1 ∧ p.2.1 = q.2.1 ∧ |p.2.2| = |q.2.2| := by
  obtain ⟨v, hv, hbest⟩ := hp
  have hpw : p.2.2 ≠ 0 := by
    intro h0
    cases pts with
    | nil => simp at hs
    | cons a l => rw [resid_none a l p h0] at hv; simp at hv
  have hle : v ≤ 0 := by
    refine hbest q 0 ?_
    rw [resid_some pts q hq]
    congr 1
    apply List.sum_eq_zero
    intro y hy
    rw [List.mem_map] at hy
    obtain ⟨t, ht, rfl⟩ := hy
    rw [hpts t ht]; ring
  rw [resid_some pts p hpw] at hv
  have hz := sum_sq_zero pts (fun q => bell p q.1 - q.2) (by rw [Option.some.inj hv]; exact hle)
  have hag : ∀ t ∈ pts, bell p t.1 = bell q t.1 := by
    intro t ht
    have := hz t ht
    rw [← hpts t ht]
    linarith
  exact bell_unique p q hpw hq ha s.1 t.1 r.1 hst hsr htr (hag s hs) (hag t ht) (hag r hr)

/-- C125 is false for the sign: with every best fit the one of the opposite width is a best fit, so a best fit can
report a negative full width. -/
theorem negative_width_wrong (pts : List (ℝ × ℝ)) (p : ℝ × ℝ × ℝ) (h : Best pts p) :
    Best pts (p.1, p.2.1, -p.2.2) := by
  have : resid pts (p.1, p.2.1, -p.2.2) = resid pts p := by
    by_cases hw : p.2.2 = 0
    · have : (p.1, p.2.1, -p.2.2) = p := by ext <;> simp [hw]
      rw [this]
    · rw [resid_some pts p hw, resid_some pts _ (neg_ne_zero.mpr hw)]
      have : ∀ x, bell (p.1, p.2.1, -p.2.2) x = bell p x := by
        intro x
        unfold bell
        simp only
        rw [div_neg, neg_sq]
      simp only [this]
  unfold Best
  rw [this]
  exact h

/-- Concrete case of both: three samples of the Gaussian of amplitude 1, centre 0 and width 2. -/
example : Best [(-1, bell (1, 0, 2) (-1)), (0, bell (1, 0, 2) 0), (1, bell (1, 0, 2) 1)] (1, 0, -2) := by
  refine negative_width_wrong _ (1, 0, 2) ⟨0, ?_, ?_⟩
  · rw [resid_some _ _ (by norm_num)]; simp
  · intro p' r' h'
    by_cases hw : p'.2.2 = 0
    · rw [resid_none _ _ _ hw] at h'; simp at h'
    · rw [resid_some _ _ hw] at h'
      rw [← Option.some.inj h']
      apply List.sum_nonneg
      intro x hx
      rw [List.mem_map] at hx
      obtain ⟨q, -, rfl⟩ := hx
      positivity

end Verif.Fwhm
