import Verif.Mpfit.Scale

/-!
# The least-squares fitter and the order of the data: the factorisation

Two matrices with the same inner products of columns (for example with the rows in another order) have the same
pivots, and triangular factors that differ only by the signs of rows.
-/

namespace Verif.Mpfit.Order

open Verif.NumPy Finset

/-- Signs. -/
def Sgn (σ : ℕ → ℝ) : Prop := ∀ i, σ i * σ i = 1

/-- A column that ends at the diagonal: the inner product with it has `t + 1` terms. -/
theorem dot_tri (m t : ℕ) (ht : t < m) (w x : Vec) (hz : ∀ i < m, t < i → w i = 0) :
    dot m w x = ∑ i ∈ range t, w i * x i + w t * x t := by
  unfold dot
  rw [Finset.range_eq_Ico, ← Finset.sum_Ico_consecutive _ (Nat.zero_le (t + 1)) (by omega : t + 1 ≤ m), ← Finset.range_eq_Ico,
    Finset.sum_range_succ, Finset.sum_eq_zero (s := Ico (t + 1) m), add_zero]
  intro i hi
  rw [Finset.mem_Ico] at hi
  rw [hz i hi.2 (by omega), zero_mul]

/-- Uniqueness of the triangular factor up to signs. Columns `W t` for `t < J`. -/
theorem chol (m m' J : ℕ) (hJ : J ≤ m) (hJ' : J ≤ m') (W W' : ℕ → Vec)
    (tri : ∀ t < J, ∀ i < m, t < i → W t i = 0) (tri' : ∀ t < J, ∀ i < m', t < i → W' t i = 0)
    (ne : ∀ t < J, W t t ≠ 0) (ne' : ∀ t < J, W' t t ≠ 0)
    (gram : ∀ s < J, ∀ t < J, dot m' (W' s) (W' t) = dot m (W s) (W t)) :
    ∃ σ, Sgn σ ∧ ∀ x x' : Vec, (∀ t < J, dot m' (W' t) x' = dot m (W t) x) → ∀ t < J, x' t = σ t * x t := by
  have key : ∀ t < J, (W' t t / W t t) * (W' t t / W t t) = 1 ∧
      ∀ x x' : Vec, (∀ t < J, dot m' (W' t) x' = dot m (W t) x) → x' t = W' t t / W t t * x t := by
    intro t
    induction t using Nat.strong_induction_on with
    | _ t ih =>
      intro ht
      have hcol : ∀ i < t, W' t i = W' i i / W i i * W t i := fun i hi =>
        (ih i hi (by omega)).2 (W t) (W' t) fun s hs => gram s hs t ht
      have hprod : ∀ x x' : Vec, (∀ t < J, dot m' (W' t) x' = dot m (W t) x) → W' t t * x' t = W t t * x t := by
        intro x x' hx
        have h1 := hx t ht
        rw [dot_tri m' t (by omega) _ _ (tri' t ht), dot_tri m t (by omega) _ _ (tri t ht)] at h1
        have h2 : ∑ i ∈ range t, W' t i * x' i = ∑ i ∈ range t, W t i * x i := by
          refine Finset.sum_congr rfl fun i hi => ?_
          rw [Finset.mem_range] at hi
          obtain ⟨e1, e2⟩ := ih i hi (by omega)
          rw [hcol i hi, e2 x x' hx]
          linear_combination (W t i * x i) * e1
        linarith
      have h0 := ne t ht
      have h0' := ne' t ht
      have hsq := hprod (W t) (W' t) fun s hs => gram s hs t ht
      have hone : (W' t t / W t t) * (W' t t / W t t) = 1 := by
        rw [div_mul_div_comm, hsq, div_self (mul_ne_zero h0 h0)]
      refine ⟨hone, fun x x' hx => ?_⟩
      have h3 := hprod x x' hx
      have h4 : W' t t * x' t = W' t t * (W' t t / W t t * x t) := by
        rw [h3]
        have : W' t t * (W' t t / W t t * x t) = (W' t t * W' t t) / W t t * x t := by ring
        rw [this, hsq]
        field_simp
      exact mul_left_cancel₀ h0' h4
  refine ⟨fun i => if i < J then W' i i / W i i else 1, fun i => ?_, fun x x' hx t ht => ?_⟩
  · dsimp only
    split_ifs with h
    · exact (key i h).1
    · norm_num
  · dsimp only
    rw [if_pos ht]
    exact (key t ht).2 x x' hx

/-! ## `qrfac` -/

/-- The same inner products of columns. -/
def SameGram (m m' n : ℕ) (A A' : Mat) : Prop :=
  ∀ k < n, ∀ l < n, dot m' (fun i => A' i k) (fun i => A' i l) = dot m (fun i => A i k) fun i => A i l

theorem dot_congr (m : ℕ) (x y x' y' : Vec) (h : ∀ i < m, x i = x' i) (h' : ∀ i < m, y i = y' i) : dot m x y = dot m x' y' := by
  unfold dot
  refine Finset.sum_congr rfl fun i hi => ?_
  rw [Finset.mem_range] at hi
  rw [h i hi, h' i hi]

theorem work_gram (A : Mat) (m n j p : ℕ) (hj : j ≤ m) (s : Qr) (h : Inv A m n j p s) (k l : ℕ) (hk : k < n) (hl : l < n) :
    dot m (work s j k) (work s j l) = dot m (fun i => A i (s.ipvt k)) fun i => A i (s.ipvt l) := by
  rw [← applyQ_dot m s.a s.ipvt j hj h.ne h.sq (fun i => A i (s.ipvt k))]
  exact dot_congr m _ _ _ _ (fun i hi => (h.col k hk i hi).symm) fun i hi => (h.col l hl i hi).symm

theorem work_tri (s : Qr) (j t i : ℕ) (ht : t < j) (hi : t < i) : work s j t i = 0 := by
  unfold work
  rw [if_pos ht, if_neg (by omega), if_neg (by omega)]

theorem work_diag (s : Qr) (j t : ℕ) (ht : t < j) : work s j t t = s.rdiag t := by
  unfold work
  rw [if_pos ht, if_neg (by omega), if_pos rfl]

/-- Two runs before pass `j`. -/
structure QO (A A' : Mat) (m m' n j p : ℕ) (s s' : Qr) : Prop where
  ipvt : s'.ipvt = s.ipvt
  inv : Inv A m n j p s
  inv' : Inv A' m' n j p s'
  ne : ∀ t < j, s.rdiag t ≠ 0
  ne' : ∀ t < j, s'.rdiag t ≠ 0

theorem signs (A A' : Mat) (m m' n j p : ℕ) (hj : j ≤ n) (hm : n ≤ m) (hm' : n ≤ m') (hg : SameGram m m' n A A') (s s' : Qr)
    (h : QO A A' m m' n j p s s') :
    ∃ σ, Sgn σ ∧ ∀ x x' : Vec, (∀ t < j, dot m' (work s' j t) x' = dot m (work s j t) x) → ∀ t < j, x' t = σ t * x t := by
  refine chol m m' j (by omega) (by omega) (work s j) (work s' j) (fun t ht i _ hi => work_tri s j t i ht hi)
    (fun t ht i _ hi => work_tri s' j t i ht hi) (fun t ht => ?_) (fun t ht => ?_) fun k hk l hl => ?_
  · rw [work_diag s j t ht]; exact h.ne t ht
  · rw [work_diag s' j t ht]; exact h.ne' t ht
  · rw [work_gram A m n j p (by omega) s h.inv k l (by omega) (by omega), work_gram A' m' n j p (by omega) s' h.inv' k l (by omega) (by omega),
      h.ipvt]
    exact hg _ (h.inv.lt k (by omega)) _ (h.inv.lt l (by omega))

/-- What is left of a column has the same norm in both runs. -/
theorem rest_norm (A A' : Mat) (m m' n j p : ℕ) (hj : j ≤ n) (hm : n ≤ m) (hm' : n ≤ m') (hg : SameGram m m' n A A') (s s' : Qr)
    (h : QO A A' m m' n j p s s') (k : ℕ) (hk1 : j ≤ k) (hk : k < n) :
    nrm j m' (fun i => s'.a i (s'.ipvt k)) = nrm j m fun i => s.a i (s.ipvt k) := by
  obtain ⟨σ, hσ, hs⟩ := signs A A' m m' n j p hj hm hm' hg s s' h
  have hgr : ∀ l < n, dot m' (work s' j l) (work s' j k) = dot m (work s j l) (work s j k) := fun l hl => by
    rw [work_gram A m n j p (by omega) s h.inv l k hl hk, work_gram A' m' n j p (by omega) s' h.inv' l k hl hk, h.ipvt]
    exact hg _ (h.inv.lt l hl) _ (h.inv.lt k hk)
  have h1 := hs (work s j k) (work s' j k) fun t ht => hgr t (by omega)
  have h2 := hgr k hk
  unfold dot at h2
  rw [Finset.range_eq_Ico, ← Finset.sum_Ico_consecutive _ (Nat.zero_le j) (by omega : j ≤ m'), Finset.range_eq_Ico,
    ← Finset.sum_Ico_consecutive _ (Nat.zero_le j) (by omega : j ≤ m)] at h2
  have h3 : ∑ i ∈ Ico 0 j, work s' j k i * work s' j k i = ∑ i ∈ Ico 0 j, work s j k i * work s j k i := by
    refine Finset.sum_congr rfl fun i hi => ?_
    rw [Finset.mem_Ico] at hi
    rw [h1 i hi.2]
    linear_combination (work s j k i * work s j k i) * hσ i
  have h4 : ∀ (u : Qr) i, work u j k i = u.a i (u.ipvt k) := fun u i => by
    unfold work
    rw [if_neg (by omega)]
  rw [h3, add_right_inj] at h2
  simp only [h4] at h2
  unfold nrm
  simp only [sq]
  rw [h2]

theorem kmax_same (n j : ℕ) (hj : j < n) (r r' : Vec) (h : ∀ k, j ≤ k → k < n → r' k = r k) : kmax n j r' = kmax n j r := by
  have := forRange_rel (fun _ (b b' : ℕ) => j ≤ b ∧ b < n ∧ b' = b) (j + 1) n hj
    (fun k b => if r b < r k then k else b) (fun k b => if r' b < r' k then k else b) j j ⟨le_rfl, hj, rfl⟩ ?_
  · exact this.2.2
  · rintro k b b' h1 h2 ⟨h3, h4, rfl⟩
    rw [h b' h3 h4, h k (by omega) h2]
    by_cases hlt : r b' < r k
    · rw [if_pos hlt]; exact ⟨by omega, h2, rfl⟩
    · rw [if_neg hlt]; exact ⟨h3, h4, rfl⟩

theorem pivot_rdiag (n j : ℕ) (hj : j < n) (s : Qr) (t : ℕ) (ht : t < j) : (pivotStep n j s).rdiag t = s.rdiag t := by
  obtain ⟨h1, -, -⟩ := kmax_spec n j hj s.rdiag
  unfold pivotStep
  dsimp only
  by_cases h : kmax n j s.rdiag = j
  · rw [if_pos h]
  · rw [if_neg h]
    dsimp only
    rw [Function.update_of_ne (by omega)]

theorem pivot_same (A A' : Mat) (m m' n j : ℕ) (hj : j < n) (hm : n ≤ m) (hm' : n ≤ m') (hg : SameGram m m' n A A') (s s' : Qr)
    (h : QO A A' m m' n j j s s') : QO A A' m m' n j (j + 1) (pivotStep n j s) (pivotStep n j s') := by
  refine ⟨?_, (pivot_inv A m n j hj s h.inv).1, (pivot_inv A' m' n j hj s' h.inv').1,
    fun t ht => by rw [pivot_rdiag n j hj s t ht]; exact h.ne t ht, fun t ht => by rw [pivot_rdiag n j hj s' t ht]; exact h.ne' t ht⟩
  have hk : kmax n j s'.rdiag = kmax n j s.rdiag := kmax_same n j hj _ _ fun k h1 h2 => by
    rw [h.inv.norm k h1 h2, h.inv'.norm k h1 h2]
    exact rest_norm A A' m m' n j j hj.le hm hm' hg s s' h k h1 h2
  unfold pivotStep
  dsimp only
  rw [hk, h.ipvt]
  by_cases he : kmax n j s.rdiag = j
  · rw [if_pos he, if_pos he]; exact h.ipvt
  · rw [if_neg he, if_neg he]

theorem colStep_keeps (eps : ℝ) (m j : ℕ) (v : Vec) (k : ℕ) (s : Qr) :
    (colStep eps m j v k s).ipvt = s.ipvt ∧ ∀ t, t ≠ k → (colStep eps m j v k s).rdiag t = s.rdiag t := by
  unfold colStep
  dsimp only
  split_ifs
  all_goals first
    | exact ⟨rfl, fun _ _ => rfl⟩
    | exact ⟨rfl, fun t ht => Function.update_of_ne ht _ _⟩

theorem cols_keep (eps : ℝ) (m n j : ℕ) (hj : j < n) (v : Vec) (s : Qr) :
    (forRange (j + 1) n (colStep eps m j v) s).ipvt = s.ipvt ∧
      ∀ t ≤ j, (forRange (j + 1) n (colStep eps m j v) s).rdiag t = s.rdiag t :=
  forRange_ind (fun _ (u : Qr) => u.ipvt = s.ipvt ∧ ∀ t ≤ j, u.rdiag t = s.rdiag t) (j + 1) n hj _ s ⟨rfl, fun _ _ => rfl⟩
    fun k u h1 _ h => by
      obtain ⟨a, b⟩ := colStep_keeps eps m j v k u
      exact ⟨a.trans h.1, fun t ht => (b t (by omega)).trans (h.2 t ht)⟩

/-- The end of the factorisation in both runs after `J` reflections. -/
structure DO (A A' : Mat) (m m' n J : ℕ) (s s' : Qr) : Prop where
  ipvt : s'.ipvt = s.ipvt
  done : Done A m n J s
  done' : Done A' m' n J s'
  ne : ∀ t < J, s.rdiag t ≠ 0
  ne' : ∀ t < J, s'.rdiag t ≠ 0
  zero : J < n → s.rdiag J = 0 ∧ s'.rdiag J = 0

theorem qrStep_order (A A' : Mat) (eps : ℝ) (m m' n j : ℕ) (hj : j < n) (hm : n ≤ m) (hm' : n ≤ m') (hg : SameGram m m' n A A')
    (s s' : Qr) (h : QO A A' m m' n j j s s') :
    CtlRel (QO A A' m m' n (j + 1) (j + 1)) (DO A A' m m' n j) (qrStep eps m n j s) (qrStep eps m' n j s') := by
  have hp := pivot_same A A' m m' n j hj hm hm' hg s s' h
  have hn := rest_norm A A' m m' n j (j + 1) hj.le hm hm' hg _ _ hp j le_rfl hj
  have z := (pivot_inv A m n j hj s h.inv).2.2
  have z' := (pivot_inv A' m' n j hj s' h.inv').2.2
  have a1 := step_brk A eps m n j hj hm s
  have a2 := step_next A eps m n j hj hm s
  have b1 := step_brk A' eps m' n j hj hm' s'
  have b2 := step_next A' eps m' n j hj hm' s'
  unfold qrStep at a1 a2 b1 b2 ⊢
  set p := pivotStep n j s
  set p' := pivotStep n j s'
  dsimp only at a1 a2 b1 b2 ⊢
  by_cases h0 : nrm j m (fun i => p.a i (p.ipvt j)) = 0
  · have h0' : nrm j m' (fun i => p'.a i (p'.ipvt j)) = 0 := by rw [hn, h0]
    rw [if_pos h0] at a1 ⊢
    rw [if_pos h0'] at b1 ⊢
    exact .brk _ _ ⟨hp.ipvt, a1 _ h.inv rfl, b1 _ h.inv' rfl, hp.ne, hp.ne', fun _ => ⟨z h0 j le_rfl hj, z' h0' j le_rfl hj⟩⟩
  · have h0' : nrm j m' (fun i => p'.a i (p'.ipvt j)) ≠ 0 := by rw [hn]; exact h0
    rw [if_neg h0] at a2 ⊢
    rw [if_neg h0'] at b2 ⊢
    have hne : ∀ (x : Vec) (c : Prop) [Decidable c] (y : ℝ), y ≠ 0 → ∀ t < j + 1, (∀ t < j, x t ≠ 0) →
        Function.update x j (-if c then -y else y) t ≠ 0 := by
      intro x c _ y hy t ht hx
      by_cases e : t = j
      · subst e
        rw [Function.update_self]
        split_ifs
        · rwa [neg_neg]
        · exact neg_ne_zero.mpr hy
      · rw [Function.update_of_ne e]
        exact hx t (by omega)
    refine .next _ _ ⟨?_, a2 _ h.inv rfl, b2 _ h.inv' rfl, ?_, ?_⟩
    · dsimp only
      rw [(cols_keep eps m n j hj _ _).1, (cols_keep eps m' n j hj _ _).1]
      exact hp.ipvt
    · intro t ht
      refine hne _ _ _ h0 t ht fun t ht => ?_
      rw [(cols_keep eps m n j hj _ _).2 t ht.le]
      exact hp.ne t ht
    · intro t ht
      refine hne _ _ _ h0' t ht fun t ht => ?_
      rw [(cols_keep eps m' n j hj _ _).2 t ht.le]
      exact hp.ne' t ht

theorem qrfac_order (eps : ℝ) (m m' n : ℕ) (hm : n ≤ m) (hm' : n ≤ m') (A A' : Mat) (hg : SameGram m m' n A A') :
    ∃ J, DO A A' m m' n J (qrfac eps m n A) (qrfac eps m' n A') := by
  unfold qrfac
  rw [min_eq_right hm, min_eq_right hm']
  refine forBreak_rel (fun j s s' => QO A A' m m' n j j s s') (fun s s' => ∃ J, DO A A' m m' n J s s') 0 n (Nat.zero_le _) _ _ _ _ ?_ ?_ ?_
  · exact ⟨rfl, qrInit A m n, qrInit A' m' n, fun t ht => by omega, fun t ht => by omega⟩
  · intro j s s' _ hj h
    have := qrStep_order A A' eps m m' n j hj hm hm' hg s s' h
    revert this
    generalize qrStep eps m n j s = u
    generalize qrStep eps m' n j s' = u'
    intro h
    cases h with
    | brk a b hq => exact .brk _ _ ⟨j, hq⟩
    | next a b hr => exact .next _ _ hr
  · intro s s' h
    exact ⟨n, h.ipvt, inv_done A m n s h.inv, inv_done A' m' n s' h.inv', h.ne, h.ne', fun h => by omega⟩

/-! ## The triangular factor and the transformed residuals -/

/-- Upper triangles that differ by the signs of rows. -/
def UpSg (σ : ℕ → ℝ) (n : ℕ) (r r' : Mat) : Prop := ∀ i c, i ≤ c → c < n → r' i c = σ i * r i c

/-- Right-hand sides that differ by the same signs, except in rows where the triangle is zero. -/
def RhsSg (σ : ℕ → ℝ) (n : ℕ) (r : Mat) (q q' : Vec) : Prop :=
  ∀ i < n, q' i = σ i * q i ∨ ∀ c, i ≤ c → c < n → r i c = 0

theorem formQtf_order (eps : ℝ) (m m' n : ℕ) (hm : n ≤ m) (hm' : n ≤ m') (A A' : Mat) (hg : SameGram m m' n A A') (f f' : Vec)
    (hf : ∀ k < n, dot m' (fun i => A' i k) f' = dot m (fun i => A i k) f) :
    let q := qrfac eps m n A
    let q' := qrfac eps m' n A'
    q'.ipvt = q.ipvt ∧ ∃ σ, Sgn σ ∧ UpSg σ n (formQtf m n q f).a (formQtf m' n q' f').a ∧
      RhsSg σ n (formQtf m n q f).a (formQtf m n q f).qtf (formQtf m' n q' f').qtf := by
  intro q q'
  obtain ⟨J, h⟩ := qrfac_order eps m m' n hm hm' A A' hg
  change DO A A' m m' n J q q' at h
  have hd := h.done
  have hd' := h.done'
  have hJ := hd.le
  obtain ⟨a1, -, a3⟩ := qtLoop m n q f hd.inj
  obtain ⟨b1, -, b3⟩ := qtLoop m' n q' f' hd'.inj
  -- the columns of the factor
  set W : ℕ → Vec := fun k i => if i < k then q.a i (q.ipvt k) else if i = k then q.rdiag k else 0 with hW
  set W' : ℕ → Vec := fun k i => if i < k then q'.a i (q'.ipvt k) else if i = k then q'.rdiag k else 0 with hW'
  have hcol : ∀ k < n, ∀ x, dot m (W k) (applyQ m q.a q.ipvt J x) = dot m (fun i => A i (q.ipvt k)) x := fun k hk x => by
    rw [← applyQ_dot m q.a q.ipvt J (by omega) hd.ne hd.sq (fun i => A i (q.ipvt k))]
    exact dot_congr m _ _ _ _ (fun i hi => (hd.col k hk i hi).symm) fun _ _ => rfl
  have hcol' : ∀ k < n, ∀ x, dot m' (W' k) (applyQ m' q'.a q'.ipvt J x) = dot m' (fun i => A' i (q'.ipvt k)) x := fun k hk x => by
    rw [← applyQ_dot m' q'.a q'.ipvt J (by omega) hd'.ne hd'.sq (fun i => A' i (q'.ipvt k))]
    exact dot_congr m' _ _ _ _ (fun i hi => (hd'.col k hk i hi).symm) fun _ _ => rfl
  have hgr : ∀ k < n, ∀ l < n, dot m' (W' k) (W' l) = dot m (W k) (W l) := fun k hk l hl => by
    have e := hcol k hk (fun i => A i (q.ipvt l))
    have e' := hcol' k hk (fun i => A' i (q'.ipvt l))
    rw [dot_congr m _ _ (W k) (W l) (fun _ _ => rfl) fun i hi => hd.col l hl i hi] at e
    rw [dot_congr m' _ _ (W' k) (W' l) (fun _ _ => rfl) fun i hi => hd'.col l hl i hi] at e'
    rw [e, e', h.ipvt]
    exact hg _ (hd.lt k hk) _ (hd.lt l hl)
  obtain ⟨σ, hσ, hs⟩ := chol m m' J (by omega) (by omega) W W'
    (fun t _ i _ hi => by rw [hW]; dsimp only; rw [if_neg (by omega), if_neg (by omega)])
    (fun t _ i _ hi => by rw [hW']; dsimp only; rw [if_neg (by omega), if_neg (by omega)])
    (fun t ht => by rw [hW]; dsimp only; rw [if_neg (by omega), if_pos rfl]; exact h.ne t ht)
    (fun t ht => by rw [hW']; dsimp only; rw [if_neg (by omega), if_pos rfl]; exact h.ne' t ht)
    (fun k hk l hl => hgr k (by omega) l (by omega))
  have hz : ∀ i, J ≤ i → ∀ c, i ≤ c → c < n → W c i = 0 := fun i hi c hc hcn => by
    have h1 := hd.dec J (by omega) c (by omega) hcn
    rw [(h.zero (by omega)).1] at h1
    have h2 : W c i ^ 2 ≤ ∑ i ∈ Ico J m, W c i ^ 2 :=
      Finset.single_le_sum (f := fun i => W c i ^ 2) (fun _ _ => sq_nonneg _) (Finset.mem_Ico.mpr ⟨hi, by omega⟩)
    have h3 : W c i ^ 2 ≤ 0 := by
      have h4 : ∑ i ∈ Ico J m, W c i ^ 2 ≤ 0 ^ 2 := h1
      linarith [h4]
    exact pow_eq_zero_iff two_ne_zero |>.mp (le_antisymm h3 (sq_nonneg _))
  have hz' : ∀ i, J ≤ i → ∀ c, i ≤ c → c < n → W' c i = 0 := fun i hi c hc hcn => by
    have h1 := hd'.dec J (by omega) c (by omega) hcn
    rw [(h.zero (by omega)).2] at h1
    have h2 : W' c i ^ 2 ≤ ∑ i ∈ Ico J m', W' c i ^ 2 :=
      Finset.single_le_sum (f := fun i => W' c i ^ 2) (fun _ _ => sq_nonneg _) (Finset.mem_Ico.mpr ⟨hi, by omega⟩)
    have h3 : W' c i ^ 2 ≤ 0 := by
      have h4 : ∑ i ∈ Ico J m', W' c i ^ 2 ≤ 0 ^ 2 := h1
      linarith [h4]
    exact pow_eq_zero_iff two_ne_zero |>.mp (le_antisymm h3 (sq_nonneg _))
  have hup : ∀ i c, i ≤ c → c < n → (formQtf m n q f).a i c = W c i := fun i c hic hc => by
    rw [a3 c hc, hW]
    dsimp only
    by_cases e : i = c
    · rw [if_pos e, if_neg (by omega), if_pos e]
    · rw [if_neg e, if_pos (by omega)]
  have hup' : ∀ i c, i ≤ c → c < n → (formQtf m' n q' f').a i c = W' c i := fun i c hic hc => by
    rw [b3 c hc, hW']
    dsimp only
    by_cases e : i = c
    · rw [if_pos e, if_neg (by omega), if_pos e]
    · rw [if_neg e, if_pos (by omega)]
  refine ⟨h.ipvt, σ, hσ, fun i c hic hc => ?_, fun i hi => ?_⟩
  · rw [hup i c hic hc, hup' i c hic hc]
    rcases Nat.lt_or_ge i J with hiJ | hiJ
    · exact hs (W c) (W' c) (fun t ht => hgr t (by omega) c hc) i hiJ
    · rw [hz i hiJ c hic hc, hz' i hiJ c hic hc, mul_zero]
  · rcases Nat.lt_or_ge i J with hiJ | hiJ
    · left
      rw [a1 i hi, b1 i hi, applyQ_extra m q.a q.ipvt J n hJ hd.zero, applyQ_extra m' q'.a q'.ipvt J n hJ hd'.zero]
      refine hs _ _ (fun t ht => ?_) i hiJ
      rw [hcol t (by omega), hcol' t (by omega), h.ipvt]
      exact hf _ (hd.lt t (by omega))
    · right
      intro c hc hcn
      rw [hup i c hc hcn]
      exact hz i hiJ c hc hcn

end Verif.Mpfit.Order
