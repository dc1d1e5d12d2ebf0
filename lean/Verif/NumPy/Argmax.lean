import Mathlib.Data.List.FinRange
import Mathlib.Data.List.Sort
import Mathlib.Order.Basic

/-! # `np.argmax` and `np.max` -/

namespace Verif.NumPy

variable {α : Type*} [LinearOrder α] {N : ℕ} [NeZero N]

/-- `np.argmax(f)` for a non-empty array: scan from the left, keep the best index, replace it only
by a strictly larger entry (so the first maximum is returned). -/
def npArgmax (f : Fin N → α) : Fin N :=
  (List.finRange N).foldl (fun b i => if f b < f i then i else b) 0

/-- `np.max(f)` for a non-empty array. -/
def npMax (f : Fin N → α) : α := f (npArgmax f)

omit [NeZero N] in
theorem argmax_foldl (f : Fin N → α) (l : List (Fin N)) (b : Fin N) :
    let r := l.foldl (fun b i => if f b < f i then i else b) b
    f b ≤ f r ∧ ∀ i ∈ l, f i ≤ f r := by
  induction l generalizing b with
  | nil => simp
  | cons a t ih =>
    simp only [List.foldl_cons]
    by_cases h : f b < f a
    · simp only [if_pos h]
      obtain ⟨h1, h2⟩ := ih a
      refine ⟨h.le.trans h1, ?_⟩
      intro i hi
      rcases List.mem_cons.mp hi with rfl | hi
      · exact h1
      · exact h2 i hi
    · simp only [if_neg h]
      obtain ⟨h1, h2⟩ := ih b
      refine ⟨h1, ?_⟩
      intro i hi
      rcases List.mem_cons.mp hi with rfl | hi
      · exact (not_lt.mp h).trans h1
      · exact h2 i hi

/-- The index found is a maximum. -/
theorem le_npArgmax (f : Fin N → α) (i : Fin N) : f i ≤ f (npArgmax f) :=
  (argmax_foldl f (List.finRange N) 0).2 i (List.mem_finRange i)

theorem le_npMax (f : Fin N → α) (i : Fin N) : f i ≤ npMax f := le_npArgmax f i

omit [NeZero N] in
theorem argmax_foldl_mem (f : Fin N → α) (l : List (Fin N)) (b : Fin N)
    (hs : (b :: l).Pairwise (· ≤ ·)) :
    ∀ j, j ∈ b :: l → j < l.foldl (fun b i => if f b < f i then i else b) b →
      f j < f (l.foldl (fun b i => if f b < f i then i else b) b) := by
  induction l generalizing b with
  | nil => intro j hj h; simp at hj; subst hj; exact absurd h (lt_irrefl _)
  | cons a t ih =>
    intro j hj hlt
    simp only [List.foldl_cons] at hlt ⊢
    have hs' := List.pairwise_cons.mp hs
    by_cases h : f b < f a
    · simp only [if_pos h] at hlt ⊢
      rcases List.mem_cons.mp hj with rfl | hj
      · exact h.trans_le (argmax_foldl f t a).1
      · exact ih a hs'.2 j hj hlt
    · simp only [if_neg h] at hlt ⊢
      have hpt : (b :: t).Pairwise (· ≤ ·) := by
        rw [List.pairwise_cons]
        exact ⟨fun x hx => hs'.1 x (List.mem_cons_of_mem _ hx), (List.pairwise_cons.mp hs'.2).2⟩
      rcases List.mem_cons.mp hj with rfl | hj'
      · exact ih j hpt j List.mem_cons_self hlt
      · rcases List.mem_cons.mp hj' with rfl | hj''
        · -- `j = a`: not larger than `b`, and `b` comes before it
          have hba : b ≤ j := hs'.1 j List.mem_cons_self
          have := ih b hpt b List.mem_cons_self (hba.trans_lt hlt)
          exact (not_lt.mp h).trans_lt this
        · exact ih b hpt j (List.mem_cons_of_mem _ hj'') hlt

/-- The index found is the first maximum. -/
theorem npArgmax_first (f : Fin N → α) (j : Fin N) (h : j < npArgmax f) : f j < f (npArgmax f) := by
  have hs : ((0 : Fin N) :: List.finRange N).Pairwise (· ≤ ·) := by
    rw [List.pairwise_cons]
    refine ⟨fun x _ => Fin.zero_le x, ?_⟩
    exact (List.sortedLT_finRange N).pairwise.imp le_of_lt
  exact argmax_foldl_mem f _ 0 hs j (List.mem_cons_of_mem _ (List.mem_finRange j)) h

/-- Characterisation: the argmax is the only index which is a maximum and before all others. -/
theorem npArgmax_eq_iff (f : Fin N → α) (i : Fin N) :
    npArgmax f = i ↔ (∀ j, f j ≤ f i) ∧ ∀ j, j < i → f j < f i := by
  constructor
  · rintro rfl
    exact ⟨le_npArgmax f, npArgmax_first f⟩
  · rintro ⟨h1, h2⟩
    rcases lt_trichotomy (npArgmax f) i with h | h | h
    · exact absurd (le_npArgmax f i) (not_le.mpr (h2 _ h))
    · exact h
    · exact absurd (h1 (npArgmax f)) (not_le.mpr (npArgmax_first f i h))

end Verif.NumPy
