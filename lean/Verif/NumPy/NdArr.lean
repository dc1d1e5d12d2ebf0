import Mathlib.Data.List.Forall2
import Mathlib.Algebra.BigOperators.Group.List.Basic
import Mathlib.Tactic
import Verif.NumPy.Basic

/-!
# N-dimensional arrays

An array is its shape (numpy order: slowest axis first) and a function from index lists to values. Only
the values at valid indices count.
-/

namespace Verif.NumPy

structure NdArr (α : Type*) where
  shape : List ℕ
  get : List ℕ → α

/-- Position of an index in C order. -/
def flat : List ℕ → List ℕ → ℕ
  | _ :: s, i :: idx => i * s.prod + flat s idx
  | _, _ => 0

/-- The index at a position in C order. -/
def unflat : List ℕ → ℕ → List ℕ
  | [], _ => []
  | _ :: s, t => t / s.prod :: unflat s (t % s.prod)

/-- Shape without the axes of length one. -/
def sqz (s : List ℕ) : List ℕ := s.filter (· ≠ 1)

/-- Index with the axes of length one put back. -/
def fill : List ℕ → List ℕ → List ℕ
  | [], _ => []
  | n :: s, idx => if n = 1 then 0 :: fill s idx else
    match idx with
    | [] => []
    | i :: idx => i :: fill s idx

namespace NdArr

variable {α : Type*}

/-- `idx` is a valid index of the array. -/
def Valid (a : NdArr α) (idx : List ℕ) : Prop := List.Forall₂ (· < ·) idx a.shape

/-- Basic slicing with one `start:stop` per axis (numpy): each axis has
`sliceBound stop - sliceBound start` entries, none if that is negative. -/
def slice (a : NdArr α) (sl : List (ℤ × ℤ)) : NdArr α where
  shape := List.zipWith (fun n s => sliceBound n s.2 - sliceBound n s.1) a.shape sl
  get idx := a.get (List.zipWith (· + ·) (List.zipWith (fun n s => sliceBound n s.1) a.shape sl) idx)

/-- `np.squeeze(a)`. -/
def squeeze (a : NdArr α) : NdArr α where
  shape := sqz a.shape
  get idx := a.get (fill a.shape idx)

/-- `np.reshape(a, s)`: raises unless the number of elements is the same. -/
def reshape (a : NdArr α) (s : List ℕ) : Option (NdArr α) :=
  if a.shape.prod = s.prod then
    some { shape := s, get := fun idx => a.get (unflat a.shape (flat s idx)) }
  else none

/-- `np.moveaxis(a, src, dst)` for axis numbers in range. -/
def moveaxis (a : NdArr α) (src dst : ℕ) : NdArr α where
  shape := (a.shape.eraseIdx src).insertIdx dst (a.shape.getD src 0)
  get idx := a.get ((idx.eraseIdx dst).insertIdx src (idx.getD dst 0))

/-- `np.expand_dims(a, axis=tuple(range(m)))`: `m` axes of length one in front. -/
def expandFront (a : NdArr α) (m : ℕ) : NdArr α where
  shape := List.replicate m 1 ++ a.shape
  get idx := a.get (idx.drop m)

/-- Same shape and same values. -/
def Same (a b : NdArr α) : Prop := a.shape = b.shape ∧ ∀ idx, a.Valid idx → a.get idx = b.get idx

end NdArr

/-- Valid index of a shape. -/
abbrev InShape (s : List ℕ) (idx : List ℕ) : Prop := List.Forall₂ (· < ·) idx s

theorem flat_lt (s idx : List ℕ) (h : InShape s idx) : flat s idx < s.prod := by
  induction h with
  | nil => simp [flat]
  | @cons i n idx s hi _ ih =>
    simp only [flat, List.prod_cons]
    calc i * s.prod + flat s idx < i * s.prod + s.prod := by omega
      _ = (i + 1) * s.prod := by ring
      _ ≤ n * s.prod := Nat.mul_le_mul_right _ hi

theorem unflat_flat (s idx : List ℕ) (h : InShape s idx) : unflat s (flat s idx) = idx := by
  induction h with
  | nil => rfl
  | @cons i n idx s hi hs ih =>
    have h1 := flat_lt s idx hs
    simp only [flat, unflat]
    rw [mul_comm, Nat.mul_add_div (by omega), Nat.mul_add_mod, Nat.div_eq_of_lt h1, Nat.mod_eq_of_lt h1,
      ih, add_zero]

theorem unflat_valid (s : List ℕ) (t : ℕ) (h : t < s.prod) : InShape s (unflat s t) := by
  induction s generalizing t with
  | nil => exact .nil
  | cons n s ih =>
    rw [List.prod_cons] at h
    have hs : 0 < s.prod := by
      rcases Nat.eq_zero_or_pos s.prod with h0 | h0
      · rw [h0] at h; omega
      · exact h0
    exact .cons (Nat.div_lt_of_lt_mul (by rw [mul_comm]; exact h)) (ih _ (Nat.mod_lt _ hs))

theorem flat_unflat (s : List ℕ) (t : ℕ) (h : t < s.prod) : flat s (unflat s t) = t := by
  induction s generalizing t with
  | nil => simp at h; simp [flat, h]
  | cons n s ih =>
    rw [List.prod_cons] at h
    have hs : 0 < s.prod := by
      rcases Nat.eq_zero_or_pos s.prod with h0 | h0
      · rw [h0] at h; omega
      · exact h0
    simp only [flat, unflat]
    rw [ih _ (Nat.mod_lt _ hs), mul_comm]
    exact Nat.div_add_mod _ _

theorem sqz_prod (s : List ℕ) : (sqz s).prod = s.prod := by
  induction s with
  | nil => rfl
  | cons n s ih =>
    by_cases h : n = 1
    · rw [show sqz (n :: s) = sqz s by simp [sqz, h], ih, h, List.prod_cons, one_mul]
    · rw [show sqz (n :: s) = n :: sqz s by simp [sqz, h], List.prod_cons, List.prod_cons, ih]

theorem fill_spec (s idx : List ℕ) (h : InShape (sqz s) idx) :
    InShape s (fill s idx) ∧ flat s (fill s idx) = flat (sqz s) idx := by
  induction s generalizing idx with
  | nil =>
    simp only [fill, sqz, List.filter_nil] at h ⊢
    exact ⟨.nil, by cases h; rfl⟩
  | cons n s ih =>
    by_cases hn : n = 1
    · have e : sqz (n :: s) = sqz s := by simp [sqz, hn]
      rw [e] at h ⊢
      obtain ⟨h1, h2⟩ := ih idx h
      have e2 : fill (n :: s) idx = 0 :: fill s idx := by simp [fill, hn]
      rw [e2]
      refine ⟨.cons (by omega) h1, ?_⟩
      simp only [flat]
      rw [h2]; simp
    · have e : sqz (n :: s) = n :: sqz s := by simp [sqz, hn]
      rw [e] at h ⊢
      obtain ⟨i, idx', hi, h', rfl⟩ := List.forall₂_cons_right_iff.1 h
      obtain ⟨h1, h2⟩ := ih idx' h'
      have e2 : fill (n :: s) (i :: idx') = i :: fill s idx' := by simp [fill, hn]
      rw [e2]
      refine ⟨.cons hi h1, ?_⟩
      simp only [flat]
      rw [h2, sqz_prod]

theorem fill_unflat (s : List ℕ) (t : ℕ) (h : t < s.prod) : fill s (unflat (sqz s) t) = unflat s t := by
  have hv := unflat_valid (sqz s) t (by rw [sqz_prod]; exact h)
  obtain ⟨h1, h2⟩ := fill_spec s _ hv
  rw [flat_unflat _ _ (by rw [sqz_prod]; exact h)] at h2
  rw [← unflat_flat s _ h1, h2]

/-- The full slice `:` of an axis of length `n`. -/
def allOf (n : ℕ) : ℤ × ℤ := (0, n)

theorem sliceBound_le (n : ℕ) (i : ℤ) : sliceBound n i ≤ n := by
  unfold sliceBound
  split_ifs <;> omega

theorem sliceBound_of_mem (n : ℕ) (i : ℤ) (h0 : 0 ≤ i) (h1 : i ≤ n) : (sliceBound n i : ℤ) = i := by
  unfold sliceBound
  rw [if_neg (by omega)]
  omega

end Verif.NumPy
