import Mathlib.Data.List.InsertIdx
import Mathlib.Data.List.GetD
import Verif.Cube.Model

/-! # Lemmas on axis manipulations -/

namespace Verif.Cube

open Verif.NumPy

variable {α β : Type*}

theorem findAxis_snoc (isKey : ℕ → Bool) (N d : ℕ) :
    findAxis isKey (N + 1) d = if isKey (N + 1) then N + 1 else findAxis isKey N d := by
  unfold findAxis
  rw [List.range_succ, List.foldl_append]
  rfl

theorem findAxis_le (isKey : ℕ → Bool) (N d : ℕ) : findAxis isKey N d = d ∨
    (1 ≤ findAxis isKey N d ∧ findAxis isKey N d ≤ N) := by
  induction N with
  | zero => exact Or.inl rfl
  | succ N ih =>
    rw [findAxis_snoc]
    split_ifs with h
    · right; omega
    · rcases ih with h | h
      · exact Or.inl h
      · exact Or.inr ⟨h.1, by omega⟩

/-- The default matters only if no axis matches. -/
theorem findAxis_default (isKey : ℕ → Bool) (N d d' : ℕ) (hd : d = 0 ∨ N < d) (h : findAxis isKey N d ≠ d) :
    findAxis isKey N d' = findAxis isKey N d := by
  induction N with
  | zero => exact absurd rfl h
  | succ N ih =>
    rw [findAxis_snoc] at h
    rw [findAxis_snoc, findAxis_snoc]
    split_ifs with h1
    · rfl
    · rw [if_neg h1] at h
      exact ih (by omega) h

theorem findAxis_zero (isKey : ℕ → Bool) (N d : ℕ) (h : findAxis isKey N 0 = 0) : findAxis isKey N d = d := by
  induction N with
  | zero => rfl
  | succ N ih =>
    rw [findAxis_snoc] at h ⊢
    split_ifs at h ⊢ with h1
    exact ih h

/-- `findAxis` gives the last matching axis. -/
theorem findAxis_spec (isKey : ℕ → Bool) (N d j : ℕ) (h1 : 1 ≤ j) (hj : j ≤ N) (hk : isKey j = true)
    (hlast : ∀ i, j < i → i ≤ N → isKey i = false) : findAxis isKey N d = j := by
  induction N with
  | zero => omega
  | succ N ih =>
    rw [findAxis_snoc]
    rcases Nat.lt_or_ge N j with h | h
    · have : j = N + 1 := by omega
      rw [if_pos (this ▸ hk), this]
    · rw [if_neg (by rw [hlast (N + 1) (by omega) le_rfl]; simp)]
      exact ih h (fun i h2 h3 => hlast i h2 (by omega))

/-- Pixel `t` of plane `c` of an array whose spectral axis is first. -/
def row (a : NdArr α) (c t : ℕ) : α := a.get (c :: unflat a.shape.tail t)

/-- Pixel `t` of plane `c` of an array whose spectral axis is axis `k`: the pixels are counted in C order
of the other axes. -/
def canon (d : NdArr α) (k c t : ℕ) : α := d.get ((unflat (d.shape.eraseIdx k) t).insertIdx k c)

theorem canon_zero (d : NdArr α) (c t : ℕ) : canon d 0 c t = row d c t := by
  unfold canon row
  simp

theorem getD_eq (s : List ℕ) (k : ℕ) (h : k < s.length) : s.getD k 0 = s[k] := List.getD_eq_getElem s 0 h

theorem row_moveaxis (d : NdArr α) (k c t : ℕ) :
    (d.moveaxis k 0).shape = d.shape.getD k 0 :: d.shape.eraseIdx k ∧
    row (d.moveaxis k 0) c t = canon d k c t := by
  unfold row canon NdArr.moveaxis
  simp

theorem sqz_cons (n : ℕ) (s : List ℕ) (h : n ≠ 1) : sqz (n :: s) = n :: sqz s := by simp [sqz, h]

theorem fill_cons (n : ℕ) (s : List ℕ) (h : n ≠ 1) (i : ℕ) (idx : List ℕ) :
    fill (n :: s) (i :: idx) = i :: fill s idx := by simp [fill, h]

theorem row_squeeze (a : NdArr α) (n : ℕ) (s : List ℕ) (hs : a.shape = n :: s) (hn : n ≠ 1) (c t : ℕ)
    (ht : t < s.prod) : a.squeeze.shape = n :: sqz s ∧ row a.squeeze c t = row a c t := by
  unfold row NdArr.squeeze
  simp only [hs, sqz_cons n s hn, List.tail_cons, fill_cons n s hn]
  exact ⟨trivial, by rw [fill_unflat _ _ ht]⟩

/-- The number of pixels is not changed by removing axes of length one. -/
theorem sqz_sqz (s : List ℕ) : sqz (sqz s) = sqz s := by
  unfold sqz
  rw [List.filter_filter]
  simp

/-- What `synthCube` gives: the squeezed array of depths and pixels. -/
theorem synthCube_spec (F : List (List α) → ℕ → ℕ → β) (n nPhi : ℕ) (a : NdArr α) (rest : List ℕ)
    (hs : a.shape = n :: rest) (hlen : rest.length ≤ 2) (hphi : nPhi ≠ 1) :
    ∃ b, synthCube F n nPhi a = some b ∧ b.shape = nPhi :: sqz rest ∧
      ∀ k < nPhi, ∀ t < rest.prod, row b k t =
        F ((List.range n).map fun c => (List.range rest.prod).map fun t => row a c t) k t := by
  unfold synthCube
  rw [hs]
  dsimp only
  rw [if_neg (by simp), if_neg (by simp; omega)]
  have hr : a.reshape [n, rest.prod] = some
      { shape := [n, rest.prod], get := fun idx => a.get (unflat (n :: rest) (flat [n, rest.prod] idx)) } := by
    unfold NdArr.reshape
    rw [if_pos (by rw [hs]; simp), hs]
  rw [hr, Option.bind_some]
  have htab : table n rest.prod
      { shape := [n, rest.prod], get := fun idx => a.get (unflat (n :: rest) (flat [n, rest.prod] idx)) } =
      (List.range n).map fun c => (List.range rest.prod).map fun t => row a c t := by
    unfold table
    apply List.map_congr_left
    intro c hc
    apply List.map_congr_left
    intro t ht
    have ht' := List.mem_range.1 ht
    simp only [flat, unflat, List.prod_cons, List.prod_nil, mul_one, add_zero]
    unfold row
    rw [hs, List.tail_cons, mul_comm, Nat.mul_add_div (by omega), Nat.mul_add_mod,
      Nat.div_eq_of_lt ht', Nat.mod_eq_of_lt ht', add_zero]
  rw [htab]
  set M := (List.range n).map fun c => (List.range rest.prod).map fun t => row a c t
  by_cases h2 : rest.length = 2
  · simp only [h2, if_true]
    unfold NdArr.reshape
    rw [if_pos (by simp)]
    refine ⟨_, rfl, ?_, ?_⟩
    · unfold NdArr.squeeze
      exact sqz_cons _ _ hphi
    · intro k hk t ht
      have ht' : t < (sqz rest).prod := by rw [sqz_prod]; exact ht
      unfold row NdArr.squeeze
      simp only [sqz_cons _ _ hphi, List.tail_cons, fill_cons _ _ hphi]
      rw [fill_unflat _ _ ht]
      simp only [flat, unflat, flat_unflat _ _ ht, List.prod_cons, List.prod_nil, mul_one]
      rw [mul_comm k, Nat.mul_add_div (by omega), Nat.mul_add_mod, Nat.div_eq_of_lt ht, Nat.mod_eq_of_lt ht]
      simp
  · simp only [h2, if_false]
    have hle : rest.length ≤ 1 := by omega
    refine ⟨_, rfl, ?_, ?_⟩
    · unfold NdArr.squeeze
      simp only [sqz_cons _ _ hphi]
      match rest, hle with
      | [], _ => simp [sqz]
      | [m], _ => simp
    · intro k hk t ht
      unfold row NdArr.squeeze
      simp only [sqz_cons _ _ hphi, List.tail_cons, fill_cons _ _ hphi]
      rw [fill_unflat _ _ (by simpa using ht)]
      simp [unflat]

theorem inShape_insertIdx (S : List ℕ) (k n : ℕ) (idx : List ℕ) (hk : k ≤ S.length)
    (h : InShape (S.insertIdx k n) idx) : InShape (n :: S) (idx.getD k 0 :: idx.eraseIdx k) := by
  induction k generalizing S idx with
  | zero =>
    rw [List.insertIdx_zero] at h
    obtain ⟨i, l, hi, hl, rfl⟩ := List.forall₂_cons_right_iff.1 h
    exact .cons (by simpa using hi) (by simpa using hl)
  | succ k ih =>
    cases S with
    | nil => simp at hk
    | cons m S =>
      rw [List.insertIdx_succ_cons] at h
      obtain ⟨i, l, hi, hl, rfl⟩ := List.forall₂_cons_right_iff.1 h
      have := ih S l (by simpa using hk) hl
      obtain ⟨h1, h2⟩ := List.forall₂_cons.1 this
      exact .cons (by simpa using h1) (.cons hi h2)

/-- Reading the pixel at an index: the table entry is the value with the index along axis `k` replaced. -/
theorem canon_flat (d : NdArr α) (k c : ℕ) (idx : List ℕ) (hk : k < idx.length)
    (h : InShape (d.shape.eraseIdx k) (idx.eraseIdx k)) :
    canon d k c (flat (d.shape.eraseIdx k) (idx.eraseIdx k)) = d.get (idx.set k c) := by
  unfold canon
  rw [unflat_flat _ _ h, List.insertIdx_eraseIdx_self (by omega)]

end Verif.Cube
