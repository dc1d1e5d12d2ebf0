import Verif.Chunks.Model
import Mathlib.Tactic

/-!
# Helper lemmas for chunks
-/

namespace Verif.Chunks

variable {α β : Type*}

/-! ## Numbers in file names -/

/-- The last `w` decimal digits of `i`. -/
def pad : ℕ → ℕ → List Char
  | 0, _ => []
  | w + 1, i => pad w (i / 10) ++ [Nat.digitChar (i % 10)]

theorem length_pad (w i : ℕ) : (pad w i).length = w := by
  induction w generalizing i with
  | zero => rfl
  | succ w ih => simp [pad, ih]

theorem pad_zero (w : ℕ) : pad w 0 = List.replicate w '0' := by
  induction w with
  | zero => rfl
  | succ w ih =>
    simp only [pad, Nat.zero_div, Nat.zero_mod, ih]
    rw [List.replicate_succ', Nat.digitChar]
    simp

theorem fmt_eq_pad (w i : ℕ) (hw : 0 < w) (h : i < 10 ^ w) : fmt w i = pad w i := by
  induction w generalizing i with
  | zero => omega
  | succ w ih =>
    unfold fmt
    rcases Nat.lt_or_ge i 10 with h10 | h10
    · rw [Nat.toDigits_of_lt_base h10]
      simp only [pad, List.length_singleton]
      rw [Nat.div_eq_of_lt h10, Nat.mod_eq_of_lt h10, pad_zero]
      simp
    · have hw' : 0 < w := by
        rcases Nat.eq_zero_or_pos w with rfl | h
        · simp at h; omega
        · exact h
      have hd : i / 10 < 10 ^ w := by
        rw [Nat.div_lt_iff_lt_mul (by norm_num)]
        rwa [pow_succ] at h
      have := ih (i / 10) hw' hd
      unfold fmt at this
      rw [Nat.toDigits_of_base_le (by norm_num) h10]
      simp only [pad, List.length_append, List.length_singleton]
      rw [← this, ← List.append_assoc]
      congr 2
      congr 1
      omega

theorem lex_append_of_length {a b : List Char} (h : a < b) (hl : a.length = b.length) (c d : List Char) :
    a ++ c < b ++ d := by
  induction a generalizing b with
  | nil =>
    cases b with
    | nil => simp at h
    | cons y b => simp at hl
  | cons x a ih =>
    cases b with
    | nil => simp at hl
    | cons y b =>
      rw [List.cons_append, List.cons_append]
      rcases List.cons_lt_cons_iff.1 h with h1 | ⟨h1, h2⟩
      · exact List.cons_lt_cons_iff.2 (Or.inl h1)
      · exact List.cons_lt_cons_iff.2 (Or.inr ⟨h1, ih h2 (by simpa using hl)⟩)

theorem append_lt_append_left (p : List Char) {a b : List Char} (h : a < b) : p ++ a < p ++ b := by
  induction p with
  | nil => exact h
  | cons x p ih => exact List.cons_lt_cons_iff.2 (Or.inr ⟨rfl, ih⟩)

theorem digitChar_lt {a b : ℕ} (h : a < b) (hb : b < 10) : Nat.digitChar a < Nat.digitChar b := by
  have : a < 10 := by omega
  interval_cases b <;> interval_cases a <;> decide

theorem pad_lt (w i j : ℕ) (hij : i < j) (hj : j < 10 ^ w) : pad w i < pad w j := by
  induction w generalizing i j with
  | zero => simp at hj; omega
  | succ w ih =>
    simp only [pad]
    rcases Nat.lt_or_ge (i / 10) (j / 10) with h | h
    · apply lex_append_of_length
      · apply ih _ _ h
        rw [Nat.div_lt_iff_lt_mul (by norm_num)]
        rwa [pow_succ] at hj
      · rw [length_pad, length_pad]
    · have he : i / 10 = j / 10 := le_antisymm (Nat.div_le_div_right hij.le) h
      rw [he]
      apply append_lt_append_left
      refine List.cons_lt_cons_iff.2 (Or.inl (digitChar_lt ?_ (Nat.mod_lt _ (by norm_num))))
      omega

theorem chunkName_lt (pre post : List Char) (k i j : ℕ) (hij : i < j) (hj : j < k) :
    chunkName pre post k i < chunkName pre post k j := by
  have hk : k < 10 ^ digits k := Nat.lt_pow_succ_log_self (by norm_num) k
  have hd : 0 < digits k := Nat.succ_pos _
  unfold chunkName
  rw [List.append_assoc, List.append_assoc]
  apply append_lt_append_left
  rw [List.cons_append, List.cons_append, List.cons_append, List.cons_append,
    fmt_eq_pad _ _ hd (by omega), fmt_eq_pad _ _ hd (by omega)]
  refine List.cons_lt_cons_iff.2 (Or.inr ⟨rfl, List.cons_lt_cons_iff.2 (Or.inr ⟨rfl, ?_⟩)⟩)
  exact lex_append_of_length (pad_lt _ _ _ hij (by omega)) (by rw [length_pad, length_pad]) _ _

/-! ## Sizes -/

theorem ceilDiv_spec (a n : ℕ) (hn : 0 < n) (hk : 0 < ceilDiv a n) :
    (ceilDiv a n - 1) * n < a ∧ a ≤ ceilDiv a n * n := by
  unfold ceilDiv at *
  obtain ⟨q, hq⟩ : ∃ q, q = (a + n - 1) / n := ⟨_, rfl⟩
  rw [← hq] at hk ⊢
  have h1 : q * n ≤ a + n - 1 := by rw [hq]; exact Nat.div_mul_le_self _ _
  have h2 : a + n - 1 < (q + 1) * n := by
    rw [hq]; exact Nat.lt_mul_of_div_lt (Nat.lt_succ_self _) hn
  obtain ⟨q', rfl⟩ : ∃ q', q = q' + 1 := ⟨q - 1, by omega⟩
  rw [Nat.add_sub_cancel]
  rw [add_mul, one_mul] at h1 h2
  rw [add_mul, one_mul] at h2 ⊢
  omega

theorem two_le_ceilDiv (a n : ℕ) (hn : 0 < n) (h : n < a) : 2 ≤ ceilDiv a n := by
  unfold ceilDiv
  rw [Nat.le_div_iff_mul_le hn]
  omega

theorem mem_fullIdx (n i s : ℕ) (hn : 0 < n) : s ∈ fullIdx n i ↔ s / n = i := by
  unfold fullIdx
  rw [List.mem_map]
  constructor
  · rintro ⟨t, ht, rfl⟩
    rw [List.mem_range] at ht
    rw [Nat.add_mul_div_right _ _ hn, Nat.div_eq_of_lt ht, zero_add]
  · rintro rfl
    exact ⟨s % n, List.mem_range.2 (Nat.mod_lt _ hn), by rw [mul_comm]; exact Nat.mod_add_div s n⟩

theorem mem_chunkIdx (n npix k i s : ℕ) (hn : 0 < n) (hk : k = ceilDiv npix n) (hi : i < k)  :
    s ∈ chunkIdx n npix k i ↔ s < npix ∧ s / n = i := by
  have h0 := ceilDiv_spec npix n hn (by omega)
  rw [← hk] at h0
  unfold chunkIdx
  split_ifs with h
  · rw [mem_fullIdx _ _ _ hn]
    constructor
    · intro h1
      refine ⟨?_, h1⟩
      have h2 : s < (i + 1) * n := Nat.lt_mul_of_div_lt (by omega) hn
      have h3 : (i + 1) * n ≤ (k - 1) * n := Nat.mul_le_mul_right _ (by omega)
      omega
    · exact fun h1 => h1.2
  · rw [List.mem_filter, mem_fullIdx _ _ _ hn]
    simp [and_comm]

theorem length_chunkIdx_le (n npix k i : ℕ) : (chunkIdx n npix k i).length ≤ n := by
  unfold chunkIdx
  split_ifs
  · simp [fullIdx]
  · exact (List.length_filter_le _ _).trans (by simp [fullIdx])

/-! ## Reading and writing pixels -/

theorem pixel_index {X Y x y : ℕ} (hx : x < X) (hy : y < Y) :
    x * Y + y < X * Y ∧ (x * Y + y) / Y = x ∧ (x * Y + y) % Y = y := by
  have h0 : 0 < Y := by omega
  refine ⟨?_, ?_, ?_⟩
  · calc x * Y + y < x * Y + Y := by omega
      _ = (x + 1) * Y := by ring
      _ ≤ X * Y := Nat.mul_le_mul_right _ hx
  · rw [mul_comm, Nat.mul_add_div h0, Nat.div_eq_of_lt hy, add_zero]
  · rw [mul_comm, Nat.mul_add_mod, Nat.mod_eq_of_lt hy]

theorem index_pixel {X Y t : ℕ} (h : t < X * Y) : t / Y < X ∧ t % Y < Y := by
  have h0 : 0 < Y := by
    rcases Nat.eq_zero_or_pos Y with rfl | h0
    · simp at h
    · exact h0
  exact ⟨by rwa [Nat.div_lt_iff_lt_mul h0], Nat.mod_lt _ h0⟩

theorem index_eq_iff {Y t x y : ℕ} (hy : y < Y) : (t / Y = x ∧ t % Y = y) ↔ t = x * Y + y := by
  constructor
  · rintro ⟨rfl, rfl⟩
    have := Nat.div_add_mod t Y
    rw [mul_comm] at this
    exact this.symm
  · rintro rfl
    exact (pixel_index (Nat.lt_succ_self x) hy).2

/-- A pixel by its running number. -/
noncomputable def pixAt {X Y : ℕ} (img : Fin X → Fin Y → α) (d : α) (t : ℕ) : α :=
  if h : t / Y < X ∧ t % Y < Y then img ⟨t / Y, h.1⟩ ⟨t % Y, h.2⟩ else d

theorem select_eq {X Y : ℕ} (img : Fin X → Fin Y → α) (d : α) (idx : List ℕ)
    (h : ∀ t ∈ idx, t < X * Y) : select img idx = some (idx.map (pixAt img d)) := by
  unfold select
  induction idx with
  | nil => rfl
  | cons t l ih =>
    have ht := index_pixel (h t List.mem_cons_self)
    rw [List.mapM_cons, ih fun t ht => h t (List.mem_cons_of_mem _ ht)]
    simp [ht, pixAt]

theorem write_fold (Y : ℕ) (g : ℕ → β) (idx : List ℕ) (im : Image β) (x y : ℕ) (hy : y < Y) :
    ((idx.zip (idx.map g)).foldl (fun im p => writePix Y im p.1 p.2) im) x y =
      if x * Y + y ∈ idx then some (g (x * Y + y)) else im x y := by
  induction idx generalizing im with
  | nil => simp
  | cons t l ih =>
    rw [List.map_cons, List.zip_cons_cons, List.foldl_cons, ih]
    by_cases hl : x * Y + y ∈ l
    · rw [if_pos hl, if_pos (List.mem_cons_of_mem _ hl)]
    · rw [if_neg hl]
      simp only [writePix, index_eq_iff hy]
      by_cases ht : t = x * Y + y
      · rw [if_pos ht, if_pos (by rw [ht]; exact List.mem_cons_self), ht]
      · rw [if_neg ht, if_neg]
        intro h
        rcases List.mem_cons.1 h with h | h
        · exact ht h.symm
        · exact hl h

theorem writeChunk_eq (Y : ℕ) (g : ℕ → β) (idx : List ℕ) (im : Image β) :
    ∃ im', writeChunk Y im idx (idx.map g) = some im' ∧ ∀ x y, y < Y → im' x y =
      if x * Y + y ∈ idx then some (g (x * Y + y)) else im x y := by
  refine ⟨_, by unfold writeChunk; rw [if_pos (by simp)], fun x y hy => write_fold Y g idx im x y hy⟩

theorem mapM_some {γ δ : Type*} (l : List γ) (f : γ → Option δ) (g : γ → δ) (h : ∀ a ∈ l, f a = some (g a)) :
    l.mapM f = some (l.map g) := by
  induction l with
  | nil => rfl
  | cons a l ih =>
    rw [List.mapM_cons, h a List.mem_cons_self, ih fun a ha => h a (List.mem_cons_of_mem _ ha)]
    rfl

end Verif.Chunks
