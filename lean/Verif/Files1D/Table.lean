import Verif.Files1D.Decimal

/-!
# Tables of numbers as text files

`np.savetxt` and `np.loadtxt(unpack=True)` as used in `/repo/RMtools_1D/do_RMsynth_1D.py` 525-655 and
`/repo/RMtools_1D/do_RMclean_1D.py` 283-374. Lines end with `\n` (`\r\n` is covered, since `\r` is white space; a lone
`\r` as end of line is not).
-/

namespace Verif.Files1D

open Verif.NumPy

/-- One line of `np.savetxt`: the values separated by one blank. -/
noncomputable def line (r : List (Option ℝ)) : List Char := List.intercalate [' '] (r.map cell)

/-- `np.savetxt(file, rows)`. -/
noncomputable def saveTxt : List (List (Option ℝ)) → List Char
  | [] => []
  | r :: rows => line r ++ '\n' :: saveTxt rows

/-- The words of a line before a comment. -/
def words (l : List Char) : List (List Char) := splitWs (l.takeWhile fun c => decide (c ≠ '#'))

/-- The lines that have words. -/
def rowsOf (s : List Char) : List (List (List Char)) := ((splitOn '\n' s).map words).filter fun r => decide (r ≠ [])

/-- The converted words of all rows; `none`: a word is no number. -/
noncomputable def convert (F : Format) (rows : List (List (List Char))) : Option (List (List (Option ℝ))) :=
  rows.mapM fun r => r.mapM (value F)

/-- The rows of the file; `none`: a `ValueError`, from a word that is no number or rows of different lengths. -/
noncomputable def loadRows (F : Format) (s : List Char) : Option (List (List (Option ℝ))) :=
  (convert F (rowsOf s)).bind fun t => if ∀ r ∈ t, r.length = (t.headD []).length then some t else none

/-- What `unpack=True` gives: a sequence of arrays or of single numbers. -/
inductive Cols
  | arrays (c : List (List (Option ℝ)))
  | numbers (c : List (Option ℝ))

/-- Number of items of the sequence. -/
def Cols.size : Cols → ℕ
  | arrays c => c.length
  | numbers c => c.length

/-- Column `j` of a table. -/
def column (t : List (List (Option ℝ))) (j : ℕ) : List (Option ℝ) := t.map fun r => r.getD j none

/-- The array of `np.loadtxt` is squeezed before it is transposed: a single row, and also a single column, becomes a
sequence of numbers. `none`: the result is empty, or has no axis. -/
def unpack (t : List (List (Option ℝ))) : Option Cols :=
  match t with
  | [] => none
  | [r] => if r.length = 1 then none else some (.numbers r)
  | r :: r' :: t =>
    if r.length = 1 then some (.numbers (column (r :: r' :: t) 0))
    else some (.arrays ((List.range r.length).map (column (r :: r' :: t))))

/-- `a1, …, ak = np.loadtxt(file, unpack=True, dtype=…)`; `none`: an exception. -/
noncomputable def loadTxt (F : Format) (k : ℕ) (s : List Char) : Option Cols :=
  (loadRows F s).bind fun t => (unpack t).bind fun c => if c.size = k then some c else none

/-! ## Reading what was written -/

theorem takeWhile_all {α : Type*} (p : α → Bool) (l : List α) (h : ∀ a ∈ l, p a = true) : l.takeWhile p = l := by
  induction l with
  | nil => rfl
  | cons a l ih => rw [List.takeWhile_cons_of_pos (h a (by simp)), ih fun b hb => h b (by simp [hb])]

theorem mem_intercalate (d : Char) (ws : List (List Char)) (c : Char) (h : c ∈ List.intercalate [d] ws) :
    c = d ∨ ∃ w ∈ ws, c ∈ w := by
  induction ws with
  | nil => simp [List.intercalate] at h
  | cons w ws ih =>
    cases ws with
    | nil =>
      simp only [List.intercalate, List.intersperse, List.flatten_cons, List.flatten_nil, List.append_nil] at h
      exact Or.inr ⟨w, by simp, h⟩
    | cons w' ws =>
      have hi : List.intercalate [d] (w :: w' :: ws) = w ++ d :: List.intercalate [d] (w' :: ws) := by
        simp [List.intercalate, List.intersperse]
      rw [hi, List.mem_append, List.mem_cons] at h
      rcases h with h | h | h
      · exact Or.inr ⟨w, by simp, h⟩
      · exact Or.inl h
      · rcases ih h with h | ⟨v, hv, hc⟩
        · exact Or.inl h
        · exact Or.inr ⟨v, by simp [hv], hc⟩

theorem splitWs_join (ws : List (List Char)) (h : ∀ w ∈ ws, w ≠ [] ∧ ∀ c ∈ w, isSpace c = false) :
    splitWs (List.intercalate [' '] ws) = ws := by
  induction ws with
  | nil => rfl
  | cons w ws ih =>
    cases ws with
    | nil =>
      simp only [List.intercalate, List.intersperse, List.flatten_cons, List.flatten_nil, List.append_nil]
      exact splitWs_end w (h w (by simp)).2 (h w (by simp)).1
    | cons w' ws =>
      have hi : List.intercalate [' '] (w :: w' :: ws) = w ++ ' ' :: List.intercalate [' '] (w' :: ws) := by
        simp [List.intercalate, List.intersperse]
      rw [hi, splitWs_word w _ (h w (by simp)).2 (h w (by simp)).1 ' ' (by decide),
        ih fun v hv => h v (List.mem_cons_of_mem _ hv)]

theorem line_chars (r : List (Option ℝ)) : ∀ c ∈ line r, c ≠ '#' ∧ c ≠ '\n' := by
  intro c hc
  rcases mem_intercalate ' ' _ c hc with h | ⟨w, hw, h⟩
  · subst h
    decide
  · obtain ⟨v, -, rfl⟩ := List.mem_map.mp hw
    exact (cell_chars v c h).2

theorem words_line (r : List (Option ℝ)) : words (line r) = r.map cell := by
  unfold words
  rw [takeWhile_all _ _ fun c hc => by simpa using (line_chars r c hc).1]
  refine splitWs_join _ fun w hw => ?_
  obtain ⟨v, -, rfl⟩ := List.mem_map.mp hw
  exact ⟨cell_ne v, fun c hc => (cell_chars v c hc).1⟩

theorem rowsOf_save (t : List (List (Option ℝ))) (h : ∀ r ∈ t, r ≠ []) :
    rowsOf (saveTxt t) = t.map fun r => r.map cell := by
  induction t with
  | nil => rfl
  | cons r t ih =>
    have hn : '\n' ∉ line r := fun hc => (line_chars r _ hc).2 rfl
    have ih' := ih fun r hr => h r (by simp [hr])
    unfold rowsOf at ih' ⊢
    rw [saveTxt, splitOn_field _ _ _ hn, List.map_cons, words_line, List.filter_cons_of_pos, ih', List.map_cons]
    simp [h r (by simp)]

theorem mapM_value (F : Format) (r : List (Option ℝ)) (h : ∀ v ∈ r, f64.Val v) :
    (r.map cell).mapM (value F) = some (r.map (Option.map F.round)) := by
  induction r with
  | nil => rfl
  | cons v r ih =>
    rw [List.map_cons, List.mapM_cons, value_cell F v (h v (by simp)), ih fun w hw => h w (by simp [hw])]
    rfl

theorem convert_save (F : Format) (t : List (List (Option ℝ))) (h : ∀ r ∈ t, ∀ v ∈ r, f64.Val v) :
    convert F (t.map fun r => r.map cell) = some (t.map fun r => r.map (Option.map F.round)) := by
  unfold convert
  induction t with
  | nil => rfl
  | cons r t ih =>
    rw [List.map_cons, List.mapM_cons, mapM_value F r (h r (by simp)), ih fun w hw => h w (by simp [hw])]
    rfl

/-- A saved table of `float64` values is read back with its values rounded to the precision asked for. -/
theorem loadRows_save (F : Format) (t : List (List (Option ℝ))) (w : ℕ) (hw : 0 < w) (hr : ∀ r ∈ t, r.length = w)
    (h : ∀ r ∈ t, ∀ v ∈ r, f64.Val v) :
    loadRows F (saveTxt t) = some (t.map fun r => r.map (Option.map F.round)) := by
  unfold loadRows
  rw [rowsOf_save t fun r hr' => by
      intro e
      have := hr r hr'
      rw [e] at this
      simp at this
      omega,
    convert_save F t h, Option.bind_some, if_pos]
  intro r hr'
  obtain ⟨a, ha, rfl⟩ := List.mem_map.mp hr'
  cases t with
  | nil => exact absurd ha (by simp)
  | cons b t =>
    simp only [List.map_cons, List.headD_cons, List.length_map]
    rw [hr a ha, hr b (by simp)]

/-- The columns of a table with at least two rows and two columns. -/
theorem unpack_arrays (t : List (List (Option ℝ))) (w : ℕ) (hw : 2 ≤ w) (hr : ∀ r ∈ t, r.length = w)
    (ht : 2 ≤ t.length) : unpack t = some (.arrays ((List.range w).map (column t))) := by
  match t, ht with
  | a :: b :: t, _ =>
    have ha := hr a (by simp)
    have : unpack (a :: b :: t) = if a.length = 1 then some (.numbers (column (a :: b :: t) 0))
      else some (.arrays ((List.range a.length).map (column (a :: b :: t)))) := rfl
    rw [this, if_neg (by omega), ha]

/-- C185. A table of `float64` values with at least two rows and two columns that is saved and loaded gives its columns,
with every value rounded to the precision asked for. -/
theorem load_save (F : Format) (t : List (List (Option ℝ))) (w : ℕ) (hw : 2 ≤ w) (hr : ∀ r ∈ t, r.length = w)
    (ht : 2 ≤ t.length) (h : ∀ r ∈ t, ∀ v ∈ r, f64.Val v) :
    loadTxt F w (saveTxt t) = some (.arrays ((List.range w).map fun j => (column t j).map (Option.map F.round))) := by
  unfold loadTxt
  rw [loadRows_save F t w (by omega) hr h, Option.bind_some, unpack_arrays _ w hw ?_ (by simpa using ht),
    Option.bind_some]
  · have hs : (Cols.arrays ((List.range w).map (column (t.map fun r => r.map (Option.map F.round))))).size = w := by
      simp [Cols.size]
    rw [if_pos hs]
    congr 2
    refine List.map_congr_left fun j hj => ?_
    unfold column
    rw [List.map_map, List.map_map]
    refine List.map_congr_left fun r hr' => ?_
    simp only [Function.comp_apply, List.getD_eq_getElem?_getD, List.getElem?_map]
    rw [List.getElem?_eq_getElem (by rw [hr r hr']; simpa using hj)]
    rfl
  · intro r hr'
    obtain ⟨a, ha, rfl⟩ := List.mem_map.mp hr'
    rw [List.length_map, hr a ha]

/-- C185: nothing is lost if the values are those of the precision asked for. -/
theorem load_save_exact (F : Format) (hF : F = f32 ∨ F = f64) (t : List (List (Option ℝ))) (w : ℕ) (hw : 2 ≤ w)
    (hr : ∀ r ∈ t, r.length = w) (ht : 2 ≤ t.length) (h : ∀ r ∈ t, ∀ v ∈ r, F.Val v) :
    loadTxt F w (saveTxt t) = some (.arrays ((List.range w).map (column t))) := by
  have h64 : ∀ r ∈ t, ∀ v ∈ r, f64.Val v := by
    intro r hr v hv x hx
    rcases hF with e | e
    · subst e
      exact f32_f64 x (h r hr v hv x hx)
    · subst e
      exact h r hr v hv x hx
  rw [load_save F t w hw hr ht h64]
  congr 2
  refine List.map_congr_left fun j hj => ?_
  have : ∀ v ∈ column t j, v.map F.round = v := by
    intro v hv
    obtain ⟨r, hr', rfl⟩ := List.mem_map.mp hv
    refine map_round F _ ?_
    rw [List.getD_eq_getElem?_getD, List.getElem?_eq_getElem (by rw [hr r hr']; simpa using hj), Option.getD_some]
    exact h r hr' _ (List.getElem_mem _)
  rw [List.map_congr_left this, List.map_id']

end Verif.Files1D
