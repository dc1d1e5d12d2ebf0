import Verif.Files1D.Table

/-!
# Reading the input spectra

Source: `/repo/RMtools_1D/do_RMsynth_1D.py` 531-588 (`readFile`). The messages are not modelled.
-/

namespace Verif.Files1D

open Verif.NumPy

/-- `readFile`: seven columns are tried, then five; `none`: the program ends. -/
noncomputable def readFile (F : Format) (s : List Char) : Option Cols :=
  match loadTxt F 7 s with
  | some c => some c
  | none => loadTxt F 5 s

/-! ## Specification: how a table may be written -/

/-- A line: blanks, words each followed by blanks, a last word without blanks after it, and a comment. -/
structure Line where
  lead : List Char
  cells : List (List Char × List Char)
  last : Option (List Char)
  comment : Option (List Char)

/-- The words of a line. -/
def Line.row (l : Line) : List (List Char) := l.cells.map Prod.fst ++ l.last.toList

/-- The text of the cells. -/
def cellsText : List (List Char × List Char) → List Char
  | [] => []
  | c :: t => c.1 ++ (c.2 ++ cellsText t)

/-- The text of a comment. -/
def commentText : Option (List Char) → List Char
  | none => []
  | some c => '#' :: c

/-- The text before a comment. -/
def Line.body (l : Line) : List Char := l.lead ++ (cellsText l.cells ++ l.last.getD [])

def Line.text (l : Line) : List Char := l.body ++ commentText l.comment

/-- White space within a line. -/
def Blank (s : List Char) : Prop := ∀ c ∈ s, isSpace c = true ∧ c ≠ '\n'

/-- A word. -/
def Word (s : List Char) : Prop := s ≠ [] ∧ ∀ c ∈ s, isSpace c = false ∧ c ≠ '#'

structure Line.Ok (l : Line) : Prop where
  lead : Blank l.lead
  cells : ∀ c ∈ l.cells, Word c.1 ∧ Blank c.2 ∧ c.2 ≠ []
  last : ∀ w, l.last = some w → Word w
  comment : ∀ c, l.comment = some c → '\n' ∉ c

/-- The file: every line is followed by the end of line. -/
def fileText : List Line → List Char
  | [] => []
  | l :: t => l.text ++ '\n' :: fileText t

/-- The rows: the words of the lines which have some. -/
def rowsSpec (ls : List Line) : List (List (List Char)) := (ls.map Line.row).filter fun r => decide (r ≠ [])

/-! ## Proofs -/

theorem splitWs_blank (b s : List Char) (h : ∀ c ∈ b, isSpace c = true) : splitWs (b ++ s) = splitWs s := by
  induction b with
  | nil => rfl
  | cons c b ih =>
    rw [List.cons_append, splitWs_space c _ (h c (by simp)), ih fun c hc => h c (by simp [hc])]

theorem splitWs_cells (cs : List (List Char × List Char)) (h : ∀ c ∈ cs, Word c.1 ∧ Blank c.2 ∧ c.2 ≠ [])
    (s : List Char) : splitWs (cellsText cs ++ s) = cs.map Prod.fst ++ splitWs s := by
  induction cs with
  | nil => rfl
  | cons c cs ih =>
    obtain ⟨hw, hb, hne⟩ := h c (by simp)
    obtain ⟨b, bs, e⟩ := List.exists_cons_of_ne_nil hne
    rw [cellsText, List.append_assoc, List.append_assoc, e, List.cons_append,
      splitWs_word c.1 _ (fun a ha => (hw.2 a ha).1) hw.1 b (hb b (by rw [e]; simp)).1,
      splitWs_blank bs _ fun a ha => (hb a (by rw [e]; simp [ha])).1, ih fun a ha => h a (by simp [ha])]
    rfl

theorem splitWs_body (l : Line) (h : l.Ok) : splitWs l.body = l.row := by
  unfold Line.body Line.row
  rw [splitWs_blank _ _ fun c hc => (h.lead c hc).1, splitWs_cells _ h.cells]
  congr 1
  cases hl : l.last with
  | none => rfl
  | some w => exact splitWs_end w (fun c hc => ((h.last w hl).2 c hc).1) (h.last w hl).1

theorem mem_cellsText (cs : List (List Char × List Char)) (c : Char) (h : c ∈ cellsText cs) :
    ∃ p ∈ cs, c ∈ p.1 ∨ c ∈ p.2 := by
  induction cs with
  | nil => exact absurd h (by simp [cellsText])
  | cons p cs ih =>
    rw [cellsText, List.mem_append, List.mem_append] at h
    rcases h with h | h | h
    · exact ⟨p, by simp, Or.inl h⟩
    · exact ⟨p, by simp, Or.inr h⟩
    · obtain ⟨q, hq, hc⟩ := ih h
      exact ⟨q, by simp [hq], hc⟩

theorem body_chars (l : Line) (h : l.Ok) : ∀ c ∈ l.body, c ≠ '#' ∧ c ≠ '\n' := by
  have hsp : ∀ c, isSpace c = true → c ≠ '#' := by
    intro c hc e
    subst e
    exact absurd hc (by decide)
  have hwd : ∀ c, isSpace c = false → c ≠ '\n' := by
    intro c hc e
    subst e
    exact absurd hc (by decide)
  intro c hc
  unfold Line.body at hc
  rw [List.mem_append, List.mem_append] at hc
  rcases hc with hc | hc | hc
  · exact ⟨hsp c (h.lead c hc).1, (h.lead c hc).2⟩
  · obtain ⟨p, hp, hc⟩ := mem_cellsText _ c hc
    obtain ⟨hw, hb, -⟩ := h.cells p hp
    rcases hc with hc | hc
    · exact ⟨(hw.2 c hc).2, hwd c (hw.2 c hc).1⟩
    · exact ⟨hsp c (hb c hc).1, (hb c hc).2⟩
  · cases hl : l.last with
    | none => rw [hl] at hc; exact absurd hc (by simp)
    | some w =>
      rw [hl] at hc
      have hw := (h.last w hl).2 c hc
      exact ⟨hw.2, hwd c hw.1⟩

theorem takeWhile_append_stop {α : Type*} (p : α → Bool) (s : List α) (h : ∀ a ∈ s, p a = true) (t : List α)
    (ht : ∀ b ∈ t.head?, p b = false) : (s ++ t).takeWhile p = s := by
  induction s with
  | nil =>
    cases t with
    | nil => rfl
    | cons b t => simp [ht b (by simp)]
  | cons a s ih =>
    rw [List.cons_append, List.takeWhile_cons_of_pos (h a (by simp)), ih fun b hb => h b (by simp [hb])]

theorem words_text (l : Line) (h : l.Ok) : words l.text = l.row := by
  unfold words Line.text
  rw [takeWhile_append_stop]
  · exact splitWs_body l h
  · intro c hc
    simpa using (body_chars l h c hc).1
  · intro b hb
    cases hl : l.comment with
    | none => rw [hl] at hb; exact absurd hb (by simp [commentText])
    | some c =>
      rw [hl] at hb
      simp only [commentText, List.head?_cons, Option.mem_some_iff] at hb
      subst hb
      decide

/-- Blank lines, comments and the amount of white space do not matter. -/
theorem rowsOf_file (ls : List Line) (h : ∀ l ∈ ls, l.Ok) : rowsOf (fileText ls) = rowsSpec ls := by
  induction ls with
  | nil => rfl
  | cons l ls ih =>
    have hn : '\n' ∉ l.text := by
      intro hc
      unfold Line.text at hc
      rw [List.mem_append] at hc
      rcases hc with hc | hc
      · exact (body_chars l (h l (by simp)) _ hc).2 rfl
      · cases hl : l.comment with
        | none => rw [hl] at hc; exact absurd hc (by simp [commentText])
        | some c =>
          rw [hl] at hc
          simp only [commentText, List.mem_cons] at hc
          rcases hc with hc | hc
          · exact absurd hc (by decide)
          · exact (h l (by simp)).comment c hl hc
    have ih' := ih fun m hm => h m (by simp [hm])
    unfold rowsOf rowsSpec at ih' ⊢
    rw [fileText, splitOn_field _ _ _ hn, List.map_cons, words_text l (h l (by simp)), List.map_cons,
      List.filter_cons, List.filter_cons, ih']

/-- The numbers of a table of words. -/
def Numbers (F : Format) (rows : List (List (List Char))) (t : List (List (Option ℝ))) : Prop :=
  List.Forall₂ (List.Forall₂ fun w v => value F w = some v) rows t

theorem mapM_forall₂ {α β : Type*} (f : α → Option β) (a : List α) (b : List β)
    (h : List.Forall₂ (fun x y => f x = some y) a b) : a.mapM f = some b := by
  induction h with
  | nil => rfl
  | cons h _ ih => rw [List.mapM_cons, h, ih]; rfl

theorem convert_numbers (F : Format) (rows : List (List (List Char))) (t : List (List (Option ℝ)))
    (h : Numbers F rows t) : convert F rows = some t :=
  mapM_forall₂ _ _ _ (h.imp fun _ _ h => mapM_forall₂ _ _ _ h)

theorem loadRows_file (F : Format) (ls : List Line) (h : ∀ l ∈ ls, l.Ok) (t : List (List (Option ℝ))) (w : ℕ)
    (ht : Numbers F (rowsSpec ls) t) (hw : ∀ r ∈ t, r.length = w) : loadRows F (fileText ls) = some t := by
  unfold loadRows
  rw [rowsOf_file ls h, convert_numbers F _ t ht, Option.bind_some, if_pos]
  intro r hr
  cases t with
  | nil => exact absurd hr (by simp)
  | cons a t => rw [hw r hr, List.headD_cons, hw a (by simp)]

theorem loadTxt_file (F : Format) (ls : List Line) (h : ∀ l ∈ ls, l.Ok) (t : List (List (Option ℝ))) (w : ℕ)
    (ht : Numbers F (rowsSpec ls) t) (hw : ∀ r ∈ t, r.length = w) (h2 : 2 ≤ w) (hr : 2 ≤ t.length) (k : ℕ) :
    loadTxt F k (fileText ls) = if w = k then some (.arrays ((List.range w).map (column t))) else none := by
  unfold loadTxt
  rw [loadRows_file F ls h t w ht hw, Option.bind_some, unpack_arrays t w h2 hw hr, Option.bind_some]
  have : (Cols.arrays ((List.range w).map (column t))).size = w := by simp [Cols.size]
  rw [this]

/-- C187, the part that holds: a file of at least two rows of the same number (at least two) of numbers, however it is
laid out, with comments and blank lines, gives its columns if there are seven or five of them, and is rejected
otherwise. -/
theorem readFile_columns_partial (F : Format) (ls : List Line) (h : ∀ l ∈ ls, l.Ok) (t : List (List (Option ℝ)))
    (w : ℕ) (ht : Numbers F (rowsSpec ls) t) (hw : ∀ r ∈ t, r.length = w) (h2 : 2 ≤ w) (hr : 2 ≤ t.length) :
    readFile F (fileText ls) =
      if w = 7 ∨ w = 5 then some (.arrays ((List.range w).map (column t))) else none := by
  unfold readFile
  rw [loadTxt_file F ls h t w ht hw h2 hr 7, loadTxt_file F ls h t w ht hw h2 hr 5]
  by_cases h7 : w = 7
  · rw [if_pos h7, if_pos (Or.inl h7)]
  · rw [if_neg h7]
    by_cases h5 : w = 5
    · rw [if_pos h5, if_pos (Or.inr h5)]
    · rw [if_neg h5, if_neg (by tauto)]

theorem mapM_none {α β : Type*} (f : α → Option β) (a : List α) (x : α) (hx : x ∈ a) (h : f x = none) :
    a.mapM f = none := by
  induction a with
  | nil => exact absurd hx (by simp)
  | cons b a ih =>
    rw [List.mapM_cons]
    rcases List.mem_cons.mp hx with e | e
    · rw [← e, h]; rfl
    · rw [ih e]
      cases f b <;> rfl

theorem mapM_length {α β : Type*} (f : α → Option β) (a : List α) (b : List β) (h : a.mapM f = some b) :
    List.Forall₂ (fun x y => f x = some y) a b := by
  induction a generalizing b with
  | nil =>
    rw [List.mapM_nil] at h
    rw [← Option.some.inj h]
    exact .nil
  | cons x a ih =>
    rw [List.mapM_cons] at h
    cases hx : f x with
    | none => rw [hx] at h; exact absurd h (by simp)
    | some y =>
      cases ha : a.mapM f with
      | none => rw [hx, ha] at h; exact absurd h (by simp)
      | some c =>
        rw [hx, ha] at h
        have : y :: c = b := Option.some.inj h
        rw [← this]
        exact .cons hx (ih c ha)

/-- C187: a file with a word that is no number is rejected. -/
theorem readFile_not_number (F : Format) (ls : List Line) (h : ∀ l ∈ ls, l.Ok) (r : List (List Char))
    (hr : r ∈ rowsSpec ls) (w : List Char) (hw : w ∈ r) (hv : value F w = none) : readFile F (fileText ls) = none := by
  have : ∀ k, loadTxt F k (fileText ls) = none := by
    intro k
    unfold loadTxt loadRows convert
    rw [rowsOf_file ls h, mapM_none _ _ r hr (mapM_none _ _ w hw hv)]
    rfl
  unfold readFile
  rw [this, this]

/-- C187: a file with rows of different lengths is rejected. -/
theorem readFile_ragged (F : Format) (ls : List Line) (h : ∀ l ∈ ls, l.Ok) (r r' : List (List Char))
    (hr : r ∈ rowsSpec ls) (hr' : r' ∈ rowsSpec ls) (hne : r.length ≠ r'.length) : readFile F (fileText ls) = none := by
  have : ∀ k, loadTxt F k (fileText ls) = none := by
    intro k
    unfold loadTxt
    have : loadRows F (fileText ls) = none := by
      unfold loadRows
      rw [rowsOf_file ls h]
      cases hc : convert F (rowsSpec ls) with
      | none => rfl
      | some t =>
        rw [Option.bind_some, if_neg]
        intro hall
        have h1 := mapM_length _ _ _ hc
        have hlen : ∀ s ∈ rowsSpec ls, s.length = (t.headD []).length := by
          intro s hs
          obtain ⟨i, hi, rfl⟩ := List.getElem_of_mem hs
          have hi' : i < t.length := by rw [← h1.length_eq]; exact hi
          have h2 := h1.get hi hi'
          simp only [List.get_eq_getElem] at h2
          rw [(mapM_length _ _ _ h2).length_eq]
          exact hall _ (List.getElem_mem _)
        exact hne ((hlen r hr).trans (hlen r' hr').symm)
    rw [this]
    rfl
  unfold readFile
  rw [this, this]

/-- C187 is false for a file with one column: seven rows of one number are read as if they were one row of seven
numbers, a spectrum of one channel. -/
theorem readFile_one_column (F : Format) (ls ls' : List Line) (h : ∀ l ∈ ls, l.Ok) (h' : ∀ l ∈ ls', l.Ok)
    (t : List (Option ℝ)) (ht : Numbers F (rowsSpec ls) (t.map fun v => [v])) (ht' : Numbers F (rowsSpec ls') [t])
    (h7 : t.length = 7 ∨ t.length = 5) :
    readFile F (fileText ls) = some (.numbers t) ∧ readFile F (fileText ls') = some (.numbers t) := by
  have e1 : ∀ k, loadTxt F k (fileText ls) = if t.length = k then some (.numbers t) else none := by
    intro k
    unfold loadTxt
    rw [loadRows_file F ls h _ 1 ht (by
      intro r hr
      obtain ⟨v, -, rfl⟩ := List.mem_map.mp hr
      rfl), Option.bind_some]
    have : unpack (t.map fun v => [v]) = some (.numbers t) := by
      match t, h7 with
      | a :: b :: t, _ =>
        have : unpack ((a :: b :: t).map fun v => [v]) =
          some (.numbers (column ((a :: b :: t).map fun v => [v]) 0)) := rfl
        rw [this]
        congr 2
        unfold column
        rw [List.map_map]
        exact List.map_id _
      | [], h => simp at h
      | [a], h => simp at h
    rw [this]
    rfl
  have e2 : ∀ k, loadTxt F k (fileText ls') = if t.length = k then some (.numbers t) else none := by
    intro k
    unfold loadTxt
    rw [loadRows_file F ls' h' _ t.length ht' (by
      intro r hr
      rw [List.mem_singleton.mp hr]), Option.bind_some]
    have : unpack [t] = some (.numbers t) := by
      have : unpack [t] = if t.length = 1 then none else some (.numbers t) := rfl
      rw [this, if_neg (by omega)]
    rw [this]
    rfl
  unfold readFile
  rw [e1, e1, e2, e2]
  rcases h7 with h7 | h7
  · rw [if_pos h7]
    exact ⟨rfl, rfl⟩
  · rw [if_neg (by omega), if_pos h7]
    exact ⟨rfl, rfl⟩

/-- A line for the examples: the words separated by blanks and a comment. -/
def exampleLine (ws : List (List Char)) : Line := ⟨[' '], ws.map fun w => (w, [' ', '\t']), none, some ['x']⟩

theorem exampleLine_ok (ws : List (List Char)) (h : ∀ w ∈ ws, Word w) : (exampleLine ws).Ok := by
  refine ⟨?_, ?_, ?_, ?_⟩
  · intro c hc
    simp only [exampleLine, List.mem_singleton] at hc
    subst hc
    decide
  · intro c hc
    obtain ⟨w, hw, rfl⟩ := List.mem_map.mp hc
    refine ⟨h w hw, ?_, by simp⟩
    intro c hc
    simp only [List.mem_cons, List.not_mem_nil, or_false] at hc
    rcases hc with e | e <;> subst e <;> decide
  · intro w hw
    exact absurd hw (by simp [exampleLine])
  · intro c hc
    simp only [exampleLine, Option.some.injEq] at hc
    subst hc
    decide

theorem value_one (F : Format) (hF : F = f32 ∨ F = f64) : value F ['1'] = some (some 1) := by
  have hd : decimal ['1'] = some 1 := by decide +kernel
  have hn : isNan ['1'] = false := by decide
  have h1 : F.Mem 1 := by
    refine ⟨1, 0, ?_, ?_, by norm_num⟩ <;> rcases hF with e | e <;> subst e <;> simp [f32, f64]
  have h64 : f64.Mem 1 := by
    refine ⟨1, 0, ?_, ?_, by norm_num⟩ <;> simp [f64]
  unfold value
  rw [hn, hd]
  simp only [Bool.false_eq_true, if_false, Option.map_some]
  rw [Rat.cast_one, f64.round_mem 1 h64, F.round_mem 1 h1]

theorem word_one : Word ['1'] := by
  refine ⟨by simp, ?_⟩
  intro c hc
  rw [List.mem_singleton] at hc
  subst hc
  decide

/-- Concrete case: two lines of five ones, a comment line between them. -/
example : readFile f32 (fileText [exampleLine (List.replicate 5 ['1']), exampleLine [],
      exampleLine (List.replicate 5 ['1'])]) =
    some (.arrays ((List.range 5).map (column [List.replicate 5 (some 1), List.replicate 5 (some 1)]))) := by
  have hv := value_one f32 (Or.inl rfl)
  have := readFile_columns_partial f32 [exampleLine (List.replicate 5 ['1']), exampleLine [],
      exampleLine (List.replicate 5 ['1'])] (by
    intro l hl
    simp only [List.mem_cons, List.not_mem_nil, or_false] at hl
    rcases hl with e | e | e <;> subst e <;> refine exampleLine_ok _ fun w hw => ?_
    · rw [List.eq_of_mem_replicate hw]; exact word_one
    · exact absurd hw (by simp)
    · rw [List.eq_of_mem_replicate hw]; exact word_one)
    [List.replicate 5 (some 1), List.replicate 5 (some 1)] 5 (by
      show List.Forall₂ _ [List.replicate 5 ['1'], List.replicate 5 ['1']] _
      refine .cons ?_ (.cons ?_ .nil) <;> exact .cons hv (.cons hv (.cons hv (.cons hv (.cons hv .nil)))))
    (by intro r hr; simp only [List.mem_cons, List.not_mem_nil, or_false, or_self] at hr; rw [hr]; rfl)
    (by norm_num) (by simp)
  rw [this, if_pos (Or.inr rfl)]

/-- Concrete case of `readFile_one_column`: seven lines with the number one, and one line of seven ones. -/
example : readFile f32 (fileText (List.replicate 7 (exampleLine [['1']]))) =
    readFile f32 (fileText [exampleLine (List.replicate 7 ['1'])]) := by
  have hv := value_one f32 (Or.inl rfl)
  have := readFile_one_column f32 (List.replicate 7 (exampleLine [['1']])) [exampleLine (List.replicate 7 ['1'])] (by
    intro l hl
    rw [List.eq_of_mem_replicate hl]
    refine exampleLine_ok _ fun w hw => ?_
    rw [List.mem_singleton.mp hw]
    exact word_one) (by
    intro l hl
    rw [List.mem_singleton.mp hl]
    refine exampleLine_ok _ fun w hw => ?_
    rw [List.eq_of_mem_replicate hw]
    exact word_one) (List.replicate 7 (some 1)) (by
    have hc : List.Forall₂ (fun w v => value f32 w = some v) [['1']] [some 1] := .cons hv .nil
    exact .cons hc (.cons hc (.cons hc (.cons hc (.cons hc (.cons hc (.cons hc .nil))))))) (by
    refine .cons ?_ .nil
    exact .cons hv (.cons hv (.cons hv (.cons hv (.cons hv (.cons hv (.cons hv .nil))))))) (Or.inl rfl)
  rw [this.1, this.2]

end Verif.Files1D
