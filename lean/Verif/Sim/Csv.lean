import Verif.Files1D.Input
import Verif.Sim.Catalogue

/-!
# Reading the catalogue of a simulation (C211)

Source: `/repo/RMutils/util_misc.py` 236-268 (`csv_read_to_list`, as called by `/repo/RMtools_1D/mk_test_ascii_data.py` 299 and
`/repo/RMtools_3D/mk_test_cube_data.py` 314 with `doFloat=True`).
-/

namespace Verif.Sim

open Verif.NumPy Verif.Files1D

/-- `re.compile(r"\s+").sub(" ", s)`, 244 and 260; the first argument: the character before is white space. -/
def shrinkAux : Bool → List Char → List Char
  | _, [] => []
  | b, c :: s => if isSpace c then (if b then shrinkAux true s else ' ' :: shrinkAux true s) else c :: shrinkAux false s

/-- `spaces.sub(" ", line)`, 260. -/
def shrink (s : List Char) : List Char := shrinkAux false s

/-- What is done with one line, 255-264; `none`: `continue`. Lines end with `\n`; that `\r` at the end is removed first makes no
difference, as it is white space. -/
def csvLine (l : List Char) : Option (List (List Char)) :=
  if l.head? = some '#' then none
  else
    let t := shrink (strip (l.takeWhile fun c => decide (c ≠ '#')))
    if t = [] then none else some (splitOn ',' t)

/-- `float(x)`, 267; `none`: a `ValueError`. White space around the number is allowed. Decimal numbers and `nan` are modelled; for
infinities and underscores see `Verif.Files1D.value`. -/
noncomputable def pyFloat (s : List Char) : Option (Option ℝ) := value f64 (strip s)

/-- `csv_read_to_list(fileName, doFloat=True)`; `none`: a `ValueError`. -/
noncomputable def csvRead (s : List Char) : Option (List (List (Option ℝ))) :=
  ((splitOn '\n' s).filterMap csvLine).mapM fun r => r.mapM pyFloat

/-! ## Specification: how a catalogue may be written -/

/-- A line of a catalogue: an entry (white space, the first number, the other numbers each after white space, a comma and white space,
white space) or only white space; and a comment. -/
structure CatLine where
  lead : List Char
  entry : Option (List Char × List (List Char × List Char × List Char))
  trail : List Char
  comment : Option (List Char)

/-- The text of all numbers but the first. -/
def tailText : List (List Char × List Char × List Char) → List Char
  | [] => []
  | x :: t => x.1 ++ ',' :: (x.2.1 ++ (x.2.2 ++ tailText t))

/-- The text of the numbers. -/
def entryText : Option (List Char × List (List Char × List Char × List Char)) → List Char
  | none => []
  | some e => e.1 ++ tailText e.2

def CatLine.text (l : CatLine) : List Char := l.lead ++ (entryText l.entry ++ l.trail) ++ commentText l.comment

/-- The numbers, as written. -/
def CatLine.row (l : CatLine) : Option (List (List Char)) := l.entry.map fun e => e.1 :: e.2.map fun x => x.2.2

/-- A number as written: no white space, no comma and no `#`. -/
def Item (s : List Char) : Prop := s ≠ [] ∧ ∀ c ∈ s, isSpace c = false ∧ c ≠ '#' ∧ c ≠ ','

structure CatLine.Ok (l : CatLine) : Prop where
  lead : Blank l.lead
  first : ∀ e, l.entry = some e → Item e.1
  rest : ∀ e, l.entry = some e → ∀ x ∈ e.2, Blank x.1 ∧ Blank x.2.1 ∧ Item x.2.2
  trail : Blank l.trail
  comment : ∀ c, l.comment = some c → '\n' ∉ c

/-- The file. -/
def catText : List CatLine → List Char
  | [] => []
  | l :: t => l.text ++ '\n' :: catText t

/-! ## Lemmas -/

theorem isSpace_comma : isSpace ',' = false := by decide

theorem splitOnAux_shrink (s cur : List Char) (b : Bool) :
    splitOnAux ',' (shrinkAux b s) cur =
      match splitOnAux ',' s [] with
      | [] => []
      | f :: t => (cur.reverse ++ shrinkAux b f) :: t.map shrink := by
  induction s generalizing cur b with
  | nil => simp [splitOnAux, shrinkAux]
  | cons c s ih =>
    by_cases hc : c = ','
    · subst hc
      simp only [shrinkAux, isSpace_comma, Bool.false_eq_true, if_false, splitOnAux, if_true, List.reverse_nil, List.append_nil]
      rw [ih [] false]
      cases h : splitOnAux ',' s [] with
      | nil => 
        exfalso
        cases s <;> simp [splitOnAux] at h
        split at h
        · simp at h
        · rename_i c' s' hne
          have : ∀ (s cur : List Char), splitOnAux ',' s cur ≠ [] := by
            intro s
            induction s with
            | nil => intro cur; simp [splitOnAux]
            | cons a s ih => intro cur; simp only [splitOnAux]; split <;> simp [ih]
          exact this _ _ h
      | cons f t => simp [shrink]
    · have hs : ∀ (s cur : List Char), splitOnAux ',' s cur = match splitOnAux ',' s [] with
          | [] => []
          | f :: t => (cur.reverse ++ f) :: t := by
        intro s
        induction s with
        | nil => intro cur; simp [splitOnAux]
        | cons a s ih =>
          intro cur
          simp only [splitOnAux]
          split
          · simp
          · rw [ih (a :: cur), ih [a]]
            cases splitOnAux ',' s [] <;> simp
      simp only [splitOnAux, hc, if_false]
      rw [hs s [c]]
      by_cases hsp : isSpace c = true
      · cases b with
        | true =>
          simp only [shrinkAux, hsp, if_true]
          rw [ih]
          cases splitOnAux ',' s [] <;> simp [shrinkAux, hsp]
        | false =>
          simp only [shrinkAux, hsp, if_true, Bool.false_eq_true, if_false, splitOnAux]
          rw [if_neg (by decide), ih]
          cases splitOnAux ',' s [] <;> simp [shrinkAux, hsp]
      · rw [Bool.not_eq_true] at hsp
        simp only [shrinkAux, hsp, Bool.false_eq_true, if_false, splitOnAux, hc]
        rw [ih]
        cases splitOnAux ',' s [] <;> simp [shrinkAux, hsp]

theorem splitOn_shrink (s : List Char) : splitOn ',' (shrink s) = (splitOn ',' s).map shrink := by
  unfold splitOn
  have := splitOnAux_shrink s [] false
  unfold shrink
  rw [this]
  cases splitOnAux ',' s [] <;> simp [shrink]

theorem dropWhile_blank (b s : List Char) (hb : ∀ c ∈ b, isSpace c = true) (hs : ∀ c, s.head? = some c → isSpace c = false) :
    (b ++ s).dropWhile isSpace = s := by
  induction b with
  | nil =>
    cases s with
    | nil => rfl
    | cons c s => simp [hs c rfl]
  | cons c b ih =>
    rw [List.cons_append, List.dropWhile_cons_of_pos (hb c (by simp))]
    exact ih fun d hd => hb d (by simp [hd])

/-- `strip` removes the white space on both sides of a text that begins and ends without. -/
theorem strip_mid (a s b : List Char) (ha : ∀ c ∈ a, isSpace c = true) (hb : ∀ c ∈ b, isSpace c = true)
    (hs : ∀ c, s.head? = some c → isSpace c = false) (hs' : ∀ c, s.getLast? = some c → isSpace c = false) (hne : s ≠ []) :
    strip (a ++ (s ++ b)) = s := by
  unfold strip
  rw [dropWhile_blank a (s ++ b) ha, List.reverse_append, dropWhile_blank b.reverse s.reverse, List.reverse_reverse]
  · intro c hc
    exact hb c (by simpa using hc)
  · intro c hc
    exact hs' c (by rw [← List.head?_reverse]; exact hc)
  · intro c hc
    refine hs c ?_
    cases s with
    | nil => exact absurd rfl hne
    | cons x s => simpa using hc

theorem strip_blank (a : List Char) (ha : ∀ c ∈ a, isSpace c = true) : strip a = [] := by
  unfold strip
  have := dropWhile_blank a [] ha (by simp)
  rw [List.append_nil] at this
  rw [this]
  rfl

theorem item_head {s : List Char} (h : Item s) : ∀ c, s.head? = some c → isSpace c = false := by
  intro c hc
  exact (h.2 c (List.mem_of_mem_head? hc)).1

theorem item_last {s : List Char} (h : Item s) : ∀ c, s.getLast? = some c → isSpace c = false := by
  intro c hc
  exact (h.2 c (List.mem_of_getLast? hc)).1

theorem shrinkAux_blank (b : Bool) (a : List Char) (ha : ∀ c ∈ a, isSpace c = true) :
    ∀ c ∈ shrinkAux b a, isSpace c = true := by
  induction a generalizing b with
  | nil => simp [shrinkAux]
  | cons x a ih =>
    intro c hc
    simp only [shrinkAux, ha x (by simp), if_true] at hc
    cases b with
    | true => exact ih true (fun d hd => ha d (by simp [hd])) c (by simpa using hc)
    | false =>
      simp only [Bool.false_eq_true, if_false, List.mem_cons] at hc
      rcases hc with rfl | hc
      · decide
      · exact ih true (fun d hd => ha d (by simp [hd])) c hc

theorem shrinkAux_append (b : Bool) (s t : List Char) : ∃ b', shrinkAux b (s ++ t) = shrinkAux b s ++ shrinkAux b' t := by
  induction s generalizing b with
  | nil => exact ⟨b, rfl⟩
  | cons c s ih =>
    simp only [List.cons_append, shrinkAux]
    split
    · split
      · exact ih true
      · obtain ⟨b', h⟩ := ih true
        exact ⟨b', by rw [h]; rfl⟩
    · obtain ⟨b', h⟩ := ih false
      exact ⟨b', by rw [h]; rfl⟩

theorem shrinkAux_item (b : Bool) (w : List Char) (h : ∀ c ∈ w, isSpace c = false) : shrinkAux b w = w := by
  induction w generalizing b with
  | nil => rfl
  | cons c w ih =>
    simp only [shrinkAux, h c (by simp), Bool.false_eq_true, if_false]
    rw [ih false fun d hd => h d (by simp [hd])]

/-- A field: the number with white space around it. -/
theorem strip_shrink_field (a w b : List Char) (ha : ∀ c ∈ a, isSpace c = true) (hb : ∀ c ∈ b, isSpace c = true) (hw : Item w) :
    strip (shrink (a ++ (w ++ b))) = w := by
  unfold shrink
  obtain ⟨b1, h1⟩ := shrinkAux_append false a (w ++ b)
  obtain ⟨b2, h2⟩ := shrinkAux_append b1 w b
  rw [h1, h2, shrinkAux_item b1 w fun c hc => (hw.2 c hc).1]
  exact strip_mid _ _ _ (shrinkAux_blank _ _ ha) (shrinkAux_blank _ _ hb) (item_head hw) (item_last hw) hw.1

theorem comma_blank {b : List Char} (h : ∀ c ∈ b, isSpace c = true) : ',' ∉ b := fun hm => by
  have := h _ hm
  rw [isSpace_comma] at this
  exact absurd this (by decide)

theorem comma_item {w : List Char} (h : Item w) : ',' ∉ w := fun hm => (h.2 _ hm).2.2 rfl

/-- The fields of an entry. -/
theorem fields (t : List (List Char × List Char × List Char)) (ht : ∀ x ∈ t, Blank x.1 ∧ Blank x.2.1 ∧ Item x.2.2) (a w : List Char)
    (ha : ∀ c ∈ a, isSpace c = true) (hw : Item w) :
    ((splitOn ',' (a ++ (w ++ tailText t))).map shrink).map strip = w :: t.map fun x => x.2.2 := by
  induction t generalizing a w with
  | nil =>
    simp only [tailText, List.append_nil]
    rw [splitOn_last]
    · have := strip_shrink_field a w [] ha (by simp) hw
      rw [List.append_nil] at this
      simp [this]
    · simp only [List.mem_append, not_or]
      exact ⟨comma_blank ha, comma_item hw⟩
  | cons x t ih =>
    obtain ⟨h1, h2, h3⟩ := ht x (by simp)
    have e : a ++ (w ++ tailText (x :: t)) = (a ++ (w ++ x.1)) ++ ',' :: (x.2.1 ++ (x.2.2 ++ tailText t)) := by
      simp [tailText]
    rw [e, splitOn_field]
    · rw [List.map_cons, List.map_cons, ih (fun y hy => ht y (by simp [hy])) x.2.1 x.2.2 (fun c hc => (h2 c hc).1) h3,
        strip_shrink_field a w x.1 ha (fun c hc => (h1 c hc).1) hw]
      rfl
    · simp only [List.mem_append, not_or]
      exact ⟨comma_blank ha, comma_item hw, comma_blank fun c hc => (h1 c hc).1⟩

theorem tailText_last (t : List (List Char × List Char × List Char)) (ht : ∀ x ∈ t, Blank x.1 ∧ Blank x.2.1 ∧ Item x.2.2)
    (s : List Char) (hs : s ≠ []) (hl : ∀ c, s.getLast? = some c → isSpace c = false) :
    ∀ c, (s ++ tailText t).getLast? = some c → isSpace c = false := by
  induction t generalizing s with
  | nil => simpa [tailText] using hl
  | cons x t ih =>
    have h3 := (ht x (by simp)).2.2
    have e : s ++ tailText (x :: t) = (s ++ (x.1 ++ ',' :: (x.2.1 ++ x.2.2))) ++ tailText t := by simp [tailText]
    rw [e]
    refine ih (fun y hy => ht y (by simp [hy])) _ (by simp [hs]) ?_
    intro c hc
    refine item_last h3 c ?_
    have e2 : s ++ (x.1 ++ ',' :: (x.2.1 ++ x.2.2)) = (s ++ (x.1 ++ ',' :: x.2.1)) ++ x.2.2 := by simp
    rw [e2, List.getLast?_append_of_ne_nil _ h3.1] at hc
    exact hc

theorem mem_tailText (t : List (List Char × List Char × List Char)) (ht : ∀ x ∈ t, Blank x.1 ∧ Blank x.2.1 ∧ Item x.2.2) :
    ∀ c ∈ tailText t, c ≠ '#' ∧ c ≠ '\n' := by
  induction t with
  | nil => simp [tailText]
  | cons x t ih =>
    obtain ⟨h1, h2, h3⟩ := ht x (by simp)
    intro c hc
    simp only [tailText, List.mem_append, List.mem_cons] at hc
    have hsp : ∀ c, isSpace c = true → c ≠ '#' := by
      rintro c h rfl
      exact absurd h (by decide)
    rcases hc with hc | rfl | hc | hc | hc
    · exact ⟨hsp c (h1 c hc).1, (h1 c hc).2⟩
    · decide
    · exact ⟨hsp c (h2 c hc).1, (h2 c hc).2⟩
    · refine ⟨(h3.2 c hc).2.1, ?_⟩
      rintro rfl
      exact absurd (h3.2 _ hc).1 (by decide)
    · exact ih (fun y hy => ht y (by simp [hy])) c hc

/-- The part of a line before the comment has no `#` and no end of line. -/
theorem catBody_chars (l : CatLine) (h : l.Ok) : ∀ c ∈ l.lead ++ (entryText l.entry ++ l.trail), c ≠ '#' ∧ c ≠ '\n' := by
  have hsp : ∀ c, isSpace c = true → c ≠ '#' := by
    rintro c h rfl
    exact absurd h (by decide)
  intro c hc
  simp only [List.mem_append] at hc
  rcases hc with hc | hc | hc
  · exact ⟨hsp c (h.lead c hc).1, (h.lead c hc).2⟩
  · cases he : l.entry with
    | none => rw [he] at hc; simp [entryText] at hc
    | some e =>
      rw [he] at hc
      simp only [entryText, List.mem_append] at hc
      rcases hc with hc | hc
      · refine ⟨((h.first e he).2 c hc).2.1, ?_⟩
        rintro rfl
        exact absurd ((h.first e he).2 _ hc).1 (by decide)
      · exact mem_tailText _ (h.rest e he) c hc
  · exact ⟨hsp c (h.trail c hc).1, (h.trail c hc).2⟩

theorem takeWhile_body (l : CatLine) (h : l.Ok) :
    (l.text.takeWhile fun c => decide (c ≠ '#')) = l.lead ++ (entryText l.entry ++ l.trail) := by
  unfold CatLine.text
  cases hc : l.comment with
  | none =>
    simp only [commentText, List.append_nil]
    exact takeWhile_all _ _ fun c hc => by simpa using (catBody_chars l h c hc).1
  | some t =>
    simp only [commentText]
    have := takeWhile_append_stop (fun c => decide (c ≠ '#')) (l.lead ++ (entryText l.entry ++ l.trail))
      (fun c hc => by simpa using (catBody_chars l h c hc).1) ('#' :: t)
    exact this (by simp)

/-- One line. -/
theorem csvLine_text (l : CatLine) (h : l.Ok) : (csvLine l.text).map (fun r => r.map strip) = l.row := by
  have ht := takeWhile_body l h
  unfold csvLine
  rw [ht]
  have hl : ∀ c ∈ l.lead, isSpace c = true := fun c hc => (h.lead c hc).1
  have htr : ∀ c ∈ l.trail, isSpace c = true := fun c hc => (h.trail c hc).1
  cases he : l.entry with
  | none =>
    have e0 : strip (l.lead ++ (entryText none ++ l.trail)) = [] := strip_blank _ (by
      intro c hc
      simp only [entryText, List.nil_append, List.mem_append] at hc
      rcases hc with hc | hc
      · exact hl c hc
      · exact htr c hc)
    rw [e0]
    simp [shrink, shrinkAux, CatLine.row, he]
  | some e =>
    have h1 := h.first e he
    have h2 := h.rest e he
    have hne : e.1 ++ tailText e.2 ≠ [] := by simp [h1.1]
    have hmid : strip (l.lead ++ (entryText (some e) ++ l.trail)) = e.1 ++ tailText e.2 := by
      refine strip_mid _ _ _ hl htr ?_ (tailText_last _ h2 _ h1.1 (item_last h1)) hne
      intro c hc
      refine item_head h1 c ?_
      cases hh : e.1 with
      | nil => exact absurd hh h1.1
      | cons x s => simpa [entryText, hh] using hc
    have hhd : l.text.head? ≠ some '#' := by
      have hall := catBody_chars l h
      have e1 : l.lead ++ (entryText l.entry ++ l.trail) ≠ [] := by
        rw [he]
        simp only [entryText]
        simp [h1.1]
      unfold CatLine.text
      cases hb : l.lead ++ (entryText l.entry ++ l.trail) with
      | nil => exact absurd hb e1
      | cons x s =>
        rw [hb] at hall
        simpa using (hall x (by simp)).1
    rw [if_neg hhd, hmid]
    have hf := fields e.2 h2 [] e.1 (by simp) h1
    rw [List.nil_append, ← splitOn_shrink] at hf
    have hs : shrink (e.1 ++ tailText e.2) ≠ [] := by
      cases hh : e.1 with
      | nil => exact absurd hh h1.1
      | cons x s =>
        have := (h1.2 x (by rw [hh]; simp)).1
        simp [shrink, shrinkAux, this]
    dsimp only
    rw [if_neg hs, Option.map_some, hf]
    simp [CatLine.row, he]

theorem catText_lines (ls : List CatLine) (h : ∀ l ∈ ls, l.Ok) : splitOn '\n' (catText ls) = ls.map CatLine.text ++ [[]] := by
  induction ls with
  | nil => rfl
  | cons l t ih =>
    rw [catText, splitOn_field, ih fun x hx => h x (by simp [hx])]
    · rfl
    · have hl := h l (by simp)
      unfold CatLine.text
      intro hm
      rcases List.mem_append.mp hm with hm | hm
      · exact (catBody_chars l hl _ hm).2 rfl
      · cases hc : l.comment with
        | none => rw [hc] at hm; simp [commentText] at hm
        | some c =>
          rw [hc] at hm
          simp only [commentText, List.mem_cons] at hm
          rcases hm with hm | hm
          · exact absurd hm (by decide)
          · exact hl.comment c hc hm

/-! ## C211 -/

/-- **C211**. A catalogue is read into the numbers of its entries, in order, whatever the white space, the comments and the blank lines:
if the items of the entries are numbers, then these are the numbers returned, and if one is not, a `ValueError` is raised. -/
theorem catalogue_read (ls : List CatLine) (h : ∀ l ∈ ls, l.Ok) :
    csvRead (catText ls) = (ls.filterMap CatLine.row).mapM fun r => r.mapM (value f64) := by
  unfold csvRead
  rw [catText_lines ls h, List.filterMap_append]
  have e0 : List.filterMap csvLine [[]] = [] := by decide
  rw [e0, List.append_nil]
  have hm : ∀ r : List (List Char), r.mapM pyFloat = (r.map strip).mapM (value f64) := by
    intro r
    induction r with
    | nil => rfl
    | cons x r ih =>
      simp only [List.mapM_cons, List.map_cons, ih]
      rfl
  induction ls with
  | nil => rfl
  | cons l t ih =>
    have hl := csvLine_text l (h l (by simp))
    have iht := ih fun x hx => h x (by simp [hx])
    rw [List.map_cons]
    cases hc : csvLine l.text with
    | none =>
      rw [hc, Option.map_none] at hl
      rw [List.filterMap_cons_none hc, List.filterMap_cons_none hl.symm, iht]
    | some r =>
      rw [hc, Option.map_some] at hl
      rw [List.filterMap_cons_some hc, List.filterMap_cons_some hl.symm, List.mapM_cons, List.mapM_cons, iht, hm]

theorem pyFloat_blank (s : List Char) (h : ∀ c ∈ s, isSpace c = true) : pyFloat s = none := by
  unfold pyFloat
  rw [strip_blank s h]
  have hn : isNan [] = false := by decide
  have hd : decimal [] = none := by decide
  simp [value, hn, hd]

theorem splitOn_comma_end (x cur : List Char) : [] ∈ splitOnAux ',' (x ++ [',']) cur := by
  induction x generalizing cur with
  | nil => simp [splitOnAux]
  | cons c x ih =>
    simp only [List.cons_append, splitOnAux]
    split
    · exact List.mem_cons_of_mem _ (ih [])
    · exact ih _

theorem splitOn_mem_append (x y : List Char) (h : '\n' ∉ y) (z : List Char) (hx : x = [] ∨ x.getLast? = some '\n') :
    y ∈ splitOn '\n' (x ++ (y ++ '\n' :: z)) := by
  have key : ∀ (x cur : List Char), x.getLast? = some '\n' → y ∈ splitOnAux '\n' (x ++ (y ++ '\n' :: z)) cur := by
    intro x
    induction x with
    | nil => intro cur hx; simp at hx
    | cons c x ih =>
      intro cur hx
      rw [List.cons_append]
      simp only [splitOnAux]
      cases x with
      | nil =>
        simp only [List.getLast?_singleton, Option.some.injEq] at hx
        subst hx
        rw [if_pos rfl, List.nil_append, splitOnAux_field _ _ _ _ h]
        simp
      | cons d x =>
        have hx' : (d :: x).getLast? = some '\n' := by rw [List.getLast?_cons_cons] at hx; exact hx
        split
        · exact List.mem_cons_of_mem _ (ih _ hx')
        · exact ih _ hx'
  rcases hx with rfl | hx
  · rw [List.nil_append, splitOn_field _ _ _ h]
    simp
  · exact key x [] hx

/-- **C211**: an entry that ends with a comma makes the whole catalogue unreadable: a `ValueError`, whatever else is in it. -/
theorem catalogue_trailing_comma (pre post s b : List Char) (hp : pre = [] ∨ pre.getLast? = some '\n') (hs : '\n' ∉ s) (hc : '#' ∉ s)
    (hb : Blank b) : csvRead (pre ++ (s ++ ',' :: b ++ '\n' :: post)) = none := by
  have hl : s ++ ',' :: b ∈ splitOn '\n' (pre ++ (s ++ ',' :: b ++ '\n' :: post)) := by
    refine splitOn_mem_append pre _ ?_ post hp
    simp only [List.mem_append, List.mem_cons, not_or]
    exact ⟨hs, by decide, fun hm => (hb _ hm).2 rfl⟩
  have hbs : ∀ c ∈ b, isSpace c = true := fun c hc => (hb c hc).1
  have ht : ((s ++ ',' :: b).takeWhile fun c => decide (c ≠ '#')) = s ++ ',' :: b := by
    refine takeWhile_all _ _ fun c hm => ?_
    simp only [List.mem_append, List.mem_cons] at hm
    simp only [decide_eq_true_eq]
    rintro rfl
    rcases hm with hm | hm | hm
    · exact hc hm
    · exact absurd hm (by decide)
    · exact absurd (hbs _ hm) (by decide)
  have hstrip : ∃ x, strip (s ++ ',' :: b) = x ++ [','] := by
    refine ⟨s.dropWhile isSpace, ?_⟩
    have e : s ++ ',' :: b = s.takeWhile isSpace ++ ((s.dropWhile isSpace ++ [',']) ++ b) := by
      rw [← List.append_assoc, ← List.append_assoc, List.takeWhile_append_dropWhile]
      simp
    rw [e]
    refine strip_mid _ _ _ (fun c hm => List.all_eq_true.mp List.all_takeWhile c hm) hbs ?_ ?_ (by simp)
    · intro c hcd
      cases hd : s.dropWhile isSpace with
      | nil =>
        rw [hd] at hcd
        simp only [List.nil_append, List.head?_cons, Option.some.injEq] at hcd
        subst hcd
        exact isSpace_comma
      | cons y t =>
        rw [hd] at hcd
        simp only [List.cons_append, List.head?_cons, Option.some.injEq] at hcd
        subst hcd
        have := List.head_dropWhile_not isSpace (l := s) (by rw [hd]; simp)
        simpa [hd] using this
    · intro c hcd
      rw [List.getLast?_append_of_ne_nil _ (by simp)] at hcd
      simp only [List.getLast?_singleton, Option.some.injEq] at hcd
      subst hcd
      exact isSpace_comma
  obtain ⟨x, hx⟩ := hstrip
  have hh : (s ++ ',' :: b).head? ≠ some '#' := by
    cases s with
    | nil => simp
    | cons y t =>
      simp only [List.cons_append, List.head?_cons, ne_eq, Option.some.injEq]
      rintro rfl
      exact hc (by simp)
  have hsh : shrink (x ++ [',']) = shrink x ++ [','] := by
    unfold shrink
    obtain ⟨b', h⟩ := shrinkAux_append false x [',']
    rw [h]
    simp [shrinkAux, isSpace_comma]
  have hline : csvLine (s ++ ',' :: b) = some (splitOn ',' (shrink x ++ [','])) := by
    unfold csvLine
    rw [if_neg hh, ht, hx, hsh]
    simp
  unfold csvRead
  refine mapM_none _ _ (splitOn ',' (shrink x ++ [','])) (List.mem_filterMap.mpr ⟨_, hl, hline⟩) ?_
  exact mapM_none _ _ [] (splitOn_comma_end _ _) (pyFloat_blank [] (by simp))

/-! ## Case -/

/-- `" 1 , 2 # x"`. -/
def exampleCat : CatLine := ⟨[' '], some (['1'], [([' '], [' '], ['1'])]), [' '], some [' ', 'x']⟩

theorem exampleCat_ok : exampleCat.Ok := by
  have hb : Blank [' '] := by
    intro c hc
    rw [List.mem_singleton] at hc
    subst hc
    decide
  have hi : Item ['1'] := ⟨by simp, by
    intro c hc
    rw [List.mem_singleton] at hc
    subst hc
    decide⟩
  refine ⟨hb, ?_, ?_, hb, ?_⟩
  · intro e he
    obtain rfl := Option.some.inj he
    exact hi
  · intro e he x hx
    obtain rfl := Option.some.inj he
    rw [List.mem_singleton] at hx
    subst hx
    exact ⟨hb, hb, hi⟩
  · intro c hc
    obtain rfl := Option.some.inj hc
    decide

/-- A catalogue of one entry after a comment. -/
example : csvRead (catText [⟨[], none, [], some ['c']⟩, exampleCat]) = some [[some 1, some 1]] := by
  rw [catalogue_read]
  · have h1 := value_one f64 (Or.inr rfl)
    have e : List.filterMap CatLine.row [⟨[], none, [], some ['c']⟩, exampleCat] = [[['1'], ['1']]] := rfl
    rw [e]
    simp [List.mapM_cons, h1]
  · intro l hl
    simp only [List.mem_cons, List.not_mem_nil, or_false] at hl
    rcases hl with rfl | rfl
    · refine ⟨by simp [Blank], by simp, by simp, by simp [Blank], ?_⟩
      intro c hc
      obtain rfl := Option.some.inj hc
      decide
    · exact exampleCat_ok

end Verif.Sim
