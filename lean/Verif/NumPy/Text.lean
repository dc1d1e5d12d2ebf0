import Mathlib.Data.List.Basic
import Mathlib.Tactic

/-!
# Python string functions on lists of characters
-/

namespace Verif.NumPy

/-- ASCII white space (`str.isspace`, `\s`); other Unicode spaces are not modelled. -/
def isSpace (c : Char) : Bool :=
  c == ' ' || c == '\t' || c == '\n' || c == '\r' || c == '\x0b' || c == '\x0c'

/-- `s.split()`; `cur` is the word being read, reversed. -/
def splitWsAux : List Char → List Char → List (List Char)
  | [], cur => if cur = [] then [] else [cur.reverse]
  | c :: s, cur =>
    if isSpace c then (if cur = [] then splitWsAux s [] else cur.reverse :: splitWsAux s [])
    else splitWsAux s (c :: cur)

/-- `s.split()`. -/
def splitWs (s : List Char) : List (List Char) := splitWsAux s []

/-- `s.split(d)` for a delimiter of one character; `cur` is the field being read, reversed. -/
def splitOnAux (d : Char) : List Char → List Char → List (List Char)
  | [], cur => [cur.reverse]
  | c :: s, cur => if c = d then cur.reverse :: splitOnAux d s [] else splitOnAux d s (c :: cur)

/-- `s.split(d)`. -/
def splitOn (d : Char) (s : List Char) : List (List Char) := splitOnAux d s []

/-- `pat in s`. -/
def contains (pat s : List Char) : Bool := s.tails.any fun t => pat.isPrefixOf t

/-- `s.strip()`. -/
def strip (s : List Char) : List Char := ((s.dropWhile isSpace).reverse.dropWhile isSpace).reverse

theorem contains_prefix (pat s : List Char) : contains pat (pat ++ s) = true := by
  unfold contains
  rw [List.any_eq_true]
  exact ⟨pat ++ s, by simp, by simp⟩

theorem splitOnAux_field (d : Char) (w s cur : List Char) (h : d ∉ w) :
    splitOnAux d (w ++ d :: s) cur = (cur.reverse ++ w) :: splitOnAux d s [] := by
  induction w generalizing cur with
  | nil => simp [splitOnAux]
  | cons c w ih =>
    simp only [List.mem_cons, not_or] at h
    rw [List.cons_append, splitOnAux, if_neg (fun e => h.1 e.symm), ih _ h.2]
    simp

theorem splitOn_field (d : Char) (w s : List Char) (h : d ∉ w) :
    splitOn d (w ++ d :: s) = w :: splitOn d s := by
  unfold splitOn
  rw [splitOnAux_field d w s [] h]
  rfl

theorem splitOnAux_last (d : Char) (w cur : List Char) (h : d ∉ w) :
    splitOnAux d w cur = [cur.reverse ++ w] := by
  induction w generalizing cur with
  | nil => simp [splitOnAux]
  | cons c w ih =>
    simp only [List.mem_cons, not_or] at h
    rw [splitOnAux, if_neg (fun e => h.1 e.symm), ih _ h.2]
    simp

theorem splitOn_last (d : Char) (w : List Char) (h : d ∉ w) : splitOn d w = [w] := by
  unfold splitOn
  rw [splitOnAux_last d w [] h]
  rfl

/-- Splitting undoes joining: `d.join(fields).split(d) = fields` if no field contains the delimiter. -/
theorem splitOn_join (d : Char) (fields : List (List Char)) (hne : fields ≠ []) (h : ∀ f ∈ fields, d ∉ f) :
    splitOn d (List.intercalate [d] fields) = fields := by
  induction fields with
  | nil => exact absurd rfl hne
  | cons w fs ih =>
    cases fs with
    | nil =>
      simp only [List.intercalate, List.intersperse, List.flatten_cons, List.flatten_nil, List.append_nil]
      exact splitOn_last d w (h w (by simp))
    | cons w' fs =>
      have hi : List.intercalate [d] (w :: w' :: fs) = w ++ d :: List.intercalate [d] (w' :: fs) := by
        simp [List.intercalate, List.intersperse]
      rw [hi, splitOn_field d w _ (h w (by simp)), ih (by simp) fun f hf => h f (by simp [hf])]

theorem splitWsAux_word (w s cur : List Char) (hw : ∀ c ∈ w, isSpace c = false) (hne : cur ++ w ≠ [])
    (c : Char) (hc : isSpace c = true) :
    splitWsAux (w ++ c :: s) cur = (cur.reverse ++ w) :: splitWs s := by
  induction w generalizing cur with
  | nil =>
    rw [List.append_nil] at hne
    simp [splitWsAux, hc, hne, splitWs]
  | cons a w ih =>
    rw [List.cons_append, splitWsAux, if_neg (by rw [hw a (by simp)]; simp),
      ih _ (fun c hc => hw c (by simp [hc])) (by simp)]
    simp

/-- A word followed by white space is the first word. -/
theorem splitWs_word (w s : List Char) (hw : ∀ c ∈ w, isSpace c = false) (hne : w ≠ []) (c : Char)
    (hc : isSpace c = true) : splitWs (w ++ c :: s) = w :: splitWs s := by
  unfold splitWs
  rw [splitWsAux_word w s [] hw (by simpa using hne) c hc]
  rfl

theorem splitWsAux_end (w cur : List Char) (hw : ∀ c ∈ w, isSpace c = false) (hne : cur ++ w ≠ []) :
    splitWsAux w cur = [cur.reverse ++ w] := by
  induction w generalizing cur with
  | nil =>
    rw [List.append_nil] at hne
    simp [splitWsAux, hne]
  | cons a w ih =>
    rw [splitWsAux, if_neg (by rw [hw a (by simp)]; simp), ih _ (fun c hc => hw c (by simp [hc])) (by simp)]
    simp

theorem splitWs_end (w : List Char) (hw : ∀ c ∈ w, isSpace c = false) (hne : w ≠ []) : splitWs w = [w] := by
  unfold splitWs
  rw [splitWsAux_end w [] hw (by simpa using hne)]
  rfl

/-- Leading white space is skipped. -/
theorem splitWs_space (c : Char) (s : List Char) (hc : isSpace c = true) : splitWs (c :: s) = splitWs s := by
  simp [splitWs, splitWsAux, hc]

end Verif.NumPy
