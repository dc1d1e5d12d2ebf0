import Mathlib.Data.List.Basic
import Mathlib.Tactic

/-!
# Reading a configuration file (C306)

Source: `/repo/RMutils/util_misc.py` 187-232, `config_read` with the default delimiter. A line is a list of characters without line ends (line 207). What is done with keyword and value after the
split (lines 216-230: spaces, quotes, commas) is any pair of functions here.
-/

namespace Verif.Config

variable {K V : Type*} [DecidableEq K]

/-- Line 203: the regular expression `^.+=.+`. -/
def keyVal (l : List Char) : Prop := ∃ a b, a ≠ [] ∧ b ≠ [] ∧ l = a ++ '=' :: b

/-- Line 212: `#.*` is replaced by nothing. -/
def strip (l : List Char) : List Char := l.takeWhile (· ≠ '#')

/-- Line 213: `line.split("=", 1)` into two values. `none`: there is only one, `ValueError`. -/
def splitFirst : List Char → Option (List Char × List Char)
  | [] => none
  | c :: l => if c = '=' then some ([], l) else (splitFirst l).map fun p => (c :: p.1, p.2)

/-- Lines 210-213 for a line. `none`: an exception; `some none`: the line is passed over. -/
noncomputable def readLine (l : List Char) : Option (Option (List Char × List Char)) :=
  open Classical in
  if l.head? = some '#' then some none
  else if keyVal l then (splitFirst (strip l)).map some
  else some none

/-- Lines 205-230: the loop over the lines; the table as a function, `none` for a missing keyword. -/
noncomputable def readFrom (key : List Char → K) (val : List Char → V) : List (List Char) → (K → Option V) → Option (K → Option V)
  | [], t => some t
  | l :: ls, t => (readLine l).bind fun r => match r with
    | none => readFrom key val ls t
    | some p => readFrom key val ls (Function.update t (key p.1) (some (val p.2)))

/-- `config_read` 187-232. -/
noncomputable def configRead (key : List Char → K) (val : List Char → V) (ls : List (List Char)) : Option (K → Option V) := readFrom key val ls fun _ => none

/-! ## Proofs -/

theorem splitFirst_some (k v : List Char) (hk : '=' ∉ k) : splitFirst (k ++ '=' :: v) = some (k, v) := by
  induction k with
  | nil => simp [splitFirst]
  | cons c k ih =>
    have hc : c ≠ '=' := fun h => hk (by simp [h])
    rw [List.cons_append, splitFirst, if_neg hc, ih fun h => hk (List.mem_cons_of_mem _ h)]
    rfl

theorem splitFirst_none (l : List Char) : splitFirst l = none ↔ '=' ∉ l := by
  induction l with
  | nil => simp [splitFirst]
  | cons c l ih =>
    unfold splitFirst
    by_cases h : c = '='
    · simp [h]
    · rw [if_neg h, Option.map_eq_none_iff, ih]
      simp [Ne.symm h]

theorem strip_comment (t c : List Char) (ht : '#' ∉ t) : strip (t ++ '#' :: c) = t := by
  unfold strip
  rw [List.takeWhile_append_of_pos fun a ha => by
    have : a ≠ '#' := fun h => ht (h ▸ ha)
    simpa using this]
  simp

theorem strip_none (t : List Char) (ht : '#' ∉ t) : strip t = t := by
  unfold strip
  induction t with
  | nil => rfl
  | cons a t ih =>
    have ha : a ≠ '#' := fun h => ht (by simp [h])
    rw [List.takeWhile_cons_of_pos (by simpa using ha), ih fun h => ht (List.mem_cons_of_mem _ h)]

theorem head_ne (t c : List Char) (ht : '#' ∉ t) (hne : t ≠ []) : (t ++ c).head? ≠ some '#' := by
  cases t with
  | nil => exact absurd rfl hne
  | cons a t =>
    intro h
    have : a = '#' := by simpa using h
    exact ht (by simp [this])

/-- **C306, a line.** A keyword, an equals sign and a value that is not empty are read as that keyword and that value, which may contain further equals signs; with or without a comment. -/
theorem config_line (k v c : List Char) (hk : k ≠ []) (hv : v ≠ []) (hk1 : '=' ∉ k) (hk2 : '#' ∉ k) (hv2 : '#' ∉ v) :
    readLine (k ++ '=' :: v) = some (some (k, v)) ∧ readLine (k ++ '=' :: v ++ '#' :: c) = some (some (k, v)) := by
  have hn : '#' ∉ k ++ '=' :: v := by simp [hk2, hv2]
  have hne : k ++ '=' :: v ≠ [] := by simp
  constructor
  · unfold readLine
    rw [if_neg (by simpa using head_ne _ [] hn hne), if_pos ⟨k, v, hk, hv, rfl⟩, strip_none _ hn, splitFirst_some k v hk1]
    rfl
  · unfold readLine
    rw [if_neg (head_ne _ _ hn hne), if_pos ⟨k, v ++ '#' :: c, hk, by simp, by simp⟩, strip_comment _ _ hn, splitFirst_some k v hk1]
    rfl

theorem keyVal_iff (l : List Char) : keyVal l ↔ '=' ∈ l.tail.dropLast := by
  constructor
  · rintro ⟨a, b, ha, hb, rfl⟩
    obtain ⟨x, a, rfl⟩ := List.exists_cons_of_ne_nil ha
    rw [List.cons_append, List.tail_cons, List.dropLast_append_of_ne_nil (by simp), List.dropLast_cons_of_ne_nil hb]
    simp
  · intro h
    cases l with
    | nil => simp at h
    | cons x m =>
      rw [List.tail_cons] at h
      have hm : m ≠ [] := by
        rintro rfl
        simp at h
      obtain ⟨a, b, hab⟩ := List.append_of_mem h
      refine ⟨x :: a, b ++ [m.getLast hm], by simp, by simp, ?_⟩
      rw [List.cons_append, ← List.cons_append (a := '='), ← List.append_assoc, ← hab, List.dropLast_append_getLast]

/-- **C306, which lines raise.** Exactly those which do not begin with a comment, have an equals sign other than the first and the last character, but none before the comment. -/
theorem config_raises_iff (l : List Char) : readLine l = none ↔ l.head? ≠ some '#' ∧ '=' ∈ l.tail.dropLast ∧ '=' ∉ l.takeWhile (· ≠ '#') := by
  rw [← keyVal_iff]
  unfold readLine
  split_ifs with h1 h2
  · simp [h1]
  · rw [Option.map_eq_none_iff, splitFirst_none]
    simp [h1, h2, strip]
  · simp [h2]

/-- **C306, which lines are passed over.** Exactly those which begin with a comment or have no equals sign other than the first and the last character. -/
theorem config_skips_iff (l : List Char) : readLine l = some none ↔ l.head? = some '#' ∨ '=' ∉ l.tail.dropLast := by
  rw [← keyVal_iff]
  unfold readLine
  split_ifs with h1 h2
  · simp [h1]
  · simp [h1, h2]
  · simp [h2]

/-- **C306, the part that holds.** A comment after a text does not change what is read, if the text has an equals sign with something before and after it, or if neither text nor comment has one. -/
theorem config_comment_partial (t c : List Char) (ht : '#' ∉ t) (h : keyVal t ∨ ('=' ∉ t ∧ '=' ∉ c)) : readLine (t ++ '#' :: c) = readLine t := by
  rcases h with h | ⟨h1, h2⟩
  · have hne : t ≠ [] := by
      rintro rfl
      obtain ⟨a, b, -, -, hab⟩ := h
      simp at hab
    have h' : keyVal (t ++ '#' :: c) := by
      obtain ⟨a, b, ha, hb, rfl⟩ := h
      exact ⟨a, b ++ '#' :: c, ha, by simp, by simp⟩
    unfold readLine
    have h0 : t.head? ≠ some '#' := by simpa using head_ne t [] ht hne
    rw [if_neg (head_ne t _ ht hne), if_neg h0, if_pos h', if_pos h, strip_comment t c ht, strip_none t ht]
  · have hk : ∀ l : List Char, '=' ∉ l → readLine l = some none := by
      intro l hl
      have : ¬ keyVal l := by
        rintro ⟨a, b, -, -, rfl⟩
        exact hl (by simp)
      unfold readLine
      rw [if_neg this, ite_self]
    rw [hk _ h1, hk]
    simp [h1, h2]

/-- C306 is false for other comments: after a text that is passed over by itself, a comment with an equals sign ends the program, and after a keyword without a value any comment enters the keyword with an empty value. -/
theorem config_comment_wrong (t a b : List Char) (ht : '#' ∉ t) (he : '=' ∉ t) (hne : t ≠ []) (hb : b ≠ []) :
    readLine t = some none ∧ readLine (t ++ '#' :: (a ++ '=' :: b)) = none ∧
    readLine (t ++ ['=']) = some none ∧ readLine (t ++ ['='] ++ '#' :: a) = some (some (t, [])) := by
  have hn : '#' ∉ t ++ ['='] := by simp [ht]
  refine ⟨?_, ?_, ?_, ?_⟩
  · unfold readLine
    rw [if_neg (c := keyVal t) (by rintro ⟨x, y, -, -, rfl⟩; exact he (by simp)), ite_self]
  · rw [config_raises_iff]
    refine ⟨head_ne t _ ht hne, (keyVal_iff _).1 ⟨t ++ '#' :: a, b, by simp, hb, by simp⟩, ?_⟩
    have := strip_comment t (a ++ '=' :: b) ht
    unfold strip at this
    rw [this]
    exact he
  · unfold readLine
    rw [if_neg (c := keyVal _), ite_self]
    rintro ⟨x, y, -, hy, hxy⟩
    obtain ⟨y', z, rfl⟩ : ∃ y' z, y = y' ++ [z] := ⟨y.dropLast, y.getLast hy, (List.dropLast_append_getLast hy).symm⟩
    have : t ++ ['='] = (x ++ '=' :: y') ++ [z] := by simpa using hxy
    have h1 := (List.append_inj' this rfl).1
    exact he (by simp [h1])
  · unfold readLine
    rw [if_neg (head_ne _ _ hn (by simp)), if_pos ⟨t, '#' :: a, hne, by simp, by simp⟩, strip_comment _ _ hn, splitFirst_some t [] he]
    rfl

theorem readFrom_append (key : List Char → K) (val : List Char → V) (ls ms : List (List Char)) (t : K → Option V) :
    readFrom key val (ls ++ ms) t = (readFrom key val ls t).bind (readFrom key val ms) := by
  induction ls generalizing t with
  | nil => rfl
  | cons l ls ih =>
    simp only [List.cons_append, readFrom]
    cases readLine l with
    | none => rfl
    | some r => cases r <;> simp [ih]

/-- **C306, repeated keywords.** The value of a keyword is that of its last line: after a line with the keyword and further lines with other keywords, the table has the value of this line, whatever came before. -/
theorem config_last (key : List Char → K) (val : List Char → V) (ls ms : List (List Char)) (l k v : List Char) (hl : readLine l = some (some (k, v)))
    (hm : ∀ m ∈ ms, ∀ p, readLine m = some (some p) → key p.1 ≠ key k) (T : K → Option V) (hT : configRead key val (ls ++ l :: ms) = some T) :
    T (key k) = some (val v) := by
  have keep : ∀ (ms : List (List Char)) (t T : K → Option V), (∀ m ∈ ms, ∀ p, readLine m = some (some p) → key p.1 ≠ key k) →
      readFrom key val ms t = some T → T (key k) = t (key k) := by
    intro ms
    induction ms with
    | nil => intro t T _ h; cases h; rfl
    | cons m ms ih =>
      intro t T hm h
      rw [readFrom] at h
      cases hr : readLine m with
      | none => rw [hr] at h; cases h
      | some r =>
        rw [hr, Option.bind_some] at h
        cases r with
        | none => exact ih t T (fun m' h' => hm m' (List.mem_cons_of_mem _ h')) h
        | some p =>
          rw [ih _ T (fun m' h' => hm m' (List.mem_cons_of_mem _ h')) h, Function.update_of_ne (hm m List.mem_cons_self p hr).symm]
  unfold configRead at hT
  rw [readFrom_append] at hT
  obtain ⟨t, -, h⟩ := Option.bind_eq_some_iff.1 hT
  rw [readFrom, hl, Option.bind_some] at h
  rw [keep ms _ T hm h, Function.update_self]

/-- A keyword without a line is not in the table; every line of the table comes from the file. -/
theorem config_only (key : List Char → K) (val : List Char → V) (ls : List (List Char)) (x : K) (h : ∀ m ∈ ls, ∀ p, readLine m = some (some p) → key p.1 ≠ x)
    (T : K → Option V) (hT : configRead key val ls = some T) : T x = none := by
  have keep : ∀ (ms : List (List Char)) (t T : K → Option V), (∀ m ∈ ms, ∀ p, readLine m = some (some p) → key p.1 ≠ x) →
      readFrom key val ms t = some T → T x = t x := by
    intro ms
    induction ms with
    | nil => intro t T _ h; cases h; rfl
    | cons m ms ih =>
      intro t T hm h
      rw [readFrom] at h
      cases hr : readLine m with
      | none => rw [hr] at h; cases h
      | some r =>
        rw [hr, Option.bind_some] at h
        cases r with
        | none => exact ih t T (fun m' h' => hm m' (List.mem_cons_of_mem _ h')) h
        | some p =>
          rw [ih _ T (fun m' h' => hm m' (List.mem_cons_of_mem _ h')) h, Function.update_of_ne (hm m List.mem_cons_self p hr).symm]
  exact keep ls _ T h hT

/-- `a=1` followed by a comment, and a note with an equals sign in its comment, which ends the program. -/
theorem config_case : readLine "a=1 # one".toList = some (some (['a'], ['1', ' '])) ∧ readLine "see # b=2".toList = none := by
  constructor
  · exact (config_line ['a'] ['1', ' '] " one".toList (by simp) (by simp) (by simp) (by simp) (by simp)).2
  · exact (config_comment_wrong "see ".toList " b".toList ['2'] (by simp) (by simp) (by simp) (by simp)).2.1

end Verif.Config
