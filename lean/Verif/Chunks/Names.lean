import Verif.Chunks.Props

/-!
# Finding the chunks by name, and what a failed assembly leaves behind (C225, C226)

Source: `/repo/RMtools_3D/assemble_chunks.py` 57-158.

A directory is a list of files with plain names (no `/`). Names are lists of characters; `\d` and `isnumeric` are taken as the ASCII digits.
In patterns of `glob`, `*` and `?` are modelled; a set in brackets `[…]` is not (the bracket is taken literally), and the theorems assume
that there is none.
-/

namespace Verif.Chunks

variable {α β : Type*}

/-! ## The program -/

/-- A match of `\.C\d+\.` (line 74) at the beginning of the text; the result is what follows it. As the point is not a digit, the longest run of
digits is the only one that can match. -/
def matchAt : List Char → Option (List Char)
  | '.' :: 'C' :: r =>
    if r.takeWhile Char.isDigit = [] then none
    else match r.dropWhile Char.isDigit with
      | '.' :: post => some post
      | _ => none
  | _ => none

/-- `re.search` (line 74): what is before the first match (`args.chunkname[0 : filename.start()]`) and after it (`args.chunkname[filename.end() :]`). -/
def search : List Char → Option (List Char × List Char)
  | [] => none
  | c :: r => match matchAt (c :: r) with
    | some post => some ([], post)
    | none => (search r).map fun p => (c :: p.1, p.2)

/-- `glob` (line 75) compares a pattern with a name. -/
def fnmatch : List Char → List Char → Bool
  | [], s => s.isEmpty
  | c :: p, s =>
    if c = '*' then s.tails.any fun t => fnmatch p t
    else match s with
      | [] => false
      | d :: s' => (c = '?' || c = d) && fnmatch p s'

/-- The pattern of lines 75-77. -/
def pattern (pre post : List Char) : List Char := pre ++ ('.' :: 'C' :: '*' :: '.' :: post)

/-- `chunkname.split(".")` (line 61). -/
def components : List Char → List (List Char)
  | [] => [[]]
  | c :: r =>
    if c = '.' then [] :: components r
    else match components r with
      | [] => [[c]]
      | a :: l => (c :: a) :: l

/-- `x.startswith("C") and x[1:].isnumeric()` (line 62). -/
def isNumber : List Char → Bool
  | 'C' :: r => !r.isEmpty && r.all Char.isDigit
  | _ => false

/-- `".".join(…)` (line 58). -/
def joinDots : List (List Char) → List Char
  | [] => []
  | [a] => a
  | a :: b :: l => a ++ '.' :: joinDots (b :: l)

/-- The default output name, lines 58-64. -/
def outName (chunk : List Char) : List Char := joinDots ((components chunk).filter fun x => !isNumber x)

/-- The chunks found in the directory, lines 74-77; `none` is the exception for a name without a number (`None.start()`). -/
def found (dir : List (File β)) (chunk : List Char) : Option (List (File β)) :=
  (search chunk).map fun p => dir.filter fun f => fnmatch (pattern p.1 p.2) f.name

/-- The whole program: output name and image. -/
def assembleMain (dir : List (File β)) (chunk : List Char) : Option (List Char × Image β) :=
  (found dir chunk).bind fun l => (assemble l).map fun im => (outName chunk, im)

/-- What is left on the disk: nothing was touched; the output file was created or replaced and the program then stopped with an exception;
the image is complete. -/
inductive Outcome (β : Type*)
  | untouched
  | spoiled
  | done (im : Image β)

/-- The same with the order of the steps: the header is read and the dimensions are checked (80-92), the output file is written without pixels
(102, an exception if it exists and `-o` is not given), and only then the number of chunks is compared (116) and the pixels are copied. -/
def assembleRun (dir : List (File β)) (chunk : List Char) (present overwrite : Bool) : Outcome β :=
  match found dir chunk with
  | none => .untouched
  | some l =>
    match sortFiles l with
    | [] => .untouched
    | first :: _ =>
      if first.pix.length = 0 then .untouched
      else if first.naxis ≠ 4 ∧ first.naxis ≠ 3 ∧ first.naxis ≠ 2 then .untouched
      else if present = true ∧ overwrite = false then .untouched
      else match assemble l with
        | none => .spoiled
        | some im => .done im

/-! ## Names -/

/-- No character with a meaning in patterns. -/
def Plain (l : List Char) : Prop := '*' ∉ l ∧ '?' ∉ l ∧ '[' ∉ l

theorem fnmatch_cons (c : Char) (p s : List Char) : fnmatch (c :: p) s =
    if c = '*' then s.tails.any fun t => fnmatch p t
    else match s with
      | [] => false
      | d :: s' => (c = '?' || c = d) && fnmatch p s' := by
  cases s <;> rfl

theorem matchAt_C (r : List Char) : matchAt ('.' :: 'C' :: r) =
    if r.takeWhile Char.isDigit = [] then none
    else match r.dropWhile Char.isDigit with
      | '.' :: post => some post
      | _ => none := rfl

theorem split_digits (l : List Char) (hex : ∃ a ∈ l, a.isDigit = false) :
    ∃ u a v, l = u ++ a :: v ∧ (∀ c ∈ u, c.isDigit = true) ∧ a.isDigit = false := by
  induction l with
  | nil => simp at hex
  | cons x l ih =>
    by_cases hx : x.isDigit = true
    · obtain ⟨a, ha, hb⟩ := hex
      have hal : a ∈ l := by
        rcases List.mem_cons.1 ha with rfl | h
        · rw [hx] at hb; exact absurd hb (by simp)
        · exact h
      obtain ⟨u, a, v, rfl, h1, h2⟩ := ih ⟨a, hal, hb⟩
      refine ⟨x :: u, a, v, rfl, ?_, h2⟩
      intro c hc
      rcases List.mem_cons.1 hc with rfl | h
      exacts [hx, h1 c h]
    · exact ⟨[], x, l, rfl, by simp, by simpa using hx⟩

theorem fnmatch_append (pre p s : List Char) (h : Plain pre) :
    fnmatch (pre ++ p) s = true ↔ ∃ t, s = pre ++ t ∧ fnmatch p t = true := by
  induction pre generalizing s with
  | nil => simp
  | cons c pre ih =>
    have hc : c ≠ '*' ∧ c ≠ '?' := ⟨fun e => h.1 (by simp [e]), fun e => h.2.1 (by simp [e])⟩
    have hp : Plain pre := ⟨fun e => h.1 (by simp [e]), fun e => h.2.1 (by simp [e]), fun e => h.2.2 (by simp [e])⟩
    rw [List.cons_append, fnmatch_cons, if_neg hc.1]
    cases s with
    | nil => simp
    | cons d s =>
      simp only [Bool.and_eq_true, Bool.or_eq_true, decide_eq_true_eq, ih s hp, hc.2, false_or, List.cons_append, List.cons.injEq]
      constructor
      · rintro ⟨rfl, t, h1, h2⟩
        exact ⟨t, ⟨rfl, h1⟩, h2⟩
      · rintro ⟨t, ⟨h0, h1⟩, h2⟩
        exact ⟨h0.symm, t, h1, h2⟩

theorem fnmatch_plain (p s : List Char) (h : Plain p) : fnmatch p s = true ↔ s = p := by
  have := fnmatch_append p [] s h
  rw [List.append_nil] at this
  rw [this]
  simp [fnmatch]

/-- What `glob` finds, said without patterns. -/
theorem fnmatch_pattern (pre post s : List Char) (hpre : Plain pre) (hpost : Plain post) :
    fnmatch (pattern pre post) s = true ↔ ∃ m, s = pre ++ '.' :: 'C' :: (m ++ '.' :: post) := by
  have e : pattern pre post = (pre ++ ['.', 'C']) ++ ('*' :: '.' :: post) := by simp [pattern]
  have h1 : Plain (pre ++ ['.', 'C']) := by
    refine ⟨?_, ?_, ?_⟩ <;> simp [hpre.1, hpre.2.1, hpre.2.2]
  have h2 : Plain ('.' :: post) := by
    refine ⟨?_, ?_, ?_⟩ <;> simp [hpost.1, hpost.2.1, hpost.2.2]
  rw [e, fnmatch_append _ _ _ h1]
  have h3 : ∀ t, fnmatch ('*' :: '.' :: post) t = true ↔ ∃ m, t = m ++ '.' :: post := by
    intro t
    rw [fnmatch_cons, if_pos rfl, List.any_eq_true]
    constructor
    · rintro ⟨u, hu, hm⟩
      rw [fnmatch_plain _ _ h2] at hm
      obtain ⟨m, rfl⟩ := (List.mem_tails _ _).1 hu
      exact ⟨m, by rw [hm]⟩
    · rintro ⟨m, rfl⟩
      exact ⟨_, (List.mem_tails _ _).2 ⟨m, rfl⟩, (fnmatch_plain _ _ h2).2 rfl⟩
  simp only [h3]
  constructor
  · rintro ⟨t, rfl, m, rfl⟩
    exact ⟨m, by simp⟩
  · rintro ⟨m, rfl⟩
    exact ⟨m ++ '.' :: post, by simp, m, rfl⟩

theorem isDigit_digitChar (d : ℕ) (h : d < 10) : (Nat.digitChar d).isDigit = true := by
  interval_cases d <;> decide

theorem pad_digits (w i : ℕ) : ∀ c ∈ pad w i, c.isDigit = true := by
  induction w generalizing i with
  | zero => simp [pad]
  | succ w ih =>
    intro c hc
    simp only [pad, List.mem_append, List.mem_singleton] at hc
    rcases hc with h | rfl
    · exact ih _ c h
    · exact isDigit_digitChar _ (Nat.mod_lt _ (by norm_num))

theorem fmt_chunk (k i : ℕ) (hi : i < k) : fmt (digits k) i = pad (digits k) i := by
  have hk : k < 10 ^ digits k := Nat.lt_pow_succ_log_self (by norm_num) k
  exact fmt_eq_pad _ _ (Nat.succ_pos _) (by omega)

theorem fmt_ne_nil (k i : ℕ) (hi : i < k) : fmt (digits k) i ≠ [] := by
  rw [fmt_chunk k i hi]
  intro h
  have := congrArg List.length h
  rw [length_pad] at this
  simp [digits] at this

theorem matchAt_number (d post : List Char) (hd : ∀ c ∈ d, c.isDigit = true) (h0 : d ≠ []) :
    matchAt ('.' :: 'C' :: (d ++ '.' :: post)) = some post := by
  have hdot : Char.isDigit '.' = false := by decide
  rw [matchAt_C, if_neg, List.dropWhile_append_of_pos hd]
  · simp [hdot]
  · rw [List.takeWhile_append_of_pos hd]
    simp [h0]

/-- A match which starts in `l` ends at the latest at the next point. -/
theorem matchAt_before (l r : List Char) (hl : l ≠ []) (h : matchAt (l ++ ['.']) = none) : matchAt (l ++ '.' :: r) = none := by
  have hdot : Char.isDigit '.' = false := by decide
  match l, hl with
  | [c], _ =>
    unfold matchAt
    split
    · rename_i e
      simp at e
    · rfl
  | c :: c' :: l, _ =>
    by_cases hc : c = '.' ∧ c' = 'C'
    · obtain ⟨rfl, rfl⟩ := hc
      simp only [List.cons_append] at h ⊢
      rw [matchAt_C] at h ⊢
      by_cases hall : ∀ a ∈ l, a.isDigit = true
      · rw [List.takeWhile_append_of_pos hall, List.dropWhile_append_of_pos hall] at h ⊢
        simp only [List.takeWhile_cons, List.dropWhile_cons, hdot] at h ⊢
        by_cases h0 : l = []
        · simp [h0]
        · simp [h0] at h
      · have hex : ∃ a ∈ l, a.isDigit = false := by
          push Not at hall
          obtain ⟨a, ha, hb⟩ := hall
          exact ⟨a, ha, by simpa using hb⟩
        obtain ⟨u, a, v, rfl, hu, ha⟩ := split_digits l hex
        simp only [List.append_assoc, List.cons_append] at h ⊢
        rw [List.takeWhile_append_of_pos hu, List.dropWhile_append_of_pos hu] at h ⊢
        simp only [List.takeWhile_cons, List.dropWhile_cons, ha] at h ⊢
        by_cases h0 : u = []
        · simp [h0]
        · simp only [h0, Bool.false_eq_true, if_false, List.append_nil] at h ⊢
          by_cases hp : a = '.'
          · subst hp; simp at h
          · split
            · rename_i e
              simp only [List.cons.injEq] at e
              exact absurd e.1 hp
            · rfl
    · unfold matchAt
      split
      · rename_i e
        simp only [List.cons_append, List.cons.injEq] at e
        exact absurd ⟨e.1, e.2.1⟩ hc
      · rfl

theorem search_prefix (pre r post : List Char) (hpre : search (pre ++ ['.']) = none) (hm : matchAt ('.' :: r) = some post) :
    search (pre ++ '.' :: r) = some (pre, post) := by
  induction pre with
  | nil =>
    rw [List.nil_append]
    unfold search
    rw [hm]
  | cons c pre ih =>
    rw [List.cons_append] at hpre ⊢
    unfold search at hpre ⊢
    cases hmc : matchAt (c :: (pre ++ ['.'])) with
    | some q => rw [hmc] at hpre; simp at hpre
    | none =>
      rw [hmc] at hpre
      have := matchAt_before (c :: pre) r (by simp) (by simpa using hmc)
      rw [List.cons_append] at this
      rw [this]
      dsimp only at hpre ⊢
      rw [ih (by simpa using hpre)]
      rfl

/-- The name of any chunk is taken apart into what was given to `create_chunks`. -/
theorem search_chunkName (pre post : List Char) (k i : ℕ) (hi : i < k) (hpre : search (pre ++ ['.']) = none) :
    search (chunkName pre ('.' :: post) k i) = some (pre, post) := by
  unfold chunkName
  rw [List.append_assoc, List.cons_append, List.cons_append]
  apply search_prefix _ _ _ hpre
  apply matchAt_number _ _ _ (fmt_ne_nil k i hi)
  rw [fmt_chunk k i hi]
  exact pad_digits _ _

/-! ## The output name -/

theorem components_ne_nil (s : List Char) : components s ≠ [] := by
  cases s with
  | nil => simp [components]
  | cons c r =>
    unfold components
    split_ifs
    · simp
    · split <;> simp

theorem components_append (a b : List Char) : components (a ++ '.' :: b) = components a ++ components b := by
  induction a with
  | nil => simp [components]
  | cons c a ih =>
    rw [List.cons_append, components, components]
    by_cases hc : c = '.'
    · rw [if_pos hc, if_pos hc, ih]; rfl
    · rw [if_neg hc, if_neg hc, ih]
      cases h : components a with
      | nil => exact absurd h (components_ne_nil a)
      | cons x l => rfl

theorem components_one (a : List Char) (h : '.' ∉ a) : components a = [a] := by
  induction a with
  | nil => rfl
  | cons c a ih =>
    rw [components, if_neg (fun e => h (by simp [e])), ih (fun e => h (by simp [e]))]

theorem joinDots_cons (a : List Char) (l : List (List Char)) (h : l ≠ []) : joinDots (a :: l) = a ++ '.' :: joinDots l := by
  cases l with
  | nil => exact absurd rfl h
  | cons b l => rfl

theorem joinDots_append (a b : List (List Char)) (ha : a ≠ []) (hb : b ≠ []) : joinDots (a ++ b) = joinDots a ++ '.' :: joinDots b := by
  induction a with
  | nil => exact absurd rfl ha
  | cons x a ih =>
    by_cases h : a = []
    · subst h
      exact joinDots_cons x b hb
    · rw [List.cons_append, joinDots_cons x (a ++ b) (by simp [h]), ih h, joinDots_cons x a h]
      simp

theorem joinDots_components (s : List Char) : joinDots (components s) = s := by
  induction s with
  | nil => rfl
  | cons c s ih =>
    rw [components]
    by_cases hc : c = '.'
    · rw [if_pos hc, joinDots_cons _ _ (components_ne_nil s), ih, hc]; rfl
    · rw [if_neg hc]
      cases h : components s with
      | nil => exact absurd h (components_ne_nil s)
      | cons a l =>
        rw [h] at ih
        dsimp only
        cases l with
        | nil => simpa [joinDots] using ih
        | cons b l =>
          rw [joinDots_cons _ _ (by simp)] at ih ⊢
          rw [List.cons_append, ih]

/-- No part of the name between points is `C` with a number. -/
def Unnumbered (s : List Char) : Prop := ∀ x ∈ components s, isNumber x = false

theorem isNumber_chunk (d : List Char) (hd : ∀ c ∈ d, c.isDigit = true) (h0 : d ≠ []) : isNumber ('C' :: d) = true := by
  unfold isNumber
  simp only [Bool.and_eq_true, Bool.not_eq_true', List.isEmpty_eq_false_iff, ne_eq, List.all_eq_true]
  exact ⟨h0, hd⟩

theorem dot_not_digit (d : List Char) (hd : ∀ c ∈ d, c.isDigit = true) : '.' ∉ d := by
  intro h
  have := hd _ h
  exact absurd this (by decide)

theorem outName_chunk (pre post : List Char) (k i : ℕ) (hi : i < k) (hpre : Unnumbered pre) (hpost : Unnumbered post) :
    outName (chunkName pre ('.' :: post) k i) = pre ++ '.' :: post := by
  have hd : ∀ c ∈ fmt (digits k) i, c.isDigit = true := by rw [fmt_chunk k i hi]; exact pad_digits _ _
  unfold outName chunkName
  have hdot : '.' ∉ 'C' :: fmt (digits k) i := by
    have := dot_not_digit _ hd
    simp [this]
  rw [List.append_assoc, List.cons_append, components_append, components_append, components_one _ hdot, List.filter_append,
    List.filter_append]
  have e1 : ∀ s, Unnumbered s → (components s).filter (fun x => !isNumber x) = components s := by
    intro s hs
    rw [List.filter_eq_self]
    intro x hx
    rw [hs x hx]; rfl
  rw [e1 _ hpre, e1 _ hpost, List.filter_cons_of_neg (by rw [isNumber_chunk _ hd (fmt_ne_nil k i hi)]; simp), List.filter_nil, List.nil_append,
    joinDots_append _ _ (components_ne_nil _) (components_ne_nil _), joinDots_components, joinDots_components]

theorem search_some (s a b : List Char) (h : search s = some (a, b)) :
    ∃ d, d ≠ [] ∧ (∀ c ∈ d, c.isDigit = true) ∧ s = a ++ '.' :: 'C' :: (d ++ '.' :: b) := by
  induction s generalizing a with
  | nil => simp [search] at h
  | cons c r ih =>
    unfold search at h
    cases hm : matchAt (c :: r) with
    | some q =>
      rw [hm] at h
      simp only [Option.some.injEq, Prod.mk.injEq] at h
      obtain ⟨rfl, rfl⟩ := h
      unfold matchAt at hm
      split at hm
      · rename_i r' e
        split_ifs at hm with h0
        split at hm
        · rename_i post' e'
          rw [Option.some.injEq] at hm
          subst hm
          refine ⟨r'.takeWhile Char.isDigit, h0, fun c hc => ?_, ?_⟩
          · exact List.all_eq_true.1 List.all_takeWhile c hc
          · rw [e, ← e', List.takeWhile_append_dropWhile]
            rfl
        · simp at hm
      · simp at hm
    | none =>
      rw [hm] at h
      simp only [Option.map_eq_some_iff, Prod.mk.injEq] at h
      obtain ⟨p, hp, rfl, rfl⟩ := h
      obtain ⟨d, h1, h2, h3⟩ := ih p.1 hp
      exact ⟨d, h1, h2, by rw [h3]; rfl⟩

theorem search_unnumbered (pre : List Char) (h : Unnumbered pre) : search (pre ++ ['.']) = none := by
  cases hs : search (pre ++ ['.']) with
  | none => rfl
  | some q =>
    exfalso
    obtain ⟨d, h0, h1, h2⟩ := search_some _ q.1 q.2 hs
    have hdot : '.' ∉ 'C' :: d := by
      have := dot_not_digit _ h1
      simp [this]
    have hc := congrArg components h2
    rw [components_append, components_append, show 'C' :: (d ++ '.' :: q.2) = ('C' :: d) ++ '.' :: q.2 from rfl, components_append,
      components_one _ hdot] at hc
    have hmem : ('C' :: d) ∈ components pre ++ components [] := by rw [hc]; simp
    rw [List.mem_append] at hmem
    rcases hmem with h3 | h3
    · have := h _ h3
      rw [isNumber_chunk _ h1 h0] at this
      exact absurd this (by simp)
    · simp [components] at h3

/-! ## C225 -/

theorem create_files (pre post : List Char) (naxis : ℕ) {X Y : ℕ} (img : Fin X → Fin Y → α) (N : ℤ) (files : List (File α))
    (h : create pre post naxis img N = some files) : ∃ k, 2 ≤ k ∧ ∃ F : ℕ → File α, files = (List.range k).map F ∧
      ∀ i, (F i).name = chunkName pre post k i ∧ (F i).naxis = naxis ∧ (i < k → (F i).pix ≠ []) ∧
        ceilDiv ((F i).oldX * (F i).oldY) (F 0).pix.length = k := by
  obtain ⟨h0, h1⟩ := (create_isSome_iff pre post naxis img N).1 (by rw [h]; rfl)
  obtain ⟨n, rfl⟩ := Int.eq_ofNat_of_zero_le h0.le
  have hn : 0 < n := by exact_mod_cast h0
  have hlt : n < X * Y := by exact_mod_cast h1
  have hXY := index_pixel (lt_trans hn hlt)
  let d := img ⟨_, hXY.1⟩ ⟨_, hXY.2⟩
  have hk2 := two_le_ceilDiv (X * Y) n hn hlt
  have hc := create_eq pre post naxis img d n hn hlt
  rw [h] at hc
  refine ⟨_, hk2, _, Option.some.inj hc, fun i => ⟨rfl, rfl, fun hi => ?_, ?_⟩⟩
  · have hs := ceilDiv_spec (X * Y) n hn (by omega)
    have hmem : i * n ∈ chunkIdx n (X * Y) (ceilDiv (X * Y) n) i := by
      rw [mem_chunkIdx n _ _ i _ hn rfl hi]
      refine ⟨?_, Nat.mul_div_cancel _ hn⟩
      have : (i + 1) * n ≤ ceilDiv (X * Y) n * n := Nat.mul_le_mul_right n hi
      have : i * n ≤ (ceilDiv (X * Y) n - 1) * n := Nat.mul_le_mul_right n (by omega)
      omega
    intro he
    rw [List.map_eq_nil_iff] at he
    rw [he] at hmem
    simp at hmem
  · have : (List.map (pixAt img d) (chunkIdx n (X * Y) (ceilDiv (X * Y) n) 0)).length = n := by
      rw [List.length_map, chunkIdx, if_pos (by omega)]
      simp [fullIdx]
    rw [this]

/-- `glob` finds the chunks and nothing else. -/
theorem found_chunks (pre post : List Char) (hpre : Plain pre) (hpost : Plain post) (hnum : search (pre ++ ['.']) = none) (k : ℕ) (S : List (File β))
    (hS : ∀ f ∈ S, ∃ i < k, f.name = chunkName pre ('.' :: post) k i) (others dir : List (File β)) (hdir : dir.Perm (S ++ others))
    (ho : ∀ g ∈ others, ¬ ∃ m, g.name = pre ++ '.' :: 'C' :: (m ++ '.' :: post)) (i : ℕ) (hi : i < k) :
    ∃ l, found dir (chunkName pre ('.' :: post) k i) = some l ∧ l.Perm S := by
  refine ⟨_, by rw [found, search_chunkName pre post k i hi hnum]; rfl, ?_⟩
  refine (hdir.filter _).trans ?_
  rw [List.filter_append]
  have h1 : S.filter (fun f => fnmatch (pattern pre post) f.name) = S := by
    rw [List.filter_eq_self]
    intro f hf
    obtain ⟨j, hj, hjn⟩ := hS f hf
    rw [fnmatch_pattern _ _ _ hpre hpost, hjn]
    exact ⟨fmt (digits k) j, by simp [chunkName]⟩
  have h2 : others.filter (fun f => fnmatch (pattern pre post) f.name) = [] := by
    rw [List.filter_eq_nil_iff]
    intro f hf
    rw [fnmatch_pattern _ _ _ hpre hpost]
    exact ho f hf
  rw [h1, h2, List.append_nil]

/-- **C225 (partial)**. Whatever else is in the directory, as long as no other name has the form `prefix.C….rest` and neither prefix nor rest has a
part `C` with a number of its own: given the name of any one of the chunks, the program assembles the whole image and calls it `prefix.rest`. -/
theorem assemble_by_name_partial (pre post : List Char) (hpre : Plain pre) (hpost : Plain post) (hpn : Unnumbered pre) (hqn : Unnumbered post)
    (naxis : ℕ) (hax : naxis = 2 ∨ naxis = 3 ∨ naxis = 4)
    {X Y : ℕ} (img : Fin X → Fin Y → α) (N : ℤ) (h0 : 0 < N) (h1 : N < X * Y) (f : α → β) :
    ∃ files, create pre ('.' :: post) naxis img N = some files ∧
      ∀ dir others : List (File β), dir.Perm (files.map (File.map f) ++ others) →
        (∀ g ∈ others, ¬ ∃ m, g.name = pre ++ '.' :: 'C' :: (m ++ '.' :: post)) →
        ∀ c ∈ files, ∃ im, assembleMain dir c.name = some (pre ++ '.' :: post, im) ∧
          ∀ (x : Fin X) (y : Fin Y), im x y = some (f (img x y)) := by
  obtain ⟨files, hc, hr⟩ := chunk_round_trip pre ('.' :: post) naxis hax img N h0 h1 f
  refine ⟨files, hc, fun dir others hdir ho c hcm => ?_⟩
  obtain ⟨k, hk2, F, hF, hprop⟩ := create_files _ _ _ _ _ _ hc
  have hmem : ∀ g ∈ files, ∃ i < k, g.name = chunkName pre ('.' :: post) k i := by
    intro g hg
    rw [hF] at hg
    obtain ⟨i, hi, rfl⟩ := List.mem_map.1 hg
    exact ⟨i, List.mem_range.1 hi, (hprop i).1⟩
  obtain ⟨i, hi, hin⟩ := hmem c hcm
  obtain ⟨l, hl, hp⟩ := found_chunks pre post hpre hpost (search_unnumbered _ hpn) k (files.map (File.map f))
    (by
      intro g hg
      obtain ⟨g', hg', rfl⟩ := List.mem_map.1 hg
      exact hmem g' hg') others dir hdir ho i hi
  obtain ⟨im, him, hv⟩ := hr l hp
  refine ⟨im, ?_, hv⟩
  unfold assembleMain
  rw [hin, hl, Option.bind_some, him, Option.map_some, outName_chunk pre post k i hi hpn hqn]

theorem chunkName_inj (pre post : List Char) (k i j : ℕ) (hi : i < k) (hj : j < k) (h : chunkName pre post k i = chunkName pre post k j) : i = j := by
  rcases Nat.lt_trichotomy i j with h1 | h1 | h1
  · exact absurd h (chunkName_lt pre post k i j h1 hj).ne
  · exact h1
  · exact absurd h (chunkName_lt pre post k j i h1 hi).ne'

/-- **C225 refuted**: if the prefix ends in `.C` and a number, no image can be assembled from its chunks, though the directory contains nothing else. -/
theorem numbered_prefix_raises (pre d post : List Char) (hpre : Plain pre) (hpost : Plain post) (hpn : Unnumbered pre) (hd0 : d ≠ [])
    (hd : ∀ c ∈ d, c.isDigit = true) (naxis : ℕ) {X Y : ℕ} (img : Fin X → Fin Y → α) (N : ℤ) (f : α → β) (files : List (File α))
    (h : create (pre ++ '.' :: 'C' :: d) ('.' :: post) naxis img N = some files) (c : File α) (hc : c ∈ files) :
    assembleMain (files.map (File.map f)) c.name = none := by
  obtain ⟨k, hk2, F, hF, hprop⟩ := create_files _ _ _ _ _ _ h
  rw [hF] at hc
  obtain ⟨i, hi, rfl⟩ := List.mem_map.1 hc
  rw [List.mem_range] at hi
  have hname : ∀ j, chunkName (pre ++ '.' :: 'C' :: d) ('.' :: post) k j =
      pre ++ '.' :: 'C' :: (d ++ '.' :: ('C' :: (fmt (digits k) j ++ '.' :: post))) := by
    intro j; simp [chunkName]
  have hsearch : search (F i).name = some (pre, 'C' :: (fmt (digits k) i ++ '.' :: post)) := by
    rw [(hprop i).1, hname]
    exact search_prefix _ _ _ (search_unnumbered _ hpn) (matchAt_number _ _ hd hd0)
  have hfmt : ∀ c ∈ fmt (digits k) i, c.isDigit = true := by rw [fmt_chunk k i hi]; exact pad_digits _ _
  have hplain : Plain ('C' :: (fmt (digits k) i ++ '.' :: post)) := by
    have hno : ∀ b : Char, b.isDigit = false → b ∉ fmt (digits k) i := by
      intro b hb hm
      rw [hfmt b hm] at hb
      exact absurd hb (by simp)
    refine ⟨?_, ?_, ?_⟩
    · simp [hno '*' (by decide), hpost.1]
    · simp [hno '?' (by decide), hpost.2.1]
    · simp [hno '[' (by decide), hpost.2.2]
  have hlen : ∀ j < k, (fmt (digits k) j).length = digits k := by
    intro j hj
    rw [fmt_chunk k j hj, length_pad]
  have hmatch : ∀ j < k, fnmatch (pattern pre ('C' :: (fmt (digits k) i ++ '.' :: post))) (F j).name = true → j = i := by
    intro j hj hm
    rw [fnmatch_pattern _ _ _ hpre hplain, (hprop j).1, hname] at hm
    obtain ⟨m, hm⟩ := hm
    have hm := List.append_cancel_left hm
    simp only [List.cons.injEq, true_and] at hm
    obtain ⟨_, hm⟩ := List.append_inj' hm (by
      simp only [List.length_cons, List.length_append, hlen j hj, hlen i hi])
    apply chunkName_inj (pre ++ '.' :: 'C' :: d) ('.' :: post) k j i hj hi
    rw [hname, hname, hm]
  unfold assembleMain found
  rw [hsearch, Option.map_some, Option.bind_some]
  rw [missing_chunk_raises _ _ naxis img N f files h _ _ (List.filter_sublist) ?_ (List.Perm.refl _)]
  · rfl
  · obtain ⟨j, hj, hji⟩ : ∃ j < k, j ≠ i := by
      by_cases hi0 : i = 0
      · exact ⟨1, by omega, by omega⟩
      · exact ⟨0, by omega, by omega⟩
    have hl : files.length = (files.map (File.map f)).length := (List.length_map _).symm
    rw [hl, List.length_filter_lt_length_iff_exists]
    refine ⟨File.map f (F j), List.mem_map.2 ⟨F j, ?_, rfl⟩, fun hm => hji (hmatch j hj hm)⟩
    rw [hF]
    exact List.mem_map.2 ⟨j, List.mem_range.2 hj, rfl⟩

/-- **C225 refuted**: another file in the directory, whose name has the form `prefix.C….rest` and comes after that of the first chunk (as does
`prefix.CLEAN.rest`), is taken for a chunk and the assembly fails. -/
theorem stray_raises (pre post m : List Char) (hpre : Plain pre) (hpost : Plain post) (hpn : Unnumbered pre)
    (naxis : ℕ) {X Y : ℕ} (img : Fin X → Fin Y → α) (N : ℤ) (f : α → β) (files : List (File α))
    (h : create pre ('.' :: post) naxis img N = some files) (s : File β) (hs : s.name = pre ++ '.' :: 'C' :: (m ++ '.' :: post))
    (hafter : ∃ g ∈ files, g.name < s.name) (dir : List (File β)) (hdir : dir.Perm (s :: files.map (File.map f))) (c : File α) (hc : c ∈ files) :
    assembleMain dir c.name = none := by
  obtain ⟨k, hk2, F, hF, hprop⟩ := create_files _ _ _ _ _ _ h
  have hmem : ∀ g ∈ files, ∃ i < k, g = F i := by
    intro g hg
    rw [hF] at hg
    obtain ⟨i, hi, rfl⟩ := List.mem_map.1 hg
    exact ⟨i, List.mem_range.1 hi, rfl⟩
  obtain ⟨i, hi, rfl⟩ := hmem c hc
  have hfound : found dir (F i).name = some dir := by
    rw [found, (hprop i).1, search_chunkName pre post k i hi (search_unnumbered _ hpn), Option.map_some, List.filter_eq_self.2]
    intro g hg
    rw [fnmatch_pattern _ _ _ hpre hpost]
    rcases List.mem_cons.1 (hdir.subset hg) with rfl | hg
    · exact ⟨m, hs⟩
    · obtain ⟨g', hg', rfl⟩ := List.mem_map.1 hg
      obtain ⟨j, hj, rfl⟩ := hmem g' hg'
      exact ⟨fmt (digits k) j, by rw [show (File.map f (F j)).name = (F j).name from rfl, (hprop j).1]; simp [chunkName]⟩
  unfold assembleMain
  rw [hfound, Option.bind_some]
  have hsorted : (sortFiles dir).Pairwise fun a b => a.name ≤ b.name := by
    have : Std.Total fun a b : File β => a.name ≤ b.name := ⟨fun a b => le_total a.name b.name⟩
    have : IsTrans (File β) fun a b => a.name ≤ b.name :=
      ⟨fun a b c (h1 : a.name ≤ b.name) (h2 : b.name ≤ c.name) => le_trans h1 h2⟩
    exact List.pairwise_insertionSort _ dir
  have hperm : (sortFiles dir).Perm (s :: files.map (File.map f)) := (List.perm_insertionSort _ dir).trans hdir
  have hlen : (sortFiles dir).length = k + 1 := by
    rw [hperm.length_eq, hF]; simp
  have hnone : assemble dir = none := by
    unfold assemble
    generalize sortFiles dir = T at hsorted hperm hlen
    cases T with
    | nil => rfl
    | cons a T =>
      have hF0 : File.map f (F 0) ∈ a :: T := by
        refine hperm.symm.subset (List.mem_cons_of_mem _ (List.mem_map.2 ⟨F 0, ?_, rfl⟩))
        rw [hF]
        exact List.mem_map.2 ⟨0, List.mem_range.2 (by omega), rfl⟩
      have hle : a.name ≤ (F 0).name := by
        rcases List.mem_cons.1 hF0 with h1 | h1
        · rw [← h1]; exact le_refl (F 0).name
        · exact (List.pairwise_cons.1 hsorted).1 _ h1
      have hle0 : ∀ j < k, (F 0).name ≤ (F j).name := by
        intro j hj
        rcases Nat.eq_zero_or_pos j with rfl | hj0
        · exact le_refl (F 0).name
        · rw [(hprop 0).1, (hprop j).1]
          exact (chunkName_lt _ _ k 0 j hj0 hj).le
      have ha : a = File.map f (F 0) := by
        rcases List.mem_cons.1 (hperm.subset (List.mem_cons_self (a := a) (l := T))) with rfl | ha
        · exfalso
          obtain ⟨g, hg, hlt⟩ := hafter
          obtain ⟨j, hj, rfl⟩ := hmem g hg
          exact absurd (lt_of_le_of_lt (hle0 j hj) hlt) (not_lt.2 hle)
        · obtain ⟨g', hg', rfl⟩ := List.mem_map.1 ha
          obtain ⟨j, hj, rfl⟩ := hmem g' hg'
          have he : (F j).name = (F 0).name := le_antisymm hle (hle0 j hj)
          rw [(hprop j).1, (hprop 0).1] at he
          rw [chunkName_inj _ _ k j 0 hj (by omega) he]
      have hpl : a.pix.length = (F 0).pix.length := by rw [ha]; simp [File.map]
      have hox : a.oldX * a.oldY = (F 0).oldX * (F 0).oldY := by rw [ha]; rfl
      dsimp only
      rw [hpl, hox, (hprop 0).2.2.2]
      by_cases g1 : (F 0).pix.length = 0
      · rw [if_pos g1]
      · rw [if_neg g1]
        by_cases g2 : a.naxis ≠ 4 ∧ a.naxis ≠ 3 ∧ a.naxis ≠ 2
        · rw [if_pos g2]
        · rw [if_neg g2, if_pos (by omega)]
  rw [hnone]
  rfl

/-- **C225 refuted**: a prefix which is `C` with a number is lost from the name of the output. -/
theorem prefix_lost (d post : List Char) (hd0 : d ≠ []) (hd : ∀ c ∈ d, c.isDigit = true) (hpost : Unnumbered post) (k i : ℕ) (hi : i < k) :
    outName (chunkName ('C' :: d) ('.' :: post) k i) = post := by
  have hf : ∀ c ∈ fmt (digits k) i, c.isDigit = true := by rw [fmt_chunk k i hi]; exact pad_digits _ _
  have hdot : ∀ e : List Char, (∀ c ∈ e, c.isDigit = true) → '.' ∉ 'C' :: e := by
    intro e he
    have := dot_not_digit _ he
    simp [this]
  unfold outName chunkName
  rw [List.append_assoc, show '.' :: 'C' :: fmt (digits k) i ++ '.' :: post = '.' :: (('C' :: fmt (digits k) i) ++ '.' :: post) from rfl,
    components_append, components_append, components_one _ (hdot _ hd), components_one _ (hdot _ hf),
    List.filter_append, List.filter_append, List.filter_cons_of_neg (by rw [isNumber_chunk _ hd hd0]; simp),
    List.filter_cons_of_neg (by rw [isNumber_chunk _ hf (fmt_ne_nil k i hi)]; simp), List.filter_nil, List.nil_append, List.nil_append,
    List.filter_eq_self.2, joinDots_components]
  intro x hx
  rw [hpost x hx]; rfl

/-! ## C226 -/

/-- **C226 refuted**: when a chunk is missing and `-o` is given (or the output does not exist), the output is replaced by a file without
the pixels before the program stops. -/
theorem missing_spoils (pre post : List Char) (hpre : Plain pre) (hpost : Plain post) (hpn : Unnumbered pre)
    (naxis : ℕ) (hax : naxis = 2 ∨ naxis = 3 ∨ naxis = 4) {X Y : ℕ} (img : Fin X → Fin Y → α) (N : ℤ) (f : α → β) (files : List (File α))
    (h : create pre ('.' :: post) naxis img N = some files)
    (S others dir : List (File β)) (hS : S.Sublist (files.map (File.map f))) (hne : S ≠ []) (hlt : S.length < files.length)
    (hdir : dir.Perm (S ++ others)) (ho : ∀ g ∈ others, ¬ ∃ m, g.name = pre ++ '.' :: 'C' :: (m ++ '.' :: post))
    (c : File α) (hc : c ∈ files) (present overwrite : Bool) (hov : present = true → overwrite = true) :
    assembleRun dir c.name present overwrite = .spoiled := by
  obtain ⟨k, hk2, F, hF, hprop⟩ := create_files _ _ _ _ _ _ h
  have hmem : ∀ g ∈ files, ∃ i < k, g = F i := by
    intro g hg
    rw [hF] at hg
    obtain ⟨i, hi, rfl⟩ := List.mem_map.1 hg
    exact ⟨i, List.mem_range.1 hi, rfl⟩
  have hmemS : ∀ g ∈ S, ∃ i < k, g = File.map f (F i) := by
    intro g hg
    obtain ⟨g', hg', rfl⟩ := List.mem_map.1 (hS.subset hg)
    obtain ⟨i, hi, rfl⟩ := hmem g' hg'
    exact ⟨i, hi, rfl⟩
  obtain ⟨i, hi, rfl⟩ := hmem c hc
  obtain ⟨l, hl, hp⟩ := found_chunks pre post hpre hpost (search_unnumbered _ hpn) k S
    (by
      intro g hg
      obtain ⟨j, hj, rfl⟩ := hmemS g hg
      exact ⟨j, hj, (hprop j).1⟩) others dir hdir ho i hi
  have hnone : assemble l = none := missing_chunk_raises _ _ naxis img N f files h S l hS hlt hp
  unfold assembleRun
  rw [(hprop i).1, hl]
  dsimp only
  have hps : (sortFiles l).Perm S := (List.perm_insertionSort _ l).trans hp
  rw [hnone]
  generalize sortFiles l = T at hps
  cases T with
  | nil => exact absurd (List.Perm.nil_eq hps).symm hne
  | cons a T =>
    obtain ⟨j, hj, rfl⟩ := hmemS a (hps.subset List.mem_cons_self)
    have h1 : (File.map f (F j)).pix.length ≠ 0 := by
      have := (hprop j).2.2.1 hj
      simp [File.map, this]
    have h2 : (File.map f (F j)).naxis = naxis := (hprop j).2.1
    dsimp only
    rw [if_neg h1, h2, if_neg (by omega), if_neg]
    rintro ⟨h3, h4⟩
    rw [hov h3] at h4
    exact absurd h4 (by simp)

/-- **C226 (partial)**: without `-o` an existing output is never touched, whatever is in the directory. -/
theorem existing_untouched_partial (dir : List (File β)) (chunk : List Char) : assembleRun dir chunk true false = .untouched := by
  unfold assembleRun
  cases found dir chunk with
  | none => rfl
  | some l =>
    dsimp only
    cases sortFiles l with
    | nil => rfl
    | cons a T => simp

/-- A run which ends writes the image of `assembleMain`, and it ends whenever that is defined and overwriting is not refused. -/
theorem assembleRun_done (dir : List (File β)) (chunk : List Char) (present overwrite : Bool) (im : Image β) :
    assembleRun dir chunk present overwrite = .done im ↔
      assembleMain dir chunk = some (outName chunk, im) ∧ ¬ (present = true ∧ overwrite = false) := by
  unfold assembleRun assembleMain
  cases hfd : found dir chunk with
  | none => simp
  | some l =>
    dsimp only
    rw [Option.bind_some]
    cases hs : sortFiles l with
    | nil => simp [assemble, hs]
    | cons a T =>
      dsimp only
      by_cases h1 : a.pix.length = 0
      · have : assemble l = none := by
          unfold assemble
          rw [hs]
          dsimp only
          rw [if_pos h1]
        rw [if_pos h1, this]; simp
      · rw [if_neg h1]
        by_cases h2 : a.naxis ≠ 4 ∧ a.naxis ≠ 3 ∧ a.naxis ≠ 2
        · have : assemble l = none := by
            unfold assemble
            rw [hs]
            dsimp only
            rw [if_neg h1, if_pos h2]
          rw [if_pos h2, this]; simp
        · rw [if_neg h2]
          by_cases h3 : present = true ∧ overwrite = false
          · rw [if_pos h3]; simp [h3]
          · rw [if_neg h3]
            cases assemble l <;> simp [h3]

/-! ## Cases -/

/-- A name with a clean prefix and what becomes of it; one in which the first number is not that of the chunk. -/
example : search "field.cube.C03.FDF.fits".toList = some ("field.cube".toList, "FDF.fits".toList) ∧
    outName "field.cube.C03.FDF.fits".toList = "field.cube.FDF.fits".toList ∧
    search "field.C7.C0.fits".toList = some ("field".toList, "C0.fits".toList) ∧
    outName "C12.C0.fits".toList = "fits".toList ∧
    fnmatch "field.C*.fits".toList "field.CLEAN.fits".toList = true ∧ fnmatch "field.C*.fits".toList "other.C0.fits".toList = false := by
  decide

theorem case_plain : Plain "field".toList ∧ Plain "fits".toList ∧ Unnumbered "field".toList ∧ Unnumbered "fits".toList := by
  refine ⟨⟨?_, ?_, ?_⟩, ⟨?_, ?_, ?_⟩, ?_, ?_⟩ <;> first | decide | (unfold Unnumbered; decide)

/-- The chunks of an image of 3 x 2 pixels next to a file `notes.txt`; the file `field.CLEAN.fits` stops the assembly; so does one missing chunk, which
also destroys an earlier result. -/
example (img : Fin 3 → Fin 2 → ℕ) (v : File ℕ) (hv : v.name = "notes.txt".toList) (w : File ℕ) (hw : w.name = "field.CLEAN.fits".toList) :
    ∃ a b, create "field".toList ".fits".toList 3 img 4 = some [a, b] ∧
      (∃ im, assembleMain [v, b, a] a.name = some ("field.fits".toList, im) ∧ ∀ (x : Fin 3) (y : Fin 2), im x y = some (img x y)) ∧
      assembleMain [w, b, a] a.name = none ∧ assembleRun [a, v] a.name true true = .spoiled := by
  obtain ⟨hp, hq, hn, hm⟩ := case_plain
  obtain ⟨files, h, hr⟩ := assemble_by_name_partial "field".toList "fits".toList hp hq hn hm 3 (by simp) img 4 (by norm_num) (by norm_num) id
  have h2 := create_eq "field".toList ".fits".toList 3 img (img 0 0) 4 (by norm_num) (by norm_num)
  have hc : ceilDiv (3 * 2) 4 = 2 := rfl
  rw [hc] at h2
  have hl : List.range 2 = [0, 1] := rfl
  rw [hl, List.map_cons, List.map_cons, List.map_nil] at h2
  have he : files = _ := Option.some.inj (h.symm.trans h2)
  have hmap : ∀ x : File ℕ, File.map id x = x := by intro x; simp [File.map]
  have hvn : ∀ g ∈ [v], ¬ ∃ m, g.name = "field".toList ++ '.' :: 'C' :: (m ++ '.' :: "fits".toList) := by
    intro g hg
    rw [List.mem_singleton] at hg
    rintro ⟨m, hm'⟩
    rw [hg, hv] at hm'
    have := congrArg List.head? hm'
    simp at this
  refine ⟨_, _, h2, ?_, ?_, ?_⟩
  · refine hr _ [v] ?_ hvn _ (by rw [he]; exact List.mem_cons_self)
    rw [he]
    simp only [List.map_cons, List.map_nil, hmap]
    refine (List.perm_append_comm (l₁ := [v])).trans ?_
    exact List.Perm.append_right _ (List.Perm.swap _ _ _)
  · refine stray_raises "field".toList "fits".toList "LEAN".toList hp hq hn 3 img 4 id _ h2 w (by rw [hw]; rfl)
      ⟨_, List.mem_cons_self, ?_⟩ _ ?_ _ List.mem_cons_self
    · rw [hw]
      show chunkName _ _ 2 0 < _
      decide
    · simp only [List.map_cons, List.map_nil, hmap]
      exact List.Perm.cons _ (List.Perm.swap _ _ _)
  · refine missing_spoils "field".toList "fits".toList hp hq hn 3 (by simp) img 4 id _ h2 [_] [v] _ ?_ (by simp) (by simp) (List.Perm.refl _) hvn _
      List.mem_cons_self true true (fun _ => rfl)
    simp only [List.map_cons, List.map_nil, hmap]
    simp

end Verif.Chunks
