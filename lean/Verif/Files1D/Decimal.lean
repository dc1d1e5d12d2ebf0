import Verif.Files1D.Float
import Verif.NumPy.Text

/-!
# Numbers as text

`"%.18e" % x`, the format of `np.savetxt`, and the conversion of a word to a number in `np.loadtxt`
(both used in `/repo/RMtools_1D/do_RMsynth_1D.py` 525-655 and `/repo/RMtools_1D/do_RMclean_1D.py` 283-374).
The text is modelled character by character. Infinities and the sign of zero are not modelled; NaN is `none`.
-/

namespace Verif.Files1D

open Verif.NumPy

/-! ## Writing -/

/-- The character of a decimal digit. -/
def digit (d : ℕ) : Char := Char.ofNat (48 + d)

/-- The last `w` decimal digits of `k`. -/
def digits : ℕ → ℕ → List Char
  | 0, _ => []
  | w + 1, k => digits w (k / 10) ++ [digit (k % 10)]

/-- `k` and `e` of `|x| ≈ k 10^(e - 18)` with `k` of 19 digits, correctly rounded, as the C library does for `%.18e`. -/
noncomputable def sci (x : ℝ) : ℕ × ℤ :=
  if x = 0 then (0, 0)
  else
    let e := Int.log 10 |x|
    let k := (roundEven (|x| / 10 ^ (e - 18))).toNat
    if k = 10 ^ 19 then (10 ^ 18, e + 1) else (k, e)

/-- The exponent: its sign and at least two digits. -/
def expText (e : ℤ) : List Char :=
  (if e < 0 then '-' else '+') :: digits (max 2 (Nat.log 10 e.natAbs + 1)) e.natAbs

/-- The text for `± k 10^(e - 18)`. -/
def sciText (neg : Bool) (k : ℕ) (e : ℤ) : List Char :=
  (if neg then ['-'] else []) ++ (digit (k / 10 ^ 18) :: '.' :: (digits 18 (k % 10 ^ 18) ++ 'e' :: expText e))

/-- `"%.18e" % x`. -/
noncomputable def text (x : ℝ) : List Char := sciText (decide (x < 0)) (sci x).1 (sci x).2

/-- `"%.18e" % v` for a value that may be NaN. -/
noncomputable def cell : Option ℝ → List Char
  | none => ['n', 'a', 'n']
  | some x => text x

/-! ## Reading -/

def isDigit (c : Char) : Bool := decide (48 ≤ c.toNat ∧ c.toNat ≤ 57)

/-- The number written by decimal digits. -/
def numOf (s : List Char) : ℕ := s.foldl (fun a c => 10 * a + (c.toNat - 48)) 0

/-- An optional sign. -/
def sign : List Char → Bool × List Char
  | '-' :: s => (true, s)
  | '+' :: s => (false, s)
  | s => (false, s)

/-- An optional fraction: its digits and what follows. -/
def fraction : List Char → List Char × List Char
  | '.' :: s => (s.takeWhile isDigit, s.dropWhile isDigit)
  | s => ([], s)

/-- The exponent with its sign; the digits must go to the end. -/
def exponent (s : List Char) : Option ℤ :=
  let t := sign s
  if t.2 = [] ∨ t.2.any (fun c => !isDigit c) then none
  else some (if t.1 then -(numOf t.2 : ℤ) else numOf t.2)

/-- What follows the fraction: nothing, or an exponent. -/
def suffix : List Char → Option ℤ
  | [] => some 0
  | c :: s => if c = 'e' ∨ c = 'E' then exponent s else none

/-- The exact value of a decimal literal `[+-]digits[.digits][e[+-]digits]`; `none` if the word is not one. -/
def decimal (s : List Char) : Option ℚ :=
  let t := sign s
  let a := t.2.takeWhile isDigit
  let f := fraction (t.2.dropWhile isDigit)
  if a ++ f.1 = [] then none
  else (suffix f.2).map fun e : ℤ => (if t.1 then -1 else 1) * (numOf (a ++ f.1) : ℚ) * 10 ^ (e - (f.1.length : ℤ))

/-- `NaN` in any case. -/
def isNan (s : List Char) : Bool := (sign s).2.map Char.toLower == ['n', 'a', 'n']

/-- A word as a value of the given precision: the literal is rounded to `float64`, then to the precision. `none`: a
`ValueError`. -/
noncomputable def value (F : Format) (s : List Char) : Option (Option ℝ) :=
  if isNan s then some none else (decimal s).map fun v : ℚ => some (F.round (f64.round (v : ℝ)))

/-! ## Writing and reading back -/

theorem digit_lt (d : ℕ) (h : d < 10) : (digit d).toNat = 48 + d := by
  unfold digit
  interval_cases d <;> rfl

theorem isDigit_digit (d : ℕ) (h : d < 10) : isDigit (digit d) = true := by
  unfold isDigit
  rw [digit_lt d h]
  simp
  omega

theorem isDigit_digits (w k : ℕ) : ∀ c ∈ digits w k, isDigit c = true := by
  induction w generalizing k with
  | zero => simp [digits]
  | succ w ih =>
    intro c hc
    rw [digits, List.mem_append, List.mem_singleton] at hc
    rcases hc with h | h
    · exact ih _ c h
    · rw [h]
      exact isDigit_digit _ (Nat.mod_lt _ (by norm_num))

theorem length_digits (w k : ℕ) : (digits w k).length = w := by
  induction w generalizing k with
  | zero => rfl
  | succ w ih => rw [digits, List.length_append, ih]; rfl

theorem numOf_append (s t : List Char) : numOf (s ++ t) = numOf s * 10 ^ t.length + numOf t := by
  induction t using List.reverseRecOn with
  | nil => simp [numOf]
  | append_singleton t c ih =>
    have h : ∀ u : List Char, numOf (u ++ [c]) = 10 * numOf u + (c.toNat - 48) := by
      intro u
      unfold numOf
      rw [List.foldl_append]
      rfl
    rw [← List.append_assoc, h, h, ih, List.length_append]
    simp only [List.length_singleton, pow_succ]
    ring

theorem numOf_digits (w k : ℕ) (h : k < 10 ^ w) : numOf (digits w k) = k := by
  induction w generalizing k with
  | zero =>
    have : k = 0 := by simpa using h
    rw [this]
    rfl
  | succ w ih =>
    have hd : numOf [digit (k % 10)] = k % 10 := by
      unfold numOf
      simp only [List.foldl_cons, List.foldl_nil, mul_zero, zero_add]
      rw [digit_lt _ (Nat.mod_lt _ (by norm_num))]
      omega
    rw [digits, numOf_append, ih (k / 10) (by rw [pow_succ] at h; omega), hd]
    simp only [List.length_singleton, pow_one]
    omega

theorem takeWhile_digits (s : List Char) (hs : ∀ c ∈ s, isDigit c = true) (c : Char) (hc : isDigit c = false)
    (t : List Char) : (s ++ c :: t).takeWhile isDigit = s ∧ (s ++ c :: t).dropWhile isDigit = c :: t := by
  induction s with
  | nil => simp [hc]
  | cons a s ih =>
    have ha := hs a (by simp)
    have := ih fun c hc => hs c (by simp [hc])
    simp only [List.cons_append, List.takeWhile_cons, List.dropWhile_cons, ha, if_true, this.1, this.2, and_self]

theorem sign_digit (c : Char) (hc : isDigit c = true) (s : List Char) : sign (c :: s) = (false, c :: s) := by
  unfold sign
  split
  · rename_i h
    injection h with h1 _
    subst h1
    exact absurd hc (by decide)
  · rename_i h
    injection h with h1 _
    subst h1
    exact absurd hc (by decide)
  · rfl

theorem exponent_text (e : ℤ) : exponent (expText e) = some e := by
  have hlt : e.natAbs < 10 ^ (max 2 (Nat.log 10 e.natAbs + 1)) :=
    lt_of_lt_of_le (Nat.lt_pow_succ_log_self (by norm_num) _) (Nat.pow_le_pow_right (by norm_num) (le_max_right _ _))
  set w := max 2 (Nat.log 10 e.natAbs + 1) with hw
  have hne : digits w e.natAbs ≠ [] := by
    intro h
    have := length_digits w e.natAbs
    rw [h] at this
    have h2 : 2 ≤ w := le_max_left _ _
    simp at this
    omega
  have hall : (digits w e.natAbs).any (fun c => !isDigit c) = false := by
    rw [List.any_eq_false]
    intro c hc
    rw [isDigit_digits _ _ c hc]
    simp
  by_cases he : e < 0
  · have : expText e = '-' :: digits w e.natAbs := by
      unfold expText
      rw [if_pos he]
    rw [this]
    unfold exponent
    have hs : sign ('-' :: digits w e.natAbs) = (true, digits w e.natAbs) := rfl
    rw [hs]
    simp only [hne, hall, false_or, Bool.false_eq_true, if_false, if_true]
    rw [numOf_digits _ _ hlt]
    congr 1
    omega
  · have : expText e = '+' :: digits w e.natAbs := by
      unfold expText
      rw [if_neg he]
    rw [this]
    unfold exponent
    have hs : sign ('+' :: digits w e.natAbs) = (false, digits w e.natAbs) := rfl
    rw [hs]
    simp only [hne, hall, false_or, Bool.false_eq_true, if_false]
    rw [numOf_digits _ _ hlt]
    congr 1
    omega

/-- The text of `± k 10^(e - 18)` is read as that number. -/
theorem decimal_sciText (neg : Bool) (k : ℕ) (hk : k < 10 ^ 19) (e : ℤ) :
    decimal (sciText neg k e) = some ((if neg then -1 else 1) * (k : ℚ) * 10 ^ (e - 18)) := by
  have hd : k / 10 ^ 18 < 10 := by omega
  have hs : sign (sciText neg k e) =
      (neg, digit (k / 10 ^ 18) :: '.' :: (digits 18 (k % 10 ^ 18) ++ 'e' :: expText e)) := by
    unfold sciText
    cases neg
    · simp only [Bool.false_eq_true, if_false, List.nil_append]
      exact sign_digit _ (isDigit_digit _ hd) _
    · rfl
  have h1 := takeWhile_digits [digit (k / 10 ^ 18)] (by
    intro c hc
    rw [List.mem_singleton] at hc
    rw [hc]
    exact isDigit_digit _ hd) '.' (by decide) (digits 18 (k % 10 ^ 18) ++ 'e' :: expText e)
  have h2 := takeWhile_digits (digits 18 (k % 10 ^ 18)) (isDigit_digits _ _) 'e' (by decide) (expText e)
  rw [List.singleton_append] at h1
  unfold decimal
  rw [hs]
  dsimp only
  rw [h1.1, h1.2]
  have hf : fraction ('.' :: (digits 18 (k % 10 ^ 18) ++ 'e' :: expText e)) =
      (digits 18 (k % 10 ^ 18), 'e' :: expText e) := by
    have : fraction ('.' :: (digits 18 (k % 10 ^ 18) ++ 'e' :: expText e)) =
        ((digits 18 (k % 10 ^ 18) ++ 'e' :: expText e).takeWhile isDigit,
          (digits 18 (k % 10 ^ 18) ++ 'e' :: expText e).dropWhile isDigit) := rfl
    rw [this, h2.1, h2.2]
  rw [hf]
  dsimp only
  rw [if_neg (by simp)]
  have hsuf : suffix ('e' :: expText e) = some e := by
    have : suffix ('e' :: expText e) = exponent (expText e) := rfl
    rw [this, exponent_text]
  rw [hsuf, Option.map_some, numOf_append, length_digits, numOf_digits _ _ (Nat.mod_lt _ (by norm_num))]
  have h0 : numOf [digit (k / 10 ^ 18)] = k / 10 ^ 18 := by
    unfold numOf
    simp only [List.foldl_cons, List.foldl_nil, mul_zero, zero_add]
    rw [digit_lt _ hd]
    omega
  rw [h0, Nat.div_add_mod' k (10 ^ 18)]
  rfl

/-- `%.18e` gives at most 19 digits. -/
theorem sci_lt (x : ℝ) : (sci x).1 < 10 ^ 19 := by
  by_cases hx : x = 0
  · simp [sci, hx]
  have hxp : 0 < |x| := abs_pos.mpr hx
  have hE : sci x = if (roundEven (|x| / 10 ^ (Int.log 10 |x| - 18))).toNat = 10 ^ 19 then (10 ^ 18, Int.log 10 |x| + 1)
      else ((roundEven (|x| / 10 ^ (Int.log 10 |x| - 18))).toNat, Int.log 10 |x|) := by
    unfold sci
    rw [if_neg hx]
  rw [hE]
  by_cases hc : (roundEven (|x| / 10 ^ (Int.log 10 |x| - 18))).toNat = 10 ^ 19
  · rw [if_pos hc]
    norm_num
  · rw [if_neg hc]
    dsimp only
    refine lt_of_le_of_ne ?_ hc
    have hlog : |x| < (10 : ℝ) ^ (Int.log 10 |x| + 1) := by
      have := Int.lt_zpow_succ_log_self (b := 10) (by norm_num) |x|
      exact_mod_cast this
    have hpos : (0 : ℝ) < 10 ^ (Int.log 10 |x| - 18) := zpow_pos (by norm_num) _
    have hy : |x| / 10 ^ (Int.log 10 |x| - 18) < 10 ^ 19 := by
      rw [div_lt_iff₀ hpos, ← zpow_natCast, ← zpow_add₀ (by norm_num)]
      refine lt_of_lt_of_le hlog (le_of_eq ?_)
      congr 1
      push_cast
      ring
    have hn := roundEven_near (|x| / 10 ^ (Int.log 10 |x| - 18))
    rw [abs_le] at hn
    have : (roundEven (|x| / 10 ^ (Int.log 10 |x| - 18)) : ℝ) < 10 ^ 19 + 1 := by linarith
    have h3 : roundEven (|x| / 10 ^ (Int.log 10 |x| - 18)) < 10 ^ 19 + 1 := by exact_mod_cast this
    omega

/-- `%.18e` is off by at most half a unit of the 19th digit. -/
theorem sci_near (x : ℝ) : |((sci x).1 : ℝ) * 10 ^ ((sci x).2 - 18) - abs x| ≤ |x| * (1 / 2 * 10 ^ (-18 : ℤ)) := by
  by_cases hx : x = 0
  · simp [sci, hx]
  have hxp : 0 < |x| := abs_pos.mpr hx
  set e := Int.log 10 |x| with he
  set r := roundEven (|x| / 10 ^ (e - 18)) with hr
  have hE : sci x = if r.toNat = 10 ^ 19 then (10 ^ 18, e + 1) else (r.toNat, e) := by
    unfold sci
    rw [if_neg hx]
  have hpos : (0 : ℝ) < 10 ^ (e - 18) := zpow_pos (by norm_num) _
  have hn := roundEven_near (|x| / 10 ^ (e - 18))
  rw [← hr] at hn
  have hr0 : 0 ≤ r := by
    have h1 : (-1 : ℝ) < r := by
      rw [abs_le] at hn
      have : 0 < |x| / 10 ^ (e - 18) := div_pos hxp hpos
      linarith
    have h2 : (-1 : ℤ) < r := by exact_mod_cast h1
    omega
  have hrn : ((r.toNat : ℕ) : ℝ) = r := by
    have : ((r.toNat : ℕ) : ℤ) = r := Int.toNat_of_nonneg hr0
    exact_mod_cast this
  have hmain : |(r : ℝ) * 10 ^ (e - 18) - abs x| ≤ |x| * (1 / 2 * 10 ^ (-18 : ℤ)) := by
    have h1 : (r : ℝ) * 10 ^ (e - 18) - |x| = -((|x| / 10 ^ (e - 18) - r) * 10 ^ (e - 18)) := by
      rw [sub_mul, div_mul_cancel₀ _ hpos.ne']
      ring
    rw [h1, abs_neg, abs_mul, abs_of_pos hpos]
    have h2 : (10 : ℝ) ^ e ≤ |x| := by
      have := Int.zpow_log_le_self (b := 10) (by norm_num) hxp
      exact_mod_cast this
    have h3 : (10 : ℝ) ^ (e - 18) ≤ |x| * 10 ^ (-18 : ℤ) := by
      rw [sub_eq_add_neg, zpow_add₀ (by norm_num)]
      exact mul_le_mul_of_nonneg_right h2 (zpow_pos (by norm_num) _).le
    have h4 := mul_le_mul hn h3 hpos.le (by norm_num : (0 : ℝ) ≤ 1 / 2)
    linarith
  rw [hE]
  by_cases hc : r.toNat = 10 ^ 19
  · rw [if_pos hc]
    dsimp only
    have : ((10 ^ 18 : ℕ) : ℝ) * 10 ^ (e + 1 - 18) = r * 10 ^ (e - 18) := by
      rw [← hrn, hc, show e + 1 - 18 = (e - 18) + 1 by ring, zpow_add_one₀ (by norm_num)]
      push_cast
      ring
    rw [this]
    exact hmain
  · rw [if_neg hc]
    dsimp only
    rw [hrn]
    exact hmain

/-- Writing a `float64` number with `%.18e` and reading the text gives the same number. -/
theorem round_text (x : ℝ) (h : f64.Mem x) : ∃ v : ℚ, decimal (text x) = some v ∧ f64.round v = x := by
  refine ⟨_, decimal_sciText _ _ (sci_lt x) _, ?_⟩
  by_cases hx : x = 0
  · subst hx
    have : (sci 0).1 = 0 := by simp [sci]
    rw [this]
    simp [Format.round_zero]
  · refine Format.round_near f64 x _ h hx ?_
    have hsx : x = (if decide (x < 0) then -1 else 1) * |x| := by
      by_cases hn : x < 0
      · simp [hn, abs_of_neg hn]
      · simp [hn, abs_of_nonneg (not_lt.mp hn)]
    push_cast
    have hcast : ((if decide (x < 0) then (-1 : ℚ) else 1 : ℚ) : ℝ) = if decide (x < 0) then (-1 : ℝ) else 1 := by
      split_ifs <;> norm_num
    have hd : (((if decide (x < 0) then (-1 : ℚ) else 1 : ℚ) : ℝ) * ((sci x).1 : ℝ) * 10 ^ ((sci x).2 - 18) - x) =
        (if decide (x < 0) then (-1 : ℝ) else 1) * (((sci x).1 : ℝ) * 10 ^ ((sci x).2 - 18) - |x|) := by
      rw [hcast, mul_sub, ← hsx]
      ring
    have habs : |(if decide (x < 0) then (-1 : ℝ) else 1)| = 1 := by
      split_ifs <;> norm_num
    rw [hd, abs_mul, habs, one_mul]
    refine le_trans (sci_near x) ?_
    refine mul_le_mul_of_nonneg_left ?_ (abs_nonneg x)
    simp only [f64]
    norm_num

theorem isNan_text (x : ℝ) : isNan (text x) = false := by
  have hd : (sci x).1 / 10 ^ 18 < 10 := by
    have := sci_lt x
    omega
  have hs : (sign (text x)).2 = digit ((sci x).1 / 10 ^ 18) :: '.' ::
      (digits 18 ((sci x).1 % 10 ^ 18) ++ 'e' :: expText (sci x).2) := by
    unfold text sciText
    cases hb : decide (x < 0)
    · simp only [Bool.false_eq_true, if_false, List.nil_append]
      rw [sign_digit _ (isDigit_digit _ hd)]
    · rfl
  unfold isNan
  rw [hs]
  simp only [List.map_cons, beq_eq_false_iff_ne, ne_eq, List.cons.injEq, not_and]
  intro _ h
  exact absurd h (by decide)

/-- Values that are stored exactly: NaN, or a number of the format. -/
def Format.Val (F : Format) (v : Option ℝ) : Prop := ∀ x, v = some x → F.Mem x

/-- Writing a `float64` value and reading it with a precision rounds it to that precision. -/
theorem value_cell (F : Format) (v : Option ℝ) (h : f64.Val v) : value F (cell v) = some (v.map F.round) := by
  cases v with
  | none => rfl
  | some x =>
    obtain ⟨d, h1, h2⟩ := round_text x (h x rfl)
    unfold value cell
    rw [isNan_text, h1, Option.map_some, h2]
    rfl

theorem map_round (F : Format) (v : Option ℝ) (h : F.Val v) : v.map F.round = v := by
  cases v with
  | none => rfl
  | some x => rw [Option.map_some, F.round_mem x (h x rfl)]

/-- The text has no white space and no `#`. -/
theorem cell_chars (v : Option ℝ) : ∀ c ∈ cell v, isSpace c = false ∧ c ≠ '#' ∧ c ≠ '\n' := by
  have hdig : ∀ c, isDigit c = true → isSpace c = false ∧ c ≠ '#' ∧ c ≠ '\n' := by
    intro c hc
    unfold isDigit at hc
    rw [decide_eq_true_eq] at hc
    have hne : ∀ a : Char, a.toNat < 48 → c ≠ a := by
      intro a ha h
      rw [h] at hc
      omega
    refine ⟨?_, hne _ (by decide), hne _ (by decide)⟩
    unfold isSpace
    simp only [Bool.or_eq_false_iff, beq_eq_false_iff_ne]
    refine ⟨⟨⟨⟨⟨?_, ?_⟩, ?_⟩, ?_⟩, ?_⟩, ?_⟩ <;> exact hne _ (by decide)
  intro c hc
  cases v with
  | none =>
    simp only [cell, List.mem_cons, List.not_mem_nil, or_false] at hc
    rcases hc with h | h | h <;> subst h <;> decide
  | some x =>
    have hd : (sci x).1 / 10 ^ 18 < 10 := by
      have := sci_lt x
      omega
    unfold cell text sciText expText at hc
    simp only [List.mem_append, List.mem_cons] at hc
    rcases hc with h | h | h | h | h | h | h
    · split_ifs at h
      · rw [List.mem_singleton] at h
        subst h
        decide
      · exact absurd h (by simp)
    · subst h
      exact hdig _ (isDigit_digit _ hd)
    · subst h
      decide
    · exact hdig c (isDigit_digits _ _ c h)
    · subst h
      decide
    · split_ifs at h <;> subst h <;> decide
    · exact hdig c (isDigit_digits _ _ c h)

theorem cell_ne (v : Option ℝ) : cell v ≠ [] := by
  cases v with
  | none => simp [cell]
  | some x => simp [cell, text, sciText]

/-- Examples of literals: "-1.5e+02" is -150, "2" is 2, ".5" is 1/2, "1e" and "." are no numbers. -/
theorem example_decimal : decimal "-1.5e+02".toList = some (-150) ∧ decimal "2".toList = some 2 ∧
    decimal ".5".toList = some (1 / 2) ∧ decimal "1e".toList = none ∧ decimal ".".toList = none ∧
    sciText true (15 * 10 ^ 17) 2 = "-1.500000000000000000e+02".toList := by
  refine ⟨?_, ?_, ?_, ?_, ?_, ?_⟩ <;> decide +kernel

end Verif.Files1D
