import Verif.CalcRmsf.Model
import Verif.FreqFile.Model

/-!
# What the tools for planning read (C257)

Source: `/repo/RMtools_1D/calculate_RMSF.py` 93-139 (`main`) and `/repo/RMtools_1D/rmtools_bwpredict.py` 174-201 (`main`). Both read the frequencies of
the channels from a text file, which may have a second column (weights, or widths of the channels).

Trusted reading of NumPy: `np.genfromtxt(file, encoding=None, dtype=None)` finds the type of each column (integer if all its words are integers, else
float). If the columns have one type the result is a plain array, from which axes of length one are removed; otherwise it is a one-dimensional
array of records. Words that are no numbers and lines of unequal length are not modelled.
-/

namespace Verif.CalcRmsf

open Verif.FreqFile

/-- A word of the file: an integer (no point and no exponent), or another number (`none` is NaN). -/
inductive Word where
  | int (z : ℤ)
  | float (x : Option ℝ)

/-- Its value. -/
def Word.val : Word → Option ℝ
  | .int z => some z
  | .float x => x

/-- Integer words. -/
def Word.isInt : Word → Bool
  | .int _ => true
  | .float _ => false

/-- Column `c` holds integers only. -/
def intColumn (t : List (List Word)) (c : ℕ) : Bool := t.all fun r => (r.getD c (.float none)).isInt

/-- The array of `np.genfromtxt(…, dtype=None)` for lines of `k` words. -/
inductive Gen where
  | plain (a : Loaded (Option ℝ))
  | records (n : ℕ)

/-- `np.genfromtxt(file, encoding=None, dtype=None)`. -/
def genfromtxt (k : ℕ) (t : List (List Word)) : Gen :=
  if (List.range k).all fun c => intColumn t c == intColumn t 0 then .plain (squeeze (t.map fun r => r.map Word.val))
  else .records t.length

/-- The channels: frequency and weight. -/
abbrev Channels := List (Option ℝ) × List (Option ℝ)

/-- `calculate_RMSF.py` 107-114: the arrays from the file of frequencies. `none`: an exception later on, as records (`speed_of_light**2 /
freq_array**2`, line 163) and a single number (`np.diff`, line 167) are no arrays of frequencies. -/
def channelsOf : Gen → Option Channels
  | .plain (.table t) => some (t.map fun r => r.getD 0 none, t.map fun r => r.getD 1 none)
  | .plain (.vector f) => some (f, f.map fun _ => some 1)
  | .plain (.number _) => none
  | .records _ => none

/-- Lines 125-130: the weights from their own file. `none`: an exception, for another number of lines; also, later on, for more than one column. -/
def withWeights (c : Channels) : Gen → Option Channels
  | .plain (.vector w) => if w.length ≠ c.1.length then none else some (c.1, w)
  | _ => none

/-- Lines 117-123: frequencies from the three numbers of `-f`. `none`: division by zero in `np.arange`. -/
noncomputable def generated (lo hi step : ℝ) : Option Channels :=
  if step = 0 then none
  else
    let f := List.ofFn fun i => some (arange lo hi step i)
    some (f, f.map fun _ => some 1)

/-- `main`, lines 96-130: frequencies and weights passed on. The file of frequencies takes precedence over `-f`; files as numbers of columns and
lines. `none`: an exception. -/
noncomputable def mainInput (freqFile : Option (ℕ × List (List Word))) (band : Option (ℝ × ℝ × ℝ)) (weightFile : Option (ℕ × List (List Word))) :
    Option Channels :=
  let c := match freqFile, band with
    | some (k, t), _ => channelsOf (genfromtxt k t)
    | none, some (lo, hi, step) => generated lo hi step
    | none, none => none
  match weightFile with
  | none => c
  | some (k, t) => c.bind fun c => withWeights c (genfromtxt k t)

/-- `rmtools_bwpredict.py` 175-191: frequencies and, if there are any, widths. `none`: an exception. (For a file that cannot be read, and for a single number,
the message of line 188 is printed; line 191 does not stop the program, which then fails for the missing names.) -/
def predictInput : Option (Loaded (Option ℝ)) → Option (List (Option ℝ) × Option (List (Option ℝ)))
  | some (.vector f) => some (f, none)
  | some (.table t) => some (t.map fun r => r.getD 0 none, some (t.map fun r => r.getD 1 none))
  | some (.number _) => none
  | none => none

/-! ## C257 -/

/-- The table of a file: all lines have `k` words. -/
def Rect {α : Type} (k : ℕ) (t : List (List α)) : Prop := ∀ r ∈ t, r.length = k

/-- All words of the file are written alike: integers, or numbers with a point or an exponent. -/
def Alike (t : List (List Word)) : Prop := ∃ b, ∀ r ∈ t, ∀ w ∈ r, w.isInt = b

/-- What is to be used: the first column, and the second if there is one. -/
def Documented (k : ℕ) (t : List (List (Option ℝ))) (c : Channels) : Prop :=
  c.1.length = t.length ∧ c.2.length = t.length ∧ ∀ (i : ℕ) (r : List (Option ℝ)), t[i]? = some r →
    (c.1[i]?) = r[0]? ∧ (2 ≤ k → c.2[i]? = r[1]?) ∧ (k = 1 → c.2[i]? = some (some 1))

theorem intColumn_alike (k : ℕ) (t : List (List Word)) (hk : Rect k t) (ht : t ≠ []) (b : Bool) (hb : ∀ r ∈ t, ∀ w ∈ r, w.isInt = b) (c : ℕ)
    (hc : c < k) : intColumn t c = b := by
  unfold intColumn
  have h : ∀ r ∈ t, (r.getD c (.float none)).isInt = b := by
    intro r hr
    have hl : c < r.length := by rw [hk r hr]; exact hc
    rw [List.getD_eq_getElem _ _ hl]
    exact hb r hr _ (List.getElem_mem hl)
  cases b with
  | true => exact List.all_eq_true.2 h
  | false =>
    obtain ⟨r, t', rfl⟩ := List.exists_cons_of_ne_nil ht
    rw [List.all_cons, h r List.mem_cons_self, Bool.false_and]

theorem genfromtxt_alike (k : ℕ) (t : List (List Word)) (hk : Rect k t) (ht : t ≠ []) (h : k = 1 ∨ Alike t) :
    genfromtxt k t = .plain (squeeze (t.map fun r => r.map Word.val)) := by
  unfold genfromtxt
  rw [if_pos]
  rw [List.all_eq_true]
  intro c hc
  rw [List.mem_range] at hc
  rcases h with h | ⟨b, hb⟩
  · have : c = 0 := by omega
    subst this
    exact beq_self_eq_true _
  · rw [intColumn_alike k t hk ht b hb c hc, intColumn_alike k t hk ht b hb 0 (by omega)]
    exact beq_self_eq_true _

theorem flatten_singletons {α : Type} (t : List (List α)) (h : Rect 1 t) (i : ℕ) (r : List α) (hr : t[i]? = some r) :
    t.flatten.length = t.length ∧ t.flatten[i]? = r[0]? := by
  induction t generalizing i with
  | nil => simp at hr
  | cons a t ih =>
    have ha : a.length = 1 := h a List.mem_cons_self
    obtain ⟨x, rfl⟩ := List.length_eq_one_iff.1 ha
    have ht : Rect 1 t := fun r hr => h r (List.mem_cons_of_mem _ hr)
    have hlen : ∀ t : List (List α), Rect 1 t → t.flatten.length = t.length := by
      intro t
      induction t with
      | nil => intro _; rfl
      | cons a t ih2 =>
        intro h
        rw [List.flatten_cons, List.length_append, h a List.mem_cons_self, ih2 fun r hr => h r (List.mem_cons_of_mem _ hr), List.length_cons,
          Nat.add_comm]
    refine ⟨hlen _ h, ?_⟩
    cases i with
    | zero =>
      rw [List.getElem?_cons_zero] at hr
      have := Option.some.inj hr
      subst this
      simp
    | succ i =>
      rw [List.getElem?_cons_succ] at hr
      have := (ih ht i hr).2
      simpa using this

theorem squeeze_many (k : ℕ) (t : List (List (Option ℝ))) (hk : Rect k t) (h2 : 2 ≤ t.length) :
    squeeze t = if k = 1 then .vector t.flatten else .table t := by
  match t, h2 with
  | r :: r' :: t, _ =>
    unfold squeeze
    simp only [hk r List.mem_cons_self]

/-- **C257 (partial)**. From a file of at least two lines with one column, or with columns that are all written alike, the RMSF calculator takes the frequencies of the
first column, and the weights of the second, or one. -/
theorem input_partial (k : ℕ) (hk : 1 ≤ k) (t : List (List Word)) (ht : Rect k t) (h2 : 2 ≤ t.length) (h : k = 1 ∨ Alike t)
    (band : Option (ℝ × ℝ × ℝ)) :
    ∃ c, mainInput (some (k, t)) band none = some c ∧ Documented k (t.map fun r => r.map Word.val) c := by
  have ht' : Rect k (t.map fun r => r.map Word.val) := by
    intro r hr
    obtain ⟨q, hq, rfl⟩ := List.mem_map.1 hr
    rw [List.length_map, ht q hq]
  unfold mainInput
  dsimp only
  rw [genfromtxt_alike k t ht (by intro e; rw [e] at h2; simp at h2) h, squeeze_many k _ ht' (by simpa using h2)]
  by_cases h1 : k = 1
  · rw [if_pos h1]
    subst h1
    refine ⟨_, rfl, ?_⟩
    have hlen : (t.map fun r => r.map Word.val).flatten.length = (t.map fun r => r.map Word.val).length := by
      have h0 : 0 < (t.map fun r => r.map Word.val).length := by rw [List.length_map]; omega
      exact (flatten_singletons _ ht' 0 _ (List.getElem?_eq_getElem h0)).1
    refine ⟨hlen, by rw [List.length_map]; exact hlen, fun i r hr => ?_⟩
    have hf := (flatten_singletons _ ht' i r hr).2
    refine ⟨hf, fun h => absurd h (by norm_num), fun _ => ?_⟩
    have hr1 : r.length = 1 := ht' r (List.mem_of_getElem? hr)
    rw [List.getElem?_map, hf, List.getElem?_eq_getElem (by omega)]
    rfl
  · rw [if_neg h1]
    refine ⟨_, rfl, by simp, by simp, fun i r hr => ?_⟩
    have hrk : r.length = k := ht' r (List.mem_of_getElem? hr)
    have h0 : 0 < r.length := by omega
    have h1' : 1 < r.length := by omega
    refine ⟨?_, fun _ => ?_, fun h => absurd h h1⟩
    · rw [List.getElem?_map, hr, Option.map_some, List.getD_eq_getElem _ _ h0, List.getElem?_eq_getElem h0]
    · rw [List.getElem?_map, hr, Option.map_some, List.getD_eq_getElem _ _ h1', List.getElem?_eq_getElem h1']

/-- C257 does not hold if one column is written with integers and another is not, as frequencies in full and weights with a point or weights that are
all 1: the program fails. -/
theorem input_mixed_raises (k : ℕ) (t : List (List Word)) (a b : ℕ) (ha : a < k) (hb : b < k) (hia : intColumn t a = true) (hib : intColumn t b = false)
    (band : Option (ℝ × ℝ × ℝ)) (wf : Option (ℕ × List (List Word))) : mainInput (some (k, t)) band wf = none := by
  have : genfromtxt k t = .records t.length := by
    unfold genfromtxt
    rw [if_neg]
    intro h
    rw [List.all_eq_true] at h
    have h1 := h a (List.mem_range.2 ha)
    have h2 := h b (List.mem_range.2 hb)
    rw [hia] at h1
    rw [hib] at h2
    simp only [beq_iff_eq] at h1 h2
    rw [← h1] at h2
    cases h2
  unfold mainInput
  dsimp only
  rw [this]
  cases wf <;> rfl

/-- Such a file: 900 MHz and 1 GHz, with weights 1 and 0.5. -/
example (band : Option (ℝ × ℝ × ℝ)) :
    mainInput (some (2, [[.int 900000000, .float (some 1)], [.int 1000000000, .float (some (1 / 2))]])) band none = none :=
  input_mixed_raises 2 _ 0 1 (by norm_num) (by norm_num) rfl rfl band none

/-- C257 does not hold for a file of one line with frequency and weight: these are taken for two frequencies, both of weight one. -/
theorem input_line_wrong (f w : Word) (h : f.isInt = w.isInt) (band : Option (ℝ × ℝ × ℝ)) :
    mainInput (some (2, [[f, w]])) band none = some ([f.val, w.val], [some 1, some 1]) := by
  unfold mainInput
  dsimp only
  rw [genfromtxt_alike 2 [[f, w]] (by intro r hr; simp only [List.mem_singleton] at hr; rw [hr]; rfl) (by simp)
    (Or.inr ⟨f.isInt, by
      intro r hr x hx
      simp only [List.mem_singleton] at hr
      subst hr
      simp only [List.mem_cons, List.not_mem_nil, or_false] at hx
      rcases hx with rfl | rfl
      · rfl
      · exact h.symm⟩)]
  rfl

/-- C257, the file of weights: it replaces the weights and must have as many lines as there are channels. -/
theorem input_weights (c : Channels) (freqFile : Option (ℕ × List (List Word))) (band : Option (ℝ × ℝ × ℝ)) (t : List (List Word)) (ht : Rect 1 t)
    (h2 : 2 ≤ t.length) (hc : mainInput freqFile band none = some c) :
    mainInput freqFile band (some (1, t)) =
      if t.length = c.1.length then some (c.1, (t.map fun r => r.map Word.val).flatten) else none := by
  have ht' : Rect 1 (t.map fun r => r.map Word.val) := by
    intro r hr
    obtain ⟨q, hq, rfl⟩ := List.mem_map.1 hr
    rw [List.length_map, ht q hq]
  have hlen : (t.map fun r => r.map Word.val).flatten.length = t.length := by
    have h0 : 0 < (t.map fun r => r.map Word.val).length := by rw [List.length_map]; omega
    rw [(flatten_singletons _ ht' 0 _ (List.getElem?_eq_getElem h0)).1, List.length_map]
  unfold mainInput at hc ⊢
  dsimp only at hc ⊢
  rw [hc, Option.bind_some, genfromtxt_alike 1 t ht (by intro e; rw [e] at h2; simp at h2) (Or.inl rfl), squeeze_many 1 _ ht' (by simpa using h2),
    if_pos rfl]
  unfold withWeights
  dsimp only
  rw [hlen]
  by_cases h : t.length = c.1.length
  · rw [if_neg (not_not.2 h), if_pos h]
  · rw [if_pos h, if_neg h]

/-- **C257 (partial)**, the option `-f`: the channels are those at multiples of the width from the lowest frequency that are below the highest one, in order, with
weight one. -/
theorem generated_partial (lo hi step : ℝ) (hs : 0 < step) (wf : Option (ℝ × ℝ × ℝ)) (hw : wf = some (lo, hi, step)) :
    ∃ c, mainInput none wf none = some c ∧ c.2 = c.1.map (fun _ => some 1) ∧
      ∀ i : ℕ, (lo + i * step < hi → c.1[i]? = some (some (lo + i * step))) ∧ (hi ≤ lo + i * step → c.1[i]? = none) := by
  subst hw
  unfold mainInput generated
  dsimp only
  rw [if_neg hs.ne']
  refine ⟨_, rfl, rfl, fun i => ?_⟩
  have key : i < arangeLen lo hi step ↔ lo + i * step < hi := by
    unfold arangeLen
    rw [Int.lt_toNat, Int.lt_ceil, lt_div_iff₀ hs]
    push_cast
    constructor <;> intro h <;> linarith
  constructor
  · intro h
    have hi := key.2 h
    rw [List.getElem?_eq_getElem (by simpa using hi), List.getElem_ofFn]
    rfl
  · intro h
    rw [List.getElem?_eq_none_iff, List.length_ofFn]
    by_contra hc
    push Not at hc
    exact absurd (key.1 hc) (not_lt.2 h)

/-- C257 does not hold for the highest frequency: if the band is a whole number of widths, there is no channel there. -/
theorem generated_end_wrong (lo step : ℝ) (hs : 0 < step) (m : ℕ) :
    ∃ c, mainInput none (some (lo, lo + m * step, step)) none = some c ∧ c.1.length = m ∧ some (lo + m * step) ∉ c.1 := by
  obtain ⟨c, h1, -, h3⟩ := generated_partial lo (lo + m * step) step hs _ rfl
  have hlen : c.1.length = m := by
    apply le_antisymm
    · exact List.getElem?_eq_none_iff.1 ((h3 m).2 le_rfl)
    · rcases Nat.eq_zero_or_pos m with h0 | h0
      · omega
      · have := (h3 (m - 1)).1 (by
          have : ((m - 1 : ℕ) : ℝ) < m := by exact_mod_cast Nat.sub_lt h0 Nat.one_pos
          nlinarith)
        have := (List.getElem?_eq_some_iff.1 this).1
        omega
  refine ⟨c, h1, hlen, fun hmem => ?_⟩
  obtain ⟨i, hi, he⟩ := List.getElem_of_mem hmem
  have hlt : (i : ℝ) < m := by exact_mod_cast hlen ▸ hi
  have := (h3 i).1 (by nlinarith)
  rw [List.getElem?_eq_getElem hi, he] at this
  simp only [Option.some.injEq, add_right_inj] at this
  have := mul_right_cancel₀ hs.ne' this
  linarith

/-- **C257 (partial)**, the prediction tool: from a file of at least two lines it takes the first column, and the widths of the second if there is one. -/
theorem predict_input_partial (k : ℕ) (hk : 1 ≤ k) (t : List (List (Option ℝ))) (ht : Rect k t) (h2 : 2 ≤ t.length) :
    ∃ f w, predictInput (some (squeeze t)) = some (f, w) ∧ f.length = t.length ∧ (k = 1 ↔ w = none) ∧
      ∀ (i : ℕ) (r : List (Option ℝ)), t[i]? = some r → f[i]? = r[0]? ∧ ∀ l, w = some l → l[i]? = r[1]? := by
  rw [squeeze_many k t ht h2]
  by_cases h1 : k = 1
  · rw [if_pos h1]
    subst h1
    have h0 : 0 < t.length := by omega
    refine ⟨t.flatten, none, rfl, (flatten_singletons _ ht 0 _ (List.getElem?_eq_getElem h0)).1, by simp, fun i r hr => ?_⟩
    exact ⟨(flatten_singletons _ ht i r hr).2, fun l hl => by cases hl⟩
  · rw [if_neg h1]
    refine ⟨_, _, rfl, by simp, by simp [h1], fun i r hr => ?_⟩
    have hrk : r.length = k := ht r (List.mem_of_getElem? hr)
    have h0 : 0 < r.length := by omega
    have h1' : 1 < r.length := by omega
    refine ⟨?_, fun l hl => ?_⟩
    · rw [List.getElem?_map, hr, Option.map_some, List.getD_eq_getElem _ _ h0, List.getElem?_eq_getElem h0]
    · have := Option.some.inj hl
      subst this
      rw [List.getElem?_map, hr, Option.map_some, List.getD_eq_getElem _ _ h1', List.getElem?_eq_getElem h1']

/-- C257 does not hold for the prediction tool and a file of one line with frequency and width: the width is taken for a frequency. -/
theorem predict_line_wrong (f w : Option ℝ) : predictInput (some (squeeze [[f, w]])) = some ([f, w], none) := rfl

/-- Instance of `input_partial`: two lines with point. -/
example : ∃ c, mainInput (some (2, [[.float (some 1), .float (some 2)], [.float (some 3), .float (some 4)]])) none none = some c ∧
    c = ([some 1, some 3], [some 2, some 4]) := by
  obtain ⟨c, h, -⟩ := input_partial 2 (by norm_num) [[.float (some 1), .float (some 2)], [.float (some 3), .float (some 4)]]
    (by intro r hr; simp only [List.mem_cons, List.not_mem_nil, or_false] at hr; rcases hr with rfl | rfl <;> rfl) (by norm_num)
    (Or.inr ⟨false, by
      intro r hr x hx
      simp only [List.mem_cons, List.not_mem_nil, or_false] at hr
      rcases hr with rfl | rfl <;> (simp only [List.mem_cons, List.not_mem_nil, or_false] at hx; rcases hx with rfl | rfl <;> rfl)⟩) none
  exact ⟨_, rfl, rfl⟩

end Verif.CalcRmsf
