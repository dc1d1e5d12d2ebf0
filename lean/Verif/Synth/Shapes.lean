import Mathlib.Data.List.Basic
import Mathlib.Algebra.BigOperators.Group.List.Basic

/-!
# Input checks of RM synthesis and of the RMSF computation (C13)

Shapes of NumPy arrays are lists of natural numbers, outermost axis first. Only shapes are
modelled here; the values are in `Verif.Synth.Model` and `Verif.Rmsf.Model`.
-/

namespace Verif.Shapes

/-- What a call does, seen from outside: raise a Python exception, return a tuple of `arity`
Nones, or return a result with an array of the given shape. -/
inductive Outcome where
  | raised
  | nones (arity : ℕ)
  | ok (shape : List ℕ)
deriving DecidableEq

/-- `np.squeeze`: drop all axes of length one. -/
def squeeze (s : List ℕ) : List ℕ := s.filter (· ≠ 1)

/-- `do_rmsynth_planes`, `util_RM.py` 130-163 and 216-225: the decision which inputs are rejected
and the shape of `FDFcube`. `weight = none` is the Python `None` (line 131 gives it the shape of the
wavelength array). The wavelength array is one-dimensional of length `nLam`, the Faraday depth array
one-dimensional of length `nPhi` (other ranks of these two are not modelled). -/
def synthShapes (dataQ dataU : List ℕ) (nLam nPhi : ℕ) (weight : Option (List ℕ)) : Outcome :=
  if weight.getD [nLam] ≠ [nLam] then .nones 2
  else if dataQ ≠ dataU then .nones 2
  else if ¬ dataQ.length ≤ 3 then .nones 2
  else match dataQ with
    | [] => .raised
    | n :: rest =>
      if n ≠ nLam then .nones 2
      else .ok (squeeze (nPhi :: (if rest = [] then [1] else rest)))

/-- The Python object returned by `get_rmsf_planes`: a tuple, error results being all `None`. -/
inductive Returned where
  | raised
  | tuple (length : ℕ) (isError : Bool)
deriving DecidableEq

/-- `get_rmsf_planes`, `util_RM.py` 297-322 and 449-455: rejected inputs return a tuple of four
`None`s, accepted ones the named tuple with its five fields. `msk = none` is the Python `None`. -/
def rmsfShapes (nLam : ℕ) (weight msk : Option (List ℕ)) : Returned :=
  if weight.getD [nLam] ≠ [nLam] then .tuple 4 true
  else match msk with
    | none => .tuple 5 false
    | some s =>
      if ¬ s.length ≤ 3 then .tuple 4 true
      else match s with
        | [] => .raised
        | n :: _ => if n ≠ nLam then .tuple 4 true else .tuple 5 false

/-- C13. The call is rejected with `(None, None)` exactly when the weight, λ², Q and U shapes
disagree or there are more than three axes - apart from zero-dimensional data, which raise an
`IndexError` instead of being rejected. -/
theorem synth_rejects_iff (q u : List ℕ) (nLam nPhi : ℕ) (w : Option (List ℕ)) :
    (synthShapes q u nLam nPhi w = .nones 2 ↔
      (∃ s, w = some s ∧ s ≠ [nLam]) ∨ q ≠ u ∨ 3 < q.length ∨
        (∃ n rest, q = n :: rest ∧ n ≠ nLam)) ∧
    (synthShapes q u nLam nPhi w = .raised ↔
      (∀ s, w = some s → s = [nLam]) ∧ q = [] ∧ u = []) := by
  unfold synthShapes
  cases w with
  | none =>
    simp only [Option.getD_none, ne_eq, not_true_eq_false, if_false]
    by_cases h1 : q = u
    · subst h1
      cases q with
      | nil => simp
      | cons a t =>
        by_cases h2 : (a :: t).length ≤ 3
        · by_cases h3 : a = nLam
          · subst h3; rw [if_neg (not_not.mpr h2)]; simp; simp at h2; omega
          · simp only [h2]; simp [h3]
        · simp only [h2]; simp; left; simp at h2; omega
    · simp [h1]; intro h2 h3; subst h2; exact absurd h3.symm h1
  | some s =>
    by_cases h0 : s = [nLam]
    · subst h0
      simp only [Option.getD_some, ne_eq, not_true_eq_false, if_false]
      by_cases h1 : q = u
      · subst h1
        cases q with
        | nil => simp
        | cons a t =>
          by_cases h2 : (a :: t).length ≤ 3
          · by_cases h3 : a = nLam
            · subst h3; rw [if_neg (not_not.mpr h2)]; simp; simp at h2; omega
            · simp only [h2]; simp [h3]
          · simp only [h2]; simp; left; simp at h2; omega
      · simp [h1]; intro h2 h3; subst h2; exact absurd h3.symm h1
    · simp [h0]

theorem prod_squeeze (s : List ℕ) : (squeeze s).prod = s.prod := by
  induction s with
  | nil => rfl
  | cons a t ih =>
    by_cases h : a = 1
    · subst h; simpa [squeeze] using ih
    · simp only [squeeze] at ih
      rw [squeeze, List.filter_cons_of_pos (by simpa using h), List.prod_cons, List.prod_cons, ih]

/-- C13. An accepted call returns one value per Faraday depth and pixel; with at least two depths
the first axis is the depth axis, and for a single spectrum the result is exactly one axis of that
length. -/
theorem synth_accepts_shape (q u : List ℕ) (nLam nPhi : ℕ) (w : Option (List ℕ)) (out : List ℕ)
    (h : synthShapes q u nLam nPhi w = .ok out) :
    out.prod = nPhi * q.tail.prod ∧
    (nPhi ≠ 1 → out = nPhi :: squeeze q.tail) ∧
    (nPhi = 1 → out = squeeze q.tail) := by
  unfold synthShapes at h
  split_ifs at h with h0 h1 h2
  cases q with
  | nil => simp at h
  | cons a t =>
    simp only at h
    split_ifs at h with h3 h4
    · injection h with h; subst h; subst h4
      refine ⟨by rw [prod_squeeze]; simp, ?_, ?_⟩
      · intro h; simp [squeeze, h]
      · intro h; simp [squeeze, h]
    · injection h with h; subst h
      refine ⟨by rw [prod_squeeze]; simp, ?_, ?_⟩
      · intro h; simp [squeeze, h]
      · intro h; simp [squeeze, h]

/-- Instance: a 100-channel cube of 4 by 5 pixels, 31 depths. -/
example : synthShapes [100, 4, 5] [100, 4, 5] 100 31 none = .ok [31, 4, 5] := by decide

/-- Instance: channel axis last is rejected. -/
example : synthShapes [4, 5, 100] [4, 5, 100] 100 31 none = .nones 2 := by decide

/-- C13, a finding about the RMSF: every rejected call returns a tuple of another length than every
accepted call, so a caller that unpacks the documented five fields gets an exception instead of the
error result. -/
theorem rmsf_error_arity (nLam : ℕ) (w msk : Option (List ℕ)) (len : ℕ) (err : Bool)
    (h : rmsfShapes nLam w msk = .tuple len err) :
    (err = true → len = 4) ∧ (err = false → len = 5) := by
  unfold rmsfShapes at h
  split_ifs at h with h0
  · simp at h; obtain ⟨rfl, rfl⟩ := h; simp
  · cases msk with
    | none => simp at h; obtain ⟨rfl, rfl⟩ := h; simp
    | some s =>
      cases s with
      | nil => simp at h
      | cons n t =>
        simp only at h
        split_ifs at h <;> (simp at h; obtain ⟨rfl, rfl⟩ := h; simp)

/-- Which masks and weights the RMSF computation rejects. -/
theorem rmsf_rejects_iff (nLam : ℕ) (w msk : Option (List ℕ)) :
    (∃ len, rmsfShapes nLam w msk = .tuple len true) ↔
      (∃ s, w = some s ∧ s ≠ [nLam]) ∨
      (∃ s, msk = some s ∧ (3 < s.length ∨ ∃ n rest, s = n :: rest ∧ n ≠ nLam)) := by
  unfold rmsfShapes
  have hw : (w.getD [nLam] ≠ [nLam]) ↔ (∃ s, w = some s ∧ s ≠ [nLam]) := by
    cases w <;> simp
  by_cases h0 : w.getD [nLam] ≠ [nLam]
  · rw [if_pos h0]
    exact ⟨fun _ => Or.inl (hw.mp h0), fun _ => ⟨4, rfl⟩⟩
  · rw [if_neg h0]
    rw [hw] at h0
    simp only [h0, false_or]
    cases msk with
    | none => simp
    | some s =>
      cases s with
      | nil => simp
      | cons n t =>
        by_cases h2 : (n :: t).length ≤ 3
        · by_cases h3 : n = nLam
          · subst h3; dsimp only; rw [if_neg (not_not.mpr h2)]; simp; simp at h2; omega
          · simp only [h2]; simp [h3]
        · simp only [h2]; simp; left; simp at h2; omega

/-- Instances: a mask with the wrong number of channels, and a good one. -/
example : rmsfShapes 100 none (some [99]) = .tuple 4 true ∧
    rmsfShapes 100 none (some [100, 4, 5]) = .tuple 5 false := by decide

end Verif.Shapes
