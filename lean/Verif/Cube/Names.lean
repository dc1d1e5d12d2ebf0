import Mathlib.Tactic

/-!
# The file names that RM-CLEAN on cubes derives from the name it is given (C85)

Source: `/repo/RMtools_3D/do_RMclean_3D.py` 394-405 (`read_FDF_cubes`), 110-117 (`run_rmclean`); the names
of the files come from `/repo/RMtools_3D/do_RMsynth_3D.py` 430-555 (`writefits`).
-/

namespace Verif.Names

/-- Python's `str.replace(pat, rep)` for a non-empty `pat`: left to right, without overlap. The first
argument bounds the number of steps. -/
def replaceGo (pat rep : List Char) : ℕ → List Char → List Char
  | 0, l => l
  | _ + 1, [] => []
  | n + 1, c :: l =>
    if pat.isPrefixOf (c :: l) then rep ++ replaceGo pat rep n ((c :: l).drop pat.length)
    else c :: replaceGo pat rep n l

/-- `l.replace(pat, rep)`. -/
def replace (pat rep l : List Char) : List Char := replaceGo pat rep l.length l

def sReal : List Char := ['_', 'r', 'e', 'a', 'l']
def sIm : List Char := ['_', 'i', 'm']
def sTot : List Char := ['_', 't', 'o', 't']
def sFWHM : List Char := ['_', 'F', 'W', 'H', 'M']

/-- `read_FDF_cubes` 395. -/
def realName (f : List Char) : List Char := replace sIm sReal (replace sTot sReal f)

/-- `read_FDF_cubes` 403. -/
def imagName (f : List Char) : List Char := replace sReal sIm (replace sTot sIm f)

/-- `run_rmclean` 111-113. -/
def fwhmName (f : List Char) : List Char := replace sTot sFWHM (replace sIm sFWHM (replace sReal sFWHM f))

/-- `FDF` and `_dirty.fits`, `RMSF` and `.fits`. -/
def fdf : List Char := ['F', 'D', 'F']
def dirty : List Char := ['_', 'd', 'i', 'r', 't', 'y', '.', 'f', 'i', 't', 's']
def rmsf : List Char := ['R', 'M', 'S', 'F']
def ext : List Char := ['.', 'f', 'i', 't', 's']

/-- A prefix that does not contain the pattern is kept, if what follows starts with a character that is not
in the pattern. -/
theorem replaceGo_prefix (pat rep : List Char) (p : List Char) (x : Char) (s : List Char)
    (hx : x ∉ pat) (hp : ¬ pat <:+: p) (m : ℕ) :
    replaceGo pat rep (p.length + m) (p ++ x :: s) = p ++ replaceGo pat rep m (x :: s) := by
  induction p with
  | nil => simp
  | cons c p ih =>
    have hp' : ¬ pat <:+: p := fun h => hp (h.trans (List.suffix_cons c p).isInfix)
    rw [List.length_cons, Nat.add_right_comm, List.cons_append, replaceGo, if_neg, ih hp', List.cons_append]
    intro h
    rw [List.isPrefixOf_iff_prefix] at h
    rw [← List.cons_append] at h
    rcases List.prefix_or_prefix_of_prefix h (List.prefix_append (c :: p) (x :: s)) with h1 | ⟨q, hq⟩
    · exact hp h1.isInfix
    · cases q with
      | nil =>
        rw [List.append_nil] at hq
        exact hp ⟨[], [], by simp [hq]⟩
      | cons y q =>
        rw [← hq, List.prefix_append_right_inj] at h
        obtain ⟨r, hr⟩ := h
        rw [List.cons_append] at hr
        have : y = x := (List.cons.inj hr).1
        apply hx
        rw [← hq, this]
        simp

theorem replace_prefix (pat rep : List Char) (p : List Char) (x : Char) (s : List Char)
    (hx : x ∉ pat) (hp : ¬ pat <:+: p) :
    replace pat rep (p ++ x :: s) = p ++ replace pat rep (x :: s) := by
  unfold replace
  rw [List.length_append]
  exact replaceGo_prefix pat rep p x s hx hp _

/-- None of the three patterns occurs in the directory and prefix. -/
def Plain (p : List Char) : Prop := ¬ sReal <:+: p ∧ ¬ sIm <:+: p ∧ ¬ sTot <:+: p

/-- **C85, the part that holds**: for a directory and prefix without `_real`, `_im` and `_tot`, any of the
three files of an FDF or an RMSF leads to its real and its imaginary part, and for the RMSF to its width. -/
theorem names_partial (p : List Char) (hp : Plain p) (mid : List Char)
    (hm : mid = sReal ∨ mid = sIm ∨ mid = sTot) :
    realName (p ++ (fdf ++ mid ++ dirty)) = p ++ (fdf ++ sReal ++ dirty) ∧
    imagName (p ++ (fdf ++ mid ++ dirty)) = p ++ (fdf ++ sIm ++ dirty) ∧
    realName (p ++ (rmsf ++ mid ++ ext)) = p ++ (rmsf ++ sReal ++ ext) ∧
    imagName (p ++ (rmsf ++ mid ++ ext)) = p ++ (rmsf ++ sIm ++ ext) ∧
    fwhmName (p ++ (rmsf ++ mid ++ ext)) = p ++ (rmsf ++ sFWHM ++ ext) := by
  obtain ⟨h1, h2, h3⟩ := hp
  have key : ∀ pat rep t, pat = sReal ∨ pat = sIm ∨ pat = sTot → (t.head? = some 'F' ∨ t.head? = some 'R') →
      replace pat rep (p ++ t) = p ++ replace pat rep t := by
    intro pat rep t hpat ht
    cases t with
    | nil => simp at ht
    | cons x s =>
      apply replace_prefix
      · simp only [List.head?_cons, Option.some.injEq] at ht
        rcases hpat with rfl | rfl | rfl <;> rcases ht with rfl | rfl <;> decide
      · rcases hpat with rfl | rfl | rfl <;> assumption
  unfold realName imagName fwhmName
  rcases hm with rfl | rfl | rfl
  · refine ⟨?_, ?_, ?_, ?_, ?_⟩
    · rw [key sTot _ _ (by simp) (by decide), key sIm _ _ (by simp) (by decide)]
      exact congrArg (p ++ ·) (by decide)
    · rw [key sTot _ _ (by simp) (by decide), key sReal _ _ (by simp) (by decide)]
      exact congrArg (p ++ ·) (by decide)
    · rw [key sTot _ _ (by simp) (by decide), key sIm _ _ (by simp) (by decide)]
      exact congrArg (p ++ ·) (by decide)
    · rw [key sTot _ _ (by simp) (by decide), key sReal _ _ (by simp) (by decide)]
      exact congrArg (p ++ ·) (by decide)
    · rw [key sReal _ _ (by simp) (by decide), key sIm _ _ (by simp) (by decide),
        key sTot _ _ (by simp) (by decide)]
      exact congrArg (p ++ ·) (by decide)
  · refine ⟨?_, ?_, ?_, ?_, ?_⟩
    · rw [key sTot _ _ (by simp) (by decide), key sIm _ _ (by simp) (by decide)]
      exact congrArg (p ++ ·) (by decide)
    · rw [key sTot _ _ (by simp) (by decide), key sReal _ _ (by simp) (by decide)]
      exact congrArg (p ++ ·) (by decide)
    · rw [key sTot _ _ (by simp) (by decide), key sIm _ _ (by simp) (by decide)]
      exact congrArg (p ++ ·) (by decide)
    · rw [key sTot _ _ (by simp) (by decide), key sReal _ _ (by simp) (by decide)]
      exact congrArg (p ++ ·) (by decide)
    · rw [key sReal _ _ (by simp) (by decide), key sIm _ _ (by simp) (by decide),
        key sTot _ _ (by simp) (by decide)]
      exact congrArg (p ++ ·) (by decide)
  · refine ⟨?_, ?_, ?_, ?_, ?_⟩
    · rw [key sTot _ _ (by simp) (by decide), key sIm _ _ (by simp) (by decide)]
      exact congrArg (p ++ ·) (by decide)
    · rw [key sTot _ _ (by simp) (by decide), key sReal _ _ (by simp) (by decide)]
      exact congrArg (p ++ ·) (by decide)
    · rw [key sTot _ _ (by simp) (by decide), key sIm _ _ (by simp) (by decide)]
      exact congrArg (p ++ ·) (by decide)
    · rw [key sTot _ _ (by simp) (by decide), key sReal _ _ (by simp) (by decide)]
      exact congrArg (p ++ ·) (by decide)
    · rw [key sReal _ _ (by simp) (by decide), key sIm _ _ (by simp) (by decide),
        key sTot _ _ (by simp) (by decide)]
      exact congrArg (p ++ ·) (by decide)

/-- Non-vacuity: a directory and prefix that is plain. -/
example : Plain ['d', 'a', 't', 'a', '/', 'r', 'u', 'n', '_', '1', '_'] := by
  refine ⟨?_, ?_, ?_⟩ <;> decide

/-- **C85 is false**: for files with the prefix `my_image_`, the file opened for the real part is
`my_realage_FDF_real_dirty.fits`, whichever of the three is given. -/
theorem names_wrong :
    let p := ['m', 'y', '_', 'i', 'm', 'a', 'g', 'e', '_']
    ∀ mid, mid = sReal ∨ mid = sIm ∨ mid = sTot →
      realName (p ++ (fdf ++ mid ++ dirty)) =
        ['m', 'y', '_', 'r', 'e', 'a', 'l', 'a', 'g', 'e', '_'] ++ (fdf ++ sReal ++ dirty) ∧
      realName (p ++ (fdf ++ mid ++ dirty)) ≠ p ++ (fdf ++ sReal ++ dirty) := by
  intro p mid hm
  rcases hm with rfl | rfl | rfl <;> exact ⟨by decide, by decide⟩

end Verif.Names
