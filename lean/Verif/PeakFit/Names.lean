import Verif.Cube.Names
import Mathlib.Analysis.SpecialFunctions.Complex.Arg

/-!
# The files that the peak fit of cubes opens (C266)

Source: `/repo/RMtools_3D/RMpeakfit_3D.py` 258-307 (`read_files`) and `/repo/RMtools_3D/do_RMclean_3D.py` 388-405
(`read_FDF_cubes`), 97-117 (`run_rmclean`); the files are written by `/repo/RMtools_3D/do_RMsynth_3D.py` 424-575
(`writefits`) and `/repo/RMtools_3D/do_RMclean_3D.py` 218-272 (`writefits`).
-/

namespace Verif.PeakNames

open Verif.Names

/-- The six names that `read_files` replaces by `RMSF_FWHM`, in its order (RMpeakfit_3D.py 296-301). -/
def sTotDirty : List Char := "FDF_tot_dirty".toList
def sRealDirty : List Char := "FDF_real_dirty".toList
def sImDirty : List Char := "FDF_im_dirty".toList
def sCleanTot : List Char := "FDF_clean_tot".toList
def sCleanReal : List Char := "FDF_clean_real".toList
def sCleanIm : List Char := "FDF_clean_im".toList

/-- `RMSF_FWHM`. -/
def sWidth : List Char := "RMSF_FWHM".toList

/-- The file of the width, RMpeakfit_3D.py 295-301. -/
def widthName (f : List Char) : List Char :=
  replace sCleanIm sWidth (replace sCleanReal sWidth (replace sCleanTot sWidth
    (replace sImDirty sWidth (replace sRealDirty sWidth (replace sTotDirty sWidth f)))))

/-- Files by name: the images of the HDUs in their order. -/
abbrev Disk (ι : Type*) := List Char → Option (List (ι → ℝ))

/-- `pf.open(name)[0].data`; `none`: the file is missing or has no image. -/
def first {ι : Type*} (d : Disk ι) (f : List Char) : Option (ι → ℝ) := (d f).bind fun l => l.head?

/-- `read_files` 264-279 and `read_FDF_cubes` 394-406: the spectra. The names of the files are those of
`Verif.Names.realName` and `imagName`: the two functions have the same two expressions. The reordering of the axes
(lines 281-289) is in `Cube/Model`. -/
noncomputable def spectra {ι : Type*} (d : Disk ι) (f : List Char) : Option (ι → ℂ) :=
  match first d (realName f), first d (imagName f) with
  | some re, some im => some fun k => ⟨re k, im k⟩
  | _, _ => none

/-- `read_files` as a whole: the spectra and the widths. -/
noncomputable def readFiles {ι : Type*} (d : Disk ι) (f : List Char) : Option ((ι → ℂ) × (ι → ℝ)) :=
  match spectra d f, first d (widthName f) with
  | some F, some w => some (F, w)
  | _, _ => none

/-! ## What the other programs write -/

/-- The names of the dirty spectra, do_RMsynth_3D.py 428, 437, 450. -/
def dirtyNames : List (List Char) := ["FDF_real_dirty.fits".toList, "FDF_im_dirty.fits".toList, "FDF_tot_dirty.fits".toList]

/-- The names of the clean spectra, do_RMclean_3D.py 246-259. -/
def cleanNames : List (List Char) := ["FDF_clean_real.fits".toList, "FDF_clean_im.fits".toList, "FDF_clean_tot.fits".toList]

/-- The name of the width, do_RMsynth_3D.py 542. -/
def widthFile : List Char := "RMSF_FWHM.fits".toList

/-- The names of the combined files: do_RMsynth_3D.py 471, do_RMclean_3D.py 231. -/
def dirtyAll : List Char := "FDF_dirty.fits".toList
def cleanAll : List Char := "FDF_clean.fits".toList

/-! ## Names -/

theorem infix_of_sub {a b p : List Char} (h : a <:+: b) (hp : ¬ a <:+: p) : ¬ b <:+: p := fun h1 => hp (h.trans h1)

/-- A text that starts with `F` or `R` after a plain prefix: the three replacements of the parts keep the prefix. -/
theorem part_prefix (p : List Char) (hp : Plain p) (pat rep t : List Char) (hpat : pat = sReal ∨ pat = sIm ∨ pat = sTot)
    (ht : t.head? = some 'F' ∨ t.head? = some 'R') : replace pat rep (p ++ t) = p ++ replace pat rep t := by
  obtain ⟨h1, h2, h3⟩ := hp
  cases t with
  | nil => simp at ht
  | cons x s =>
    apply replace_prefix
    · simp only [List.head?_cons, Option.some.injEq] at ht
      rcases hpat with rfl | rfl | rfl <;> rcases ht with rfl | rfl <;> decide
    · rcases hpat with rfl | rfl | rfl <;> assumption

/-- A prefix without the pattern is kept if no end of the pattern is the beginning of what follows. -/
theorem replaceGo_prefix' (pat rep : List Char) (p s : List Char) (hs : ∀ i < pat.length, 0 < i → ¬ pat.drop i <+: s)
    (hp : ¬ pat <:+: p) (m : ℕ) : replaceGo pat rep (p.length + m) (p ++ s) = p ++ replaceGo pat rep m s := by
  induction p with
  | nil => simp
  | cons c p ih =>
    have hp' : ¬ pat <:+: p := fun h => hp (h.trans (List.suffix_cons c p).isInfix)
    rw [List.length_cons, Nat.add_right_comm, List.cons_append, replaceGo, if_neg, ih hp', List.cons_append]
    intro h
    rw [List.isPrefixOf_iff_prefix, ← List.cons_append] at h
    rcases List.prefix_or_prefix_of_prefix h (List.prefix_append (c :: p) s) with h1 | ⟨q, hq⟩
    · exact hp h1.isInfix
    · cases q with
      | nil =>
        rw [List.append_nil] at hq
        exact hp ⟨[], [], by simp [hq]⟩
      | cons y q =>
        have hd : pat.drop (c :: p).length = y :: q := by rw [← hq]; exact List.drop_left
        refine hs (c :: p).length ?_ (by simp) ?_
        · rw [← hq, List.length_append]; simp
        · rw [hd]
          rw [← hq, List.prefix_append_right_inj] at h
          exact h

theorem replace_prefix' (pat rep : List Char) (p s : List Char) (hs : ∀ i < pat.length, 0 < i → ¬ pat.drop i <+: s)
    (hp : ¬ pat <:+: p) : replace pat rep (p ++ s) = p ++ replace pat rep s := by
  unfold replace
  rw [List.length_append]
  exact replaceGo_prefix' pat rep p s hs hp _

/-- All names that occur between the replacements. -/
def known : List (List Char) := dirtyNames ++ cleanNames ++ [widthFile, dirtyAll, cleanAll]

/-- The patterns of `read_files`. -/
def pats : List (List Char) := [sTotDirty, sRealDirty, sImDirty, sCleanTot, sCleanReal, sCleanIm]

theorem ends : ∀ pat ∈ pats, ∀ t ∈ known, ∀ i < pat.length, 0 < i → ¬ pat.drop i <+: t := by decide +kernel

theorem stays : ∀ pat ∈ pats, ∀ t ∈ known, replace pat sWidth t ∈ known := by decide +kernel

theorem hasPart : ∀ pat ∈ pats, sReal <:+: pat ∨ sIm <:+: pat ∨ sTot <:+: pat := by decide +kernel

theorem width_prefix (p : List Char) (hp : Plain p) (pat : List Char) (hpat : pat ∈ pats) (t : List Char) (ht : t ∈ known) :
    replace pat sWidth (p ++ t) = p ++ replace pat sWidth t := by
  apply replace_prefix' _ _ _ _ (ends pat hpat t ht)
  obtain ⟨h1, h2, h3⟩ := hp
  rcases hasPart pat hpat with h | h | h
  · exact infix_of_sub h h1
  · exact infix_of_sub h h2
  · exact infix_of_sub h h3

theorem widthName_prefix (p : List Char) (hp : Plain p) (t : List Char) (ht : t ∈ known) :
    widthName (p ++ t) = p ++ widthName t := by
  have e1 := stays sTotDirty (by simp [pats]) t ht
  have e2 := stays sRealDirty (by simp [pats]) _ e1
  have e3 := stays sImDirty (by simp [pats]) _ e2
  have e4 := stays sCleanTot (by simp [pats]) _ e3
  have e5 := stays sCleanReal (by simp [pats]) _ e4
  unfold widthName
  rw [width_prefix p hp sTotDirty (by simp [pats]) t ht, width_prefix p hp sRealDirty (by simp [pats]) _ e1,
    width_prefix p hp sImDirty (by simp [pats]) _ e2, width_prefix p hp sCleanTot (by simp [pats]) _ e3,
    width_prefix p hp sCleanReal (by simp [pats]) _ e4, width_prefix p hp sCleanIm (by simp [pats]) _ e5]

theorem realName_prefix (p : List Char) (hp : Plain p) (t : List Char) (h1 : t.head? = some 'F')
    (h2 : (replace sTot sReal t).head? = some 'F') : realName (p ++ t) = p ++ realName t := by
  unfold realName
  rw [part_prefix p hp _ _ _ (by simp) (Or.inl h1), part_prefix p hp _ _ _ (by simp) (Or.inl h2)]

theorem imagName_prefix (p : List Char) (hp : Plain p) (t : List Char) (h1 : t.head? = some 'F')
    (h2 : (replace sTot sIm t).head? = some 'F') : imagName (p ++ t) = p ++ imagName t := by
  unfold imagName
  rw [part_prefix p hp _ _ _ (by simp) (Or.inl h1), part_prefix p hp _ _ _ (by simp) (Or.inl h2)]

theorem heads : ∀ t ∈ dirtyNames ++ cleanNames ++ [dirtyAll, cleanAll], t.head? = some 'F' ∧
    (replace sTot sReal t).head? = some 'F' ∧ (replace sTot sIm t).head? = some 'F' := by decide +kernel

theorem dirtyTargets : ∀ t ∈ dirtyNames, realName t = "FDF_real_dirty.fits".toList ∧
    imagName t = "FDF_im_dirty.fits".toList ∧ widthName t = widthFile := by decide +kernel

theorem cleanTargets : ∀ t ∈ cleanNames, realName t = "FDF_clean_real.fits".toList ∧
    imagName t = "FDF_clean_im.fits".toList ∧ widthName t = widthFile := by decide +kernel

theorem allTargets : ∀ t ∈ [dirtyAll, cleanAll], realName t = t ∧ imagName t = t ∧ widthName t = t := by decide +kernel

/-! ## C266 -/

/-- **C266, the part that holds (separate files of one run)**: with a directory and prefix `p` without `_real`, `_im`
and `_tot`, the three files of the dirty spectra, of which the real parts are `re`, the imaginary parts `im`, and the
file `w` of the widths, all under this prefix: whichever of the three files the peak fit is given, it works on the
spectra `re + i im` and the widths `w`. The same holds for the three files of the clean spectra. -/
theorem peak_files_partial {ι : Type*} (d : Disk ι) (p : List Char) (hp : Plain p) (re im w : ι → ℝ)
    (hw : d (p ++ "RMSF_FWHM.fits".toList) = some [w]) :
    (d (p ++ "FDF_real_dirty.fits".toList) = some [re] → d (p ++ "FDF_im_dirty.fits".toList) = some [im] →
      ∀ t ∈ ["FDF_real_dirty.fits".toList, "FDF_im_dirty.fits".toList, "FDF_tot_dirty.fits".toList],
        readFiles d (p ++ t) = some (fun k => ⟨re k, im k⟩, w)) ∧
    (d (p ++ "FDF_clean_real.fits".toList) = some [re] → d (p ++ "FDF_clean_im.fits".toList) = some [im] →
      ∀ t ∈ ["FDF_clean_real.fits".toList, "FDF_clean_im.fits".toList, "FDF_clean_tot.fits".toList],
        readFiles d (p ++ t) = some (fun k => ⟨re k, im k⟩, w)) := by
  constructor
  · intro hre him t ht
    have hh := heads t (List.mem_append_left _ (List.mem_append_left _ ht))
    have hk : t ∈ known := List.mem_append_left _ (List.mem_append_left _ ht)
    obtain ⟨t1, t2, t3⟩ := dirtyTargets t ht
    have e1 : first d (realName (p ++ t)) = some re := by
      rw [realName_prefix p hp t hh.1 hh.2.1, t1, first, hre]; rfl
    have e2 : first d (imagName (p ++ t)) = some im := by
      rw [imagName_prefix p hp t hh.1 hh.2.2, t2, first, him]; rfl
    have e3 : first d (widthName (p ++ t)) = some w := by
      rw [widthName_prefix p hp t hk, t3, first, show widthFile = "RMSF_FWHM.fits".toList from rfl, hw]; exact rfl
    simp only [readFiles, spectra, e1, e2, e3]
  · intro hre him t ht
    have hh := heads t (List.mem_append_left _ (List.mem_append_right _ ht))
    have hk : t ∈ known := List.mem_append_left _ (List.mem_append_right _ ht)
    obtain ⟨t1, t2, t3⟩ := cleanTargets t ht
    have e1 : first d (realName (p ++ t)) = some re := by
      rw [realName_prefix p hp t hh.1 hh.2.1, t1, first, hre]; rfl
    have e2 : first d (imagName (p ++ t)) = some im := by
      rw [imagName_prefix p hp t hh.1 hh.2.2, t2, first, him]; rfl
    have e3 : first d (widthName (p ++ t)) = some w := by
      rw [widthName_prefix p hp t hk, t3, first, show widthFile = "RMSF_FWHM.fits".toList from rfl, hw]; exact rfl
    simp only [readFiles, spectra, e1, e2, e3]

/-- **C266, two prefixes**: clean spectra written under a prefix `q` under which no widths are: the peak fit stops,
whatever else is on the disk. In particular for clean spectra written under another prefix than the dirty ones. -/
theorem peak_files_other_prefix {ι : Type*} (d : Disk ι) (q : List Char) (hq : Plain q)
    (hw : d (q ++ "RMSF_FWHM.fits".toList) = none) :
    ∀ t ∈ ["FDF_clean_real.fits".toList, "FDF_clean_im.fits".toList, "FDF_clean_tot.fits".toList],
      readFiles d (q ++ t) = none := by
  intro t ht
  have hk : t ∈ known := List.mem_append_left _ (List.mem_append_right _ ht)
  have e3 : first d (widthName (q ++ t)) = none := by
    rw [widthName_prefix q hq t hk, (cleanTargets t ht).2.2, first, show widthFile = "RMSF_FWHM.fits".toList from rfl, hw]; exact rfl
  unfold readFiles
  rw [e3]
  cases spectra d (q ++ t) <;> rfl

/-- **C266 is false for combined files**: given a file of RM synthesis or RM-CLEAN on cubes with all parts
(`FDF_dirty.fits`, `FDF_clean.fits`), reading does not fail. It takes the first image, the real parts, also for
the imaginary parts and for the widths. The polarisation angle of every spectrum is then the same up to its sign:
the argument of every value is that of `1 + i` or of `-1 - i`. -/
theorem peak_files_wrong {ι : Type*} (d : Disk ι) (p : List Char) (hp : Plain p) (re im tot : ι → ℝ)
    (t : List Char) (ht : t = "FDF_dirty.fits".toList ∨ t = "FDF_clean.fits".toList)
    (hd : d (p ++ t) = some [re, im, tot]) :
    readFiles d (p ++ t) = some (fun k => (re k : ℂ) * (1 + Complex.I), re) ∧
    ((∃ k, im k ≠ re k) → ∀ w, readFiles d (p ++ t) ≠ some (fun k => ⟨re k, im k⟩, w)) ∧
    (∀ k, 0 < re k → Complex.arg ((re k : ℂ) * (1 + Complex.I)) = Real.pi / 4) := by
  have hm : t ∈ [dirtyAll, cleanAll] := by
    rcases ht with rfl | rfl
    · exact List.mem_cons_self
    · exact List.mem_cons_of_mem _ List.mem_cons_self
  have hh := heads t (List.mem_append_right _ hm)
  have hk : t ∈ known := List.mem_append_right _ (List.mem_cons_of_mem _ hm)
  obtain ⟨t1, t2, t3⟩ := allTargets t hm
  have e1 : first d (realName (p ++ t)) = some re := by
    rw [realName_prefix p hp t hh.1 hh.2.1, t1, first, hd]; rfl
  have e2 : first d (imagName (p ++ t)) = some re := by
    rw [imagName_prefix p hp t hh.1 hh.2.2, t2, first, hd]; rfl
  have e3 : first d (widthName (p ++ t)) = some re := by
    rw [widthName_prefix p hp t hk, t3, first, hd]; rfl
  have key : readFiles d (p ++ t) = some (fun k => (re k : ℂ) * (1 + Complex.I), re) := by
    simp only [readFiles, spectra, e1, e2, e3]
    refine congrArg some (Prod.ext (funext fun k => ?_) rfl)
    apply Complex.ext <;> simp
  refine ⟨key, ?_, ?_⟩
  · rintro ⟨k, hk⟩ w h
    rw [key] at h
    have h1 := congrFun (Prod.ext_iff.1 (Option.some.inj h)).1 k
    have h2 := congrArg Complex.im h1
    simp at h2
    exact hk h2.symm
  · intro k hk
    rw [Complex.arg_real_mul _ hk]
    have e : (1 + Complex.I : ℂ) = (Real.sqrt 2 : ℂ) * (Complex.cos (Real.pi / 4 : ℝ) + Complex.sin (Real.pi / 4 : ℝ) * Complex.I) := by
      rw [← Complex.ofReal_cos, ← Complex.ofReal_sin, Real.cos_pi_div_four, Real.sin_pi_div_four]
      have h2 : Real.sqrt 2 * (Real.sqrt 2 / 2) = 1 := by
        rw [← mul_div_assoc, Real.mul_self_sqrt (by norm_num)]; norm_num
      have h3 : ((Real.sqrt 2 : ℝ) : ℂ) * ((Real.sqrt 2 / 2 : ℝ) : ℂ) = 1 := by
        rw [← Complex.ofReal_mul, h2, Complex.ofReal_one]
      rw [mul_add, ← mul_assoc, h3, one_mul]
    rw [e]
    refine Complex.arg_mul_cos_add_sin_mul_I (by positivity) ⟨?_, ?_⟩
    · linarith [Real.pi_pos]
    · linarith [Real.pi_pos]

/-- RM-CLEAN on cubes takes a combined file of the RMSF for the width in the same way: the name does not change, so
that the width is the first image, the real part of the RMSF. -/
theorem clean_width_wrong {ι : Type*} (d : Disk ι) (p : List Char) (hp : Plain p) (re im tot w : ι → ℝ)
    (hd : d (p ++ "RMSF.fits".toList) = some [re, im, tot, w]) :
    first d (fwhmName (p ++ "RMSF.fits".toList)) = some re ∧
    spectra d (p ++ "RMSF.fits".toList) = some fun k => (re k : ℂ) * (1 + Complex.I) := by
  have n1 : fwhmName (p ++ "RMSF.fits".toList) = p ++ "RMSF.fits".toList := by
    unfold fwhmName
    have a1 : replace sReal sFWHM "RMSF.fits".toList = "RMSF.fits".toList := by decide +kernel
    have a2 : replace sIm sFWHM "RMSF.fits".toList = "RMSF.fits".toList := by decide +kernel
    have a3 : replace sTot sFWHM "RMSF.fits".toList = "RMSF.fits".toList := by decide +kernel
    have h : ("RMSF.fits".toList).head? = some 'R' := by decide +kernel
    rw [part_prefix p hp _ _ _ (by simp) (Or.inr h), a1, part_prefix p hp _ _ _ (by simp) (Or.inr h), a2,
      part_prefix p hp _ _ _ (by simp) (Or.inr h), a3]
  have n2 : realName (p ++ "RMSF.fits".toList) = p ++ "RMSF.fits".toList := by
    unfold realName
    have a1 : replace sTot sReal "RMSF.fits".toList = "RMSF.fits".toList := by decide +kernel
    have a2 : replace sIm sReal "RMSF.fits".toList = "RMSF.fits".toList := by decide +kernel
    have h : ("RMSF.fits".toList).head? = some 'R' := by decide +kernel
    rw [part_prefix p hp _ _ _ (by simp) (Or.inr h), a1, part_prefix p hp _ _ _ (by simp) (Or.inr h), a2]
  have n3 : imagName (p ++ "RMSF.fits".toList) = p ++ "RMSF.fits".toList := by
    unfold imagName
    have a1 : replace sTot sIm "RMSF.fits".toList = "RMSF.fits".toList := by decide +kernel
    have a2 : replace sReal sIm "RMSF.fits".toList = "RMSF.fits".toList := by decide +kernel
    have h : ("RMSF.fits".toList).head? = some 'R' := by decide +kernel
    rw [part_prefix p hp _ _ _ (by simp) (Or.inr h), a1, part_prefix p hp _ _ _ (by simp) (Or.inr h), a2]
  have e : first d (p ++ "RMSF.fits".toList) = some re := by rw [first, hd]; rfl
  refine ⟨by rw [n1, e], ?_⟩
  simp only [spectra, n2, n3, e]
  refine congrArg some (funext fun k => ?_)
  apply Complex.ext <;> simp

/-! ## Cases -/

/-- A run under the prefix `a_` with separate files, RM-CLEAN under the prefix `c_`, and a combined file `b_`. -/
def caseDisk : Disk (Fin 2) := fun f =>
  if f = "d/a_FDF_real_dirty.fits".toList then some [![1, 2]]
  else if f = "d/a_FDF_im_dirty.fits".toList then some [![3, 4]]
  else if f = "d/a_RMSF_FWHM.fits".toList then some [![50, 50]]
  else if f = "d/b_FDF_dirty.fits".toList then some [![1, 2], ![3, 4], ![5, 6]]
  else if f = "d/c_FDF_clean_real.fits".toList then some [![1, 1]]
  else if f = "d/c_FDF_clean_im.fits".toList then some [![1, 1]]
  else none

theorem plainCase : Plain "d/a_".toList ∧ Plain "d/b_".toList ∧ Plain "d/c_".toList := by
  unfold Plain; decide +kernel

/-- The hypotheses of the theorems hold for this disk. -/
theorem peak_files_case :
    readFiles caseDisk ("d/a_".toList ++ "FDF_tot_dirty.fits".toList) =
      some (fun k => ⟨![1, 2] k, ![3, 4] k⟩, ![50, 50]) ∧
    (∀ w, readFiles caseDisk ("d/b_".toList ++ "FDF_dirty.fits".toList) ≠
      some (fun k => ⟨![1, 2] k, ![3, 4] k⟩, w)) ∧
    readFiles caseDisk ("d/c_".toList ++ "FDF_clean_tot.fits".toList) = none := by
  refine ⟨?_, ?_, ?_⟩
  · refine (peak_files_partial caseDisk _ plainCase.1 ![1, 2] ![3, 4] ![50, 50] ?_).1 ?_ ?_ _ (by simp)
    · rfl
    · rfl
    · rfl
  · refine (peak_files_wrong caseDisk _ plainCase.2.1 ![1, 2] ![3, 4] ![5, 6] _ (Or.inl rfl) rfl).2.1 ⟨0, ?_⟩
    simp
  · exact peak_files_other_prefix caseDisk _ plainCase.2.2 rfl _ (by simp)

end Verif.PeakNames
