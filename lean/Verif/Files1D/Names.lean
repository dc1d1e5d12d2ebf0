import Mathlib.Tactic

/-!
# Names of the files of the one-dimensional programs

Source: `main` and `saveOutput` of `/repo/RMtools_1D/do_RMsynth_1D.py` (799, 830, 227, 447, 521, 595-640), `do_RMclean_1D.py` (588-592, 610, 618, 264,
304-323), `do_RMsynth_1D_fromFITS.py` (210, 253-272) and `do_QUfit_1D_mnest.py` (179, 485, 522, 587, 591). Names are lists of characters. Not
modelled: file systems that do not distinguish upper and lower case, links, and the contents of the files (`Files1D/Table`, `Files1D/Decimal`).
-/

namespace Verif.Names1D

/-- `os.path.splitext` on POSIX (`genericpath._splitext`): the extension starts at the last dot of the last component, unless only dots precede it
there. -/
def splitext (p : List Char) : List Char × List Char :=
  let base := p.reverse.takeWhile (· ≠ '/')
  let e := base.takeWhile (· ≠ '.')
  if (base.drop (e.length + 1)).any (· ≠ '.') then (p.take (p.length - (e.length + 1)), p.drop (p.length - (e.length + 1)))
  else (p, [])

/-- `prefixOut` (`do_RMsynth_1D.py` 799) and `fileRoot` (`do_RMclean_1D.py` 588). -/
def root (p : List Char) : List Char := (splitext p).1

/-- What `rmsynth1d -S -D` appends to the root: the tables of `saveOutput`, 595-640, and the figures of `run_rmsynth`, 227, 447 and 521. -/
def synthEnds : List (List Char) :=
  ["_FDFdirty.dat".toList, "_RMSF.dat".toList, "_weight.dat".toList, "_RMsynth.dat".toList, "_RMsynth.json".toList, "_spectra-plots.pdf".toList,
    ".debug-plots.pdf".toList, "_RMSF-dirtyFDF-plots.pdf".toList]

/-- What `rmclean1d -S` appends to the root: `saveOutput`, 304-323, and the figure, 264. -/
def cleanEnds : List (List Char) :=
  ["_FDFclean.dat".toList, "_FDFmodel.dat".toList, "_RMclean.dat".toList, "_RMclean.json".toList, "_cleanFDF-plots.pdf".toList]

/-- Files that `rmclean1d` reads, 589-592. -/
def cleanReads : List (List Char) := ["_FDFdirty.dat".toList, "_RMSF.dat".toList, "_weight.dat".toList, "_RMsynth.json".toList]

/-- Files written by `rmsynth1d -S -D` for a data file. -/
def synthFiles (p : List Char) : List (List Char) := synthEnds.map (root p ++ ·)

/-- Files written by `rmclean1d -S`. -/
def cleanFiles (p : List Char) : List (List Char) := cleanEnds.map (root p ++ ·)

/-- Files read by `rmclean1d`. -/
def cleanInputs (p : List Char) : List (List Char) := cleanReads.map (root p ++ ·)

/-- Files written by `rmsynth1dFITS -S` for the cube `p` and a pixel: `run_rmsynth` is called without the prefix (253-270), so that its figures get the
default prefix of the function, `"prefixOut"` (`do_RMsynth_1D.py` 91); the tables get the root of the cube (272). -/
def fitsFiles (p : List Char) (_pixel : ℤ × ℤ) : List (List Char) :=
  (synthEnds.take 5).map (root p ++ ·) ++
    ["prefixOut_spectra-plots.pdf".toList, "prefixOut_RMSF-dirtyFDF-plots.pdf".toList]

/-- Tables written by `qufit`, 485 and 522. -/
def quTables (p m sampler : List Char) : List (List Char) :=
  [root p ++ "_m".toList ++ m ++ "_".toList ++ sampler ++ ".json".toList, root p ++ "_m".toList ++ m ++ "_".toList ++ sampler ++ ".dat".toList]

/-- Figures written by `qufit`, 587 and 591; the sampler is not part of their names. -/
def quFigures (p m _sampler : List Char) : List (List Char) :=
  [root p ++ "fig_m".toList ++ m ++ "_specfit.pdf".toList, root p ++ "fig_m".toList ++ m ++ "_corner.pdf".toList]

/-! ## Properties -/

/-- The two parts are the name; the extension is empty or a dot followed by characters other than dots and slashes. -/
theorem splitext_spec (p : List Char) :
    (splitext p).1 ++ (splitext p).2 = p ∧
    ((splitext p).2 = [] ∨ ∃ e, (splitext p).2 = '.' :: e ∧ '.' ∉ e ∧ '/' ∉ e) := by
  unfold splitext
  dsimp only
  set base := p.reverse.takeWhile (· ≠ '/') with hb
  set e := base.takeWhile (· ≠ '.') with he
  by_cases h : ((base.drop (e.length + 1)).any (· ≠ '.')) = true
  · rw [if_pos h]
    refine ⟨List.take_append_drop _ _, Or.inr ?_⟩
    have hlen : e.length < base.length := by
      by_contra hl
      rw [List.drop_eq_nil_of_le (by omega)] at h
      simp at h
    have hdot : base[e.length]? = some '.' := by
      have hb2 : base = e ++ base.dropWhile (· ≠ '.') := by rw [he, List.takeWhile_append_dropWhile]
      have hne : base.dropWhile (fun c => decide (c ≠ '.')) ≠ [] := by
        intro h0
        rw [h0, List.append_nil] at hb2
        rw [← hb2] at hlen
        omega
      have := List.head_dropWhile_not (p := fun c => decide (c ≠ '.')) (l := base) hne
      obtain ⟨c, t, ht⟩ := List.exists_cons_of_ne_nil hne
      simp only [ht, List.head_cons] at this
      rw [hb2, ht, List.getElem?_append_right (le_refl _), Nat.sub_self]
      simp only [List.getElem?_cons_zero, Option.some.injEq]
      simpa using this
    have hpre : base <+: p.reverse := by rw [hb]; exact List.takeWhile_prefix _
    have htake : p.reverse.take (e.length + 1) = e ++ ['.'] := by
      have h1 : p.reverse.take (e.length + 1) = base.take (e.length + 1) := by
        obtain ⟨t, ht⟩ := hpre
        rw [← ht, List.take_append_of_le_length (by omega)]
      rw [h1, List.take_add_one, hdot]
      have h2 : base.take e.length = e := by
        have : e <+: base := by rw [he]; exact List.takeWhile_prefix _
        exact (List.prefix_iff_eq_take.mp this).symm
      rw [h2]
      rfl
    have hdrop : p.drop (p.length - (e.length + 1)) = '.' :: e.reverse := by
      have h1 : (p.reverse.take (e.length + 1)).reverse = p.drop (p.length - (e.length + 1)) := by
        rw [List.take_reverse, List.reverse_reverse]
      rw [← h1, htake]
      simp
    refine ⟨e.reverse, hdrop, ?_, ?_⟩
    · rw [List.mem_reverse]
      intro hm
      have := List.all_eq_true.mp (List.all_takeWhile (p := fun c => decide (c ≠ '.')) (l := base)) _ (he ▸ hm)
      simp at this
    · rw [List.mem_reverse]
      intro hm
      have hm2 : '/' ∈ base := by
        have : e <+: base := by rw [he]; exact List.takeWhile_prefix _
        exact this.subset hm
      have := List.all_eq_true.mp (List.all_takeWhile (p := fun c => decide (c ≠ '/')) (l := p.reverse)) _ (hb ▸ hm2)
      simp at this
  · rw [if_neg h]
    exact ⟨List.append_nil _, Or.inl rfl⟩

theorem ends_distinct {r r' a b : List Char} (E : List (List Char)) (hE : ∀ x ∈ E, ∀ y ∈ E, x <:+ y → x = y) (ha : a ∈ E) (hb : b ∈ E)
    (h : r ++ a = r' ++ b) : r = r' ∧ a = b := by
  have : a = b := by
    rcases List.append_eq_append_iff.mp h with ⟨t, -, h2⟩ | ⟨t, -, h2⟩
    · exact (hE b hb a ha ⟨t, h2.symm⟩).symm
    · exact hE a ha b hb ⟨t, h2.symm⟩
  subst this
  exact ⟨List.append_cancel_right h, rfl⟩

theorem all_ends : ∀ x ∈ synthEnds ++ cleanEnds, ∀ y ∈ synthEnds ++ cleanEnds, x <:+ y → x = y := by decide

theorem ends_disjoint : ∀ x ∈ synthEnds, ∀ y ∈ cleanEnds, x ≠ y := by decide

/-- C246. Neither program writes the data file it was given, whatever its name; RM-CLEAN reads only files that RM synthesis writes for this name,
and does not overwrite them. -/
theorem own_files (p : List Char) :
    p ∉ synthFiles p ∧ p ∉ cleanFiles p ∧ (∀ f ∈ cleanInputs p, f ∈ synthFiles p) ∧ ∀ f ∈ cleanFiles p, f ∉ synthFiles p := by
  obtain ⟨h1, h2⟩ := splitext_spec p
  have key : ∀ E : List (List Char), (∀ x ∈ E, x ≠ [] ∧ (x.head? = some '.' → '.' ∈ x.tail)) → p ∉ E.map (root p ++ ·) := by
    intro E hE hm
    obtain ⟨a, ha, he⟩ := List.mem_map.mp hm
    have : a = (splitext p).2 := by
      have : root p ++ a = root p ++ (splitext p).2 := he.trans h1.symm
      exact List.append_cancel_left this
    obtain ⟨n0, n1⟩ := hE a ha
    rcases h2 with h | ⟨e, h, h3, -⟩
    · exact n0 (this.trans h)
    · rw [this, h] at n1
      exact h3 (n1 rfl)
  refine ⟨key _ (by decide), key _ (by decide), ?_, ?_⟩
  · intro f hf
    obtain ⟨a, ha, rfl⟩ := List.mem_map.mp hf
    have hs : ∀ a ∈ cleanReads, a ∈ synthEnds := by decide
    exact List.mem_map.mpr ⟨a, hs a ha, rfl⟩
  · intro f hf hf'
    obtain ⟨a, ha, rfl⟩ := List.mem_map.mp hf
    obtain ⟨b, hb, he⟩ := List.mem_map.mp hf'
    exact ends_disjoint b hb a ha (List.append_cancel_left he)

/-- C246. Data files whose names differ in more than the extension have no output file in common. -/
theorem other_files_partial (p q : List Char) (h : root p ≠ root q) :
    ∀ f ∈ synthFiles p ++ cleanFiles p, f ∉ synthFiles q ++ cleanFiles q := by
  intro f hf hf'
  have e : ∀ p, synthFiles p ++ cleanFiles p = (synthEnds ++ cleanEnds).map (root p ++ ·) := fun p => (List.map_append).symm
  rw [e] at hf hf'
  obtain ⟨a, ha, rfl⟩ := List.mem_map.mp hf
  obtain ⟨b, hb, he⟩ := List.mem_map.mp hf'
  exact h (ends_distinct _ all_ends hb ha he).1.symm

/-- Names that differ only in the extension: an extension does not change the root. -/
theorem root_ext (r e : List Char) (hr : ∃ c t, r.reverse = c :: t ∧ c ≠ '.' ∧ c ≠ '/') (he : '.' ∉ e ∧ '/' ∉ e) : root (r ++ '.' :: e) = r := by
  obtain ⟨c, t, hc, hd, hs⟩ := hr
  unfold root splitext
  dsimp only
  have hrev : (r ++ '.' :: e).reverse = e.reverse ++ ('.' :: c :: t) := by simp [hc]
  have hb : (r ++ '.' :: e).reverse.takeWhile (· ≠ '/') = e.reverse ++ ('.' :: c :: t.takeWhile (· ≠ '/')) := by
    rw [hrev, List.takeWhile_append_of_pos]
    · rw [List.takeWhile_cons_of_pos (by decide), List.takeWhile_cons_of_pos (by simpa using hs)]
    · intro x hx
      have : x ∈ e := by simpa using hx
      simp only [decide_eq_true_eq]
      rintro rfl
      exact he.2 this
  rw [hb]
  have he2 : (e.reverse ++ ('.' :: c :: t.takeWhile (· ≠ '/'))).takeWhile (· ≠ '.') = e.reverse := by
    rw [List.takeWhile_append_of_pos]
    · rw [List.takeWhile_cons_of_neg (by decide), List.append_nil]
    · intro x hx
      have : x ∈ e := by simpa using hx
      simp only [decide_eq_true_eq]
      rintro rfl
      exact he.1 this
  rw [he2]
  have hany : ((e.reverse ++ ('.' :: c :: t.takeWhile (· ≠ '/'))).drop (e.reverse.length + 1)).any (· ≠ '.') = true := by
    rw [List.drop_append, List.drop_eq_nil_of_le (by omega), List.nil_append]
    have : e.reverse.length + 1 - e.reverse.length = 1 := by omega
    rw [this]
    simp [hd]
  rw [if_pos hany]
  dsimp only
  rw [List.length_append, List.length_cons, List.length_reverse]
  have : r.length + (e.length + 1) - (e.length + 1) = r.length := by omega
  rw [this]
  simp

/-- C246 is false for data files that differ only in the extension: they have the same output files. -/
theorem same_root_collides (r e e' : List Char) (hr : ∃ c t, r.reverse = c :: t ∧ c ≠ '.' ∧ c ≠ '/') (he : '.' ∉ e ∧ '/' ∉ e)
    (he' : '.' ∉ e' ∧ '/' ∉ e') :
    synthFiles (r ++ '.' :: e) = synthFiles (r ++ '.' :: e') ∧ cleanFiles (r ++ '.' :: e) = cleanFiles (r ++ '.' :: e') := by
  unfold synthFiles cleanFiles
  rw [root_ext r e hr he, root_ext r e' hr he']
  exact ⟨rfl, rfl⟩

/-- C246 is false for the data of other runs: with any name `r` RM synthesis of `r.dat` overwrites a data file `r_RMsynth.dat`. -/
theorem other_data_overwritten (r : List Char) (hr : ∃ c t, r.reverse = c :: t ∧ c ≠ '.' ∧ c ≠ '/') :
    r ++ "_RMsynth.dat".toList ∈ synthFiles (r ++ ".dat".toList) := by
  have : root (r ++ ".dat".toList) = r := root_ext r "dat".toList hr (by decide)
  unfold synthFiles
  rw [this]
  exact List.mem_map.mpr ⟨_, by decide, rfl⟩

/-- C246 is false for pixels of a cube: every pixel of a cube gives the same files, and the figures are the same files for all cubes. The four
files that RM-CLEAN reads are among those of every pixel, so it cleans the pixel that came last. -/
theorem pixels_collide (p q : List Char) (a b : ℤ × ℤ) :
    fitsFiles p a = fitsFiles p b ∧
    (∀ e ∈ ["_FDFdirty.dat", "_RMSF.dat", "_weight.dat", "_RMsynth.json"], root p ++ e.toList ∈ cleanInputs p ∧
      root p ++ e.toList ∈ fitsFiles p a) ∧ ∀ f ∈ ["prefixOut_spectra-plots.pdf".toList, "prefixOut_RMSF-dirtyFDF-plots.pdf".toList],
      f ∈ fitsFiles p a ∧ f ∈ fitsFiles q b :=
  ⟨rfl, fun e he => ⟨List.mem_map.mpr ⟨e.toList, List.mem_map_of_mem (f := String.toList) he, rfl⟩,
    List.mem_append_left _ (List.mem_map.mpr ⟨e.toList,
      (by decide : ∀ e ∈ ["_FDFdirty.dat", "_RMSF.dat", "_weight.dat", "_RMsynth.json"], e.toList ∈ synthEnds.take 5) e he, rfl⟩)⟩,
    fun _ hf => ⟨List.mem_append_right _ hf, List.mem_append_right _ hf⟩⟩

/-- C246 is false for the figures of QU fitting with two samplers, whose tables are kept apart. -/
theorem sampler_figures_collide (p m s s' : List Char) (h : s ≠ s') :
    quFigures p m s = quFigures p m s' ∧ ∀ f ∈ quTables p m s, f ∉ quTables p m s' := by
  refine ⟨rfl, ?_⟩
  intro f hf hf'
  simp only [quTables, List.mem_cons, List.not_mem_nil, or_false] at hf hf'
  have inj : ∀ x : List Char, root p ++ "_m".toList ++ m ++ "_".toList ++ s ++ x = root p ++ "_m".toList ++ m ++ "_".toList ++ s' ++ x → False := by
    intro x hx
    exact h (List.append_cancel_left (List.append_cancel_right hx))
  have cross : ∀ t t' : List Char, t ++ ".json".toList = t' ++ ".dat".toList → False := by
    intro t t' ht
    have := congrArg (fun l => l.reverse.head?) ht
    simp at this
  rcases hf with rfl | rfl <;> rcases hf' with hf' | hf'
  · exact inj _ hf'
  · exact cross _ _ hf'
  · exact cross _ _ hf'.symm
  · exact inj _ hf'

/-- Roots of some names. -/
example : root "data/src.1.dat".toList = "data/src.1".toList ∧ root "dir.x/.hidden".toList = "dir.x/.hidden".toList ∧ root "a".toList = "a".toList := by
  decide

end Verif.Names1D
