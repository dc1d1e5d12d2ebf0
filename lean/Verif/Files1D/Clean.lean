import Verif.Files1D.Table
import Verif.Clean1D.Props

/-!
# RM-CLEAN of the files written by RM synthesis

Source: `/repo/RMtools_1D/do_RMsynth_1D.py` 591-655 (`saveOutput`) and `/repo/RMtools_1D/do_RMclean_1D.py` 339-374
(`readFiles`), 575-612 (the precision and the calls of the command line tool). The JSON file is modelled as keeping its
`float64` numbers (Python writes the shortest text that is read as the same number). The arrays have no NaN except
the weights.
-/

namespace Verif.Files1D

open Verif.NumPy Verif.Clean1D

/-- The three text files and the entries `fwhmRMSF`, `dFDFth` and `lam0Sq_m2` of the JSON file. -/
structure Files where
  fdf : List Char
  rmsf : List Char
  weight : List Char
  fwhm : ℝ
  noise : ℝ
  lam0 : ℝ

variable {n M N2 : ℕ}

/-- A real axis and a complex array as three columns. -/
def threeCols {N : ℕ} (a : Fin N → ℝ) (z : Fin N → ℂ) : List (List (Option ℝ)) :=
  List.ofFn fun i => [some (a i), some (z i).re, some (z i).im]

/-- `saveOutput`, lines 591-627 and 635-655, for the entries which RM-CLEAN reads. -/
noncomputable def save (x : In n M N2) (phi2 : Fin N2 → ℝ) (w : Fin n → Option ℝ) : Files where
  fdf := saveTxt (threeCols x.phi x.dirty)
  rmsf := saveTxt (threeCols phi2 x.rmsf)
  weight := saveTxt (List.ofFn fun j => [some (x.freq j), w j])
  fwhm := x.fwhm
  noise := x.noise
  lam0 := x.lam0

/-- An array of `N` numbers, without NaN. -/
noncomputable def toFin (N : ℕ) (l : List (Option ℝ)) : Option (Fin N → ℝ) :=
  if l.length = N ∧ ∀ v ∈ l, v ≠ none then some fun i => (l.getD i none).getD 0 else none

/-- The items of a sequence of arrays. -/
def Cols.item : Cols → ℕ → List (Option ℝ)
  | arrays c, j => c.getD j []
  | numbers _, _ => []

/-- `readFiles` for files with arrays of `n`, `M + 3` and `N2` numbers, with the arguments of the run. `none`: an
exception, or the files have other sizes or NaN. -/
noncomputable def readFiles (F : Format) (n M N2 : ℕ) (f : Files) (cutoff : ℝ) (maxIter : ℕ) (gain : ℝ)
    (window : Option ℝ) : Option (In n M N2) :=
  (loadTxt F 3 f.rmsf).bind fun r => (loadTxt F 2 f.weight).bind fun w => (loadTxt F 3 f.fdf).bind fun d =>
  (toFin (M + 3) (d.item 0)).bind fun phi => (toFin (M + 3) (d.item 1)).bind fun fre =>
  (toFin (M + 3) (d.item 2)).bind fun fim => (toFin N2 (r.item 1)).bind fun rre =>
  (toFin N2 (r.item 2)).bind fun rim => (toFin n (w.item 0)).bind fun freq =>
  some
    { dirty := fun i => ⟨fre i, fim i⟩
      phi := phi
      rmsf := fun l => ⟨rre l, rim l⟩
      freq := freq
      fwhm := f.fwhm
      noise := f.noise
      lam0 := f.lam0
      cutoff := cutoff
      maxIter := maxIter
      gain := gain
      window := window }

/-- The command line tool, lines 575-612: the files are always read with 32 bits. -/
noncomputable def rmclean1d [NeZero N2] (f : Files) (cutoff : ℝ) (maxIter : ℕ) (gain : ℝ) (window : Option ℝ) :
    Option (Out M) :=
  (readFiles f32 n M N2 f cutoff maxIter gain window).bind run

/-! ## Specification -/

/-- The arrays with every number changed by `g`. -/
def mapArrays (g : ℝ → ℝ) (x : In n M N2) : In n M N2 :=
  { x with
    dirty := fun i => ⟨g (x.dirty i).re, g (x.dirty i).im⟩
    phi := fun i => g (x.phi i)
    rmsf := fun l => ⟨g (x.rmsf l).re, g (x.rmsf l).im⟩
    freq := fun j => g (x.freq j) }

/-- The arrays hold numbers of the format. -/
structure Holds (F : Format) (x : In n M N2) (phi2 : Fin N2 → ℝ) (w : Fin n → Option ℝ) : Prop where
  dirty : ∀ i, F.Mem (x.dirty i).re ∧ F.Mem (x.dirty i).im
  phi : ∀ i, F.Mem (x.phi i)
  rmsf : ∀ l, F.Mem (x.rmsf l).re ∧ F.Mem (x.rmsf l).im
  freq : ∀ j, F.Mem (x.freq j)
  phi2 : ∀ l, F.Mem (phi2 l)
  weight : ∀ j, F.Val (w j)

/-! ## Proofs -/

theorem val_some (F : Format) (x : ℝ) (h : F.Mem x) : F.Val (some x) := by
  intro y hy
  rw [← Option.some.inj hy]
  exact h

theorem toFin_ofFn {N : ℕ} (g : Fin N → ℝ) : toFin N (List.ofFn fun i => some (g i)) = some g := by
  unfold toFin
  rw [if_pos]
  · congr 1
    funext i
    simp
  · refine ⟨by simp, ?_⟩
    intro v hv
    obtain ⟨i, rfl⟩ := (List.mem_ofFn).mp hv
    simp

theorem column_three {N : ℕ} (a : Fin N → ℝ) (z : Fin N → ℂ) :
    column (threeCols a z) 0 = List.ofFn (fun i => some (a i)) ∧
    column (threeCols a z) 1 = List.ofFn (fun i => some (z i).re) ∧
    column (threeCols a z) 2 = List.ofFn (fun i => some (z i).im) := by
  unfold column threeCols
  refine ⟨?_, ?_, ?_⟩ <;> rw [List.map_ofFn] <;> rfl

theorem load_three (F : Format) {N : ℕ} (hN : 2 ≤ N) (a : Fin N → ℝ) (z : Fin N → ℂ) (ha : ∀ i, f64.Mem (a i))
    (hz : ∀ i, f64.Mem (z i).re ∧ f64.Mem (z i).im) :
    loadTxt F 3 (saveTxt (threeCols a z)) = some (.arrays [List.ofFn (fun i => some (F.round (a i))),
      List.ofFn (fun i => some (F.round (z i).re)), List.ofFn (fun i => some (F.round (z i).im))]) := by
  rw [load_save F (threeCols a z) 3 (by norm_num)]
  · obtain ⟨h0, h1, h2⟩ := column_three a z
    have : List.range 3 = [0, 1, 2] := rfl
    rw [this]
    simp only [List.map_cons, List.map_nil, h0, h1, h2, List.map_ofFn]
    rfl
  · intro r hr
    obtain ⟨i, rfl⟩ := (List.mem_ofFn).mp hr
    rfl
  · simpa [threeCols] using hN
  · intro r hr v hv
    obtain ⟨i, rfl⟩ := (List.mem_ofFn).mp hr
    simp only [List.mem_cons, List.not_mem_nil, or_false] at hv
    rcases hv with h | h | h <;> subst h
    · exact val_some _ _ (ha i)
    · exact val_some _ _ (hz i).1
    · exact val_some _ _ (hz i).2

theorem load_two (F : Format) {N : ℕ} (hN : 2 ≤ N) (a : Fin N → ℝ) (w : Fin N → Option ℝ) (ha : ∀ i, f64.Mem (a i))
    (hw : ∀ i, f64.Val (w i)) :
    loadTxt F 2 (saveTxt (List.ofFn fun j => [some (a j), w j])) = some (.arrays
      [List.ofFn (fun i => some (F.round (a i))), List.ofFn (fun i => (w i).map F.round)]) := by
  rw [load_save F _ 2 (by norm_num)]
  · have : List.range 2 = [0, 1] := rfl
    rw [this]
    unfold column
    simp only [List.map_cons, List.map_nil, List.map_ofFn]
    rfl
  · intro r hr
    obtain ⟨i, rfl⟩ := (List.mem_ofFn).mp hr
    rfl
  · simpa using hN
  · intro r hr v hv
    obtain ⟨i, rfl⟩ := (List.mem_ofFn).mp hr
    simp only [List.mem_cons, List.not_mem_nil, or_false] at hv
    rcases hv with h | h <;> subst h
    · exact val_some _ _ (ha i)
    · exact hw i

/-- What is read from the files: the arrays rounded to the precision. -/
theorem read_save (F : Format) (x : In n M N2) (phi2 : Fin N2 → ℝ) (w : Fin n → Option ℝ) (hn : 2 ≤ n) (hN : 2 ≤ N2)
    (h : Holds f64 x phi2 w) :
    readFiles F n M N2 (save x phi2 w) x.cutoff x.maxIter x.gain x.window = some (mapArrays F.round x) := by
  unfold readFiles
  simp only [save]
  rw [load_three F hN phi2 x.rmsf h.phi2 h.rmsf, Option.bind_some, load_two F hn x.freq w h.freq h.weight,
    Option.bind_some, load_three F (by omega) x.phi x.dirty h.phi h.dirty, Option.bind_some]
  simp only [Cols.item, List.getD_cons_zero, List.getD_cons_succ, toFin_ofFn, Option.bind_some]
  rfl

/-- C186, the part that holds. RM-CLEAN run from the command line on the files of a 32-bit run of RM synthesis returns
what `run_rmclean` returns for the dictionaries in memory. -/
theorem clean_from_files_partial [NeZero N2] (x : In n M N2) (phi2 : Fin N2 → ℝ) (w : Fin n → Option ℝ) (hn : 2 ≤ n)
    (hN : 2 ≤ N2) (h : Holds f32 x phi2 w) :
    rmclean1d (n := n) (M := M) (N2 := N2) (save x phi2 w) x.cutoff x.maxIter x.gain x.window = run x := by
  have h64 : Holds f64 x phi2 w :=
    ⟨fun i => ⟨f32_f64 _ (h.dirty i).1, f32_f64 _ (h.dirty i).2⟩, fun i => f32_f64 _ (h.phi i),
      fun i => ⟨f32_f64 _ (h.rmsf i).1, f32_f64 _ (h.rmsf i).2⟩, fun i => f32_f64 _ (h.freq i),
      fun i => f32_f64 _ (h.phi2 i), fun i y hy => f32_f64 _ (h.weight i y hy)⟩
  unfold rmclean1d
  rw [read_save f32 x phi2 w hn hN h64, Option.bind_some]
  congr 1
  unfold mapArrays
  have e1 : (fun i => (⟨f32.round (x.dirty i).re, f32.round (x.dirty i).im⟩ : ℂ)) = x.dirty := by
    funext i
    rw [f32.round_mem _ (h.dirty i).1, f32.round_mem _ (h.dirty i).2]
  have e2 : (fun i => f32.round (x.phi i)) = x.phi := by
    funext i
    rw [f32.round_mem _ (h.phi i)]
  have e3 : (fun i => (⟨f32.round (x.rmsf i).re, f32.round (x.rmsf i).im⟩ : ℂ)) = x.rmsf := by
    funext i
    rw [f32.round_mem _ (h.rmsf i).1, f32.round_mem _ (h.rmsf i).2]
  have e4 : (fun i => f32.round (x.freq i)) = x.freq := by
    funext i
    rw [f32.round_mem _ (h.freq i)]
  rw [e1, e2, e3, e4]

/-- C186 for a 64-bit run of RM synthesis: what is cleaned is the run with all arrays rounded to 32 bits. -/
theorem clean_from_files_rounded [NeZero N2] (x : In n M N2) (phi2 : Fin N2 → ℝ) (w : Fin n → Option ℝ) (hn : 2 ≤ n)
    (hN : 2 ≤ N2) (h : Holds f64 x phi2 w) :
    rmclean1d (n := n) (M := M) (N2 := N2) (save x phi2 w) x.cutoff x.maxIter x.gain x.window =
      run (mapArrays f32.round x) := by
  unfold rmclean1d
  rw [read_save f32 x phi2 w hn hN h, Option.bind_some]

theorem f64_int (m : ℤ) (h : |m| < 2 ^ 53) : f64.Mem m := ⟨m, 0, h, by simp [f64], by simp⟩

theorem f32_int (m : ℤ) (h : |m| < 2 ^ 24) : f32.Mem m := ⟨m, 0, h, by simp [f32], by simp⟩

/-- A run of RM synthesis with three depths: the dirty spectrum is `a` everywhere. -/
noncomputable def flatRun (a : ℝ) : In 2 0 (Axis.nPhi2 (0 + 3)) where
  dirty := fun _ => ⟨a, 0⟩
  phi := fun i => ((i : ℕ) : ℝ)
  rmsf := fun _ => 1
  freq := fun j => ((j : ℕ) : ℝ) + 1
  fwhm := 1
  noise := 1
  lam0 := 1
  cutoff := 3
  maxIter := 10
  gain := 0.1
  window := none

theorem flatRun_holds (F : Format) (hF : F = f32 ∨ F = f64) (a : ℝ) (ha : F.Mem a) :
    Holds F (flatRun a) (fun l => ((l : ℕ) : ℝ)) fun _ => some 1 := by
  have hi : ∀ m : ℕ, m < 100 → F.Mem m := by
    intro m hm
    rcases hF with e | e
    · subst e
      have := f32_int m (by rw [abs_of_nonneg (by positivity)]; norm_num; omega)
      exact_mod_cast this
    · subst e
      have := f64_int m (by rw [abs_of_nonneg (by positivity)]; norm_num; omega)
      exact_mod_cast this
  have h1 : F.Mem 1 := by exact_mod_cast hi 1 (by norm_num)
  refine ⟨fun _ => ⟨ha, F.mem_zero⟩, fun i => ?_, fun _ => ⟨?_, ?_⟩, fun j => ?_, fun l => ?_, fun _ => ?_⟩
  · exact hi i (by have := i.2; omega)
  · simpa [flatRun] using h1
  · simpa [flatRun] using F.mem_zero
  · have := hi ((j : ℕ) + 1) (by have := j.2; omega)
    push_cast at this
    exact this
  · refine hi l (lt_of_lt_of_le l.2 ?_)
    have : Axis.nPhi2 (0 + 3) ≤ 100 := by decide
    exact this
  · exact val_some _ _ h1

theorem nPhi2_three : 2 ≤ Axis.nPhi2 (0 + 3) := by decide

/-- C186 is false for 64-bit runs: the cleaned spectrum of this one is `1 + 2⁻³⁰` everywhere in memory and `1` from the
files. -/
theorem clean_from_files_wrong [NeZero (Axis.nPhi2 (0 + 3))] :
    ∃ (x : In 2 0 (Axis.nPhi2 (0 + 3))) (phi2 : Fin (Axis.nPhi2 (0 + 3)) → ℝ) (w : Fin 2 → Option ℝ) (o o' : Out 0),
      Holds f64 x phi2 w ∧ run x = some o ∧
      rmclean1d (n := 2) (M := 0) (N2 := Axis.nPhi2 (0 + 3)) (save x phi2 w) x.cutoff x.maxIter x.gain x.window =
        some o' ∧
      ∀ i, o.clean i = ((1 + 2 ^ (-30 : ℤ) : ℝ) : ℂ) ∧ o'.clean i = 1 := by
  set a : ℝ := 1 + 2 ^ (-30 : ℤ) with ha
  have hH := flatRun_holds f64 (Or.inr rfl) a example_f64.1
  obtain ⟨o, ho⟩ := Option.isSome_iff_exists.mp (runs_partial (flatRun a) (by simp [flatRun]))
  obtain ⟨o', ho'⟩ := Option.isSome_iff_exists.mp
    (runs_partial (mapArrays f32.round (flatRun a)) (by simp [flatRun, mapArrays]))
  have hab : absolute (1 : ℝ) 3 = 3 := by
    unfold absolute
    rw [if_neg (by norm_num)]
  have ha2 : |a| < 3 := by
    rw [ha, abs_of_pos (by positivity)]
    norm_num
  have hc : ∀ r : ℝ, (⟨r, 0⟩ : ℂ) = (r : ℂ) := fun r => rfl
  have hb1 := (below_cutoff_same (flatRun a) o ho (by
    intro i
    show ‖(⟨a, 0⟩ : ℂ)‖ < absolute (1 : ℝ) 3
    rw [hab, hc, Complex.norm_real]
    exact ha2)).1
  have hdr : (mapArrays f32.round (flatRun a)).dirty = fun _ => 1 := by
    funext i
    show (⟨f32.round a, f32.round 0⟩ : ℂ) = 1
    rw [example_f64.2, f32.round_zero]
    rfl
  have hb2 := (below_cutoff_same (mapArrays f32.round (flatRun a)) o' ho' (by
    intro i
    rw [hdr]
    show ‖(1 : ℂ)‖ < absolute (1 : ℝ) 3
    rw [hab]
    norm_num)).1
  refine ⟨flatRun a, fun l => ((l : ℕ) : ℝ), fun _ => some 1, o, o', hH, ho, ?_, fun i => ⟨?_, ?_⟩⟩
  · rw [clean_from_files_rounded _ _ _ (le_refl 2) nPhi2_three hH, ho']
  · rw [hb1]
    rfl
  · rw [hb2, hdr]

/-- C186: channels that differ in a 64-bit run may be read as one frequency: 1400000000 Hz and 1400000001 Hz. -/
theorem channels_merge : f64.Mem 1400000000 ∧ f64.Mem 1400000001 ∧
    f32.round (f64.round 1400000000) = f32.round (f64.round 1400000001) := by
  have h1 : f64.Mem 1400000000 := by exact_mod_cast f64_int 1400000000 (by norm_num)
  have h2 : f64.Mem 1400000001 := by exact_mod_cast f64_int 1400000001 (by norm_num)
  refine ⟨h1, h2, ?_⟩
  rw [f64.round_mem _ h1, f64.round_mem _ h2]
  have h3 : f32.Mem 1400000000 := by
    refine ⟨10937500, 7, ?_, ?_, ?_⟩
    · simp only [f32]
      norm_num
    · simp only [f32]
      norm_num
    · norm_num
  rw [f32.round_mem _ h3]
  symm
  refine f32.round_near _ _ h3 (by norm_num) ?_
  simp only [f32]
  rw [abs_of_pos (by norm_num), abs_of_pos (by norm_num)]
  norm_num

/-- Concrete case of `clean_from_files_partial`. -/
example [NeZero (Axis.nPhi2 (0 + 3))] : rmclean1d (n := 2) (M := 0) (N2 := Axis.nPhi2 (0 + 3))
    (save (flatRun 5) (fun l => ((l : ℕ) : ℝ)) fun _ => some 1) 3 10 0.1 none = run (flatRun 5) :=
  clean_from_files_partial (flatRun 5) _ _ (le_refl 2) nPhi2_three
    (flatRun_holds f32 (Or.inl rfl) 5 (by exact_mod_cast f32_int 5 (by norm_num)))

end Verif.Files1D
