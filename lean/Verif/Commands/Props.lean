import Verif.Commands.Model

/-!
# C264: a program that reports success has done its work
-/

namespace Verif.Commands

open Verif.Files1D Verif.Names1D

/-! ## Specification -/

/-- The tables of a run are on the disk, with a root. -/
def OnDisk (d : Disk) (root : List Char) (ends : List (List Char)) (out : List Char → List Char) : Prop :=
  ∀ e ∈ ends, d (root ++ e) = some (out e)

/-- A data file is written as lines of words and comments, but its rows differ in length or a word is no number. -/
def Malformed (F : Format) (s : List Char) : Prop :=
  ∃ ls : List Line, (∀ l ∈ ls, l.Ok) ∧ s = fileText ls ∧
    ((∃ r ∈ rowsSpec ls, ∃ w ∈ r, value F w = none) ∨ ∃ r ∈ rowsSpec ls, ∃ r' ∈ rowsSpec ls, r.length ≠ r'.length)

/-! ## Helper lemmas -/

theorem write_other (fs : List (List Char × List Char)) (d : Disk) (q : List Char) (h : ∀ f ∈ fs, f.1 ≠ q) : write d fs q = d q := by
  unfold write
  induction fs generalizing d with
  | nil => rfl
  | cons f fs ih =>
    rw [List.foldl_cons, ih _ fun g hg => h g (List.mem_cons_of_mem _ hg), if_neg (fun e => h f List.mem_cons_self e.symm)]

theorem write_mem (fs : List (List Char × List Char)) (d : Disk) (hn : (fs.map Prod.fst).Nodup) (f : List Char × List Char) (h : f ∈ fs) :
    write d fs f.1 = some f.2 := by
  unfold write
  induction fs generalizing d with
  | nil => cases h
  | cons g fs ih =>
    rw [List.map_cons, List.nodup_cons] at hn
    rw [List.foldl_cons]
    rcases List.mem_cons.mp h with rfl | h
    · have := write_other fs (fun q => if q = f.1 then some f.2 else d q) f.1
        (fun g hg e => hn.1 (List.mem_map.mpr ⟨g, hg, e⟩))
      unfold write at this
      rw [this, if_pos rfl]
    · exact ih _ hn.2 h

theorem tables_nodup (ends : List (List Char)) (root : List Char) (out : List Char → List Char) (h : ends.Nodup) :
    ((tables ends root out).map Prod.fst).Nodup := by
  unfold tables
  rw [List.map_map]
  exact h.map fun a b e => List.append_cancel_left e

theorem write_tables (ends : List (List Char)) (root : List Char) (out : List Char → List Char) (h : ends.Nodup) (d : Disk) :
    OnDisk (write d (tables ends root out)) root ends out := by
  intro e he
  exact write_mem _ d (tables_nodup ends root out h) (root ++ e, out e) (List.mem_map.mpr ⟨e, he, rfl⟩)

theorem write_tables_other (ends : List (List Char)) (root : List Char) (out : List Char → List Char) (d : Disk) (q : List Char)
    (h : ∀ e ∈ ends, q ≠ root ++ e) : write d (tables ends root out) q = d q := by
  refine write_other _ d q fun f hf e => ?_
  obtain ⟨a, ha, rfl⟩ := List.mem_map.mp hf
  exact h a ha e.symm

theorem synth_nodup : synthTables.Nodup := by decide

theorem clean_nodup : cleanTables.Nodup := by decide

theorem reads_tables : ∀ e ∈ cleanReads, e ∈ synthTables := by decide

theorem not_readable {F : Format} {s : List Char} (h : Malformed F s) : readFile F s = none := by
  obtain ⟨ls, hl, rfl, ⟨r, hr, w, hw, hv⟩ | ⟨r, hr, r', hr', hne⟩⟩ := h
  · exact readFile_not_number F ls hl r hr w hw hv
  · exact readFile_ragged F ls hl r r' hr hr' hne

theorem mapM_reads (d : Disk) (root : List Char) (out : List Char → List Char) (es : List (List Char)) (h : ∀ e ∈ es, d (root ++ e) = some (out e)) :
    (es.map (root ++ ·)).mapM d = some (es.map out) := by
  rw [List.mapM_map]
  induction es with
  | nil => rfl
  | cons e es ih =>
    rw [List.mapM_cons, ih fun a ha => h a (List.mem_cons_of_mem _ ha)]
    simp only [Function.comp_apply, h e List.mem_cons_self]
    rfl

variable (run : Cols → Option (List Char → List Char)) (clean : List (List Char) → Option (List Char → List Char)) (o : Opts)

/-! ## C264 -/

/-- C264, the part that holds: for a data file that can be read the exit status of `rmsynth1d` is zero exactly if the computation did not raise; then with
`-S` the tables are those of this run, and no other file is touched. Otherwise something is printed and no file is touched. -/
theorem synth_status_partial (p : List Char) (d : Disk) (s : List Char) (c : Cols) (hp : d p = some s)
    (hc : readFile (if o.bit64 then f64 else f32) s = some c) :
    (∀ out, run c = some out → (rmsynth1d run o p d).exit = 0 ∧
      (o.save = true → OnDisk (rmsynth1d run o p d).disk (root p) synthTables out) ∧
      ∀ q, q ∉ synthFiles p → (rmsynth1d run o p d).disk q = d q) ∧
    (run c = none → (rmsynth1d run o p d).exit ≠ 0 ∧ (rmsynth1d run o p d).said = true ∧ (rmsynth1d run o p d).disk = d) := by
  unfold rmsynth1d
  rw [hp]
  dsimp only
  rw [hc]
  dsimp only
  refine ⟨fun out h => ?_, fun h => ?_⟩
  · rw [h]
    refine ⟨rfl, fun hs => ?_, fun q hq => ?_⟩
    · dsimp only
      rw [hs, if_pos rfl]
      exact write_tables _ _ _ synth_nodup d
    · dsimp only
      cases o.save with
      | false => rfl
      | true =>
        rw [if_pos rfl]
        exact write_tables_other _ _ _ d q fun e he heq =>
          hq (List.mem_map.mpr ⟨e, List.mem_of_mem_take he, heq.symm⟩)
  · rw [h]
    exact ⟨one_ne_zero, rfl, rfl⟩

/-- C264 is false: without its data file, and with a data file in which a row is incomplete or a word is no number, `rmsynth1d` reports success, writes
nothing, and in the second case prints nothing (unless asked to be verbose). -/
theorem synth_status_wrong (p : List Char) (d : Disk) :
    (d p = none → (rmsynth1d run o p d).exit = 0 ∧ (rmsynth1d run o p d).disk = d) ∧
    ∀ s, d p = some s → Malformed (if o.bit64 then f64 else f32) s → o.verbose = false → o.debug = false →
      (rmsynth1d run o p d).exit = 0 ∧ (rmsynth1d run o p d).disk = d ∧ (rmsynth1d run o p d).said = false := by
  refine ⟨fun h => ?_, fun s h hm hv hd => ?_⟩
  · unfold rmsynth1d
    rw [h]
    exact ⟨rfl, rfl⟩
  · unfold rmsynth1d
    rw [h]
    dsimp only
    rw [not_readable hm, hv, hd]
    exact ⟨rfl, rfl, rfl⟩

/-- C264 for `rmclean1d`: if one of the four files is missing it reports success and writes nothing (but prints a message); if they are there, the status is
zero exactly if they can be read and cleaned. -/
theorem clean_status (p : List Char) (d : Disk) :
    ((∃ f ∈ cleanInputs p, d f = none) → (rmclean1d clean o p d).exit = 0 ∧ (rmclean1d clean o p d).disk = d ∧ (rmclean1d clean o p d).said = true) ∧
    ∀ tab : List Char → List Char, (∀ e ∈ cleanReads, d (root p ++ e) = some (tab e)) →
      (∀ out, clean (cleanReads.map tab) = some out → (rmclean1d clean o p d).exit = 0 ∧
        (o.save = true → OnDisk (rmclean1d clean o p d).disk (root p) cleanTables out) ∧
        ∀ q, q ∉ cleanFiles p → (rmclean1d clean o p d).disk q = d q) ∧
      (clean (cleanReads.map tab) = none → (rmclean1d clean o p d).exit ≠ 0 ∧ (rmclean1d clean o p d).disk = d) := by
  refine ⟨fun ⟨f, hf, hn⟩ => ?_, fun tab htab => ?_⟩
  · unfold rmclean1d
    rw [mapM_none d _ f hf hn]
    exact ⟨rfl, rfl, rfl⟩
  · have hm : (cleanInputs p).mapM d = some (cleanReads.map tab) := mapM_reads d (root p) tab cleanReads htab
    unfold rmclean1d
    rw [hm]
    dsimp only
    refine ⟨fun out h => ?_, fun h => ?_⟩
    · rw [h]
      refine ⟨rfl, fun hs => ?_, fun q hq => ?_⟩
      · dsimp only
        rw [hs, if_pos rfl]
        exact write_tables _ _ _ clean_nodup d
      · dsimp only
        cases o.save with
        | false => rfl
        | true =>
          rw [if_pos rfl]
          exact write_tables_other _ _ _ d q fun e he heq =>
            hq (List.mem_map.mpr ⟨e, List.mem_of_mem_take he, heq.symm⟩)
    · rw [h]
      exact ⟨one_ne_zero, rfl⟩

/-- C264, the part that holds for `rmsynth1d -S file && rmclean1d -S file`: if the data file can be read and the status is zero, the tables of RM-CLEAN are
those of RM-CLEAN applied to RM synthesis of this file. If the status is not zero they are as before. -/
theorem script_partial (p : List Char) (d : Disk) (s : List Char) (c : Cols) (hp : d p = some s) (hs : o.save = true)
    (hc : readFile (if o.bit64 then f64 else f32) s = some c) :
    ((script run clean o p d).exit = 0 → ∃ tab out, run c = some tab ∧ clean (cleanReads.map tab) = some out ∧
      OnDisk (script run clean o p d).disk (root p) synthTables tab ∧ OnDisk (script run clean o p d).disk (root p) cleanTables out) ∧
    ((script run clean o p d).exit ≠ 0 → ∀ e ∈ cleanTables, (script run clean o p d).disk (root p ++ e) = d (root p ++ e)) := by
  have h := synth_status_partial run o p d s c hp hc
  unfold script
  dsimp only
  cases hr : run c with
  | none =>
    have h2 := h.2 hr
    rw [if_neg h2.1]
    exact ⟨fun h0 => absurd h0 h2.1, fun _ e _ => by rw [h2.2.2]⟩
  | some tab =>
    obtain ⟨h0, h1, h3⟩ := h.1 tab hr
    rw [if_pos h0]
    have htab : ∀ e ∈ cleanReads, (rmsynth1d run o p d).disk (root p ++ e) = some (tab e) := fun e he => h1 hs e (reads_tables e he)
    have hcl := (clean_status clean o p (rmsynth1d run o p d).disk).2 tab htab
    cases hk : clean (cleanReads.map tab) with
    | none =>
      have h4 := hcl.2 hk
      refine ⟨fun h5 => absurd h5 h4.1, fun _ e he => ?_⟩
      rw [h4.2]
      refine h3 _ fun hm => ?_
      exact (own_files p).2.2.2 _ (List.mem_map.mpr ⟨e, List.mem_of_mem_take he, rfl⟩) hm
    | some out =>
      obtain ⟨h4, h5, h6⟩ := hcl.1 out hk
      refine ⟨fun _ => ⟨tab, out, rfl, hk, fun e he => ?_, h5 hs⟩, fun h7 => absurd h4 h7⟩
      rw [h6, h1 hs e he]
      intro hm
      exact (own_files p).2.2.2 _ hm (List.mem_map.mpr ⟨e, List.mem_of_mem_take he, rfl⟩)

/-- C264 is false for `rmsynth1d -S file && rmclean1d -S file`: if the tables of an earlier run are on the disk and the data file has since been replaced by one
with an incomplete row, the status is zero and the tables of RM-CLEAN are those of the earlier data. -/
theorem script_wrong (p : List Char) (d : Disk) (s : List Char) (hp : d p = some s) (hs : o.save = true)
    (hm : Malformed (if o.bit64 then f64 else f32) s) (old out : List Char → List Char) (hold : OnDisk d (root p) synthTables old)
    (hk : clean (cleanReads.map old) = some out) :
    (script run clean o p d).exit = 0 ∧ OnDisk (script run clean o p d).disk (root p) cleanTables out := by
  have h1 : rmsynth1d run o p d = ⟨0, o.verbose || o.debug, d⟩ := by
    unfold rmsynth1d
    rw [hp]
    dsimp only
    rw [not_readable hm]
  have h2 := ((clean_status clean o p d).2 old fun e he => hold e (reads_tables e he)).1 out hk
  unfold script
  dsimp only
  rw [h1]
  rw [if_pos rfl]
  exact ⟨h2.1, h2.2.1 hs⟩

/-! ## Cubes -/

variable {α β : Type*} (rd : List Char → Option α) (rf : List Char → Option β) (shape : α → List ℕ)
    (run3 : α → α → β → Option α → Option β → Option Written) (a : Args3D)

/-- The contents of all files that were named on the command line. -/
structure Given (d : Disk) (q u : α) (f : β) (i : Option α) (noise : Option β) : Prop where
  q : ∃ s, d a.q = some s ∧ rd s = some q
  u : ∃ s, d a.u = some s ∧ rd s = some u
  f : ∃ s, d a.freq = some s ∧ rf s = some f
  i : (a.i = none ∧ i = none) ∨ ∃ p s c, a.i = some p ∧ d p = some s ∧ rd s = some c ∧ i = some c
  noise : (a.noise = none ∧ noise = none) ∨ ∃ p s c, a.noise = some p ∧ d p = some s ∧ rf s = some c ∧ noise = some c

theorem optional_given {γ : Type*} (r : List Char → Option γ) (d : Disk) (o : Option (List Char)) (v : Option γ)
    (h : (o = none ∧ v = none) ∨ ∃ p s c, o = some p ∧ d p = some s ∧ r s = some c ∧ v = some c) : optional r d o = some v := by
  rcases h with ⟨rfl, rfl⟩ | ⟨p, s, c, rfl, h1, h2, rfl⟩
  · rfl
  · simp only [optional, h1, Option.bind_some, h2, Option.map_some]

/-- C264, the part that holds for `rmsynth3d`: with all files in place, cubes of one shape, and not both a Stokes I model and a noise file unless someone is there
to press enter, the status is zero exactly if the computation did not raise, and then its files are written. -/
theorem cube_status_partial (d : Disk) (stdin : Bool) (q u : α) (f : β) (i : Option α) (noise : Option β) (h : Given rd rf a d q u f i noise)
    (hq : shape q = shape u) (hi : ∀ c, i = some c → shape c = shape q) (hin : a.i = none ∨ a.noise = none ∨ stdin = true) :
    (∀ out, run3 q u f i noise = some out → (rmsynth3d rd rf shape run3 a stdin d).exit = 0 ∧
      (rmsynth3d rd rf shape run3 a stdin d).disk = write d out) ∧
    (run3 q u f i noise = none → (rmsynth3d rd rf shape run3 a stdin d).exit ≠ 0 ∧ (rmsynth3d rd rf shape run3 a stdin d).disk = d) := by
  obtain ⟨⟨s1, h1, h1'⟩, ⟨s2, h2, h2'⟩, ⟨s3, h3, h3'⟩, h4, h5⟩ := h
  have hopen : ¬(d a.q = none ∨ d a.u = none) := by
    rw [h1, h2]
    simp
  have hno : ¬(a.noise ≠ none ∧ a.i ≠ none ∧ stdin = false) := by
    rintro ⟨n1, n2, n3⟩
    rcases hin with e | e | e
    · exact n2 e
    · exact n1 e
    · rw [n3] at e
      cases e
  have key : rmsynth3d rd rf shape run3 a stdin d =
      match run3 q u f i noise with
      | none => ⟨1, true, d⟩
      | some out => ⟨0, false, write d out⟩ := by
    unfold rmsynth3d
    rw [if_neg hopen, optional_given rd d a.i i h4, optional_given rf d a.noise noise h5]
    dsimp only
    rw [if_neg hno, h1, h2, h3]
    simp only [Option.bind_some, h1', h2', h3']
    have h6 : ¬∃ c, i = some c ∧ shape c ≠ shape q := fun ⟨c, hc, hne⟩ => hne (hi c hc)
    rw [if_neg (not_not.mpr hq), if_neg h6]
    cases run3 q u f i noise <;> rfl
  rw [key]
  refine ⟨fun out ho => ?_, fun ho => ?_⟩
  · rw [ho]
    exact ⟨rfl, rfl⟩
  · rw [ho]
    exact ⟨one_ne_zero, rfl⟩

/-- C264 is false for `rmsynth3d`: it reports success and writes nothing if a cube is missing or the cubes have different shapes. -/
theorem cube_status_wrong (d : Disk) (stdin : Bool) :
    ((d a.q = none ∨ d a.u = none) → (rmsynth3d rd rf shape run3 a stdin d).exit = 0 ∧ (rmsynth3d rd rf shape run3 a stdin d).disk = d) ∧
    ∀ q u f i noise, Given rd rf a d q u f i noise → (a.i = none ∨ a.noise = none ∨ stdin = true) →
      (shape q ≠ shape u ∨ ∃ c, i = some c ∧ shape c ≠ shape q) →
      (rmsynth3d rd rf shape run3 a stdin d).exit = 0 ∧ (rmsynth3d rd rf shape run3 a stdin d).disk = d := by
  refine ⟨fun h => ?_, fun q u f i noise h hin hne => ?_⟩
  · unfold rmsynth3d
    rw [if_pos h]
    exact ⟨rfl, rfl⟩
  · obtain ⟨⟨s1, h1, h1'⟩, ⟨s2, h2, h2'⟩, ⟨s3, h3, h3'⟩, h4, h5⟩ := h
    have hopen : ¬(d a.q = none ∨ d a.u = none) := by
      rw [h1, h2]
      simp
    have hno : ¬(a.noise ≠ none ∧ a.i ≠ none ∧ stdin = false) := by
      rintro ⟨n1, n2, n3⟩
      rcases hin with e | e | e
      · exact n2 e
      · exact n1 e
      · rw [n3] at e
        cases e
    unfold rmsynth3d
    rw [if_neg hopen, optional_given rd d a.i i h4, optional_given rf d a.noise noise h5]
    dsimp only
    rw [if_neg hno, h1, h2, h3]
    simp only [Option.bind_some, h1', h2', h3']
    by_cases hq : shape q ≠ shape u
    · rw [if_pos hq]
      exact ⟨rfl, rfl⟩
    · rw [if_neg hq, if_pos (hne.resolve_left hq)]
      exact ⟨rfl, rfl⟩

/-- C264: in a batch job, where no enter can be pressed, `rmsynth3d` with both a Stokes I model and a noise file always fails, whatever the files are (and says
so, unless a cube is missing). -/
theorem cube_batch_fails (d : Disk) (hi : a.i ≠ none) (hn : a.noise ≠ none) :
    (rmsynth3d rd rf shape run3 a false d).disk = d ∧ (d a.q ≠ none → d a.u ≠ none → (rmsynth3d rd rf shape run3 a false d).exit ≠ 0) := by
  unfold rmsynth3d
  by_cases h : d a.q = none ∨ d a.u = none
  · rw [if_pos h]
    exact ⟨rfl, fun h1 h2 => absurd h (not_or.mpr ⟨h1, h2⟩)⟩
  · rw [if_neg h]
    cases optional rd d a.i with
    | none => exact ⟨rfl, fun _ _ => one_ne_zero⟩
    | some i =>
      cases optional rf d a.noise with
      | none => exact ⟨rfl, fun _ _ => one_ne_zero⟩
      | some noise =>
        dsimp only
        rw [if_pos ⟨hn, hi, rfl⟩]
        exact ⟨rfl, fun _ _ => one_ne_zero⟩

/-! ## Cases that meet the hypotheses -/

/-- Two rows of five and of four ones. -/
def ragged : List Line := [exampleLine (List.replicate 5 ['1']), exampleLine (List.replicate 4 ['1'])]

theorem ragged_malformed (F : Format) : Malformed F (fileText ragged) := by
  have w1 := word_one
  refine ⟨ragged, ?_, rfl, Or.inr ⟨List.replicate 5 ['1'], by decide, List.replicate 4 ['1'], by decide, by decide⟩⟩
  intro l hl
  rcases List.mem_pair.mp hl with rfl | rfl
  · exact exampleLine_ok _ fun w hw => by rw [List.eq_of_mem_replicate hw]; exact w1
  · exact exampleLine_ok _ fun w hw => by rw [List.eq_of_mem_replicate hw]; exact w1

/-- A disk with a malformed data file beside tables of an earlier run, and an RM-CLEAN that succeeds on them: the script reports success with tables of the
earlier data, while a readable file would have been refused with status one by this computation. -/
theorem script_case (o : Opts) (ho : o.save = true) :
    ∃ (d : Disk) (old out : List Char → List Char) (clean : List (List Char) → Option (List Char → List Char)),
      (script (fun _ => none) clean o "a.dat".toList d).exit = 0 ∧
      OnDisk (script (fun _ => none) clean o "a.dat".toList d).disk (root "a.dat".toList) cleanTables out ∧
      d "a.dat".toList = some (fileText ragged) ∧ OnDisk d (root "a.dat".toList) synthTables old ∧ out "_FDFclean.dat".toList = "x".toList := by
  refine ⟨write (fun q => if q = "a.dat".toList then some (fileText ragged) else none) (tables synthTables (root "a.dat".toList) fun e => e),
    fun e => e, fun _ => "x".toList, fun s => if s = cleanReads then some fun _ => "x".toList else none, ?_⟩
  have hp : write (fun q => if q = "a.dat".toList then some (fileText ragged) else none) (tables synthTables (root "a.dat".toList) fun e => e)
      "a.dat".toList = some (fileText ragged) := by
    rw [write_tables_other _ _ _ _ _ (by decide), if_pos rfl]
  have hold := write_tables synthTables (root "a.dat".toList) (fun e => e) synth_nodup
    (fun q => if q = "a.dat".toList then some (fileText ragged) else none)
  have h := script_wrong (fun _ => none) (fun s => if s = cleanReads then some fun _ => "x".toList else none) o "a.dat".toList _ _ hp ho
    (ragged_malformed _) (fun e => e) (fun _ => "x".toList) hold (by rw [List.map_id', if_pos rfl])
  exact ⟨h.1, h.2, hp, hold, rfl⟩

/-- Two rows of five ones. -/
def good : List Line := [exampleLine (List.replicate 5 ['1']), exampleLine (List.replicate 5 ['1'])]

theorem good_readable (b : Bool) : readFile (if b then f64 else f32) (fileText good) =
    some (.arrays ((List.range 5).map (column [List.replicate 5 (some 1), List.replicate 5 (some 1)]))) := by
  have hF : (if b then f64 else f32) = f32 ∨ (if b then f64 else f32) = f64 := by cases b <;> simp
  have hv := value_one _ hF
  have := readFile_columns_partial (if b then f64 else f32) good (fun l hl => by
      rcases List.mem_pair.mp hl with rfl | rfl <;> exact exampleLine_ok _ fun w hw => by rw [List.eq_of_mem_replicate hw]; exact word_one)
    [List.replicate 5 (some 1), List.replicate 5 (some 1)] 5 (by
      show List.Forall₂ _ [List.replicate 5 ['1'], List.replicate 5 ['1']] _
      refine .cons ?_ (.cons ?_ .nil) <;> exact .cons hv (.cons hv (.cons hv (.cons hv (.cons hv .nil)))))
    (by intro r hr; simp only [List.mem_cons, List.not_mem_nil, or_false, or_self] at hr; rw [hr]; rfl)
    (by norm_num) (by simp)
  rw [this, if_pos (Or.inr rfl)]

/-- A disk with this file only. -/
def goodDisk : Disk := fun q => if q = "a.dat".toList then some (fileText good) else none

theorem goodDisk_file : goodDisk "a.dat".toList = some (fileText good) := if_pos rfl

/-- With these data, and computations that write what they read, the script ends with status zero and the tables. -/
theorem script_good_case (o : Opts) (ho : o.save = true) :
      (script (fun _ => some id) (fun s => some fun e => s.flatten ++ e) o "a.dat".toList goodDisk).exit = 0 ∧
      (script (fun _ => some id) (fun s => some fun e => s.flatten ++ e) o "a.dat".toList goodDisk).disk "a_FDFclean.dat".toList =
        some (cleanReads.flatten ++ "_FDFclean.dat".toList) := by
  have h := script_partial (fun _ => some id) (fun s => some fun e => s.flatten ++ e) o "a.dat".toList _ _ _ goodDisk_file ho
    (good_readable o.bit64)
  have h0 : (script (fun _ => some id) (fun s => some fun e => s.flatten ++ e) o "a.dat".toList goodDisk).exit = 0 := by
    have hs := (synth_status_partial (fun _ => some id) o "a.dat".toList _ _ _ goodDisk_file (good_readable o.bit64)).1 id rfl
    have hc := ((clean_status (fun s => some fun e => s.flatten ++ e) o "a.dat".toList _).2 id
      fun e he => hs.2.1 ho e (reads_tables e he)).1 _ rfl
    unfold script
    dsimp only
    rw [if_pos hs.1]
    exact hc.1
  obtain ⟨tab, out, h1, h2, -, h3⟩ := h.1 h0
  refine ⟨h0, ?_⟩
  have h4 := h3 "_FDFclean.dat".toList (by decide)
  have h5 : tab = id := (Option.some.inj h1).symm
  subst h5
  have h6 : out = fun e => (cleanReads.map id).flatten ++ e := (Option.some.inj h2).symm
  rw [h6, List.map_id] at h4
  exact h4

/-- A disk with two cubes and a file of frequencies. -/
def cubeDisk : Disk := fun q => if q = ['q'] then some ['x'] else if q = ['u'] then some ['x', 'y'] else if q = ['f'] then some [] else none

/-- Cubes that are read as their length: with Q and U of different sizes `rmsynth3d` reports success and writes nothing; with twice the same cube it writes what
the computation returns. -/
theorem cube_case :
    (rmsynth3d (fun s => some s.length) (fun s => some s.length) (fun n => [n]) (fun _ _ _ _ _ => some [(['o'], ['1'])])
      ⟨['q'], ['u'], ['f'], none, none⟩ false cubeDisk).exit = 0 ∧
    (rmsynth3d (fun s => some s.length) (fun s => some s.length) (fun n => [n]) (fun _ _ _ _ _ => some [(['o'], ['1'])])
      ⟨['q'], ['u'], ['f'], none, none⟩ false cubeDisk).disk ['o'] = none ∧
    (rmsynth3d (fun s => some s.length) (fun s => some s.length) (fun n => [n]) (fun _ _ _ _ _ => some [(['o'], ['1'])])
      ⟨['q'], ['q'], ['f'], none, none⟩ false cubeDisk).disk ['o'] = some ['1'] := by
  have h1 := (cube_status_wrong (fun s => some s.length) (fun s => some s.length) (fun n => [n]) (fun _ _ _ _ _ => some [(['o'], ['1'])])
    ⟨['q'], ['u'], ['f'], none, none⟩ cubeDisk false).2 1 2 0 none none
    ⟨⟨['x'], rfl, rfl⟩, ⟨['x', 'y'], rfl, rfl⟩, ⟨[], rfl, rfl⟩, Or.inl ⟨rfl, rfl⟩, Or.inl ⟨rfl, rfl⟩⟩ (Or.inl rfl) (Or.inl (by decide))
  have h2 := (cube_status_partial (fun s => some s.length) (fun s => some s.length) (fun n => [n]) (fun _ _ _ _ _ => some [(['o'], ['1'])])
    ⟨['q'], ['q'], ['f'], none, none⟩ cubeDisk false 1 1 0 none none
    ⟨⟨['x'], rfl, rfl⟩, ⟨['x'], rfl, rfl⟩, ⟨[], rfl, rfl⟩, Or.inl ⟨rfl, rfl⟩, Or.inl ⟨rfl, rfl⟩⟩ rfl (by simp) (Or.inl rfl)).1 _ rfl
  refine ⟨h1.1, ?_, ?_⟩
  · rw [h1.2]
    rfl
  · rw [h2.2]
    rfl

end Verif.Commands
