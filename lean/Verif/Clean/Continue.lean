import Verif.Clean.HogbomProps

/-!
# C279: RM-CLEAN can be continued

A run on the residual of an earlier run, with the same or a lower cutoff, against one run.
-/

open Complex

namespace Verif.Clean

open Verif.NumPy

variable {N N2 m : ℕ} [NeZero N] [NeZero N2]

/-- The components found before are kept aside. -/
def State.onto (a s : State N) : State N :=
  { resid := s.resid, cc := a.cc + s.cc, clean := a.clean + s.clean, iter := a.iter + s.iter }

omit [NeZero N] in
theorem step_onto (P : Params N N2) (a s : State N) (idx : Fin N) : step P (a.onto s) idx = a.onto (step P s idx) := by
  unfold step State.onto
  dsimp only
  congr 1
  · funext i
    simp only [Pi.add_apply]
    split_ifs <;> ring
  · funext i
    simp only [Pi.add_apply]
    ring

theorem loop1_onto (P : Params N N2) (a : State N) (fuel : ℕ) (s : State N) : loop1 P fuel (a.onto s) = a.onto (loop1 P fuel s) := by
  induction fuel generalizing s with
  | zero => rfl
  | succ f ih =>
    unfold loop1
    change (if P.cutoff ≤ npMax (fun i => ‖s.resid i‖) then loop1 P f (step P (a.onto s) (npArgmax fun i => ‖s.resid i‖)) else a.onto s) = _
    split_ifs
    · rw [step_onto, ih]
    · rfl

/-- The same cleaner with another cutoff and limit. -/
def Params.deeper (P : Params N N2) (cutoff : ℝ) (maxIter : ℕ) : Params N N2 := { P with cutoff := cutoff, maxIter := maxIter }

theorem loop1_split (P : Params N N2) (cutoff : ℝ) (M M' : ℕ) (hc : cutoff ≤ P.cutoff) (f n : ℕ) (s : State N) :
    loop1 (P.deeper cutoff M) ((loop1 P f s).iter - s.iter + n) s = loop1 (P.deeper cutoff M') n (loop1 P f s) := by
  have hM : ∀ n s, loop1 (P.deeper cutoff M) n s = loop1 (P.deeper cutoff M') n s := by
    intro n
    induction n with
    | zero => intro s; rfl
    | succ n ih =>
      intro s
      unfold loop1
      rw [ih]
      rfl
  induction f generalizing s with
  | zero =>
    change loop1 (P.deeper cutoff M) (s.iter - s.iter + n) s = loop1 (P.deeper cutoff M') n s
    rw [Nat.sub_self, Nat.zero_add]
    exact hM n s
  | succ f ih =>
    by_cases h : P.cutoff ≤ npMax (fun i => ‖s.resid i‖)
    · have e : loop1 P (f + 1) s = loop1 P f (step P s (npArgmax fun i => ‖s.resid i‖)) := by
        conv_lhs => unfold loop1
        rw [if_pos h]
      rw [e]
      set s' := step P s (npArgmax fun i => ‖s.resid i‖) with hs'
      have hi : s'.iter = s.iter + 1 := rfl
      have hge := (loop1_iter P f s').1
      have hk : (loop1 P f s').iter - s.iter + n = ((loop1 P f s').iter - s'.iter + n) + 1 := by omega
      rw [hk]
      conv_lhs => unfold loop1
      rw [if_pos (show (P.deeper cutoff M).cutoff ≤ _ from le_trans hc h)]
      exact ih s'
    · have e : loop1 P (f + 1) s = s := by
        conv_lhs => unfold loop1
        rw [if_neg h]
      rw [e, Nat.sub_self, Nat.zero_add]
      exact hM n s

/-- One run with the lower cutoff finds what the first run found and then what a run on its residual finds. -/
theorem stage1_continue (P : Params N N2) (cutoff : ℝ) (n : ℕ) (hc : cutoff ≤ P.cutoff) (dirty : Fin N → ℂ) :
    stage1 (P.deeper cutoff ((stage1 P dirty).iter + n)) dirty =
      (stage1 P dirty).onto (stage1 (P.deeper cutoff n) (stage1 P dirty).resid) := by
  have h := loop1_split P cutoff ((stage1 P dirty).iter + n) n hc P.maxIter n (start dirty)
  have h0 : (start dirty).iter = 0 := rfl
  rw [h0, Nat.sub_zero] at h
  change loop1 _ ((stage1 P dirty).iter + n) (start dirty) = _
  change loop1 _ ((stage1 P dirty).iter + n) (start dirty) = loop1 _ n (stage1 P dirty) at h
  rw [h]
  have e : stage1 P dirty = (stage1 P dirty).onto (start (stage1 P dirty).resid) := by
    unfold State.onto start
    simp
  conv_lhs => rw [e]
  rw [loop1_onto]
  rfl

theorem stage2_nan (P : Params N N2) (hw : P.window = none) (dirty : Fin N → ℂ) : stage2 P dirty = stage1 P dirty := by
  unfold stage2
  dsimp only
  cases P.maxIter - (stage1 P dirty).iter with
  | zero => rfl
  | succ k =>
    unfold loop2
    rw [if_neg]
    unfold cond2
    rw [hw]
    exact id

/-- A pixel without NaN of a run without the second stage, cleaned or not. -/
theorem hogbom_stage1 (X : Cube N N2 m) (hw : X.window = none) (r : CubeOut N m) (h : hogbom X = some r) (p : Fin m) (d : Fin N → ℂ)
    (hd : ∀ i, X.dirty i p = some (d i)) :
    (∀ i, r.clean i p = some ((stage1 (X.params p) d).clean i + (stage1 (X.params p) d).resid i)) ∧
      (∀ i, r.cc i p = (stage1 (X.params p) d).cc i) ∧ (∀ i, r.resid i p = some ((stage1 (X.params p) d).resid i)) ∧
      r.iterCount p = (stage1 (X.params p) d).iter := by
  have hg : (fun i => (X.dirty i p).getD 0) = d := by funext i; rw [hd i]; rfl
  by_cases hs : X.selected p
  · obtain ⟨o, ho, h1, h2, h3, h4⟩ := (hogbom_pixel X r h p).1 hs
    unfold Cube.runPixel at ho
    rw [if_neg (by rintro ⟨i, hi⟩; rw [hd i] at hi; cases hi), hg, Option.map_eq_some_iff] at ho
    obtain ⟨s, hs', rfl⟩ := ho
    unfold cleanLoop at hs'
    split_ifs at hs'
    obtain rfl := Option.some.inj hs'
    rw [stage2_nan (X.params p) hw] at h1 h2 h3 h4
    exact ⟨fun i => h1 i, h2, h3, h4⟩
  · obtain ⟨h1, h2, h3, h4⟩ := (hogbom_pixel X r h p).2 hs
    have e : stage1 (X.params p) d = start d := by
      unfold stage1
      cases (X.params p).maxIter with
      | zero => rfl
      | succ k =>
        unfold loop1
        rw [if_neg]
        intro hle
        apply hs
        unfold Cube.selected
        simp only [hd]
        exact hle
    rw [e]
    refine ⟨fun i => ?_, h2, fun i => by rw [h3, hd]; rfl, h4⟩
    rw [h1, hd]
    unfold start
    simp

/-- The arguments of a further run: the residual of the first one, another cutoff and limit. -/
def Cube.again (X : Cube N N2 m) (resid : Fin N → Fin m → Option ℂ) (cutoff : ℝ) (maxIter : ℕ) : Cube N N2 m :=
  { X with dirty := resid, cutoff := cutoff, maxIter := maxIter }

/-- C279. Without the second stage: `r` is a run, `s` a run on its residual with the same or a lower cutoff and at most `n` iterations, `t` one run on the data with the
lower cutoff and, for the pixel in question, the number of iterations used by `r` plus `n`. Then residuals agree, components and iteration counts add up, and so do the
restored spectra when the residual of the first run is not counted twice. -/
theorem clean_continue_partial (X : Cube N N2 m) (hw : X.window = none) (cutoff : ℝ) (hc : cutoff ≤ X.cutoff) (n : ℕ) (r s t : CubeOut N m) (p : Fin m)
    (hr : hogbom X = some r) (hs : hogbom (X.again r.resid cutoff n) = some s) (ht : hogbom (X.again X.dirty cutoff (r.iterCount p + n)) = some t) :
    (∀ i, t.resid i p = s.resid i p) ∧ (∀ i, t.cc i p = r.cc i p + s.cc i p) ∧ t.iterCount p = r.iterCount p + s.iterCount p ∧
      ∀ i, addNaN (t.clean i p) (r.resid i p) = addNaN (r.clean i p) (s.clean i p) := by
  by_cases hn : ∃ i, X.dirty i p = none
  · obtain ⟨r1, r2, r3, r4⟩ := nan_pixel_untouched X r hr p hn
    obtain ⟨s1, s2, s3, s4⟩ := nan_pixel_untouched _ s hs p (by obtain ⟨i, hi⟩ := hn; exact ⟨i, (r3 i).trans hi⟩)
    obtain ⟨t1, t2, t3, t4⟩ := nan_pixel_untouched _ t ht p hn
    have e : ∀ i, (X.again r.resid cutoff n).dirty i p = X.dirty i p := r3
    have e' : ∀ i, (X.again X.dirty cutoff (r.iterCount p + n)).dirty i p = X.dirty i p := fun _ => rfl
    refine ⟨fun i => by rw [t3, s3, e, e'], fun i => by rw [t2, r2, s2, add_zero], by rw [t4, r4, s4], fun i => ?_⟩
    rw [t1, r3, r1, s1, e, e']
  · push Not at hn
    have hd : ∀ i, X.dirty i p = some ((X.dirty i p).getD 0) := by
      intro i
      cases h : X.dirty i p with
      | none => exact absurd h (hn i)
      | some z => rfl
    set d : Fin N → ℂ := fun i => (X.dirty i p).getD 0
    obtain ⟨r1, r2, r3, r4⟩ := hogbom_stage1 X hw r hr p d hd
    obtain ⟨s1, s2, s3, s4⟩ := hogbom_stage1 (X.again r.resid cutoff n) hw s hs p (stage1 (X.params p) d).resid r3
    obtain ⟨t1, t2, t3, t4⟩ := hogbom_stage1 (X.again X.dirty cutoff (r.iterCount p + n)) hw t ht p d hd
    have key : stage1 ((X.again X.dirty cutoff (r.iterCount p + n)).params p) d =
        (stage1 (X.params p) d).onto (stage1 ((X.again r.resid cutoff n).params p) (stage1 (X.params p) d).resid) := by
      rw [r4]
      exact stage1_continue (X.params p) cutoff n hc d
    rw [key] at t1 t2 t3 t4
    refine ⟨fun i => by rw [t3, s3]; rfl, fun i => by rw [t2, r2, s2]; rfl, by rw [t4, r4, s4]; rfl, fun i => ?_⟩
    rw [t1, r1, s1, r3]
    unfold addNaN State.onto
    simp only [Option.bind_some, Option.map_some, Option.some.injEq, Pi.add_apply]
    ring

/-- With axes that CLEAN accepts no pixel raises. -/
theorem hogbom_runs (X : Cube N N2 m) (hN : 2 ≤ N) (hpad : PadOk N N2) : ∃ r, hogbom X = some r := by
  have hpix : ∀ p, ∃ o, X.runPixel p = some o := by
    intro p
    unfold Cube.runPixel
    split_ifs
    · omega
    · exact ⟨_, rfl⟩
    · unfold cleanLoop
      rw [if_neg (by omega), if_neg (fun h => h.2 hpad)]
      exact ⟨_, rfl⟩
  have hall : ∀ l : List (Fin m), ∃ os, l.mapM X.runPixel = some os := by
    intro l
    induction l with
    | nil => exact ⟨[], rfl⟩
    | cons a t ih =>
      obtain ⟨os, h⟩ := ih
      obtain ⟨o, ho⟩ := hpix a
      rw [List.mapM_cons, ho, h]
      exact ⟨_, rfl⟩
  obtain ⟨os, hos⟩ := hall X.tasks
  have hm := runTasks_fst X X.tasks (fun _ => 0)
  rw [hos] at hm
  unfold hogbom
  cases h : X.runTasks X.tasks (fun _ => 0) with
  | none => rw [h] at hm; simp at hm
  | some q => exact ⟨_, rfl⟩

/-- The three runs exist for all data on axes that CLEAN accepts. -/
theorem continue_runs (X : Cube N N2 m) (hN : 2 ≤ N) (hpad : PadOk N N2) (cutoff : ℝ) (n : ℕ) (p : Fin m) :
    ∃ r s t, hogbom X = some r ∧ hogbom (X.again r.resid cutoff n) = some s ∧ hogbom (X.again X.dirty cutoff (r.iterCount p + n)) = some t := by
  obtain ⟨r, hr⟩ := hogbom_runs X hN hpad
  obtain ⟨s, hs⟩ := hogbom_runs (X.again r.resid cutoff n) hN hpad
  obtain ⟨t, ht⟩ := hogbom_runs (X.again X.dirty cutoff (r.iterCount p + n)) hN hpad
  exact ⟨r, s, t, hr, hs, ht⟩

/-- One pixel, a source of amplitude 2, a delta RMSF, gain 1/2, cutoff 3/2, at most `k` iterations, with a second stage down to 1/2. -/
noncomputable def windowCube (k : ℕ) : Cube 3 7 1 where
  dirty := fun i _ => some (if i = 1 then 2 else 0)
  phi := fun i : Fin 3 => (i : ℝ) - 1
  rmsf := fun l _ => if l = 3 then 1 else 0
  fwhm := fun _ => 1
  maxIter := k
  gain := 1 / 2
  cutoff := 3 / 2
  window := some (1 / 2)
  mskArr := none

/-- The data of the pixel and the state after the first component. -/
noncomputable def windowData : Fin 3 → ℂ := fun i => if i = 1 then 2 else 0

noncomputable def windowState : State 3 := step ((windowCube 1).params 0) (start windowData) 1

theorem window_resid (i : Fin 3) : windowState.resid i = if i = 1 then 1 else 0 := by
  set P := (windowCube 1).params 0 with hP
  have hmax : indMax P = 3 := by
    refine indMax_eq P 3 fun l hl => ?_
    have e1 : P.rmsf l = 0 := if_neg hl
    have e2 : P.rmsf 3 = 1 := by
      change (if (3 : Fin 7) = 3 then (1 : ℂ) else 0) = 1
      exact if_pos rfl
    rw [e1, e2]
    simp
  have h3 : ((indMax P : Fin 7) : ℕ) = 3 := by rw [hmax]; rfl
  obtain ⟨h, e⟩ := shifted_nowrap P (by rw [h3]; norm_num) (by rw [h3]; norm_num) 1 i
  have hr : P.rmsf ⟨i + indMax P - (1 : Fin 3), h⟩ = if i = 1 then 1 else 0 := by
    change (if (⟨i + indMax P - (1 : Fin 3), h⟩ : Fin 7) = 3 then (1 : ℂ) else 0) = _
    have : ((⟨i + indMax P - (1 : Fin 3), h⟩ : Fin 7) = 3) ↔ i = 1 := by
      rw [Fin.ext_iff, Fin.ext_iff]
      simp only [h3]
      have : ((3 : Fin 7) : ℕ) = 3 := rfl
      have : ((1 : Fin 3) : ℕ) = 1 := rfl
      omega
    simp only [this]
  change windowData i - (((1 / 2 : ℝ)) : ℂ) * windowData 1 * shifted P 1 i = _
  rw [e, hr]
  unfold windowData
  by_cases hi : i = 1
  · rw [if_pos hi, if_pos hi, if_pos rfl]
    norm_num
  · rw [if_neg hi, if_neg hi]
    simp

theorem window_first (k f : ℕ) : loop1 ((windowCube k).params 0) (f + 1) (start windowData) = windowState := by
  have harg : npArgmax (fun i => ‖windowData i‖) = 1 := by
    rw [npArgmax_eq_iff]
    constructor
    · intro j; fin_cases j <;> simp [windowData]
    · intro j hj; fin_cases j <;> simp_all [windowData]
  have hcond : (3 / 2 : ℝ) ≤ npMax (fun i => ‖windowData i‖) := by
    refine le_trans ?_ (le_npMax (fun i => ‖windowData i‖) 1)
    norm_num [windowData]
  unfold loop1
  rw [if_pos (show ((windowCube k).params 0).cutoff ≤ npMax (fun i => ‖(start windowData).resid i‖) from hcond)]
  have e : (npArgmax fun i => ‖(start windowData).resid i‖) = 1 := harg
  rw [e]
  change loop1 _ f windowState = windowState
  cases f with
  | zero => rfl
  | succ f =>
    unfold loop1
    rw [if_neg]
    rw [not_le]
    change npMax (fun i => ‖windowState.resid i‖) < 3 / 2
    unfold npMax
    simp only [window_resid]
    split_ifs <;> norm_num

/-- A case of `clean_continue_partial` in which both runs clean: one component at the cutoff 3/2, one more at the cutoff 1/4, two in one run. -/
theorem continue_case : ∃ r s t, hogbom { windowCube 1 with window := none } = some r ∧
    hogbom (Cube.again { windowCube 1 with window := none } r.resid (1 / 4) 1) = some s ∧
    hogbom (Cube.again { windowCube 1 with window := none } (windowCube 1).dirty (1 / 4) (r.iterCount 0 + 1)) = some t ∧
    r.iterCount 0 = 1 ∧ s.iterCount 0 = 1 ∧ t.iterCount 0 = 2 := by
  set X : Cube 3 7 1 := { windowCube 1 with window := none } with hX
  obtain ⟨r, s, t, hr, hs, ht⟩ := continue_runs X (by norm_num) (by decide) (1 / 4) 1 0
  have hd : ∀ i, X.dirty i 0 = some (windowData i) := fun i => rfl
  obtain ⟨-, -, r3, r4⟩ := hogbom_stage1 X rfl r hr 0 windowData hd
  have e : stage1 (X.params 0) windowData = windowState := window_first 1 0
  rw [e] at r3 r4
  have r4 : r.iterCount 0 = 1 := r4
  obtain ⟨-, -, -, s4⟩ := hogbom_stage1 (X.again r.resid (1 / 4) 1) rfl s hs 0 windowState.resid r3
  have s4 : s.iterCount 0 = 1 := by
    rw [s4]
    change (loop1 _ 1 (start windowState.resid)).iter = 1
    unfold loop1
    rw [if_pos]
    · rfl
    · change (1 / 4 : ℝ) ≤ npMax (fun i => ‖windowState.resid i‖)
      refine le_trans ?_ (le_npMax (fun i => ‖windowState.resid i‖) 1)
      rw [window_resid]
      norm_num
  refine ⟨r, s, t, hr, hs, ht, r4, s4, ?_⟩
  rw [(clean_continue_partial X rfl (1 / 4) (show (1 / 4 : ℝ) ≤ 3 / 2 by norm_num) 1 r s t 0 hr hs ht).2.2.1, r4, s4]

/-- C279 is refuted for the windowed CLEAN: a run that was stopped by its limit in or before the second stage is not continued by a run on its residual, because the
peak is below the cutoff of the first stage; one run with the two limits together goes on. -/
theorem window_not_continued : ∃ r s t, hogbom (windowCube 1) = some r ∧ hogbom ((windowCube 1).again r.resid (3 / 2) 1) = some s ∧
    hogbom ((windowCube 1).again (windowCube 1).dirty (3 / 2) (r.iterCount 0 + 1)) = some t ∧ r.iterCount 0 = 1 ∧ s.iterCount 0 = 0 ∧ t.iterCount 0 = 2 := by
  have hpix : ∀ k r, 0 < k → hogbom (windowCube k) = some r → (∀ i, r.resid i 0 = some ((stage2 ((windowCube k).params 0) windowData).resid i)) ∧
      r.iterCount 0 = (stage2 ((windowCube k).params 0) windowData).iter := by
    intro k r hk hr
    have hsel : (windowCube k).selected 0 := by
      unfold Cube.selected
      refine le_trans ?_ (le_npMax _ 1)
      norm_num [windowCube]
    obtain ⟨o, ho, -, -, h3, h4⟩ := (hogbom_pixel (windowCube k) r hr 0).1 hsel
    unfold Cube.runPixel at ho
    rw [if_neg (by rintro ⟨i, hi⟩; simp [windowCube] at hi), Option.map_eq_some_iff] at ho
    obtain ⟨s, hs', rfl⟩ := ho
    unfold cleanLoop at hs'
    rw [if_neg (by norm_num), if_neg (fun h => h.2 (by decide))] at hs'
    obtain rfl := Option.some.inj hs'
    exact ⟨h3, h4⟩
  have hst : ∀ k, 0 < k → stage1 ((windowCube k).params 0) windowData = windowState := by
    intro k hk
    obtain ⟨f, rfl⟩ : ∃ f, k = f + 1 := ⟨k - 1, by omega⟩
    exact window_first (f + 1) f
  have h1 : stage2 ((windowCube 1).params 0) windowData = windowState := by
    unfold stage2
    dsimp only
    rw [hst 1 one_pos]
    rfl
  have h2 : (stage2 ((windowCube 2).params 0) windowData).iter = 2 := by
    unfold stage2
    dsimp only
    rw [hst 2 two_pos]
    change (loop2 _ _ (0 + 1) windowState).iter = 2
    unfold loop2
    rw [if_pos]
    · rfl
    · rw [cond2_iff]
      refine ⟨1 / 2, rfl, 1, Or.inl ?_, ?_⟩
      · change (if (1 : Fin 3) = 1 then (0 : ℂ) + (((1 / 2 : ℝ)) : ℂ) * windowData 1 else 0) ≠ 0
        norm_num [windowData]
      · rw [window_resid]
        norm_num
  obtain ⟨r, hr⟩ := hogbom_runs (windowCube 1) (by norm_num) (by decide)
  obtain ⟨r3, r4⟩ := hpix 1 r one_pos hr
  rw [h1] at r3 r4
  have r4 : r.iterCount 0 = 1 := r4
  obtain ⟨s, hs⟩ := hogbom_runs ((windowCube 1).again r.resid (3 / 2) 1) (by norm_num) (by decide)
  obtain ⟨t, ht⟩ := hogbom_runs ((windowCube 1).again (windowCube 1).dirty (3 / 2) (r.iterCount 0 + 1)) (by norm_num) (by decide)
  refine ⟨r, s, t, hr, hs, ht, r4, ?_, ?_⟩
  · refine (below_cutoff_untouched _ s hs 0 fun i => ?_).2.2.2
    change ‖(r.resid i 0).getD 0‖ < 3 / 2
    rw [r3, window_resid]
    split_ifs <;> norm_num
  · rw [r4] at ht
    obtain ⟨-, t4⟩ := hpix 2 t two_pos ht
    rw [t4, h2]

end Verif.Clean
