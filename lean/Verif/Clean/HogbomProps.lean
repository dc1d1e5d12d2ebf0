import Verif.Clean.Hogbom
import Verif.Clean.Props

/-! # Properties of RM-CLEAN on cubes (C24, C29 - C32, C34) -/

open Complex

set_option linter.unusedSectionVars false

namespace Verif.Clean

open Verif.NumPy

variable {N N2 m : ℕ} [NeZero N] [NeZero N2]

/-! ### Helper lemmas -/

/-- The object is never read: the outputs of a task list do not depend on it. -/
theorem runTasks_fst (X : Cube N N2 m) (l : List (Fin m)) (obj : Counts m) :
    (X.runTasks l obj).map Prod.fst = l.mapM X.runPixel := by
  induction l generalizing obj with
  | nil => rfl
  | cons p ps ih =>
    simp only [Cube.runTasks, Cube.runTask, List.mapM_cons]
    cases h : X.runPixel p with
    | none => rfl
    | some o =>
      simp only [Option.map_some, Option.bind_eq_bind, Option.bind_some]
      rw [← ih (if o.iter = 0 then obj else Function.update obj p o.iter)]
      cases X.runTasks ps (if o.iter = 0 then obj else Function.update obj p o.iter) <;> rfl

/-- Counts after a list of distinct tasks. -/
theorem runTasks_snd (X : Cube N N2 m) (l : List (Fin m)) (obj : Counts m) (os : List (PixelOut N))
    (obj' : Counts m) (h : X.runTasks l obj = some (os, obj')) (hn : l.Nodup) :
    (∀ p, p ∉ l → obj' p = obj p) ∧
    (∀ p ∈ l, ∀ o, X.runPixel p = some o → obj' p = if o.iter = 0 then obj p else o.iter) := by
  induction l generalizing obj os with
  | nil =>
    simp [Cube.runTasks] at h
    obtain ⟨-, rfl⟩ := h
    simp
  | cons q ps ih =>
    simp only [Cube.runTasks, Cube.runTask] at h
    cases hq : X.runPixel q with
    | none => rw [hq] at h; simp at h
    | some o =>
      rw [hq] at h
      simp only [Option.map_some, Option.bind_eq_bind, Option.bind_some] at h
      set obj1 := if o.iter = 0 then obj else Function.update obj q o.iter with h1
      cases hr : X.runTasks ps obj1 with
      | none => rw [hr] at h; simp at h
      | some r =>
        obtain ⟨os2, obj2⟩ := r
        rw [hr] at h
        simp at h
        obtain ⟨-, rfl⟩ := h
        have hnd := List.nodup_cons.mp hn
        obtain ⟨ha, hb⟩ := ih obj1 os2 hr hnd.2
        constructor
        · intro p hp
          rw [List.mem_cons, not_or] at hp
          rw [ha p hp.2, h1]
          split_ifs
          · rfl
          · rw [Function.update_of_ne hp.1]
        · intro p hp o' ho'
          rcases List.mem_cons.mp hp with rfl | hp'
          · rw [hq] at ho'
            injection ho' with ho'
            subst ho'
            rw [ha p hnd.1, h1]
            split_ifs <;> simp
          · rw [hb p hp' o' ho', h1]
            have hne : p ≠ q := fun e => hnd.1 (e ▸ hp')
            split_ifs
            · rfl
            · rw [Function.update_of_ne hne]
            · rfl

theorem mapM_flatten (X : Cube N N2 m) (chunks : List (List (Fin m))) :
    (chunks.mapM fun c : List (Fin m) => c.mapM X.runPixel).map List.flatten =
      chunks.flatten.mapM X.runPixel := by
  induction chunks with
  | nil => rfl
  | cons c cs ih =>
    rw [List.flatten_cons, List.mapM_append, ← ih, List.mapM_cons]
    cases c.mapM X.runPixel with
    | none => rfl
    | some a =>
      cases cs.mapM fun c => c.mapM X.runPixel <;> rfl

theorem foldl_store {α : Type*} (f : ℕ → Option α) (order : List ℕ) (st : ℕ → Option α) (c : ℕ) :
    (order.foldl (fun st c => Function.update st c (f c)) st) c =
      if c ∈ order then f c else st c := by
  induction order generalizing st with
  | nil => simp
  | cons a t ih =>
    rw [List.foldl_cons, ih]
    by_cases hct : c ∈ t
    · simp [hct]
    · by_cases hca : c = a
      · subst hca; simp [hct]
      · simp [hct, hca]

theorem tasks_nodup (X : Cube N N2 m) : X.tasks.Nodup := by
  classical
  unfold Cube.tasks
  rw [List.nodup_reverse]
  exact (List.nodup_finRange m).filter _

theorem mem_tasks (X : Cube N N2 m) (p : Fin m) : p ∈ X.tasks ↔ X.selected p := by
  classical
  unfold Cube.tasks
  simp

/-- Every pixel of the stored arrays: its own output if it was a task, otherwise untouched. -/
theorem putBack_eq (X : Cube N N2 m) (l : List (Fin m)) (os : List (PixelOut N))
    (h : l.mapM X.runPixel = some os) (hn : l.Nodup) (init : Fin m → PixelOut N) (p : Fin m) :
    (p ∈ l → X.runPixel p = some (putBack l os init p)) ∧
    (p ∉ l → putBack l os init p = init p) := by
  induction l generalizing os init with
  | nil => simp [putBack]
  | cons q ps ih =>
    rw [List.mapM_cons] at h
    cases hq : X.runPixel q with
    | none => rw [hq] at h; simp at h
    | some o =>
      rw [hq] at h
      cases hr : ps.mapM X.runPixel with
      | none => rw [hr] at h; simp at h
      | some os2 =>
        rw [hr] at h
        simp at h
        subst h
        have hnd := List.nodup_cons.mp hn
        have e : putBack (q :: ps) (o :: os2) init = putBack ps os2 (Function.update init q o) := rfl
        rw [e]
        obtain ⟨h1, h2⟩ := ih os2 hr hnd.2 (Function.update init q o)
        constructor
        · intro hp
          rcases List.mem_cons.mp hp with rfl | hp
          · rw [h2 hnd.1, hq]; simp
          · exact h1 hp
        · intro hp
          rw [List.mem_cons, not_or] at hp
          rw [h2 hp.2, Function.update_of_ne hp.1]

/-- Everything about the serial run: pixels are independent of each other. -/
theorem hogbom_pixel (X : Cube N N2 m) (r : CubeOut N m) (h : hogbom X = some r) (p : Fin m) :
    (X.selected p → ∃ o, X.runPixel p = some o ∧
      (∀ i, r.clean i p = addNaN (o.clean i) (o.resid i)) ∧ (∀ i, r.cc i p = o.cc i) ∧
      (∀ i, r.resid i p = o.resid i) ∧ r.iterCount p = o.iter) ∧
    (¬ X.selected p → (∀ i, r.clean i p = X.dirty i p) ∧ (∀ i, r.cc i p = 0) ∧
      (∀ i, r.resid i p = X.dirty i p) ∧ r.iterCount p = 0) := by
  unfold hogbom at h
  cases hr : X.runTasks X.tasks (fun _ => 0) with
  | none => rw [hr] at h; simp at h
  | some q =>
    obtain ⟨os, cnt⟩ := q
    rw [hr] at h
    simp only [Option.map_some, Option.some.injEq] at h
    subst h
    have hm : X.tasks.mapM X.runPixel = some os := by
      rw [← runTasks_fst X X.tasks (fun _ => 0), hr]; rfl
    obtain ⟨c1, c2⟩ := runTasks_snd X _ _ os cnt hr (tasks_nodup X)
    obtain ⟨p1, p2⟩ := putBack_eq X _ os hm (tasks_nodup X) X.untouched p
    rw [mem_tasks] at p1 p2
    constructor
    · intro hs
      refine ⟨_, p1 hs, fun i => rfl, fun i => rfl, fun i => rfl, ?_⟩
      have := c2 p ((mem_tasks X p).mpr hs) _ (p1 hs)
      change cnt p = _
      rw [this]
      split_ifs with h0
      · exact h0.symm
      · rfl
    · intro hs
      have e := p2 hs
      refine ⟨?_, ?_, ?_, ?_⟩
      · intro i
        simp only [Cube.finish, e, Cube.untouched]
        cases X.dirty i p <;> simp [addNaN]
      · intro i; simp only [Cube.finish, e, Cube.untouched]
      · intro i; simp only [Cube.finish, e, Cube.untouched]
      · change cnt p = 0
        rw [c1 p (fun hh => hs ((mem_tasks X p).mp hh))]

/-! ### C29 -/

/-- C29. A pixel whose peak modulus is below the cutoff has no components, no iterations, and its
residual and clean spectrum are the dirty spectrum (NaN samples included). -/
theorem below_cutoff_untouched (X : Cube N N2 m) (r : CubeOut N m) (h : hogbom X = some r)
    (p : Fin m) (hp : ∀ i, ‖(X.dirty i p).getD 0‖ < X.cutoff) :
    (∀ i, r.clean i p = X.dirty i p) ∧ (∀ i, r.cc i p = 0) ∧
      (∀ i, r.resid i p = X.dirty i p) ∧ r.iterCount p = 0 := by
  apply (hogbom_pixel X r h p).2
  unfold Cube.selected
  rw [not_le]
  exact hp _

/-- A pixel with a NaN sample is never changed either, whatever the cutoff. -/
theorem nan_pixel_untouched (X : Cube N N2 m) (r : CubeOut N m) (h : hogbom X = some r)
    (p : Fin m) (hp : ∃ i, X.dirty i p = none) :
    (∀ i, r.clean i p = X.dirty i p) ∧ (∀ i, r.cc i p = 0) ∧
      (∀ i, r.resid i p = X.dirty i p) ∧ r.iterCount p = 0 := by
  by_cases hs : X.selected p
  · obtain ⟨o, ho, h1, h2, h3, h4⟩ := (hogbom_pixel X r h p).1 hs
    unfold Cube.runPixel at ho
    rw [if_pos hp] at ho
    split_ifs at ho
    simp only [Option.some.injEq] at ho
    subst ho
    refine ⟨?_, h2, h3, h4⟩
    intro i
    rw [h1]
    simp only
    cases X.dirty i p <;> simp [addNaN]
  · exact (hogbom_pixel X r h p).2 hs

/-! ### C24 for cubes -/

/-- C24. In the returned cubes, for every pixel without NaN (cleaned or not), the clean spectrum is
the residual plus each component times the unit-peak Gaussian centred on it. -/
theorem restored_cube (X : Cube N N2 m) (r : CubeOut N m) (h : hogbom X = some r) (p : Fin m)
    (hp : ∀ i, X.dirty i p ≠ none) (i : Fin N) :
    ∃ a b, r.clean i p = some a ∧ r.resid i p = some b ∧
      a = b + ∑ k, r.cc k p * (beam (X.fwhm p) (X.phi i - X.phi k) : ℂ) := by
  by_cases hs : X.selected p
  · obtain ⟨o, ho, h1, h2, h3, -⟩ := (hogbom_pixel X r h p).1 hs
    unfold Cube.runPixel at ho
    rw [if_neg (by push Not; exact hp)] at ho
    unfold cleanLoop at ho
    split_ifs at ho
    · simp at ho
    · simp at ho
    · simp only [Option.map_some, Option.some.injEq] at ho
      subst ho
      refine ⟨(stage2 (X.params p) fun i => (X.dirty i p).getD 0).clean i +
        (stage2 (X.params p) fun i => (X.dirty i p).getD 0).resid i, _,
        by rw [h1]; simp [addNaN], h3 i, ?_⟩
      rw [clean_restores, add_comm]
      congr 1
      apply Finset.sum_congr rfl
      intro k _
      rw [h2]
      rfl
  · obtain ⟨h1, h2, h3, -⟩ := (hogbom_pixel X r h p).2 hs
    obtain ⟨z, hz⟩ := Option.ne_none_iff_exists'.mp (hp i)
    refine ⟨z, z, by rw [h1, hz], by rw [h3, hz], ?_⟩
    simp [h2]

/-! ### C30, C31 -/

/-- What the pool returns, for any chunking and any order of completion. -/
theorem runPool_eq (X : Cube N N2 m) (chunks : List (List (Fin m))) (order : List ℕ)
    (obj : Counts m) (hall : ∀ c < chunks.length, c ∈ order) :
    X.runPool chunks order obj = (chunks.flatten.mapM X.runPixel).map fun os => (os, obj) := by
  unfold Cube.runPool
  dsimp only
  have hstore : ∀ c < chunks.length,
      (order.foldl (fun st c => Function.update st c
        ((X.runTasks (chunks.getD c []) obj).map Prod.fst)) (fun _ => none)) c =
      (chunks.getD c []).mapM X.runPixel := by
    intro c hc
    rw [foldl_store (fun c => (X.runTasks (chunks.getD c []) obj).map Prod.fst), if_pos (hall c hc)]
    exact runTasks_fst X _ _
  have hmap : (List.range chunks.length).mapM (order.foldl (fun st c => Function.update st c
        ((X.runTasks (chunks.getD c []) obj).map Prod.fst)) (fun _ => none)) =
      chunks.mapM fun c => c.mapM X.runPixel := by
    have h1 : (List.range chunks.length).mapM (order.foldl (fun st c => Function.update st c
        ((X.runTasks (chunks.getD c []) obj).map Prod.fst)) (fun _ => none)) =
        (List.range chunks.length).mapM (fun c => (chunks.getD c []).mapM X.runPixel) := by
      have : ∀ l : List ℕ, (∀ c ∈ l, c < chunks.length) →
          l.mapM (order.foldl (fun st c => Function.update st c
            ((X.runTasks (chunks.getD c []) obj).map Prod.fst)) (fun _ => none)) =
          l.mapM (fun c => (chunks.getD c []).mapM X.runPixel) := by
        intro l
        induction l with
        | nil => intro _; rfl
        | cons a t ih =>
          intro hl
          rw [List.mapM_cons, List.mapM_cons, hstore a (hl a List.mem_cons_self),
            ih (fun c hc => hl c (List.mem_cons_of_mem _ hc))]
      exact this _ (fun c hc => List.mem_range.mp hc)
    rw [h1]
    have h2 : ∀ (l : List ℕ), l.mapM (fun c => (chunks.getD c []).mapM X.runPixel) =
        (l.map (fun c => chunks.getD c [])).mapM (fun c => c.mapM X.runPixel) := by
      intro l
      induction l with
      | nil => rfl
      | cons a t ih => rw [List.map_cons, List.mapM_cons, List.mapM_cons, ih]
    rw [h2]
    congr 1
    apply List.ext_getElem
    · simp
    · intro i h1 h2
      simp at h1 h2 ⊢
      rw [List.getElem?_eq_getElem h2]
      rfl
  rw [hmap, ← mapM_flatten]
  cases chunks.mapM fun c => c.mapM X.runPixel <;> rfl

/-- C30. With a worker pool, for every way of cutting the task list into chunks and every order in
which chunks complete, the call succeeds exactly when the serial call does, and the clean spectra,
components and residuals are identical. -/
theorem pool_eq_serial (X : Cube N N2 m) (chunks : List (List (Fin m))) (order : List ℕ)
    (hch : chunks.flatten = X.tasks) (hall : ∀ c < chunks.length, c ∈ order) :
    (hogbomPool X chunks order = none ↔ hogbom X = none) ∧
    ∀ r s, hogbomPool X chunks order = some r → hogbom X = some s →
      r.clean = s.clean ∧ r.cc = s.cc ∧ r.resid = s.resid := by
  unfold hogbomPool hogbom
  rw [runPool_eq X chunks order _ hall, hch, ← runTasks_fst X X.tasks (fun _ => 0)]
  cases X.runTasks X.tasks (fun _ => 0) with
  | none => simp
  | some q =>
    refine ⟨by simp, ?_⟩
    intro r s hr hs
    simp only [Option.map_some, Option.some.injEq] at hr hs
    subst hr hs
    exact ⟨rfl, rfl, rfl⟩

/-- C31 is false for the code: with a process pool every iteration count is zero, because the
counters of the workers are copies. -/
theorem pool_counts_zero (X : Cube N N2 m) (chunks : List (List (Fin m))) (order : List ℕ)
    (hall : ∀ c < chunks.length, c ∈ order) (r : CubeOut N m)
    (hr : hogbomPool X chunks order = some r) (p : Fin m) : r.iterCount p = 0 := by
  unfold hogbomPool at hr
  rw [runPool_eq X chunks order _ hall] at hr
  cases h : chunks.flatten.mapM X.runPixel with
  | none => rw [h] at hr; simp at hr
  | some os =>
    rw [h] at hr
    simp only [Option.map_some, Option.some.injEq] at hr
    subst hr
    rfl

/-- C31. The counts of the two modes agree exactly when no pixel was iterated on at all. -/
theorem pool_counts_partial (X : Cube N N2 m) (chunks : List (List (Fin m))) (order : List ℕ)
    (hall : ∀ c < chunks.length, c ∈ order) (r s : CubeOut N m)
    (hr : hogbomPool X chunks order = some r) (_hs : hogbom X = some s) :
    r.iterCount = s.iterCount ↔ ∀ p, s.iterCount p = 0 := by
  constructor
  · intro h p
    rw [← h]; exact pool_counts_zero X chunks order hall r hr p
  · intro h
    funext p
    rw [pool_counts_zero X chunks order hall r hr p, h p]

/-! ### C32 -/

/-- C32 is false for the code: the mask has no influence on any output. -/
theorem mask_ignored (X : Cube N N2 m) (msk : Option (Fin m → Bool)) :
    hogbom { X with mskArr := msk } = hogbom X := by
  have h : ∀ (l : List (Fin m)) (obj : Counts m),
      ({ X with mskArr := msk } : Cube N N2 m).runTasks l obj = X.runTasks l obj := by
    intro l
    induction l with
    | nil => intro obj; rfl
    | cons p ps ih =>
      intro obj
      simp only [Cube.runTasks, ih]
      rfl
  unfold hogbom
  rw [h]
  rfl

/-- One pixel, three samples, a delta RMSF, cutoff 1, one iteration, mask "do not clean". -/
noncomputable def maskedCube : Cube 3 7 1 where
  dirty := fun i _ => some (if i = 1 then 2 else 0)
  phi := fun i : Fin 3 => (i : ℝ) - 1
  rmsf := fun l _ => if l = 3 then 1 else 0
  fwhm := fun _ => 1
  maxIter := 1
  gain := 1
  cutoff := 1
  window := none
  mskArr := some fun _ => false

/-- C32, witness: a pixel with mask zero is cleaned (its component is 2). The same cube witnesses
that iteration counts differ between the pool and the serial run (C31): it has one iteration. -/
theorem masked_pixel_cleaned : ∃ r, hogbom maskedCube = some r ∧ r.cc 1 0 = 2 ∧ r.iterCount 0 = 1 := by
  have hcond : maskedCube.cutoff ≤
      npMax (fun i => ‖((maskedCube.dirty i 0).getD 0)‖) := by
    refine le_trans ?_ (le_npMax (fun i => ‖((maskedCube.dirty i 0).getD 0)‖) 1)
    simp [maskedCube]
  have harg : npArgmax (fun i => ‖((maskedCube.dirty i 0).getD 0)‖) = 1 := by
    rw [npArgmax_eq_iff]
    constructor
    · intro j; fin_cases j <;> simp [maskedCube]
    · intro j hj; fin_cases j <;> simp_all [maskedCube]
  have hloop : cleanLoop (maskedCube.params 0) (fun i => (maskedCube.dirty i 0).getD 0) =
      some (step (maskedCube.params 0) (start fun i => (maskedCube.dirty i 0).getD 0) 1) := by
    unfold cleanLoop
    rw [if_neg (by norm_num), if_neg (by
      rintro ⟨-, h⟩
      exact h (by decide))]
    congr 1
    have h1 : stage1 (maskedCube.params 0) (fun i => (maskedCube.dirty i 0).getD 0) =
        step (maskedCube.params 0) (start fun i => (maskedCube.dirty i 0).getD 0) 1 := by
      unfold stage1
      have : (maskedCube.params 0).maxIter = 0 + 1 := rfl
      rw [this]
      unfold loop1
      have hc : (maskedCube.params 0).cutoff ≤
        npMax (fun i => ‖(start fun i => (maskedCube.dirty i 0).getD 0).resid i‖) := hcond
      rw [if_pos hc]
      have : (npArgmax fun i => ‖(start fun i => (maskedCube.dirty i 0).getD 0).resid i‖) = 1 := harg
      rw [this]
      rfl
    rw [(clean_stops (maskedCube.params 0) _).2.2.2.2 rfl, h1]
  have hpix : maskedCube.runPixel 0 = some
      ⟨fun i => some ((step (maskedCube.params 0) (start fun i => (maskedCube.dirty i 0).getD 0) 1).clean i),
       fun i => some ((step (maskedCube.params 0) (start fun i => (maskedCube.dirty i 0).getD 0) 1).resid i),
       (step (maskedCube.params 0) (start fun i => (maskedCube.dirty i 0).getD 0) 1).cc,
       (step (maskedCube.params 0) (start fun i => (maskedCube.dirty i 0).getD 0) 1).iter⟩ := by
    unfold Cube.runPixel
    rw [if_neg (by rintro ⟨i, hi⟩; simp [maskedCube] at hi), hloop]
    rfl
  have hsome : ∃ r, hogbom maskedCube = some r := by
    unfold hogbom
    have hm := runTasks_fst maskedCube maskedCube.tasks (fun _ => 0)
    have : ∃ os, maskedCube.tasks.mapM maskedCube.runPixel = some os := by
      have hall : ∀ l : List (Fin 1), ∃ os, l.mapM maskedCube.runPixel = some os := by
        intro l
        induction l with
        | nil => exact ⟨[], rfl⟩
        | cons a t ih =>
          obtain ⟨os, h⟩ := ih
          have ha : a = 0 := Subsingleton.elim _ _
          subst ha
          rw [List.mapM_cons, hpix, h]
          exact ⟨_, rfl⟩
      exact hall _
    obtain ⟨os, hos⟩ := this
    rw [hos] at hm
    cases h : maskedCube.runTasks maskedCube.tasks (fun _ => 0) with
    | none => rw [h] at hm; simp at hm
    | some q => exact ⟨_, rfl⟩
  obtain ⟨r, hr⟩ := hsome
  refine ⟨r, hr, ?_⟩
  obtain ⟨o, ho, -, h2, -, h4⟩ := (hogbom_pixel maskedCube r hr 0).1 hcond
  rw [hpix] at ho
  injection ho with ho
  subst ho
  constructor
  · rw [h2]
    simp [step, start, maskedCube, Cube.params]
  · rw [h4]; rfl

/-! ### C34 -/

/-- C34. Inputs with at least one axis are rejected exactly when the axis lengths disagree, the RMSF
axis is shorter than twice the FDF axis, the spatial shapes (of FDF, RMSF or mask) disagree, or there
are more than three axes; they never raise in the checks. -/
theorem hogbom_rejects_iff (f0 : ℕ) (frest : List ℕ) (nPhi : ℕ) (r0 : ℕ) (rrest : List ℕ)
    (nPhi2 : ℕ) (msk : Option (List ℕ)) :
    (hogbomChecks (f0 :: frest) nPhi (r0 :: rrest) nPhi2 msk = .nones ↔
      nPhi ≠ f0 ∨ nPhi2 ≠ r0 ∨ nPhi2 < 2 * nPhi ∨ 2 < frest.length ∨ rrest ≠ frest ∨
        ∃ s, msk = some s ∧ s ≠ frest) ∧
    hogbomChecks (f0 :: frest) nPhi (r0 :: rrest) nPhi2 msk ≠ .raised := by
  unfold hogbomChecks
  simp only
  by_cases h1 : nPhi = f0
  · by_cases h2 : nPhi2 = r0
    · by_cases h3 : 2 * nPhi ≤ nPhi2
      · by_cases h4 : (f0 :: frest).length ≤ 3
        · by_cases h5 : rrest = frest
          · subst h5
            have h4' : ¬ 2 < rrest.length := by simp at h4; omega
            simp only [h1, h2, not_true_eq_false, ne_eq, if_false]
            subst h1 h2
            simp only [h3, h4]
            cases msk with
            | none => simp; omega
            | some s =>
              by_cases h6 : s = rrest
              · simp [h6]; omega
              · simp [h6]
          · simp only [h1, h2]
            subst h1 h2
            simp only [h3, h4]
            split_ifs <;> simp_all
        · have h4' : 2 < frest.length := by simp at h4; omega
          subst h1 h2
          simp only [h3, h4]; simp [h4']
      · have h3' : nPhi2 < 2 * nPhi := by omega
        subst h1 h2
        simp only [h3]; simp [h3']
    · simp [h1, h2]
  · simp [h1]

/-- The error branch: zero-dimensional arrays raise. -/
theorem hogbom_zero_dim (nPhi : ℕ) (rmsf : List ℕ) (nPhi2 : ℕ) (msk : Option (List ℕ)) :
    hogbomChecks [] nPhi rmsf nPhi2 msk = .raised := rfl

/-- C34, a finding: the checks accept RMSF axes on which every CLEAN iteration raises: for every FDF
length `n`, an RMSF of `2n + 1` samples if `n` is even, `2n + 2` if `n` is odd. -/
theorem checks_accept_bad_pad (n : ℕ) :
    hogbomChecks [n] n [2 * n + 1 + n % 2] (2 * n + 1 + n % 2) none = .ok ∧
      ¬ PadOk n (2 * n + 1 + n % 2) := by
  constructor
  · unfold hogbomChecks
    have : 2 * n ≤ 2 * n + 1 + n % 2 := by omega
    simp [this]
  · unfold PadOk nPad
    omega

/-- Instance: a 31-sample FDF cube of 4 by 5 pixels with its 63-sample RMSF is accepted. -/
example : hogbomChecks [31, 4, 5] 31 [63, 4, 5] 63 none = .ok := by decide

end Verif.Clean
