import Verif.QU.Fit
import Verif.Stats.Props

/-!
# Models with fixed parameters (C217)

Source: `/repo/RMtools_1D/do_QUfit_1D_mnest.py` 364-381 (parameters of a model), 402-426 (rotation of angles), 434-451 (reported values). The
models are read from the working directory first (`load_model`, 200-229), so that users fix a parameter by giving it the prior
`DeltaFunction` of bilby in their copy of the model.

Trusted reading of bilby: `result.samples` has one column for each parameter that is not fixed, in the order of the priors
(`search_parameter_keys`), and `result.posterior` has the columns under the names of the parameters, with the fixed ones added.
-/

namespace Verif.QU

open Verif.Stats

/-- The prior of a parameter (those of class `Constraint` are left out by line 371): fixed (`DeltaFunction`), or with bounds and possibly
periodic. -/
inductive Prior where
  | fixed (v : ℝ)
  | free (lo hi : ℝ) (periodic : Bool)

/-- Entry of the dictionary of priors. -/
structure Par where
  name : String
  prior : Prior

/-- Not a `DeltaFunction`, line 379. -/
def Par.isFree (p : Par) : Bool :=
  match p.prior with
  | .fixed _ => false
  | .free _ _ _ => true

/-- Lines 407-412: the name ends with `deg`, the bounds are 0 and 180, and the boundary is periodic. A fixed parameter has equal bounds. -/
def Par.isAngle (p : Par) : Prop :=
  match p.prior with
  | .fixed _ => False
  | .free lo hi per => p.name.toList.drop (p.name.length - 3) = ['d', 'e', 'g'] ∧ lo = 0 ∧ hi = 180 ∧ per = true

/-- The column of `result.samples` with the samples of parameter number `i`: the number of free parameters before it. -/
def freePos (pars : List Par) (i : ℕ) : ℕ := ((pars.take i).filter Par.isFree).length

/-- The samples of parameter number `i` in the posterior; `cols` are the columns of `result.samples`. -/
def samplesOf (pars : List Par) (cols : List (List ℝ)) (i : ℕ) : List ℝ := cols.getD (freePos pars i) []

/-- The condition of lines 407-415 for parameter number `i`. The posterior is not updated within the loop. -/
def Rotates (pars : List Par) (cols : List (List ℝ)) (i : ℕ) : Prop :=
  ∃ p m, pars[i]? = some p ∧ p.isAngle ∧ median (samplesOf pars cols i) = some m ∧ (m < 45 ∨ 135 ≤ m)

/-- The loop, 405-422: `result.samples[:, i] += 90` with `i` the number of the parameter. `none`: `IndexError`. -/
noncomputable def rotateCols (pars : List Par) (cols : List (List ℝ)) : Option (List (List ℝ)) :=
  open Classical in
  ((List.range pars.length).filter fun i => decide (Rotates pars cols i)).foldlM
    (fun c i => if i < c.length then some (c.modify i (List.map rotSample)) else none) cols

/-- The value reported for parameter number `i`, 434-451. -/
noncomputable def reported (pars : List Par) (cols new : List (List ℝ)) (i : ℕ) : Option ℝ :=
  open Classical in
  match (pars[i]?).map Par.prior with
  | none => none
  | some (.fixed v) => some v
  | some (.free _ _ _) => (median (samplesOf pars new i)).map fun m =>
      if Rotates pars cols i then (m - 90) + (if m - 90 < 0 then 180 else 0) else m

/-! ## C217 -/

/-- What is to be reported: the value of a fixed parameter, the angle of the samples of an angle (`angleFit`, C91), and the median of the
samples of any other. -/
def Fits (pars : List Par) (cols : List (List ℝ)) (i : ℕ) (v : Option ℝ) : Prop :=
  ∃ p, pars[i]? = some p ∧
    match p.prior with
    | .fixed x => v = some x
    | .free _ _ _ => (p.isAngle → v = angleFit (samplesOf pars cols i)) ∧ (¬p.isAngle → v = median (samplesOf pars cols i))

theorem freePos_lt (pars : List Par) (i j : ℕ) (p : Par) (hp : pars[i]? = some p) (hf : p.isFree = true) (hij : i < j) :
    freePos pars i < freePos pars j := by
  obtain ⟨hi, rfl⟩ := List.getElem?_eq_some_iff.mp hp
  unfold freePos
  have h1 : pars.take (i + 1) = pars.take i ++ [pars[i]] := by
    rw [List.take_append_getElem]
  have h2 : (pars.take (i + 1)).Sublist (pars.take j) := (List.take_prefix_take_left hij).sublist
  have h3 := (h2.filter Par.isFree).length_le
  rw [h1, List.filter_append, List.length_append] at h3
  have h4 : ([pars[i]].filter Par.isFree).length = 1 := by simp [hf]
  omega

theorem freePos_le (pars : List Par) (i : ℕ) : freePos pars i ≤ i :=
  (List.length_filter_le _ _).trans (List.length_take_le _ _)

theorem isAngle_free {p : Par} (h : p.isAngle) : p.isFree = true := by
  unfold Par.isAngle at h
  unfold Par.isFree
  cases hp : p.prior with
  | fixed v => rw [hp] at h; exact h.elim
  | free lo hi per => rfl

/-- No parameter is fixed before an angle. -/
def AnglesFirst (pars : List Par) : Prop := ∀ (i j : ℕ) (p q : Par), i < j → pars[i]? = some p → pars[j]? = some q → q.isAngle → p.isFree = true

theorem freePos_angle (pars : List Par) (h : AnglesFirst pars) (i : ℕ) (p : Par) (hp : pars[i]? = some p) (ha : p.isAngle) :
    freePos pars i = i := by
  obtain ⟨hi, hpe⟩ := List.getElem?_eq_some_iff.mp hp
  unfold freePos
  have : (pars.take i).filter Par.isFree = pars.take i := by
    rw [List.filter_eq_self]
    intro q hq
    obtain ⟨k, hk, rfl⟩ := List.getElem_of_mem hq
    have hk' : k < i := by
      have := List.length_take_le i pars
      omega
    have hkp : k < pars.length := by omega
    rw [List.getElem_take]
    exact h k i _ p hk' (List.getElem?_eq_getElem hkp) hp ha
  rw [this, List.length_take]
  omega

/-- The effect of the loop on the columns, for any list of different columns within range. -/
theorem foldlM_rotate (is : List ℕ) (hn : is.Nodup) (cols : List (List ℝ)) (hr : ∀ i ∈ is, i < cols.length) :
    ∃ new, is.foldlM (fun c i => if i < c.length then some (c.modify i (List.map rotSample)) else none) cols = some new ∧
      new.length = cols.length ∧
      ∀ j, new.getD j [] = if j ∈ is then (cols.getD j []).map rotSample else cols.getD j [] := by
  induction is generalizing cols with
  | nil => exact ⟨cols, rfl, rfl, fun j => by simp⟩
  | cons i is ih =>
    obtain ⟨hi, hn'⟩ := List.nodup_cons.mp hn
    have hil := hr i List.mem_cons_self
    obtain ⟨new, h1, h2, h3⟩ := ih hn' (cols.modify i (List.map rotSample)) (fun k hk => by
      rw [List.length_modify]; exact hr k (List.mem_cons_of_mem _ hk))
    refine ⟨new, ?_, by rw [h2, List.length_modify], fun j => ?_⟩
    · rw [List.foldlM_cons, if_pos hil]
      exact h1
    · rw [h3]
      have hg : (cols.modify i (List.map rotSample)).getD j [] = if i = j then (cols.getD j []).map rotSample else cols.getD j [] := by
        rw [List.getD_eq_getElem?_getD, List.getD_eq_getElem?_getD, List.getElem?_modify]
        by_cases hij : i = j
        · subst hij
          rw [if_pos rfl, List.getElem?_eq_getElem hil]
          simp
        · rw [if_neg hij]
          simp [hij]
      rw [hg]
      by_cases hij : i = j
      · subst hij
        simp [hi]
      · have : ¬j = i := fun h => hij h.symm
        simp [hij, this]

/-- **C217 (partial)**. If no parameter is fixed before an angle, the fit reports for every parameter the value of its own samples. -/
theorem fixed_partial (pars : List Par) (cols : List (List ℝ)) (hc : cols.length = (pars.filter Par.isFree).length)
    (h : AnglesFirst pars) :
    ∃ new, rotateCols pars cols = some new ∧ ∀ i < pars.length, Fits pars cols i (reported pars cols new i) := by
  classical
  have hmem : ∀ i, i ∈ (List.range pars.length).filter (fun i => decide (Rotates pars cols i)) ↔ Rotates pars cols i := by
    intro i
    simp only [List.mem_filter, List.mem_range, decide_eq_true_eq, and_iff_right_iff_imp]
    rintro ⟨p, m, hp, -⟩
    exact (List.getElem?_eq_some_iff.mp hp).1
  obtain ⟨new, h1, -, h3⟩ := foldlM_rotate ((List.range pars.length).filter fun i => decide (Rotates pars cols i))
    (List.nodup_range.filter _) cols (fun i hi => by
      obtain ⟨p, m, hp, ha, -⟩ := (hmem i).mp hi
      have e := freePos_angle pars h i p hp ha
      have hlt := freePos_lt pars i pars.length p hp (isAngle_free ha) (List.getElem?_eq_some_iff.mp hp).1
      have : freePos pars pars.length = cols.length := by
        unfold freePos
        rw [List.take_length, hc]
      omega)
  refine ⟨new, ?_, fun i hi => ?_⟩
  · unfold rotateCols
    convert h1
  · have hs : ∀ p, pars[i]? = some p → p.isFree = true →
        samplesOf pars new i = if Rotates pars cols i then (samplesOf pars cols i).map rotSample else samplesOf pars cols i := by
      intro p hp hf
      unfold samplesOf
      rw [h3]
      simp only [hmem]
      have : Rotates pars cols (freePos pars i) ↔ Rotates pars cols i := by
        constructor
        · rintro ⟨q, m, hq, ha, hm⟩
          have e := freePos_angle pars h _ q hq ha
          rcases Nat.lt_trichotomy (freePos pars i) i with hlt | heq | hgt
          · have := freePos_lt pars _ _ q hq (isAngle_free ha) hlt
            omega
          · rw [heq] at hq hm
            exact ⟨q, m, hq, ha, hm⟩
          · have := freePos_le pars i
            omega
        · rintro ⟨q, m, hq, ha, hm⟩
          rw [freePos_angle pars h i q hq ha]
          exact ⟨q, m, hq, ha, hm⟩
      simp only [this]
    refine ⟨pars[i], List.getElem?_eq_getElem hi, ?_⟩
    have hp : pars[i]? = some pars[i] := List.getElem?_eq_getElem hi
    unfold reported
    rw [hp]
    simp only [Option.map_some]
    cases hpr : (pars[i]).prior with
    | fixed v => rfl
    | free lo hi' per =>
      have hf : (pars[i]).isFree = true := by unfold Par.isFree; rw [hpr]
      dsimp only
      rw [hs _ hp hf]
      constructor
      · intro ha
        unfold angleFit
        cases hm : median (samplesOf pars cols i) with
        | none =>
          have : ¬Rotates pars cols i := by
            rintro ⟨q, m, -, -, hm', -⟩
            rw [hm] at hm'; cases hm'
          rw [if_neg this, hm]
          rfl
        | some m =>
          rw [Option.bind_some]
          by_cases hr : m < 45 ∨ 135 ≤ m
          · have hR : Rotates pars cols i := ⟨_, m, hp, ha, hm, hr⟩
            simp only [if_pos hR, if_pos hr]
          · have hR : ¬Rotates pars cols i := by
              rintro ⟨q, m', -, -, hm', hr'⟩
              rw [hm] at hm'
              injection hm' with e
              rw [← e] at hr'
              exact hr hr'
            simp only [if_neg hR, if_neg hr, hm, Option.map_some]
      · intro ha
        have hR : ¬Rotates pars cols i := by
          rintro ⟨q, m', hq, ha', -⟩
          rw [hp] at hq
          injection hq with e
          exact ha (e ▸ ha')
        simp only [if_neg hR]
        cases median (samplesOf pars cols i) <;> rfl

/-- C217. A parameter is reported as an angle only if its name ends with `deg` and it is periodic from 0 to 180; otherwise the median of its samples is
reported as it is. -/
theorem fixed_not_angle (pars : List Par) (cols : List (List ℝ)) (hc : cols.length = (pars.filter Par.isFree).length)
    (h : AnglesFirst pars) (i : ℕ) (p : Par) (hp : pars[i]? = some p) (lo hi : ℝ) (per : Bool) (hpr : p.prior = .free lo hi per)
    (hn : ¬ (['d', 'e', 'g'] <:+ p.name.toList ∧ lo = 0 ∧ hi = 180 ∧ per = true)) :
    ∃ new, rotateCols pars cols = some new ∧ reported pars cols new i = median (samplesOf pars cols i) := by
  obtain ⟨new, h1, h2⟩ := fixed_partial pars cols hc h
  obtain ⟨hi', -⟩ := List.getElem?_eq_some_iff.mp hp
  obtain ⟨p', hp', hf⟩ := h2 i hi'
  rw [hp, Option.some.injEq] at hp'
  subst hp'
  rw [hpr] at hf
  refine ⟨new, h1, hf.2 fun ha => hn ?_⟩
  unfold Par.isAngle at ha
  rw [hpr] at ha
  obtain ⟨a1, a2⟩ := ha
  exact ⟨a1 ▸ List.drop_suffix _ _, a2⟩


/-- Model 1 with the polarised fraction fixed. -/
def pars1 (f : ℝ) (rm : Prior) : List Par :=
  [⟨"fracPol", .fixed f⟩, ⟨"psi0_deg", .free 0 180 true⟩, ⟨"RM_radm2", rm⟩]

theorem pars1_angle (f : ℝ) (rm : Prior) (i : ℕ) (p : Par) (h : (pars1 f rm)[i]? = some p) : p.isAngle ↔ i = 1 := by
  match i with
  | 0 => simp [pars1] at h; subst h; simp [Par.isAngle]
  | 1 => simp [pars1] at h; subst h; simp only [Par.isAngle]; simp; decide
  | 2 =>
    simp [pars1] at h; subst h
    have : ¬("RM_radm2".toList.drop ("RM_radm2".length - 3) = ['d', 'e', 'g']) := by decide
    cases rm with
    | fixed v => simp [Par.isAngle]
    | free lo hi per => simp only [Par.isAngle]; simp only [this, false_and]; simp
  | k + 3 => simp [pars1] at h

theorem pars1_rotates (f : ℝ) (rm : Prior) (cols : List (List ℝ)) (psi : List ℝ) (hc : cols[0]? = some psi) (m : ℝ) (hm : median psi = some m)
    (h45 : m < 45) (i : ℕ) : Rotates (pars1 f rm) cols i ↔ i = 1 := by
  constructor
  · rintro ⟨p, m', hp, ha, -⟩
    exact (pars1_angle f rm i p hp).mp ha
  · rintro rfl
    refine ⟨_, m, rfl, (pars1_angle f rm 1 _ rfl).mpr rfl, ?_, Or.inl h45⟩
    have : samplesOf (pars1 f rm) cols 1 = psi := by
      unfold samplesOf
      have : freePos (pars1 f rm) 1 = 0 := by simp [freePos, pars1, Par.isFree]
      rw [this, List.getD_eq_getElem?_getD, hc]
      rfl
    rw [this, hm]

/-- **C217 refuted**: model 1 with fixed fraction. If the samples of the angle are below 45 degrees, the angle is reported 90 degrees off, and
if the samples of the rotation measure are below 90, the rotation measure 90 too high: the shift of the angles is applied to the column of
the rotation measure. -/
theorem fixed_wrong (f lo hi : ℝ) (per : Bool) (psi rms : List ℝ) (m r : ℝ) (hm : median psi = some m)
    (hpsi : ∀ x ∈ psi, 0 ≤ x ∧ x < 45) (hr : median rms = some r) (h90 : ∀ x ∈ rms, x < 90) :
    ∃ new, rotateCols (pars1 f (.free lo hi per)) [psi, rms] = some new ∧
      reported (pars1 f (.free lo hi per)) [psi, rms] new 1 = some (m + 90) ∧
      reported (pars1 f (.free lo hi per)) [psi, rms] new 2 = some (r + 90) ∧
      Fits (pars1 f (.free lo hi per)) [psi, rms] 1 (some m) ∧ Fits (pars1 f (.free lo hi per)) [psi, rms] 2 (some r) := by
  classical
  obtain ⟨h0, h45⟩ := median_between psi 0 45 hpsi m hm
  have hR := pars1_rotates f (.free lo hi per) [psi, rms] psi rfl m hm h45
  have f1 : freePos (pars1 f (.free lo hi per)) 1 = 0 := by simp [freePos, pars1, Par.isFree]
  have f2 : freePos (pars1 f (.free lo hi per)) 2 = 1 := by simp [freePos, pars1, Par.isFree, List.filter]
  have hrot : rms.map rotSample = rms.map fun x => 1 * x + 90 := by
    apply List.map_congr_left
    intro x hx
    have := h90 x hx
    unfold rotSample
    rw [if_neg (by linarith)]
    ring
  have hmed : median (rms.map rotSample) = some (r + 90) := by
    rw [hrot, median_affine, hr]
    simp
  refine ⟨[psi, rms.map rotSample], ?_, ?_, ?_, ?_, ?_⟩
  · unfold rotateCols
    have : (List.range (pars1 f (.free lo hi per)).length).filter
        (fun i => decide (Rotates (pars1 f (.free lo hi per)) [psi, rms] i)) = [1] := by
      simp only [hR]
      simp [pars1]
      decide
    rw [this]
    rfl
  · unfold reported
    have : (pars1 f (.free lo hi per))[1]? = some ⟨"psi0_deg", .free 0 180 true⟩ := rfl
    rw [this]
    simp only [Option.map_some]
    have e : samplesOf (pars1 f (.free lo hi per)) [psi, rms.map rotSample] 1 = psi := by
      unfold samplesOf; rw [f1]; rfl
    rw [e, hm, Option.map_some, if_pos ((hR 1).mpr rfl), if_pos (by linarith)]
    congr 1
    ring
  · unfold reported
    have : (pars1 f (.free lo hi per))[2]? = some ⟨"RM_radm2", .free lo hi per⟩ := rfl
    rw [this]
    simp only [Option.map_some]
    have e : samplesOf (pars1 f (.free lo hi per)) [psi, rms.map rotSample] 2 = rms.map rotSample := by
      unfold samplesOf; rw [f2]; rfl
    rw [e, hmed, Option.map_some, if_neg (by rw [hR]; omega)]
  · refine ⟨_, rfl, ?_⟩
    dsimp only
    refine ⟨fun _ => ?_, fun ha => ?_⟩
    · have e : samplesOf (pars1 f (.free lo hi per)) [psi, rms] 1 = psi := by
        unfold samplesOf; rw [f1]; rfl
      have hp : psi.map rotSample = psi.map fun x => 1 * x + 90 := by
        apply List.map_congr_left
        intro x hx
        have := (hpsi x hx).2
        unfold rotSample
        rw [if_neg (by linarith)]
        ring
      rw [e]
      unfold angleFit
      rw [hm, Option.bind_some, if_pos (Or.inl h45), hp, median_affine, hm]
      simp only [Option.map_some]
      rw [if_neg (by linarith)]
      congr 1
      ring
    · exact absurd ((pars1_angle f (.free lo hi per) 1 ⟨"psi0_deg", .free 0 180 true⟩ rfl).mpr rfl) ha
  · refine ⟨_, rfl, ?_⟩
    dsimp only
    refine ⟨fun ha => ?_, fun _ => ?_⟩
    · have := (pars1_angle f (.free lo hi per) 2 ⟨"RM_radm2", .free lo hi per⟩ rfl).mp ha
      omega
    · have e : samplesOf (pars1 f (.free lo hi per)) [psi, rms] 2 = rms := by
        unfold samplesOf; rw [f2]; rfl
      exact (e ▸ hr).symm

/-- **C217 refuted**: with fraction and rotation measure fixed, the program ends with an `IndexError` if the median of the angles is below 45
degrees. -/
theorem fixed_raises (f v : ℝ) (psi : List ℝ) (m : ℝ) (hm : median psi = some m) (h45 : m < 45) :
    rotateCols (pars1 f (.fixed v)) [psi] = none := by
  classical
  have hR := pars1_rotates f (.fixed v) [psi] psi rfl m hm h45
  unfold rotateCols
  have : (List.range (pars1 f (.fixed v)).length).filter
      (fun i => decide (Rotates (pars1 f (.fixed v)) [psi] i)) = [1] := by
    simp only [hR]
    simp [pars1]
    decide
  rw [this]
  rfl

/-- A case of `fixed_partial`: model 1 with only the rotation measure fixed. -/
example (v : ℝ) : AnglesFirst [⟨"fracPol", .free 0 1 false⟩, ⟨"psi0_deg", .free 0 180 true⟩, ⟨"RM_radm2", .fixed v⟩] := by
  intro i j p q hij hp hq ha
  match i, j with
  | 0, _ => simp at hp; subst hp; rfl
  | 1, _ => simp at hp; subst hp; rfl
  | 2, j + 3 => simp at hq
  | i + 3, _ => simp at hp
  | 2, 0 => omega
  | 2, 1 => omega
  | 2, 2 => omega

end Verif.QU
