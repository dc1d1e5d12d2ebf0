import Verif.QU.Params
import Verif.QU.Frame

/-!
# The samples drawn in the figures of a QU fit (C256)

Source: `/repo/RMtools_1D/do_QUfit_1D_mnest.py` 536-567: before the corner plot, rotated angles are turned back, and the same posterior is
used for the curves of the figure of the spectra (`util_plotTk.py` 546-550, 664-668, 756-760). Trusted reading of bilby as in `QU/Params`;
`plot_corner` draws the columns of the posterior and writes the median of each above its panel.
-/

namespace Verif.QU

open Verif.Stats

/-- The shift of a rotated column whose parameter is reported as `p`, 540-547. -/
noncomputable def turnBack (p s : ℝ) : ℝ := s - 90 + if 135 < p then 180 else 0

/-- The columns of `result.samples` in the figures, 539-547; `new` are the columns after the rotation. (An index out of range has raised an
exception before, in `rotateCols`.) -/
noncomputable def cornerCols (pars : List Par) (cols new : List (List ℝ)) : List (List ℝ) :=
  open Classical in
  ((List.range pars.length).filter fun i => decide (Rotates pars cols i)).foldl
    (fun c i => c.modify i (List.map (turnBack ((reported pars cols new i).getD 0)))) new

/-- The parameters of sample number `k`, `util_plotTk.py` 549-550: for every name the entry of the posterior. Names that are no parameters give 0
(they are not looked up). -/
noncomputable def rowDict (pars : List Par) (cols : List (List ℝ)) (k : ℕ) : Dict := fun name =>
  match pars.findIdx? (fun p => decide (p.name = name)) with
  | none => 0
  | some i => match (pars[i]?).map Par.prior with
    | some (.fixed v) => v
    | _ => (samplesOf pars cols i).getD k 0

/-! ## Order statistics -/

theorem countP_lt_le (s : List ℝ) (hs : s.Pairwise (· ≤ ·)) (k : ℕ) (hk : k < s.length) :
    s.countP (fun x => decide (x < s[k])) ≤ k := by
  have h : s.countP (fun x => decide (x < s[k])) = (s.take k).countP (fun x => decide (x < s[k])) +
      (s.drop k).countP (fun x => decide (x < s[k])) := by
    rw [← List.countP_append, List.take_append_drop]
  have h2 : (s.drop k).countP (fun x => decide (x < s[k])) = 0 := by
    rw [List.countP_eq_zero]
    intro x hx
    obtain ⟨j, hj, rfl⟩ := List.getElem_of_mem hx
    rw [List.getElem_drop]
    rw [List.length_drop] at hj
    have : s[k] ≤ s[k + j] := by
      rcases Nat.eq_zero_or_pos j with h0 | h0
      · subst h0; exact le_rfl
      · exact List.pairwise_iff_getElem.1 hs k (k + j) hk (by omega) (by omega)
    simpa using this
  have h3 := List.countP_le_length (p := fun x => decide (x < s[k])) (l := s.take k)
  rw [List.length_take] at h3
  omega

theorem le_of_countP (s : List ℝ) (hs : s.Pairwise (· ≤ ·)) (k : ℕ) (hk : k < s.length) (c : ℝ)
    (h : s.countP (fun x => decide (x < c)) ≤ k) : c ≤ s[k] := by
  by_contra hc
  push Not at hc
  have h1 : (s.take (k + 1)).countP (fun x => decide (x < c)) = (s.take (k + 1)).length := by
    rw [List.countP_eq_length]
    intro x hx
    obtain ⟨j, hj, rfl⟩ := List.getElem_of_mem hx
    rw [List.getElem_take]
    rw [List.length_take] at hj
    have : s[j] ≤ s[k] := by
      rcases Nat.eq_or_lt_of_le (show j ≤ k by omega) with h0 | h0
      · subst h0; exact le_rfl
      · exact List.pairwise_iff_getElem.1 hs j k (by omega) hk h0
    simpa using this.trans_lt hc
  have h2 := (List.take_sublist (k + 1) s).countP_le (p := fun x => decide (x < c))
  rw [h1, List.length_take] at h2
  omega

/-- The median grows with the entries. -/
theorem median_mono {α : Type*} (l : List α) (f g : α → ℝ) (h : ∀ x ∈ l, f x ≤ g x) (a b : ℝ) (ha : median (l.map f) = some a)
    (hb : median (l.map g) = some b) : a ≤ b := by
  obtain ⟨s, hp, hs⟩ := sorted_arrangement (l.map f)
  obtain ⟨t, hq, ht⟩ := sorted_arrangement (l.map g)
  rw [median_eq_mid _ s hp hs] at ha
  rw [median_eq_mid _ t hq ht] at hb
  have e1 := hp.length_eq
  have e2 := hq.length_eq
  rw [List.length_map] at e1 e2
  have key : ∀ k (h1 : k < s.length) (h2 : k < t.length), s[k] ≤ t[k] := by
    intro k h1 h2
    refine le_of_countP t ht k h2 _ (le_trans ?_ (countP_lt_le s hs k h1))
    rw [hq.countP_eq, hp.countP_eq, List.countP_map, List.countP_map]
    refine List.countP_mono_left fun x hx hlt => ?_
    simp only [Function.comp_apply, decide_eq_true_eq] at hlt ⊢
    exact (h x hx).trans_lt hlt
  unfold mid at ha hb
  by_cases h0 : s.length = 0
  · rw [if_pos h0] at ha; cases ha
  · have h0' : ¬t.length = 0 := by omega
    rw [if_neg h0] at ha
    rw [if_neg h0'] at hb
    have hm : s.length / 2 < s.length := by omega
    have hm' : t.length / 2 < t.length := by omega
    by_cases ho : s.length % 2 = 1
    · rw [if_pos ho] at ha
      rw [if_pos (by omega)] at hb
      rw [List.getD_eq_getElem _ _ hm] at ha
      rw [List.getD_eq_getElem _ _ hm'] at hb
      have := key (s.length / 2) hm (by omega)
      simp only [Option.some.injEq] at ha hb
      simp only [e1, e2] at *
      linarith
    · rw [if_neg ho] at ha
      rw [if_neg (by omega)] at hb
      have hn : s.length / 2 - 1 < s.length := by omega
      have hn' : t.length / 2 - 1 < t.length := by omega
      rw [List.getD_eq_getElem _ _ hm, List.getD_eq_getElem _ _ hn] at ha
      rw [List.getD_eq_getElem _ _ hm', List.getD_eq_getElem _ _ hn'] at hb
      have h1 := key (s.length / 2) hm (by omega)
      have h2 := key (s.length / 2 - 1) hn (by omega)
      simp only [Option.some.injEq] at ha hb
      simp only [e1, e2] at *
      linarith

/-- If the median of angles from 0 to 180 is below 45, that of the rotated angles is at least 90. -/
theorem rotated_low (l : List ℝ) (h : ∀ x ∈ l, 0 ≤ x) (m m' : ℝ) (hm : median l = some m) (hm45 : m < 45)
    (hm' : median (l.map rotSample) = some m') : 90 ≤ m' := by
  obtain ⟨s, hp, hs⟩ := sorted_arrangement l
  obtain ⟨t, hq, ht⟩ := sorted_arrangement (l.map rotSample)
  rw [median_eq_mid _ s hp hs] at hm
  rw [median_eq_mid _ t hq ht] at hm'
  have e1 := hp.length_eq
  have e2 := hq.length_eq
  rw [List.length_map] at e2
  have hge : ∀ x ∈ s, 0 ≤ x := fun x hx => h x (hp.mem_iff.1 hx)
  have hcount : t.countP (fun x => decide (x < 90)) + s.countP (fun x => decide (x < 90)) ≤ s.length := by
    rw [hq.countP_eq, List.countP_map, hp.countP_eq, e1]
    have := List.length_eq_countP_add_countP (fun x => decide ((x : ℝ) < 90)) (l := l)
    have h2 : l.countP ((fun x => decide (x < 90)) ∘ rotSample) ≤ l.countP (fun x => decide ((90 : ℝ) ≤ x)) := by
      refine List.countP_mono_left fun x hx hlt => ?_
      simp only [Function.comp_apply, decide_eq_true_eq] at hlt ⊢
      by_contra hc
      push Not at hc
      unfold rotSample at hlt
      rw [if_neg (by linarith)] at hlt
      have := h x hx
      linarith
    simp only [Bool.not_eq_true, decide_eq_false_iff_not, not_lt] at this
    omega
  unfold mid at hm hm'
  by_cases h0 : s.length = 0
  · rw [if_pos h0] at hm; cases hm
  · have h0' : ¬t.length = 0 := by omega
    rw [if_neg h0] at hm
    rw [if_neg h0'] at hm'
    have hk : s.length / 2 < s.length := by omega
    have hk' : t.length / 2 < t.length := by omega
    have hlow : s[s.length / 2] < 90 → s.length / 2 + 1 ≤ s.countP (fun x => decide (x < 90)) := by
      intro hlt
      by_contra hc
      exact absurd (le_of_countP s hs (s.length / 2) hk 90 (by omega)) (not_le.2 hlt)
    by_cases ho : s.length % 2 = 1
    · rw [if_pos ho, List.getD_eq_getElem _ _ hk] at hm
      rw [if_pos (by omega), List.getD_eq_getElem _ _ hk'] at hm'
      simp only [Option.some.injEq] at hm hm'
      have := hlow (by linarith)
      rw [← hm']
      exact le_of_countP t ht _ hk' 90 (by omega)
    · have hn : s.length / 2 - 1 < s.length := by omega
      have hn' : t.length / 2 - 1 < t.length := by omega
      rw [if_neg ho, List.getD_eq_getElem _ _ hk, List.getD_eq_getElem _ _ hn] at hm
      rw [if_neg (by omega), List.getD_eq_getElem _ _ hk', List.getD_eq_getElem _ _ hn'] at hm'
      simp only [Option.some.injEq] at hm hm'
      have hpos := hge _ (List.getElem_mem hn)
      have := hlow (by linarith)
      have h1 := le_of_countP t ht _ hk' 90 (by omega)
      have h2 := le_of_countP t ht _ hn' 90 (by omega)
      linarith

/-! ## C256 -/

/-- One angle: the median of the angles drawn is the reported angle, unless that is 135 exactly; then the angles are drawn around -45. -/
theorem corner_median (ss : List ℝ) (h : ∀ s ∈ ss, 0 ≤ s ∧ s ≤ 180) (m m' : ℝ) (hm : median ss = some m) (hr : m < 45 ∨ 135 ≤ m)
    (hm' : median (ss.map rotSample) = some m') (p : ℝ) (hp : p = m' - 90 + if m' - 90 < 0 then 180 else 0) :
    median ((ss.map rotSample).map (turnBack p)) = some (if p = 135 then p - 180 else p) := by
  have hge : 45 ≤ m' := by
    rcases hr with hr | hr
    · have := rotated_low ss (fun s hs => (h s hs).1) m m' hm hr hm'
      linarith
    · have h1 : median (ss.map fun x => 1 * x + (-90)) = some (1 * m + (-90)) := by rw [median_affine, hm]; rfl
      have := median_mono ss (fun x => 1 * x + (-90)) rotSample (fun x _ => by unfold rotSample; split_ifs <;> linarith) _ _ h1 hm'
      linarith
  have e : turnBack p = fun x => 1 * x + (-90 + if 135 < p then 180 else 0) := by
    funext x; unfold turnBack; ring
  rw [e, median_affine, hm', Option.map_some]
  congr 1
  by_cases h90 : m' - 90 < 0
  · rw [if_pos h90] at hp
    by_cases h135 : p = 135
    · rw [if_pos h135, if_neg (by linarith)]
      linarith
    · rw [if_neg h135]
      have : 135 < p := lt_of_le_of_ne (by linarith) (Ne.symm h135)
      rw [if_pos this]
      linarith
  · rw [if_neg h90] at hp
    have hb := median_between (ss.map rotSample) 0 180 (by
      intro x hx
      obtain ⟨s, hs, rfl⟩ := List.mem_map.1 hx
      exact rotSample_range s (h s hs).1 (h s hs).2) m' hm'
    rw [if_neg (by linarith), if_neg (by linarith)]
    linarith

/-- The effect of the loop that turns the columns back. -/
theorem foldl_modify (is : List ℕ) (hn : is.Nodup) (f : ℕ → ℝ → ℝ) (cols : List (List ℝ)) (j : ℕ) :
    (is.foldl (fun c i => c.modify i (List.map (f i))) cols).getD j [] =
      if j ∈ is then (cols.getD j []).map (f j) else cols.getD j [] := by
  induction is generalizing cols with
  | nil => simp
  | cons i is ih =>
    obtain ⟨hi, hn'⟩ := List.nodup_cons.mp hn
    rw [List.foldl_cons, ih hn']
    have hg : (cols.modify i (List.map (f i))).getD j [] = if i = j then (cols.getD j []).map (f j) else cols.getD j [] := by
      rw [List.getD_eq_getElem?_getD, List.getD_eq_getElem?_getD, List.getElem?_modify]
      by_cases hij : i = j
      · subst hij
        rw [if_pos rfl]
        cases cols[i]? <;> simp
      · rw [if_neg hij]
        cases cols[j]? <;> simp [hij]
    rw [hg]
    by_cases hij : i = j
    · subst hij
      simp [hi]
    · have : ¬j = i := fun h => hij h.symm
      simp [hij, this]

theorem rotates_mem (pars : List Par) (cols : List (List ℝ)) (i : ℕ) :
    (open Classical in i ∈ (List.range pars.length).filter (fun i => decide (Rotates pars cols i))) ↔ Rotates pars cols i := by
  classical
  simp only [List.mem_filter, List.mem_range, decide_eq_true_eq, and_iff_right_iff_imp]
  rintro ⟨p, m, hp, -⟩
  exact (List.getElem?_eq_some_iff.mp hp).1

/-- The column of a free parameter is rotated if and only if its number is. -/
theorem rotates_freePos (pars : List Par) (cols : List (List ℝ)) (h : AnglesFirst pars) (i : ℕ) :
    Rotates pars cols (freePos pars i) ↔ Rotates pars cols i := by
  constructor
  · rintro ⟨q, m, hq, ha, hm⟩
    have e := freePos_angle pars h _ q hq ha
    rcases Nat.lt_trichotomy (freePos pars i) i with hlt | heq | hgt
    · have := freePos_lt pars _ _ q hq (isAngle_free ha) hlt
      omega
    · rw [heq] at hq hm
      exact ⟨q, m, hq, ha, hm⟩
    · have := freePos_le pars i
      omega
  · rintro ⟨q, m, hq, ha, hm⟩
    rw [freePos_angle pars h i q hq ha]
    exact ⟨q, m, hq, ha, hm⟩

/-- What the two loops do to the samples of a parameter. -/
theorem corner_samples (pars : List Par) (cols : List (List ℝ)) (hc : cols.length = (pars.filter Par.isFree).length)
    (h : AnglesFirst pars) :
    ∃ new, rotateCols pars cols = some new ∧ ∀ i,
      (¬Rotates pars cols i → samplesOf pars new i = samplesOf pars cols i ∧
        samplesOf pars (cornerCols pars cols new) i = samplesOf pars cols i) ∧
      (Rotates pars cols i → samplesOf pars new i = (samplesOf pars cols i).map rotSample ∧
        samplesOf pars (cornerCols pars cols new) i =
          ((samplesOf pars cols i).map rotSample).map (turnBack ((reported pars cols new i).getD 0))) := by
  classical
  obtain ⟨new, h1, -, h3⟩ := foldlM_rotate ((List.range pars.length).filter fun i => decide (Rotates pars cols i))
    (List.nodup_range.filter _) cols (fun i hi => by
      obtain ⟨p, m, hp, ha, -⟩ := (rotates_mem pars cols i).mp (by convert hi)
      have e := freePos_angle pars h i p hp ha
      have hlt := freePos_lt pars i pars.length p hp (isAngle_free ha) (List.getElem?_eq_some_iff.mp hp).1
      have : freePos pars pars.length = cols.length := by
        unfold freePos
        rw [List.take_length, hc]
      omega)
  have hmem : ∀ i, i ∈ (List.range pars.length).filter (fun i => decide (Rotates pars cols i)) ↔ Rotates pars cols i := by
    intro i
    convert rotates_mem pars cols i
  refine ⟨new, by unfold rotateCols; convert h1, fun i => ?_⟩
  have hnew : samplesOf pars new i = if Rotates pars cols i then (samplesOf pars cols i).map rotSample else samplesOf pars cols i := by
    unfold samplesOf
    rw [h3]
    simp only [hmem, rotates_freePos pars cols h i]
  have hcor : samplesOf pars (cornerCols pars cols new) i =
      if Rotates pars cols i then (samplesOf pars new i).map (turnBack ((reported pars cols new (freePos pars i)).getD 0))
      else samplesOf pars new i := by
    have := foldl_modify ((List.range pars.length).filter fun i => decide (Rotates pars cols i)) (List.nodup_range.filter _)
      (fun i => turnBack ((reported pars cols new i).getD 0)) new (freePos pars i)
    simp only [hmem, rotates_freePos pars cols h i] at this
    unfold samplesOf cornerCols
    convert this
  constructor
  · intro hR
    rw [hcor, hnew, if_neg hR, if_neg hR]
    exact ⟨rfl, rfl⟩
  · intro hR
    rw [hcor, hnew, if_pos hR, if_pos hR]
    obtain ⟨p, m, hp, ha, -⟩ := hR
    rw [freePos_angle pars h i p hp ha]
    exact ⟨rfl, rfl⟩

/-- Turning back undoes the rotation up to multiples of 180 degrees. -/
theorem turnBack_rot (p s : ℝ) : ∃ z : ℤ, turnBack p (rotSample s) = s + 180 * z := by
  unfold turnBack rotSample
  split_ifs
  · exact ⟨0, by push_cast; ring⟩
  · exact ⟨-1, by push_cast; ring⟩
  · exact ⟨1, by push_cast; ring⟩
  · exact ⟨0, by push_cast; ring⟩

/-- **C256 (partial)**. If no parameter is fixed before an angle, the figures draw, for every free parameter, its own samples: as they are if it is no
angle, and up to multiples of 180 degrees if it is. The median of the samples drawn is the reported value, unless an angle is reported as 135 degrees;
then the median drawn may be -45. -/
theorem corner_partial (pars : List Par) (cols : List (List ℝ)) (hc : cols.length = (pars.filter Par.isFree).length)
    (h : AnglesFirst pars)
    (hs : ∀ i p, pars[i]? = some p → p.isAngle → ∀ s ∈ samplesOf pars cols i, 0 ≤ s ∧ s ≤ 180) :
    ∃ new, rotateCols pars cols = some new ∧ ∀ i p, pars[i]? = some p → p.isFree = true →
      (samplesOf pars (cornerCols pars cols new) i).length = (samplesOf pars cols i).length ∧
      (¬p.isAngle → samplesOf pars (cornerCols pars cols new) i = samplesOf pars cols i) ∧
      (∀ k, ∃ z : ℤ, (samplesOf pars (cornerCols pars cols new) i).getD k 0 = (samplesOf pars cols i).getD k 0 + 180 * z) ∧
      (median (samplesOf pars (cornerCols pars cols new) i) = reported pars cols new i ∨
        p.isAngle ∧ reported pars cols new i = some 135 ∧ median (samplesOf pars (cornerCols pars cols new) i) = some (-45)) := by
  obtain ⟨new, h1, h2⟩ := corner_samples pars cols hc h
  refine ⟨new, h1, fun i p hp hf => ?_⟩
  have hrep : reported pars cols new i = (median (samplesOf pars new i)).map fun m =>
      (open Classical in if Rotates pars cols i then (m - 90) + (if m - 90 < 0 then 180 else 0) else m) := by
    unfold reported
    rw [hp]
    simp only [Option.map_some]
    unfold Par.isFree at hf
    cases hpr : p.prior with
    | fixed v => rw [hpr] at hf; cases hf
    | free lo hi per => rfl
  by_cases hR : Rotates pars cols i
  · obtain ⟨e1, e2⟩ := (h2 i).2 hR
    obtain ⟨q, m, hq, ha, hm, hr⟩ := id hR
    have hqp : q = p := by rw [hp] at hq; exact (Option.some.inj hq).symm
    subst hqp
    refine ⟨by rw [e2]; simp, fun hn => absurd ha hn, fun k => ?_, ?_⟩
    · rw [e2, List.map_map, List.getD_eq_getElem?_getD, List.getD_eq_getElem?_getD, List.getElem?_map]
      cases (samplesOf pars cols i)[k]? with
      | none => exact ⟨0, by simp⟩
      | some s => exact turnBack_rot _ s
    · cases hm' : median ((samplesOf pars cols i).map rotSample) with
      | none =>
        rw [median_none_iff, List.map_eq_nil_iff] at hm'
        rw [hm', (median_none_iff []).2 rfl] at hm
        cases hm
      | some m' =>
        rw [e1, hm', Option.map_some, if_pos hR] at hrep
        have := corner_median (samplesOf pars cols i) (hs i q hp ha) m m' hm hr hm' _ rfl
        rw [e2, hrep, Option.getD_some, this]
        generalize m' - 90 + (if m' - 90 < 0 then 180 else 0) = v
        by_cases hv : v = 135
        · right
          refine ⟨ha, by rw [hv], ?_⟩
          rw [if_pos hv, hv]
          norm_num
        · left
          rw [if_neg hv]
  · obtain ⟨e1, e2⟩ := (h2 i).1 hR
    refine ⟨by rw [e2], fun _ => e2, fun k => ⟨0, by rw [e2]; simp⟩, Or.inl ?_⟩
    rw [hrep, e1, e2]
    simp only [if_neg hR]
    cases median (samplesOf pars cols i) <;> rfl

/-- **C256**, the curves of the models: for every model that is shipped, the curve drawn for a sample of the posterior is that of the sample the sampler
has returned. -/
theorem corner_models (f : Dict → ℝ → Option ℂ) (hf : f ∈ allModels) (pars : List Par) (cols : List (List ℝ))
    (hc : cols.length = (pars.filter Par.isFree).length) (h : AnglesFirst pars)
    (hk : ∀ p ∈ pars, p.isAngle → p.name ∈ angleKeys) (k : ℕ) (l : ℝ) :
    ∃ new, rotateCols pars cols = some new ∧ f (rowDict pars (cornerCols pars cols new) k) l = f (rowDict pars cols k) l := by
  obtain ⟨new, h1, h2⟩ := corner_samples pars cols hc h
  refine ⟨new, h1, ?_⟩
  have key : ∀ name, ∃ z : ℤ, rowDict pars (cornerCols pars cols new) k name = rowDict pars cols k name + 180 * z ∧
      (name ∉ angleKeys → z = 0) := by
    intro name
    unfold rowDict
    cases hfi : pars.findIdx? (fun p => decide (p.name = name)) with
    | none => exact ⟨0, by simp, fun _ => rfl⟩
    | some i =>
      dsimp only
      by_cases hR : Rotates pars cols i
      · obtain ⟨e1, e2⟩ := (h2 i).2 hR
        obtain ⟨p, m, hp, ha, -⟩ := hR
        have hname : name ∈ angleKeys := by
          rw [List.findIdx?_eq_some_iff_getElem] at hfi
          obtain ⟨hi, hn, -⟩ := hfi
          have hpi : pars[i] = p := by
            rw [List.getElem?_eq_getElem hi] at hp
            exact Option.some.inj hp
          rw [hpi] at hn
          rw [← of_decide_eq_true hn]
          exact hk p (hpi ▸ List.getElem_mem hi) ha
        rw [hp]
        simp only [Option.map_some]
        cases hpr : p.prior with
        | fixed v => exact ⟨0, by simp, fun _ => rfl⟩
        | free lo hi per =>
          dsimp only
          rw [e2, List.map_map, List.getD_eq_getElem?_getD, List.getD_eq_getElem?_getD, List.getElem?_map]
          cases (samplesOf pars cols i)[k]? with
          | none => exact ⟨0, by simp, fun _ => rfl⟩
          | some s =>
            obtain ⟨z, hz⟩ := turnBack_rot ((reported pars cols new i).getD 0) s
            exact ⟨z, hz, fun hn => absurd hname hn⟩
      · rw [((h2 i).1 hR).2]
        exact ⟨0, by simp, fun _ => rfl⟩
  have ht : Turned 0 0 (rowDict pars cols k) (rowDict pars (cornerCols pars cols new) k) := by
    refine ⟨fun a ha => ?_, fun a ha => ?_, fun a ha _ => ?_⟩
    · obtain ⟨z, hz, -⟩ := key a
      exact ⟨z, by rw [hz]; ring⟩
    · obtain ⟨z, hz, h0⟩ := key a
      have hd : ∀ a ∈ depthKeys, a ∉ angleKeys := by decide
      rw [hz, h0 (hd a ha)]
      simp
    · obtain ⟨z, hz, h0⟩ := key a
      rw [hz, h0 ha]
      simp
  rw [turned_models f hf 0 0 _ _ ht l]
  have : turnFactor 0 0 l = 1 := by unfold turnFactor; simp
  rw [this]
  cases f (rowDict pars cols k) l <;> simp

/-- C256 does not hold for an angle of 135 degrees: with all samples at 135 the reported angle is 135, and the samples are drawn at -45. -/
theorem corner_wrong : ∃ new, rotateCols [⟨"psi0_deg", .free 0 180 true⟩] [[135]] = some new ∧
    reported [⟨"psi0_deg", .free 0 180 true⟩] [[135]] new 0 = some 135 ∧
    samplesOf [⟨"psi0_deg", .free 0 180 true⟩] (cornerCols [⟨"psi0_deg", .free 0 180 true⟩] [[135]] new) 0 = [-45] := by
  set pars : List Par := [⟨"psi0_deg", .free 0 180 true⟩] with hpars
  have hmed : ∀ x : ℝ, median [x] = some x := fun x => by
    rw [median_eq_mid [x] [x] (List.Perm.refl _) (by simp), mid]; simp
  have hsam : samplesOf pars [[135]] 0 = [135] := by simp [samplesOf, freePos]
  have hang : (⟨"psi0_deg", .free 0 180 true⟩ : Par).isAngle := by
    refine ⟨by decide, rfl, rfl, rfl⟩
  have hR : Rotates pars [[135]] 0 := ⟨_, 135, rfl, hang, by rw [hsam]; exact hmed _, Or.inr le_rfl⟩
  obtain ⟨new, h1, h2⟩ := corner_samples pars [[135]] rfl (by
    intro i j p q hij hp hq _
    have := (List.getElem?_eq_some_iff.mp hq).1
    simp only [hpars, List.length_cons, List.length_nil] at this
    omega)
  obtain ⟨e1, e2⟩ := (h2 0).2 hR
  have hrot : rotSample 135 = 45 := by unfold rotSample; norm_num
  have hrep : reported pars [[135]] new 0 = some 135 := by
    have : reported pars [[135]] new 0 = (median (samplesOf pars new 0)).map fun m =>
      (open Classical in if Rotates pars [[135]] 0 then (m - 90) + (if m - 90 < 0 then 180 else 0) else m) := rfl
    rw [this, e1, hsam, List.map_singleton, hrot, hmed, Option.map_some, if_pos hR]
    norm_num
  refine ⟨new, h1, hrep, ?_⟩
  rw [e2, hsam, hrep]
  simp only [List.map_singleton, hrot, Option.getD_some, turnBack]
  norm_num

/-- Instance of C256: the model `m1` with the angles 5, 170 and 175. -/
example : ∃ (pars : List Par) (cols : List (List ℝ)), pars.length = 3 ∧ cols.length = (pars.filter Par.isFree).length ∧ AnglesFirst pars ∧
    (∀ i p, pars[i]? = some p → p.isAngle → ∀ s ∈ samplesOf pars cols i, 0 ≤ s ∧ s ≤ 180) ∧
    (∀ p ∈ pars, p.isAngle → p.name ∈ angleKeys) ∧ Rotates pars cols 1 := by
  have hn : ∀ i, ∀ p, ([⟨"fracPol", .free 0 1 false⟩, ⟨"psi0_deg", .free 0 180 true⟩, ⟨"RM_radm2", .free (-1100) 1100 false⟩] : List Par)[i]? = some p →
      p.isAngle → i = 1 := by
    intro i p hp ha
    match i, hp with
    | 0, hp =>
      have := Option.some.inj hp
      subst this
      exact absurd ha (by simp [Par.isAngle])
    | 1, _ => rfl
    | 2, hp =>
      have := Option.some.inj hp
      subst this
      exact absurd ha (by simp [Par.isAngle])
  have hfree : ∀ p ∈ ([⟨"fracPol", .free 0 1 false⟩, ⟨"psi0_deg", .free 0 180 true⟩, ⟨"RM_radm2", .free (-1100) 1100 false⟩] : List Par),
      p.isFree = true := by
    intro p hp
    simp only [List.mem_cons, List.not_mem_nil, or_false] at hp
    rcases hp with rfl | rfl | rfl <;> rfl
  refine ⟨[⟨"fracPol", .free 0 1 false⟩, ⟨"psi0_deg", .free 0 180 true⟩, ⟨"RM_radm2", .free (-1100) 1100 false⟩],
    [[0.1, 0.2, 0.1], [5, 170, 175], [3, 4, 3]], rfl, rfl, ?_, ?_, ?_, ?_⟩
  · intro i j p q _ hp _ _
    exact hfree p (List.mem_of_getElem? hp)
  · intro i p hp ha s hs
    have := hn i p hp ha
    subst this
    simp only [samplesOf, freePos, List.take, Par.isFree, List.filter, List.length, List.getD_cons_succ, List.getD_cons_zero, List.mem_cons,
      List.not_mem_nil, or_false] at hs
    rcases hs with rfl | rfl | rfl <;> norm_num
  · intro p hp ha
    obtain ⟨i, hi, rfl⟩ := List.getElem_of_mem hp
    have := hn i _ (List.getElem?_eq_getElem hi) ha
    subst this
    change "psi0_deg" ∈ angleKeys
    decide
  · refine ⟨_, 170, rfl, ⟨by decide, rfl, rfl, rfl⟩, ?_, Or.inr (by norm_num)⟩
    have : samplesOf ([⟨"fracPol", .free 0 1 false⟩, ⟨"psi0_deg", .free 0 180 true⟩, ⟨"RM_radm2", .free (-1100) 1100 false⟩] : List Par)
      [[0.1, 0.2, 0.1], [5, 170, 175], [3, 4, 3]] 1 = [5, 170, 175] := rfl
    rw [this, median_eq_mid _ [5, 170, 175] (List.Perm.refl _) (by norm_num), mid]
    norm_num

end Verif.QU
