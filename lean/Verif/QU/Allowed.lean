import Verif.QU.Corner
import Verif.QU.Nest

/-!
# Are the reported parameters of a QU fit allowed by the model? (C268)

Source: `/repo/RMtools_1D/do_QUfit_1D_mnest.py` 402-451 with the tables `priors` of `models_ns/m*.py`. The sampler only keeps parameters within the
bounds of the priors and within the `Constraint` priors (`m3.py` 53-72, `m111.py` 51-75: the components are ordered by RM, and their polarised
fractions sum to less than 1). The values reported are the medians of the single parameters, so that it is not clear that they are together
within the constraints.
-/

namespace Verif.QU.Allowed

open Verif.QU Verif.Stats

/-- The parameters of a model as the fit sees them, 364-381: all free, and the angles `psi…` periodic (`models_ns/m*.py`: `boundary="periodic"`
on these and on no others). -/
def parsOf (b : Bounds) : List Par := b.map fun x => ⟨x.1, .free x.2.1 x.2.2 (decide (x.1.toList.take 3 = ['p', 's', 'i']))⟩

/-- `result.samples` column by column: the values of each parameter in the samples `S`. -/
def colsOf (b : Bounds) (S : List Dict) : List (List ℝ) := b.map fun x => S.map fun s => s x.1

/-- The fit from its samples, 402-451: rotation of angles, then the value reported under each name. `none`: an exception. Names that are no
parameters give 0 (they are not looked up). -/
noncomputable def fitRun (b : Bounds) (S : List Dict) : Option Dict :=
  (rotateCols (parsOf b) (colsOf b S)).map fun new name =>
    match (parsOf b).findIdx? (fun p => decide (p.name = name)) with
    | none => 0
    | some i => (reported (parsOf b) (colsOf b S) new i).getD 0

/-! ## Order statistics of joint samples -/

theorem pick {α : Type*} (l : List α) (p q : α → Bool) (h : l.length < l.countP p + l.countP q) : ∃ x ∈ l, p x = true ∧ q x = true := by
  induction l with
  | nil => simp at h
  | cons a l ih =>
    rw [List.countP_cons, List.countP_cons, List.length_cons] at h
    by_cases hp : p a = true <;> by_cases hq : q a = true
    · exact ⟨a, List.mem_cons_self, hp, hq⟩
    all_goals
      simp only [hp, hq, if_true, if_false, Bool.false_eq_true] at h
      obtain ⟨x, hx, hh⟩ := ih (by omega)
      exact ⟨x, List.mem_cons_of_mem _ hx, hh⟩

/-- At least `n - i` entries are as large as entry number `i` in order. -/
theorem count_ge {α : Type*} (l : List α) (f : α → ℝ) (s : List ℝ) (hp : s.Perm (l.map f)) (hs : s.Pairwise (· ≤ ·)) (i : ℕ)
    (hi : i < s.length) : l.length ≤ l.countP (fun x => decide (s[i] ≤ f x)) + i := by
  have h1 := countP_lt_le s hs i hi
  rw [hp.countP_eq, List.countP_map] at h1
  have h2 := List.length_eq_countP_add_countP (fun x => decide (s[i] ≤ f x)) (l := l)
  have h3 : l.countP (fun a => decide ¬(decide (s[i] ≤ f a)) = true) ≤ l.countP ((fun x => decide (x < s[i])) ∘ f) := by
    refine List.countP_mono_left fun x _ hx => ?_
    simpa using hx
  omega

/-- At least `i + 1` entries are as small as entry number `i` in order. -/
theorem count_le {α : Type*} (l : List α) (f : α → ℝ) (s : List ℝ) (hp : s.Perm (l.map f)) (hs : s.Pairwise (· ≤ ·)) (i : ℕ)
    (hi : i < s.length) : i + 1 ≤ l.countP (fun x => decide (f x ≤ s[i])) := by
  have h1 : (s.take (i + 1)).countP (fun x => decide (x ≤ s[i])) = (s.take (i + 1)).length := by
    rw [List.countP_eq_length]
    intro x hx
    obtain ⟨j, hj, rfl⟩ := List.getElem_of_mem hx
    rw [List.getElem_take]
    rw [List.length_take] at hj
    have : s[j] ≤ s[i] := by
      rcases Nat.eq_or_lt_of_le (show j ≤ i by omega) with h0 | h0
      · subst h0; exact le_rfl
      · exact List.pairwise_iff_getElem.1 hs j i (by omega) hi h0
    simpa using this
  have h2 := (List.take_sublist (i + 1) s).countP_le (p := fun x => decide (x ≤ s[i]))
  rw [h1, List.length_take, hp.countP_eq, List.countP_map] at h2
  have h3 : l.countP ((fun x => decide (x ≤ s[i])) ∘ f) = l.countP (fun x => decide (f x ≤ s[i])) := rfl
  omega

/-- The median of entries in order. -/
theorem median_cases {α : Type*} (l : List α) (f : α → ℝ) (m : ℝ) (h : median (l.map f) = some m) :
    ∃ s : List ℝ, ∃ hp : s.Perm (l.map f), s.Pairwise (· ≤ ·) ∧ ∃ i j, ∃ hi : i < s.length, ∃ hj : j < s.length, i + j + 1 = l.length ∧
      i = (l.length - 1) / 2 ∧ m = (s[i] + s[j]) / 2 := by
  obtain ⟨s, hp, hs⟩ := sorted_arrangement (l.map f)
  rw [median_eq_mid _ s hp hs, mid] at h
  have e := hp.length_eq
  rw [List.length_map] at e
  by_cases h0 : s.length = 0
  · rw [if_pos h0] at h; cases h
  · rw [if_neg h0] at h
    by_cases h1 : s.length % 2 = 1
    · rw [if_pos h1] at h
      injection h with h
      refine ⟨s, hp, hs, s.length / 2, s.length / 2, by omega, by omega, by omega, by omega, ?_⟩
      rw [← h, List.getD_eq_getElem _ _ (by omega)]
      ring
    · rw [if_neg h1] at h
      injection h with h
      refine ⟨s, hp, hs, s.length / 2 - 1, s.length / 2, by omega, by omega, by omega, by omega, ?_⟩
      rw [← h, List.getD_eq_getElem _ _ (by omega), List.getD_eq_getElem _ _ (by omega)]

theorem two_lt {α : Type*} (l : List α) (f g : α → ℝ) (c a b : ℝ) (h : ∀ x ∈ l, f x + g x < c) (ha : median (l.map f) = some a)
    (hb : median (l.map g) = some b) : a + b < c := by
  obtain ⟨s, hp, hs, i, j, hi, hj, hij, hii, rfl⟩ := median_cases l f a ha
  obtain ⟨t, hq, ht, i', j', hi', hj', hij', hii', rfl⟩ := median_cases l g b hb
  obtain rfl : i' = i := by omega
  obtain rfl : j' = j := by omega
  have k : ∀ u v (hu : u < s.length) (hv : v < t.length), u + v + 1 = l.length → s[u] + t[v] < c := by
    intro u v hu hv huv
    have h1 := count_ge l f s hp hs u hu
    have h2 := count_ge l g t hq ht v hv
    obtain ⟨x, hx, hx1, hx2⟩ := pick l _ _ (show l.length < l.countP (fun x => decide (s[u] ≤ f x)) + l.countP (fun x => decide (t[v] ≤ g x)) by omega)
    have := h x hx
    simp only [decide_eq_true_eq] at hx1 hx2
    linarith
  have k1 := k i' j' hi hj' hij
  have k2 := k j' i' hj hi' (by omega)
  linarith

theorem two_gt {α : Type*} (l : List α) (f g : α → ℝ) (c a b : ℝ) (h : ∀ x ∈ l, c < f x + g x) (ha : median (l.map f) = some a)
    (hb : median (l.map g) = some b) : c < a + b := by
  obtain ⟨s, hp, hs, i, j, hi, hj, hij, hii, rfl⟩ := median_cases l f a ha
  obtain ⟨t, hq, ht, i', j', hi', hj', hij', hii', rfl⟩ := median_cases l g b hb
  obtain rfl : i' = i := by omega
  obtain rfl : j' = j := by omega
  have k : ∀ u v (hu : u < s.length) (hv : v < t.length), u + v + 1 = l.length → c < s[u] + t[v] := by
    intro u v hu hv huv
    have h1 := count_le l f s hp hs u hu
    have h2 := count_le l g t hq ht v hv
    obtain ⟨x, hx, hx1, hx2⟩ := pick l _ _ (show l.length < l.countP (fun x => decide (f x ≤ s[u])) + l.countP (fun x => decide (g x ≤ t[v])) by omega)
    have := h x hx
    simp only [decide_eq_true_eq] at hx1 hx2
    linarith
  have k1 := k i' j' hi hj' hij
  have k2 := k j' i' hj hi' (by omega)
  linarith

/-- A strict bound of the difference of two columns holds for the medians. -/
theorem diff_lt {α : Type*} (l : List α) (f g : α → ℝ) (c a b : ℝ) (h : ∀ x ∈ l, f x < g x + c) (ha : median (l.map f) = some a)
    (hb : median (l.map g) = some b) : a < b + c := by
  obtain ⟨s, hp, hs, i, j, hi, hj, hij, hii, rfl⟩ := median_cases l f a ha
  obtain ⟨t, hq, ht, i', j', hi', hj', hij', hii', rfl⟩ := median_cases l g b hb
  obtain rfl : i' = i := by omega
  obtain rfl : j' = j := by omega
  have k : ∀ u (hu : u < s.length) (hv : u < t.length), s[u] < t[u] + c := by
    intro u hu hv
    have h1 := count_ge l f s hp hs u hu
    have h2 := count_le l g t hq ht u hv
    obtain ⟨x, hx, hx1, hx2⟩ := pick l _ _ (show l.length < l.countP (fun x => decide (s[u] ≤ f x)) + l.countP (fun x => decide (g x ≤ t[u])) by omega)
    have := h x hx
    simp only [decide_eq_true_eq] at hx1 hx2
    linarith
  have k1 := k i' hi hi'
  have k2 := k j' hj hj'
  linarith

theorem median_within {α : Type*} (l : List α) (f : α → ℝ) (u v a : ℝ) (h : ∀ x ∈ l, u ≤ f x ∧ f x ≤ v) (ha : median (l.map f) = some a) :
    u ≤ a ∧ a ≤ v := by
  obtain ⟨s, hp, hs, i, j, hi, hj, -, -, rfl⟩ := median_cases l f a ha
  have k : ∀ m (hm : m < s.length), u ≤ s[m] ∧ s[m] ≤ v := by
    intro m hm
    obtain ⟨x, hx, hxe⟩ := List.mem_map.1 (hp.mem_iff.1 (List.getElem_mem hm))
    rw [← hxe]
    exact h x hx
  have k1 := k i hi
  have k2 := k j hj
  constructor <;> linarith [k1.1, k1.2, k2.1, k2.2]

theorem median_some {α : Type*} (l : List α) (hl : l ≠ []) (f : α → ℝ) : ∃ m, median (l.map f) = some m := by
  cases h : median (l.map f) with
  | some m => exact ⟨m, rfl⟩
  | none =>
    rw [median_none_iff] at h
    exact absurd (List.map_eq_nil_iff.1 h) hl

/-- The reported angle of samples from 0 to 180 is such an angle. -/
theorem angle_within {α : Type*} (l : List α) (f : α → ℝ) (a : ℝ) (h : ∀ x ∈ l, 0 ≤ f x ∧ f x ≤ 180) (ha : angleFit (l.map f) = some a) :
    0 ≤ a ∧ a ≤ 180 := by
  unfold angleFit at ha
  cases hm : median (l.map f) with
  | none => rw [hm] at ha; cases ha
  | some m =>
    rw [hm, Option.bind_some] at ha
    by_cases hc : m < 45 ∨ 135 ≤ m
    · rw [if_pos hc, List.map_map] at ha
      cases hm' : median (l.map (rotSample ∘ f)) with
      | none => rw [hm'] at ha; cases ha
      | some m' =>
        rw [hm', Option.map_some] at ha
        injection ha with ha
        have := median_within l (rotSample ∘ f) 0 180 m' (fun x hx => by
          have := h x hx
          show 0 ≤ rotSample (f x) ∧ rotSample (f x) ≤ 180
          unfold rotSample
          split_ifs <;> constructor <;> linarith [this.1, this.2]) hm'
        dsimp only at ha
        split_ifs at ha <;> constructor <;> linarith [this.1, this.2]
    · rw [if_neg hc] at ha
      injection ha with ha
      push Not at hc
      constructor <;> linarith [hc.1, hc.2]

/-! ## C268 -/

theorem filter_all (b : Bounds) : (parsOf b).filter Par.isFree = parsOf b := by
  rw [List.filter_eq_self]
  intro p hp
  obtain ⟨x, -, rfl⟩ := List.mem_map.1 hp
  rfl

theorem samples_eq (b : Bounds) (S : List Dict) (i : ℕ) (hi : i < b.length) : samplesOf (parsOf b) (colsOf b S) i = S.map fun s => s (b[i]).1 := by
  have : freePos (parsOf b) i = i := by
    unfold freePos
    have : ((parsOf b).take i).filter Par.isFree = (parsOf b).take i := by
      rw [List.filter_eq_self]
      intro p hp
      obtain ⟨x, -, rfl⟩ := List.mem_map.1 (List.mem_of_mem_take hp)
      rfl
    rw [this, List.length_take]
    simp only [parsOf, List.length_map]
    omega
  unfold samplesOf
  rw [this, List.getD_eq_getElem _ _ (by simpa [colsOf] using hi)]
  simp [colsOf]

/-- What is reported of a model all of whose names differ: of every parameter the median of its samples, of angles as in C91. -/
theorem fit_values (b : Bounds) (hn : (b.map Prod.fst).Nodup) (S : List Dict) (hS : S ≠ []) :
    ∃ d, fitRun b S = some d ∧ ∀ x ∈ b,
      (x.2 = (0, 180) ∧ angleFit (S.map fun s => s x.1) = some (d x.1)) ∨ median (S.map fun s => s x.1) = some (d x.1) := by
  obtain ⟨new, h1, h2⟩ := fixed_partial (parsOf b) (colsOf b S) (by rw [filter_all]; simp [parsOf, colsOf]) (by
    intro i j p q _ hp _ _
    obtain ⟨x, -, rfl⟩ := List.mem_map.1 (List.mem_of_getElem? hp)
    rfl)
  unfold fitRun
  rw [h1]
  refine ⟨_, rfl, fun x hx => ?_⟩
  obtain ⟨i, hi, rfl⟩ := List.getElem_of_mem hx
  have hi' : i < (parsOf b).length := by simpa [parsOf] using hi
  have hg : (parsOf b)[i] = ⟨(b[i]).1, .free (b[i]).2.1 (b[i]).2.2 (decide ((b[i]).1.toList.take 3 = ['p', 's', 'i']))⟩ := by simp [parsOf]
  have hf : (parsOf b).findIdx? (fun p => decide (p.name = (b[i]).1)) = some i := by
    rw [List.findIdx?_eq_some_iff_getElem]
    refine ⟨hi', by rw [hg]; simp, fun j hj => ?_⟩
    have hj' : j < b.length := by omega
    have : (parsOf b)[j].name = (b[j]).1 := by simp [parsOf]
    rw [this]
    simp only [decide_eq_true_eq]
    intro he
    have := hn.getElem_inj_iff (i := j) (j := i) (hi := by simpa using hj') (hj := by simpa using hi)
    simp only [List.getElem_map] at this
    exact absurd (this.1 he) (by omega)
  obtain ⟨p, hp, hh⟩ := h2 i hi'
  rw [List.getElem?_eq_getElem hi', hg] at hp
  injection hp with hp
  subst hp
  dsimp only at hh
  rw [samples_eq b S i hi] at hh
  simp only [hf]
  obtain ⟨m, hm⟩ := median_some S hS fun s => s (b[i]).1
  by_cases ha : Par.isAngle ⟨(b[i]).1, .free (b[i]).2.1 (b[i]).2.2 (decide ((b[i]).1.toList.take 3 = ['p', 's', 'i']))⟩
  · left
    have hv := hh.1 ha
    obtain ⟨-, e0, e1, -⟩ := ha
    refine ⟨Prod.ext e0 e1, ?_⟩
    rw [hv]
    cases hA : angleFit (S.map fun s => s (b[i]).1) with
    | some v => rfl
    | none =>
      exfalso
      unfold angleFit at hA
      rw [hm, Option.bind_some] at hA
      by_cases hc : m < 45 ∨ 135 ≤ m
      · rw [if_pos hc, List.map_map] at hA
        obtain ⟨m', hm'⟩ := median_some S hS (rotSample ∘ fun s => s (b[i]).1)
        rw [hm'] at hA
        cases hA
      · rw [if_neg hc] at hA; cases hA
  · right
    rw [hh.2 ha, hm]
    rfl

/-- **C268**, bounds. The fit raises nothing, and the values it reports are within the bounds of the priors if the samples are. -/
theorem allowed_bounds (b : Bounds) (hn : (b.map Prod.fst).Nodup) (S : List Dict) (hS : S ≠ []) (hw : ∀ s ∈ S, Within b s) :
    ∃ d, fitRun b S = some d ∧ Within b d := by
  obtain ⟨d, h1, h2⟩ := fit_values b hn S hS
  refine ⟨d, h1, fun x hx => ?_⟩
  rcases h2 x hx with ⟨e, ha⟩ | hm
  · have := angle_within S (fun s => s x.1) _ (fun s hs => by have := hw s hs x hx; rw [e] at this; exact this) ha
    rw [e]
    exact this
  · exact median_within S (fun s => s x.1) _ _ _ (fun s hs => hw s hs x hx) hm

/-- A parameter that is no angle is reported as the median of its samples. -/
theorem not_angle (b : Bounds) (S : List Dict) (d : Dict) (h : ∀ x ∈ b, (x.2 = (0, 180) ∧ angleFit (S.map fun s => s x.1) = some (d x.1)) ∨
    median (S.map fun s => s x.1) = some (d x.1)) (k : String) (lo hi : ℝ) (hk : (k, lo, hi) ∈ b) (hne : lo ≠ 0 ∨ hi ≠ 180) :
    median (S.map fun s => s k) = some (d k) := by
  rcases h _ hk with ⟨e, -⟩ | hm
  · have e1 : lo = 0 := congrArg Prod.fst e
    have e2 : hi = 180 := congrArg Prod.snd e
    rcases hne with hne | hne
    · exact absurd e1 hne
    · exact absurd e2 hne
  · exact hm

/-- **C268**, models with two components. The reported values are within the bounds *and* the constraints, so that the reported model is less than
fully polarised at all wavelengths. -/
theorem allowed_two (b : Bounds) (hn : (b.map Prod.fst).Nodup) (hb : ∀ x ∈ boundsTwo, x ∈ b) (S : List Dict) (hS : S ≠ [])
    (hw : ∀ s ∈ S, Within b s ∧ constraintTwo s) :
    ∃ d, fitRun b S = some d ∧ Within b d ∧ constraintTwo d ∧
      ∀ l z, m3 d l = some z ∨ m4 d l = some z ∨ m6 d l = some z ∨ m11 d l = some z → ‖z‖ < 1 := by
  obtain ⟨d, h1, h2⟩ := fit_values b hn S hS
  obtain ⟨d', h1', hwd⟩ := allowed_bounds b hn S hS fun s hs => (hw s hs).1
  rw [h1] at h1'
  injection h1' with h1'
  subst h1'
  have p1 := not_angle b S d h2 "fracPol1" 0 1 (hb _ (by simp [boundsTwo])) (by norm_num)
  have p2 := not_angle b S d h2 "fracPol2" 0 1 (hb _ (by simp [boundsTwo])) (by norm_num)
  have r1 := not_angle b S d h2 "RM1_radm2" (-1100) 1100 (hb _ (by simp [boundsTwo])) (by norm_num)
  have r2 := not_angle b S d h2 "RM2_radm2" (-1100) 1100 (hb _ (by simp [boundsTwo])) (by norm_num)
  have hc : constraintTwo d := by
    refine ⟨?_, ?_, ?_, ?_⟩
    · have := diff_lt S _ _ 0 _ _ (fun s hs => by linarith [(hw s hs).2.1]) r2 r1
      linarith
    · have := diff_lt S _ _ 2200 _ _ (fun s hs => by linarith [(hw s hs).2.2.1]) r1 r2
      linarith
    · exact two_gt S _ _ 0 _ _ (fun s hs => (hw s hs).2.2.2.1) p1 p2
    · exact two_lt S _ _ 1 _ _ (fun s hs => (hw s hs).2.2.2.2) p1 p2
  exact ⟨d, h1, hwd, hc, fun l z hz => (bound_prior d l z).2.2.1 (fun x hx => hwd x (hb x hx)) hc hz⟩

theorem nodup_111 : (bounds111.map Prod.fst).Nodup := by
  simp [bounds111, boundsTwo]

/-- **C268 (partial)**, model with three components. The reported values are within the bounds, and the components are ordered by RM. What is missing:
the fractions sum to less than 3/2 only. -/
theorem allowed_three_partial (S : List Dict) (hS : S ≠ []) (hw : ∀ s ∈ S, Within bounds111 s ∧ constraintThree s) :
    ∃ d, fitRun bounds111 S = some d ∧ Within bounds111 d ∧
      0 < d "RM1_radm2" - d "RM2_radm2" ∧ d "RM1_radm2" - d "RM2_radm2" < 2200 ∧
      0 < d "RM2_radm2" - d "RM3_radm2" ∧ d "RM2_radm2" - d "RM3_radm2" < 2200 ∧
      d "fracPol1" + d "fracPol2" + d "fracPol3" < 3 / 2 := by
  obtain ⟨d, h1, h2⟩ := fit_values bounds111 nodup_111 S hS
  obtain ⟨d', h1', hwd⟩ := allowed_bounds bounds111 nodup_111 S hS fun s hs => (hw s hs).1
  rw [h1] at h1'
  injection h1' with h1'
  subst h1'
  have p1 := not_angle _ S d h2 "fracPol1" 0 1 (by simp [bounds111, boundsTwo]) (by norm_num)
  have p2 := not_angle _ S d h2 "fracPol2" 0 1 (by simp [bounds111, boundsTwo]) (by norm_num)
  have p3 := not_angle _ S d h2 "fracPol3" 0 1 (by simp [bounds111, boundsTwo]) (by norm_num)
  have r1 := not_angle _ S d h2 "RM1_radm2" (-1100) 1100 (by simp [bounds111, boundsTwo]) (by norm_num)
  have r2 := not_angle _ S d h2 "RM2_radm2" (-1100) 1100 (by simp [bounds111, boundsTwo]) (by norm_num)
  have r3 := not_angle _ S d h2 "RM3_radm2" (-1100) 1100 (by simp [bounds111, boundsTwo]) (by norm_num)
  have w : ∀ s ∈ S, 0 ≤ s "fracPol1" ∧ 0 ≤ s "fracPol2" ∧ 0 ≤ s "fracPol3" := fun s hs =>
    ⟨((hw s hs).1 ("fracPol1", 0, 1) (by simp [bounds111, boundsTwo])).1, ((hw s hs).1 ("fracPol2", 0, 1) (by simp [bounds111, boundsTwo])).1,
      ((hw s hs).1 ("fracPol3", 0, 1) (by simp [bounds111, boundsTwo])).1⟩
  refine ⟨d, h1, hwd, ?_, ?_, ?_, ?_, ?_⟩
  · have := diff_lt S _ _ 0 _ _ (fun s hs => by linarith [(hw s hs).2.1]) r2 r1
    linarith
  · have := diff_lt S _ _ 2200 _ _ (fun s hs => by linarith [(hw s hs).2.2.1]) r1 r2
    linarith
  · have := diff_lt S _ _ 0 _ _ (fun s hs => by linarith [(hw s hs).2.2.2.1]) r3 r2
    linarith
  · have := diff_lt S _ _ 2200 _ _ (fun s hs => by linarith [(hw s hs).2.2.2.2.1]) r2 r3
    linarith
  · have k1 := two_lt S _ _ 1 _ _ (fun s hs => by linarith [(hw s hs).2.2.2.2.2.2, (w s hs).2.2]) p1 p2
    have k2 := two_lt S _ _ 1 _ _ (fun s hs => by linarith [(hw s hs).2.2.2.2.2.2, (w s hs).1]) p2 p3
    have k3 := two_lt S _ _ 1 _ _ (fun s hs => by linarith [(hw s hs).2.2.2.2.2.2, (w s hs).2.1]) p1 p3
    linarith

/-- A sample of the model with three components at angle 0 and RMs 2, 1 and 0, with fractions `p q r`. -/
noncomputable def sample3 (p q r : ℝ) : Dict := fun k =>
  if k = "fracPol1" then p else if k = "fracPol2" then q else if k = "fracPol3" then r else
    if k = "RM1_radm2" then 2 else if k = "RM2_radm2" then 1 else 0

/-- Three samples, each with 98 % of polarisation in two of the components. -/
noncomputable def samples3 : List Dict := [sample3 0.49 0.49 0, sample3 0.49 0 0.49, sample3 0 0.49 0.49]

theorem samples3_ok : ∀ s ∈ samples3, Within bounds111 s ∧ constraintThree s := by
  have k : ∀ p q r : ℝ, 0 ≤ p → 0 ≤ q → 0 ≤ r → 0 < p + q + r → p + q + r < 1 → Within bounds111 (sample3 p q r) ∧ constraintThree (sample3 p q r) := by
    intro p q r hp hq hr h0 h1
    constructor
    · intro x hx
      simp only [bounds111, boundsTwo, List.cons_append, List.nil_append, List.mem_cons, List.not_mem_nil, or_false] at hx
      rcases hx with rfl | rfl | rfl | rfl | rfl | rfl | rfl | rfl | rfl <;> simp [sample3] <;> norm_num <;> (try constructor) <;> linarith
    · simp [constraintThree, sample3]
      norm_num
      exact ⟨h0, h1⟩
  intro s hs
  simp only [samples3, List.mem_cons, List.not_mem_nil, or_false] at hs
  rcases hs with rfl | rfl | rfl <;> apply k <;> norm_num

theorem med3 (a b c : ℝ) (s : List ℝ) (hp : s.Perm [a, b, c]) (hs : s.Pairwise (· ≤ ·)) : median [a, b, c] = some (s.getD 1 0) := by
  have := hp.length_eq
  simp only [List.length_cons, List.length_nil] at this
  rw [median_eq_mid _ s hp hs, mid, this]
  norm_num

/-- **C268 is false** of the model with three components: all samples are allowed, and the reported fractions sum to 147 %, so that the reported
model is polarised by more than 100 % (here at the wavelength squared π). -/
theorem allowed_three_wrong : ∃ S, S ≠ [] ∧ (∀ s ∈ S, Within bounds111 s ∧ constraintThree s) ∧
    ∃ d, fitRun bounds111 S = some d ∧ ¬constraintThree d ∧ ∃ l z, 0 < l ∧ m111 d l = some z ∧ 1 < ‖z‖ := by
  refine ⟨samples3, by simp [samples3], samples3_ok, ?_⟩
  obtain ⟨d, h1, h2⟩ := fit_values bounds111 nodup_111 samples3 (by simp [samples3])
  have p1 := not_angle _ _ d h2 "fracPol1" 0 1 (by simp [bounds111, boundsTwo]) (by norm_num)
  have p2 := not_angle _ _ d h2 "fracPol2" 0 1 (by simp [bounds111, boundsTwo]) (by norm_num)
  have p3 := not_angle _ _ d h2 "fracPol3" 0 1 (by simp [bounds111, boundsTwo]) (by norm_num)
  have r1 := not_angle _ _ d h2 "RM1_radm2" (-1100) 1100 (by simp [bounds111, boundsTwo]) (by norm_num)
  have r2 := not_angle _ _ d h2 "RM2_radm2" (-1100) 1100 (by simp [bounds111, boundsTwo]) (by norm_num)
  have r3 := not_angle _ _ d h2 "RM3_radm2" (-1100) 1100 (by simp [bounds111, boundsTwo]) (by norm_num)
  simp only [samples3, List.map_cons, List.map_nil, sample3, String.reduceEq, if_true, if_false] at p1 p2 p3 r1 r2 r3
  rw [med3 _ _ _ [0, 0.49, 0.49] ((List.perm_append_comm (l₁ := [(0 : ℝ)]) (l₂ := [0.49, 0.49])).trans (List.Perm.refl _)) (by norm_num)] at p1
  rw [med3 _ _ _ [0, 0.49, 0.49] (List.Perm.swap _ _ _) (by norm_num)] at p2
  rw [med3 _ _ _ [0, 0.49, 0.49] (List.Perm.refl _) (by norm_num)] at p3
  rw [med3 _ _ _ [2, 2, 2] (List.Perm.refl _) (by norm_num)] at r1
  rw [med3 _ _ _ [1, 1, 1] (List.Perm.refl _) (by norm_num)] at r2
  rw [med3 _ _ _ [0, 0, 0] (List.Perm.refl _) (by norm_num)] at r3
  simp only [List.getD_cons_succ, List.getD_cons_zero, Option.some.injEq] at p1 p2 p3 r1 r2 r3
  have m0 : median [(0 : ℝ), 0, 0] = some 0 := by
    rw [med3 _ _ _ [0, 0, 0] (List.Perm.refl _) (by norm_num)]
    rfl
  have a0 : angleFit [(0 : ℝ), 0, 0] = some 0 := by
    unfold angleFit
    have e : rotSample 0 = 90 := by unfold rotSample; norm_num
    rw [m0, Option.bind_some, if_pos (by norm_num), List.map_cons, List.map_cons, List.map_cons, List.map_nil, e,
      med3 _ _ _ [90, 90, 90] (List.Perm.refl _) (by norm_num)]
    norm_num
  have psi : ∀ k, (k, (0 : ℝ), (180 : ℝ)) ∈ bounds111 → (samples3.map fun s => s k) = [0, 0, 0] → d k = 0 := by
    intro k hk hc
    have := h2 _ hk
    dsimp only at this
    rw [hc, a0, m0] at this
    rcases this with ⟨-, h⟩ | h <;> exact (Option.some.inj h).symm
  have q1 := psi "psi01_deg" (by simp [bounds111, boundsTwo]) (by simp [samples3, sample3])
  have q2 := psi "psi02_deg" (by simp [bounds111, boundsTwo]) (by simp [samples3, sample3])
  have q3 := psi "psi03_deg" (by simp [bounds111, boundsTwo]) (by simp [samples3, sample3])
  refine ⟨d, h1, ?_, Real.pi, ((1.47 : ℝ) : ℂ), Real.pi_pos, ?_, ?_⟩
  · rintro ⟨-, -, -, -, -, h⟩
    rw [← p1, ← p2, ← p3] at h
    norm_num at h
  · have e2 : rot 0 2 Real.pi = 1 := by
      unfold rot radians
      rw [Complex.exp_eq_one_iff]
      exact ⟨2, by push_cast; ring⟩
    have e1 : rot 0 1 Real.pi = 1 := by
      unfold rot radians
      rw [Complex.exp_eq_one_iff]
      exact ⟨1, by push_cast; ring⟩
    have e0 : rot 0 0 Real.pi = 1 := by
      unfold rot radians
      simp
    unfold m111
    rw [← p1, ← p2, ← p3, ← r1, ← r2, ← r3, q1, q2, q3, e0, e1, e2]
    push_cast
    norm_num
  · rw [Complex.norm_real]
    norm_num

/-- C268: the hypotheses are met, e.g. by two samples of the model with two thin components. -/
theorem allowed_two_case : ∃ S : List Dict, S.length = 2 ∧ (∀ s ∈ S, Within bounds11 s ∧ constraintTwo s) ∧
    (bounds11.map Prod.fst).Nodup ∧ ∀ x ∈ boundsTwo, x ∈ bounds11 := by
  refine ⟨[sample3 0.9 0.05 0, sample3 0.1 0.8 0], rfl, ?_, by simp [bounds11, boundsTwo], fun x hx => hx⟩
  intro s hs
  simp only [List.mem_cons, List.not_mem_nil, or_false] at hs
  constructor
  · intro x hx
    simp only [bounds11, boundsTwo, List.mem_cons, List.not_mem_nil, or_false] at hx
    rcases hs with rfl | rfl <;> rcases hx with rfl | rfl | rfl | rfl | rfl | rfl <;> simp [sample3] <;> norm_num
  · rcases hs with rfl | rfl <;> simp [constraintTwo, sample3] <;> norm_num

/-- **C268**, the other models: one component, at most fully polarised (60 % for `m12`). -/
theorem allowed_one (S : List Dict) (hS : S ≠ []) :
    (∀ b ∈ [bounds1, bounds2, bounds5, bounds7], (∀ s ∈ S, Within b s) → ∃ d, fitRun b S = some d ∧ Within b d ∧
      ∀ l z, m1 d l = some z ∨ m2 d l = some z ∨ m5 d l = some z ∨ m7 d l = some z → ‖z‖ ≤ 1) ∧
    ((∀ s ∈ S, Within bounds12 s) → ∃ d, fitRun bounds12 S = some d ∧ Within bounds12 d ∧ ∀ l z, m12 d l = some z → ‖z‖ ≤ 0.6) := by
  constructor
  · intro b hb hw
    have hn : (b.map Prod.fst).Nodup ∧ ∀ x ∈ bounds1, x ∈ b := by
      simp only [List.mem_cons, List.not_mem_nil, or_false] at hb
      rcases hb with rfl | rfl | rfl | rfl
      · exact ⟨by simp [bounds1], fun x hx => hx⟩
      · exact ⟨by simp [bounds2, bounds1], fun x hx => List.mem_append_left _ hx⟩
      · exact ⟨by simp [bounds5, bounds1], fun x hx => List.mem_append_left _ hx⟩
      · exact ⟨by simp [bounds7, bounds1], fun x hx => List.mem_append_left _ hx⟩
    obtain ⟨d, h1, h2⟩ := allowed_bounds b hn.1 S hS hw
    exact ⟨d, h1, h2, fun l z hz => (bound_prior d l z).1 (fun x hx => h2 x (hn.2 x hx)) hz⟩
  · intro hw
    obtain ⟨d, h1, h2⟩ := allowed_bounds bounds12 (by simp [bounds12]) S hS hw
    exact ⟨d, h1, h2, fun l z hz => (bound_prior d l z).2.1 h2 hz⟩

end Verif.QU.Allowed
