import Verif.ICube.Noise
import Verif.QU.Fit

/-!
# The limits of the panel of fractional polarisation (C295)

Source: `/repo/RMutils/util_plotTk.py` 434-594 (`plot_pqu_vs_lamsq_ax`), `/repo/RMutils/util_misc.py` 999-1004 (`nanmedian`). NaN is `none`.
-/

namespace Verif.Figures

open Verif.Stats

/-- One channel of the panel: wavelength squared, `q`, `u` and their errors. Every caller (`util_plotTk.py` 1540, 1656, 1797, `util_RM.py` 1946) gives
the errors and leaves `pArr` and `dpArr` to the function. -/
structure Pt where
  lam : ℝ
  q : Option ℝ
  u : Option ℝ
  dq : Option ℝ
  du : Option ℝ

/-- `np.sqrt(a**2.0 + b**2.0)`, NaN if one of both is. -/
noncomputable def hypot (a b : Option ℝ) : Option ℝ := a.bind fun x => b.map fun y => Real.sqrt (x ^ 2 + y ^ 2)

/-- `pArr`, lines 463-465. -/
noncomputable def Pt.p (c : Pt) : Option ℝ := hypot c.q c.u

/-- `dpArr`, lines 466-471. -/
noncomputable def Pt.dp (c : Pt) : Option ℝ := hypot c.dq c.du

/-- `np.nanmax`; NaN for an array without numbers. -/
noncomputable def top (l : List (Option ℝ)) : Option ℝ := (unmasked l).max?

/-- `np.nanmin`. -/
noncomputable def bottom (l : List (Option ℝ)) : Option ℝ := (unmasked l).min?

/-- Python's `max(a, b)` of floats: `b` only if it is greater, and a comparison with NaN is false. -/
noncomputable def pyMax (a b : Option ℝ) : Option ℝ :=
  match a, b with
  | some x, some y => if x < y then some y else some x
  | a, _ => a

/-- Python's `min(a, b)`. -/
noncomputable def pyMin (a b : Option ℝ) : Option ℝ :=
  match a, b with
  | some x, some y => if y < x then some y else some x
  | a, _ => a

/-- `float(nanmedian(a))`: NaN for an array without numbers. -/
noncomputable def nanMed (l : List (Option ℝ)) : Option ℝ := median (unmasked l)

/-- `np.max` of an array of three numbers: NaN if one is. -/
noncomputable def max3 (a b c : Option ℝ) : Option ℝ := a.bind fun x => b.bind fun y => c.map fun z => max (max x y) z

/-- `medErrBar`, lines 581-583. -/
noncomputable def medErr (l : List Pt) : Option ℝ := max3 (nanMed (l.map Pt.dp)) (nanMed (l.map Pt.dq)) (nanMed (l.map Pt.du))

/-- `yDataMax`, line 578. -/
noncomputable def dataMax (l : List Pt) : Option ℝ := pyMax (pyMax (top (l.map Pt.p)) (top (l.map Pt.q))) (top (l.map Pt.u))

/-- `yDataMin`, line 579. -/
noncomputable def dataMin (l : List Pt) : Option ℝ := pyMin (pyMin (bottom (l.map Pt.p)) (bottom (l.map Pt.q))) (bottom (l.map Pt.u))

/-- Limits of a panel. -/
structure Box where
  left : ℝ
  right : ℝ
  low : ℝ
  high : ℝ

/-- Lines 574-587. `none`: `ValueError`, for an empty array (`np.nanmax`) or NaN limits (`set_ylim`). -/
noncomputable def panel (l : List Pt) : Option Box :=
  (l.map Pt.lam).max?.bind fun x1 => (l.map Pt.lam).min?.bind fun x0 =>
  (dataMax l).bind fun y1 => (dataMin l).bind fun y0 => (medErr l).map fun e =>
    { left := x0 - (x1 - x0) * 0.05
      right := x1 + (x1 - x0) * 0.05
      low := y0 - 2 * e - (y1 - y0) * 0.05
      high := y1 + 2 * e + (y1 - y0) * 0.1 }

/-! ## Specification -/

/-- What is drawn for a channel: three points with their error bars. -/
noncomputable def Pt.drawn (c : Pt) : List (Option ℝ × Option ℝ) := [(c.q, c.dq), (c.u, c.du), (c.p, c.dp)]

/-! ## Helper lemmas -/

theorem le_top {l : List (Option ℝ)} {v t : ℝ} (h : some v ∈ l) (ht : top l = some t) : v ≤ t := by
  unfold top at ht
  rw [List.max?_eq_some_iff] at ht
  exact ht.2 v (List.mem_filterMap.mpr ⟨some v, h, rfl⟩)

theorem bottom_le {l : List (Option ℝ)} {v t : ℝ} (h : some v ∈ l) (ht : bottom l = some t) : t ≤ v := by
  unfold bottom at ht
  rw [List.min?_eq_some_iff] at ht
  exact ht.2 v (List.mem_filterMap.mpr ⟨some v, h, rfl⟩)

theorem unmasked_ne {l : List (Option ℝ)} : unmasked l ≠ [] ↔ ∃ v : ℝ, some v ∈ l := by
  rw [ne_eq, List.eq_nil_iff_forall_not_mem]
  push Not
  refine exists_congr fun v => ?_
  unfold unmasked
  rw [List.mem_filterMap]
  exact ⟨fun ⟨a, h1, h2⟩ => by rw [← show a = some v from h2]; exact h1, fun h => ⟨_, h, rfl⟩⟩

theorem top_some {l : List (Option ℝ)} : (top l).isSome ↔ ∃ v : ℝ, some v ∈ l := by
  rw [← unmasked_ne]
  unfold top
  cases h : unmasked l <;> simp

theorem bottom_some {l : List (Option ℝ)} : (bottom l).isSome ↔ ∃ v : ℝ, some v ∈ l := by
  rw [← unmasked_ne]
  unfold bottom
  cases h : unmasked l <;> simp

theorem nanMed_some {l : List (Option ℝ)} : (nanMed l).isSome ↔ ∃ v : ℝ, some v ∈ l := by
  rw [← unmasked_ne]
  unfold nanMed
  rw [Option.isSome_iff_ne_none, ne_eq, median_none_iff]

theorem pyMax_some {a b : Option ℝ} : (pyMax a b).isSome ↔ a.isSome := by
  cases a <;> cases b <;> simp [pyMax]
  split_ifs <;> rfl

theorem pyMin_some {a b : Option ℝ} : (pyMin a b).isSome ↔ a.isSome := by
  cases a <;> cases b <;> simp [pyMin]
  split_ifs <;> rfl

theorem pyMax_ge {a b : Option ℝ} {t : ℝ} (h : pyMax a b = some t) : (∀ x, a = some x → x ≤ t) ∧ (∀ y, b = some y → y ≤ t) := by
  cases a with
  | none => cases b <;> simp [pyMax] at h
  | some x =>
    cases b with
    | none =>
      obtain rfl := Option.some.inj h
      exact ⟨fun _ e => (Option.some.inj e).ge, fun _ e => by cases e⟩
    | some y =>
      unfold pyMax at h
      dsimp only at h
      split_ifs at h with hlt <;> obtain rfl := Option.some.inj h
      · exact ⟨fun _ e => by rw [← Option.some.inj e]; exact hlt.le, fun _ e => (Option.some.inj e).ge⟩
      · exact ⟨fun _ e => (Option.some.inj e).ge, fun _ e => by rw [← Option.some.inj e]; exact not_lt.mp hlt⟩

theorem pyMin_le {a b : Option ℝ} {t : ℝ} (h : pyMin a b = some t) : (∀ x, a = some x → t ≤ x) ∧ (∀ y, b = some y → t ≤ y) := by
  cases a with
  | none => cases b <;> simp [pyMin] at h
  | some x =>
    cases b with
    | none =>
      obtain rfl := Option.some.inj h
      exact ⟨fun _ e => (Option.some.inj e).le, fun _ e => by cases e⟩
    | some y =>
      unfold pyMin at h
      dsimp only at h
      split_ifs at h with hlt <;> obtain rfl := Option.some.inj h
      · exact ⟨fun _ e => by rw [← Option.some.inj e]; exact hlt.le, fun _ e => (Option.some.inj e).le⟩
      · exact ⟨fun _ e => (Option.some.inj e).le, fun _ e => by rw [← Option.some.inj e]; exact not_lt.mp hlt⟩

theorem p_exists {l : List Pt} : (∃ v : ℝ, some v ∈ l.map Pt.p) ↔ ∃ c ∈ l, c.q.isSome ∧ c.u.isSome := by
  simp only [List.mem_map]
  constructor
  · rintro ⟨v, c, hc, h⟩
    refine ⟨c, hc, ?_⟩
    unfold Pt.p hypot at h
    cases hq : c.q <;> cases hu : c.u <;> simp [hq, hu] at h ⊢
  · rintro ⟨c, hc, h1, h2⟩
    obtain ⟨a, ha⟩ := Option.isSome_iff_exists.mp h1
    obtain ⟨b, hb⟩ := Option.isSome_iff_exists.mp h2
    exact ⟨Real.sqrt (a ^ 2 + b ^ 2), c, hc, by simp [Pt.p, hypot, ha, hb]⟩

theorem dp_exists {l : List Pt} : (∃ v : ℝ, some v ∈ l.map Pt.dp) ↔ ∃ c ∈ l, c.dq.isSome ∧ c.du.isSome := by
  simp only [List.mem_map]
  constructor
  · rintro ⟨v, c, hc, h⟩
    refine ⟨c, hc, ?_⟩
    unfold Pt.dp hypot at h
    cases hq : c.dq <;> cases hu : c.du <;> simp [hq, hu] at h ⊢
  · rintro ⟨c, hc, h1, h2⟩
    obtain ⟨a, ha⟩ := Option.isSome_iff_exists.mp h1
    obtain ⟨b, hb⟩ := Option.isSome_iff_exists.mp h2
    exact ⟨Real.sqrt (a ^ 2 + b ^ 2), c, hc, by simp [Pt.dp, hypot, ha, hb]⟩

theorem max3_some {a b c : Option ℝ} : (max3 a b c).isSome ↔ a.isSome ∧ b.isSome ∧ c.isSome := by
  cases a <;> cases b <;> cases c <;> simp [max3]

/-! ## C295 -/

/-- The panel can be drawn if and only if one channel has both `q` and `u`, and one has both errors. -/
theorem panel_drawn (l : List Pt) : (panel l).isSome ↔ (∃ c ∈ l, c.q.isSome ∧ c.u.isSome) ∧ ∃ c ∈ l, c.dq.isSome ∧ c.du.isSome := by
  have hM : (dataMax l).isSome ↔ ∃ c ∈ l, c.q.isSome ∧ c.u.isSome := by
    unfold dataMax
    rw [pyMax_some, pyMax_some, top_some, p_exists]
  have hm : (dataMin l).isSome ↔ ∃ c ∈ l, c.q.isSome ∧ c.u.isSome := by
    unfold dataMin
    rw [pyMin_some, pyMin_some, bottom_some, p_exists]
  have he : (medErr l).isSome ↔ ∃ c ∈ l, c.dq.isSome ∧ c.du.isSome := by
    unfold medErr
    rw [max3_some, nanMed_some, nanMed_some, nanMed_some, dp_exists]
    constructor
    · exact fun h => h.1
    · rintro ⟨c, hc, h1, h2⟩
      obtain ⟨a, ha⟩ := Option.isSome_iff_exists.mp h1
      obtain ⟨b, hb⟩ := Option.isSome_iff_exists.mp h2
      exact ⟨⟨c, hc, h1, h2⟩, ⟨a, List.mem_map.mpr ⟨c, hc, ha⟩⟩, ⟨b, List.mem_map.mpr ⟨c, hc, hb⟩⟩⟩
  rw [← hM, ← he]
  unfold panel
  constructor
  · intro h
    rw [Option.isSome_iff_exists] at h
    obtain ⟨b, h⟩ := h
    obtain ⟨x1, -, h⟩ := Option.bind_eq_some_iff.mp h
    obtain ⟨x0, -, h⟩ := Option.bind_eq_some_iff.mp h
    obtain ⟨y1, h1, h⟩ := Option.bind_eq_some_iff.mp h
    obtain ⟨y0, -, h⟩ := Option.bind_eq_some_iff.mp h
    obtain ⟨e, h2, -⟩ := Option.map_eq_some_iff.mp h
    exact ⟨by rw [h1]; rfl, by rw [h2]; rfl⟩
  · rintro ⟨h1, h2⟩
    have h3 := hm.2 (hM.1 h1)
    obtain ⟨c, hc, -⟩ := hM.1 h1
    have hne : l.map Pt.lam ≠ [] := by
      intro h
      rw [List.map_eq_nil_iff] at h
      rw [h] at hc
      cases hc
    obtain ⟨y1, h1⟩ := Option.isSome_iff_exists.mp h1
    obtain ⟨e, h2⟩ := Option.isSome_iff_exists.mp h2
    obtain ⟨y0, h3⟩ := Option.isSome_iff_exists.mp h3
    rw [h1, h2, h3]
    cases hl : l.map Pt.lam with
    | nil => exact absurd hl hne
    | cons a t => simp

/-- **C295, the part that holds.** All points of `q`, `u` and `p` lie inside the panel, and so do the error bars which are not longer than twice the
largest of the medians of the errors of `p`, `q` and `u`. -/
theorem panel_inside_partial (l : List Pt) (b : Box) (hb : panel l = some b) :
    ∃ E, medErr l = some E ∧ 0 ≤ E ∧ ∀ c ∈ l, b.left ≤ c.lam ∧ c.lam ≤ b.right ∧
      ∀ d ∈ c.drawn, ∀ v, d.1 = some v → b.low ≤ v ∧ v ≤ b.high ∧
        ∀ e, d.2 = some e → e ≤ 2 * E → b.low ≤ v - e ∧ v + e ≤ b.high := by
  unfold panel at hb
  obtain ⟨x1, hx1, hb⟩ := Option.bind_eq_some_iff.mp hb
  obtain ⟨x0, hx0, hb⟩ := Option.bind_eq_some_iff.mp hb
  obtain ⟨y1, hy1, hb⟩ := Option.bind_eq_some_iff.mp hb
  obtain ⟨y0, hy0, hb⟩ := Option.bind_eq_some_iff.mp hb
  obtain ⟨E, hE, rfl⟩ := Option.map_eq_some_iff.mp hb
  have hE0 : 0 ≤ E := by
    unfold medErr max3 at hE
    obtain ⟨a, h1, hE⟩ := Option.bind_eq_some_iff.mp hE
    obtain ⟨a', -, hE⟩ := Option.bind_eq_some_iff.mp hE
    obtain ⟨a'', -, rfl⟩ := Option.map_eq_some_iff.mp hE
    obtain ⟨s, hp, hs⟩ := sorted_arrangement (unmasked (l.map Pt.dp))
    have hnn : ∀ x ∈ unmasked (l.map Pt.dp), 0 ≤ x := by
      intro x hx
      obtain ⟨o, ho, hox⟩ := List.mem_filterMap.mp hx
      obtain ⟨c, -, rfl⟩ := List.mem_map.mp ho
      unfold Pt.dp hypot at hox
      obtain ⟨z, -, hz⟩ := Option.bind_eq_some_iff.mp hox
      obtain ⟨z', -, rfl⟩ := Option.map_eq_some_iff.mp hz
      exact Real.sqrt_nonneg _
    have hmed : 0 ≤ a := by
      unfold nanMed at h1
      rw [median_eq_mid _ s hp hs, mid] at h1
      have hget : ∀ i, 0 ≤ s.getD i 0 := by
        intro i
        by_cases hi : i < s.length
        · rw [List.getD_eq_getElem _ _ hi]
          exact hnn _ (hp.subset (List.getElem_mem hi))
        · rw [List.getD_eq_default _ _ (not_lt.mp hi)]
      split_ifs at h1 <;> obtain rfl := Option.some.inj h1
      · exact hget _
      · have := hget (s.length / 2 - 1)
        have := hget (s.length / 2)
        positivity
    exact le_trans hmed ((le_max_left _ _).trans (le_max_left _ _))
  rw [List.max?_eq_some_iff] at hx1
  rw [List.min?_eq_some_iff] at hx0
  have hrange : ∀ c ∈ l, ∀ v : ℝ, (c.q = some v ∨ c.u = some v ∨ c.p = some v) → y0 ≤ v ∧ v ≤ y1 := by
    intro c hc v hv
    unfold dataMax at hy1
    unfold dataMin at hy0
    obtain ⟨m1, m2⟩ := pyMax_ge hy1
    obtain ⟨n1, n2⟩ := pyMin_le hy0
    have hpq1 : (pyMax (top (l.map Pt.p)) (top (l.map Pt.q))).isSome := by
      rw [← pyMax_some (b := top (l.map Pt.u)), hy1]
      rfl
    have hpq0 : (pyMin (bottom (l.map Pt.p)) (bottom (l.map Pt.q))).isSome := by
      rw [← pyMin_some (b := bottom (l.map Pt.u)), hy0]
      rfl
    obtain ⟨t, ht⟩ := Option.isSome_iff_exists.mp hpq1
    obtain ⟨t', ht'⟩ := Option.isSome_iff_exists.mp hpq0
    obtain ⟨m3, m4⟩ := pyMax_ge ht
    obtain ⟨n3, n4⟩ := pyMin_le ht'
    have up : t ≤ y1 := m1 t ht
    have lo : y0 ≤ t' := n1 t' ht'
    rcases hv with h | h | h
    · have hm : some v ∈ l.map Pt.q := List.mem_map.mpr ⟨c, hc, h⟩
      obtain ⟨a, ha⟩ := Option.isSome_iff_exists.mp (top_some.2 ⟨v, hm⟩)
      obtain ⟨a', ha'⟩ := Option.isSome_iff_exists.mp (bottom_some.2 ⟨v, hm⟩)
      exact ⟨lo.trans ((n4 a' ha').trans (bottom_le hm ha')), (le_top hm ha).trans ((m4 a ha).trans up)⟩
    · have hm : some v ∈ l.map Pt.u := List.mem_map.mpr ⟨c, hc, h⟩
      obtain ⟨a, ha⟩ := Option.isSome_iff_exists.mp (top_some.2 ⟨v, hm⟩)
      obtain ⟨a', ha'⟩ := Option.isSome_iff_exists.mp (bottom_some.2 ⟨v, hm⟩)
      exact ⟨(n2 a' ha').trans (bottom_le hm ha'), (le_top hm ha).trans (m2 a ha)⟩
    · have hm : some v ∈ l.map Pt.p := List.mem_map.mpr ⟨c, hc, h⟩
      obtain ⟨a, ha⟩ := Option.isSome_iff_exists.mp (top_some.2 ⟨v, hm⟩)
      obtain ⟨a', ha'⟩ := Option.isSome_iff_exists.mp (bottom_some.2 ⟨v, hm⟩)
      exact ⟨lo.trans ((n3 a' ha').trans (bottom_le hm ha')), (le_top hm ha).trans ((m3 a ha).trans up)⟩
  refine ⟨E, hE, hE0, fun c hc => ?_⟩
  have a1 := hx1.2 c.lam (List.mem_map.mpr ⟨c, hc, rfl⟩)
  have a0 := hx0.2 c.lam (List.mem_map.mpr ⟨c, hc, rfl⟩)
  refine ⟨by dsimp only; nlinarith, by dsimp only; nlinarith, fun d hd v hv => ?_⟩
  have hmem : c.q = some v ∨ c.u = some v ∨ c.p = some v := by
    unfold Pt.drawn at hd
    simp only [List.mem_cons, List.not_mem_nil, or_false] at hd
    rcases hd with rfl | rfl | rfl
    · exact Or.inl hv
    · exact Or.inr (Or.inl hv)
    · exact Or.inr (Or.inr hv)
  obtain ⟨r0, r1⟩ := hrange c hc v hmem
  dsimp only
  exact ⟨by nlinarith, by nlinarith, fun e _ he => ⟨by nlinarith, by nlinarith⟩⟩

/-- Two channels with error 1 and one with error 10; no polarisation. -/
noncomputable def noisyChannel : List Pt :=
  [⟨1, some 0, some 0, some 1, some 1⟩, ⟨2, some 0, some 0, some 1, some 1⟩, ⟨3, some 0, some 0, some 10, some 10⟩]

/-- **C295, the part that fails.** The error bars of a channel that is noisier than the others are cut off, on both sides. -/
theorem panel_cuts_bars : ∃ b, panel noisyChannel = some b ∧ ∃ c ∈ noisyChannel, ∃ v e, (some v, some e) ∈ c.drawn ∧ v - e < b.low ∧ b.high < v + e := by
  have h1 : nanMed (noisyChannel.map Pt.dp) = some (Real.sqrt (1 ^ 2 + 1 ^ 2)) := by
    apply ICube.median_majority
    simp [noisyChannel, Pt.dp, hypot, unmasked, List.count_cons]
    split_ifs <;> norm_num
  have h2 : nanMed (noisyChannel.map Pt.dq) = some 1 := by
    apply ICube.median_majority
    simp [noisyChannel, unmasked]
  have h3 : nanMed (noisyChannel.map Pt.du) = some 1 := by
    apply ICube.median_majority
    simp [noisyChannel, unmasked]
  have hE : medErr noisyChannel = some (max (max (Real.sqrt (1 ^ 2 + 1 ^ 2)) 1) 1) := by
    unfold medErr max3
    rw [h1, h2, h3]
    rfl
  have hE2 : max (max (Real.sqrt (1 ^ 2 + 1 ^ 2)) 1) 1 ≤ (2 : ℝ) := by
    refine max_le (max_le ?_ (by norm_num)) (by norm_num)
    rw [Real.sqrt_le_left (by norm_num)]
    norm_num
  have hM : dataMax noisyChannel = some 0 := by
    simp [dataMax, noisyChannel, Pt.p, hypot, top, unmasked, pyMax]
  have hm : dataMin noisyChannel = some 0 := by
    simp [dataMin, noisyChannel, Pt.p, hypot, bottom, unmasked, pyMin]
  obtain ⟨b, hb⟩ := Option.isSome_iff_exists.mp ((panel_drawn noisyChannel).2
    ⟨⟨_, List.mem_cons_self, rfl, rfl⟩, ⟨_, List.mem_cons_self, rfl, rfl⟩⟩)
  refine ⟨b, hb, ⟨3, some 0, some 0, some 10, some 10⟩, by simp [noisyChannel], 0, 10, by simp [Pt.drawn], ?_⟩
  unfold panel at hb
  obtain ⟨x1, -, hb⟩ := Option.bind_eq_some_iff.mp hb
  obtain ⟨x0, -, hb⟩ := Option.bind_eq_some_iff.mp hb
  rw [hM, hm, hE] at hb
  obtain rfl := Option.some.inj hb
  generalize max (max (Real.sqrt (1 ^ 2 + 1 ^ 2)) 1) 1 = m at hE2
  constructor
  · show (0 : ℝ) - 10 < 0 - 2 * m - (0 - 0) * 0.05
    linarith
  · show 0 + 2 * m + (0 - 0) * 0.1 < (0 : ℝ) + 10
    linarith

end Verif.Figures
