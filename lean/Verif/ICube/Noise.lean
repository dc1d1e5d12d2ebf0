import Verif.ICube.Props

/-!
# Stokes I cubes: noise and mask, properties C110, C111
-/

namespace Verif.ICube

open Verif.NumPy

variable {nChan ny nx : ℕ}

theorem ltNaN_iff (v t : Option ℝ) : ltNaN v t = true ↔ ∃ a b, v = some a ∧ t = some b ∧ a < b := by
  cases v <;> cases t <;> simp [ltNaN]

theorem foldl_count_pos (l : List (Fin nChan)) (p : Fin nChan → Bool) (n0 : ℕ) :
    0 < l.foldl (fun n c => if p c then n + 1 else n) n0 ↔ 0 < n0 ∨ ∃ c ∈ l, p c = true := by
  induction l generalizing n0 with
  | nil => simp
  | cons a l ih =>
    rw [List.foldl_cons, ih]
    by_cases h : p a = true
    · simp [h]
    · simp [h]

theorem mskCount_pos (d : Fin nChan → Img ny nx (Option ℝ)) (thr : ℝ) (y : Fin ny) (x : Fin nx) :
    0 < mskCount d thr y x ↔ ∃ c, planeSrc (d c) thr y x = true := by
  unfold mskCount
  rw [foldl_count_pos]
  simp

/-- A plane with a value is not all NaN. -/
theorem not_allNaN (p : Img ny nx (Option ℝ)) (y : Fin ny) (x : Fin nx) (v : ℝ) (h : p y x = some v) :
    ((planeVals p).all fun v => v.isNone) = false := by
  rw [Bool.eq_false_iff]
  intro hall
  rw [List.all_eq_true] at hall
  have := hall (p y x) (List.mem_map.mpr ⟨(y, x), mem_pixels _, rfl⟩)
  rw [h] at this
  simp at this

/-- **C110.** With a positive threshold a pixel is in the mask if and only if it is above the threshold in some
channel. -/
theorem C110_mask_absolute (d : Fin nChan → Img ny nx (Option ℝ)) (thr : ℝ) (ht : 0 < thr) (y : Fin ny)
    (x : Fin nx) : 0 < mskCount d thr y x ↔ ∃ c v, d c y x = some v ∧ thr < v := by
  rw [mskCount_pos]
  refine exists_congr fun c => ?_
  unfold planeSrc
  constructor
  · intro h
    split_ifs at h
    obtain ⟨a, b, h1, h2, h3⟩ := (ltNaN_iff _ _).mp h
    cases h1
    exact ⟨b, h2, h3⟩
  · rintro ⟨v, h1, h2⟩
    rw [not_allNaN (d c) y x v h1, if_neg (by simp), if_pos ht, ltNaN_iff]
    exact ⟨thr, v, rfl, h1, h2⟩

/-- **C110.** With a threshold of `-k` a pixel is in the mask if and only if in some channel it is more than `k`
times the noise of that channel (the value written to the noise file) above the median of the channel's sky
pixels. -/
theorem C110_mask_sigma (d : Fin nChan → Img ny nx (Option ℝ)) (thr : ℝ) (ht : thr ≤ 0) (y : Fin ny)
    (x : Fin nx) : 0 < mskCount d thr y x ↔
      ∃ c v m r, d c y x = some v ∧ Stats.median (Stats.unmasked (sky2 (planeVals (d c)) thr)) = some m ∧
        noise d thr c = some r ∧ m + |thr| * r < v := by
  rw [mskCount_pos]
  refine exists_congr fun c => ?_
  unfold planeSrc noise
  constructor
  · intro h
    split_ifs at h with h1 h2
    · linarith
    obtain ⟨a, b, e1, e2, e3⟩ := (ltNaN_iff _ _).mp h
    obtain ⟨m, w, e4, e5, e6⟩ := Stats.subNaN_eq.mp e1
    rw [Option.map_eq_some_iff] at e5
    obtain ⟨r, e5, e7⟩ := e5
    refine ⟨b, m, r, e2, ?_, e5, ?_⟩
    · unfold planeNoise at e4
      rw [if_neg h1] at e4
      exact e4
    · rw [abs_of_nonpos ht]
      linarith
  · rintro ⟨v, m, r, h1, h2, h3, h4⟩
    have hn := not_allNaN (d c) y x v h1
    rw [hn, if_neg (by simp), if_neg (by linarith), ltNaN_iff]
    refine ⟨m - 1 * r * thr, v, ?_, h1, ?_⟩
    · rw [Stats.subNaN_eq]
      refine ⟨m, 1 * r * thr, ?_, by rw [h3]; rfl, rfl⟩
      unfold planeNoise
      rw [hn, if_neg (by simp)]
      exact h2
    · rw [abs_of_nonpos ht] at h4
      linarith

/-- A threshold in flux units follows the unit; a threshold in units of the noise does not. -/
noncomputable def scaleThr (s thr : ℝ) : ℝ := if 0 < thr then s * thr else thr

theorem scaleThr_pos (s thr : ℝ) (hs : 0 < s) : 0 < scaleThr s thr ↔ 0 < thr := by
  unfold scaleThr
  split_ifs with h
  · exact iff_of_true (mul_pos hs h) h
  · exact Iff.rfl

theorem unmasked_scale (s : ℝ) (l : List (Option ℝ)) :
    Stats.unmasked (l.map (Option.map (s * ·))) = (Stats.unmasked l).map fun x => s * x + 0 := by
  unfold Stats.unmasked
  rw [List.filterMap_map, List.map_filterMap]
  congr 1
  funext v
  cases v <;> simp

theorem mad_scale (s : ℝ) (hs : 0 < s) (l : List (Option ℝ)) :
    Stats.mad (l.map (Option.map (s * ·))) = (Stats.mad l).map (s * ·) := by
  have := Stats.mad_affine l s 0
  simp only [add_zero, abs_of_pos hs] at this
  exact this

theorem median_scale (s : ℝ) (l : List (Option ℝ)) :
    Stats.median (Stats.unmasked (l.map (Option.map (s * ·)))) =
      (Stats.median (Stats.unmasked l)).map (s * ·) := by
  rw [unmasked_scale, Stats.median_affine]
  simp

theorem ltNaN_scale (s : ℝ) (hs : 0 < s) (v t : Option ℝ) :
    ltNaN (v.map (s * ·)) (t.map (s * ·)) = ltNaN v t := by
  cases v <;> cases t <;> simp [ltNaN, hs]

theorem sky1_scale (s : ℝ) (hs : 0 < s) (l : List (Option ℝ)) (thr : ℝ) :
    sky1 (l.map (Option.map (s * ·))) (scaleThr s thr) = (sky1 l thr).map (Option.map (s * ·)) := by
  unfold sky1
  by_cases h : 0 < thr
  · rw [if_pos h, if_pos ((scaleThr_pos s thr hs).mpr h), List.filter_map]
    congr 2
    funext v
    have := ltNaN_scale s hs v (some thr)
    simp only [Option.map_some] at this
    simp only [Function.comp, scaleThr, if_pos h, this]
  · rw [if_neg h, if_neg (fun e => h ((scaleThr_pos s thr hs).mp e)), List.filter_map]
    congr 2
    funext v
    cases v with
    | none => simp
    | some v => simp [hs.ne']

theorem sky2_scale (s : ℝ) (hs : 0 < s) (l : List (Option ℝ)) (thr : ℝ) :
    sky2 (l.map (Option.map (s * ·))) (scaleThr s thr) = (sky2 l thr).map (Option.map (s * ·)) := by
  unfold sky2
  dsimp only
  rw [sky1_scale s hs, mad_scale s hs, median_scale, List.filter_map]
  congr 2
  funext v
  simp only [Function.comp]
  rw [← ltNaN_scale s hs v]
  congr 1
  cases Stats.median (Stats.unmasked (sky1 l thr)) <;> cases Stats.mad (sky1 l thr) <;>
    simp [Stats.addNaN]
  ring

theorem all_scale (s : ℝ) (l : List (Option ℝ)) :
    ((l.map (Option.map (s * ·))).all fun v => v.isNone) = l.all fun v => v.isNone := by
  rw [List.all_map]
  congr 1
  funext v
  cases v <;> rfl

theorem planeNoise_scale (s : ℝ) (hs : 0 < s) (l : List (Option ℝ)) (thr : ℝ) :
    planeNoise (l.map (Option.map (s * ·))) (scaleThr s thr) =
      ((planeNoise l thr).1.map (s * ·), (planeNoise l thr).2.map (s * ·)) := by
  unfold planeNoise
  rw [all_scale, sky2_scale s hs, median_scale, mad_scale s hs]
  split_ifs <;> rfl

/-- **C110.** Changing the flux unit of the cube (and of a threshold in flux units) multiplies the noise of every
channel by the same factor and leaves the mask as it is. -/
theorem C110_flux_unit (s : ℝ) (hs : 0 < s) (d : Fin nChan → Img ny nx (Option ℝ)) (thr : ℝ) :
    (∀ c, noise (fun c y x => (d c y x).map (s * ·)) (scaleThr s thr) c = (noise d thr c).map (s * ·)) ∧
    ∀ y x, mskCount (fun c y x => (d c y x).map (s * ·)) (scaleThr s thr) y x = mskCount d thr y x := by
  have hpv : ∀ c, planeVals (fun y x => (d c y x).map (s * ·)) =
      (planeVals (d c)).map (Option.map (s * ·)) := by
    intro c
    unfold planeVals
    rw [List.map_map]
    rfl
  constructor
  · intro c
    unfold noise
    rw [hpv, planeNoise_scale s hs]
  · intro y x
    unfold mskCount
    congr 1
    funext n c
    congr 2
    unfold planeSrc
    rw [hpv, all_scale, planeNoise_scale s hs]
    by_cases h : 0 < thr
    · rw [if_pos h, if_pos ((scaleThr_pos s thr hs).mpr h)]
      have := ltNaN_scale s hs (some thr) (d c y x)
      simp only [Option.map_some] at this
      simp only [scaleThr, if_pos h, this]
    · rw [if_neg h, if_neg (fun e => h ((scaleThr_pos s thr hs).mp e))]
      rw [← ltNaN_scale s hs _ (d c y x)]
      congr 3
      cases (planeNoise (planeVals (d c)) thr).1 <;> cases (planeNoise (planeVals (d c)) thr).2 <;>
        simp [Stats.subNaN, scaleThr, h]
      ring

/-! ## C111: blanked pixels -/

theorem unmasked_filter (l : List (Option ℝ)) :
    Stats.unmasked (l.filter fun v => v.isSome) = Stats.unmasked l := by
  induction l with
  | nil => rfl
  | cons a l ih =>
    cases a with
    | none => exact ih
    | some a => exact congrArg (a :: ·) ih

theorem unmasked_ltNaN (l : List (Option ℝ)) (t : ℝ) :
    Stats.unmasked (l.filter fun v => ltNaN v (some t)) =
      (Stats.unmasked l).filter fun a => decide (a < t) := by
  induction l with
  | nil => rfl
  | cons a l ih =>
    cases a with
    | none => exact ih
    | some a =>
      have h1 : Stats.unmasked (some a :: l) = a :: Stats.unmasked l := rfl
      rw [h1, List.filter_cons, List.filter_cons]
      by_cases h : a < t
      · have h2 : ltNaN (some a) (some t) = true := by simp [ltNaN, h]
        rw [if_pos h2, if_pos (by simpa using h), ← ih]
        rfl
      · have h2 : ¬ ltNaN (some a) (some t) = true := by simp [ltNaN, h]
        rw [if_neg h2, if_neg (by simpa using h), ← ih]

theorem mad_unmasked (l l' : List (Option ℝ)) (h : Stats.unmasked l = Stats.unmasked l') :
    Stats.mad l = Stats.mad l' := by
  unfold Stats.mad
  rw [h]

theorem sky1_unmasked (l : List (Option ℝ)) (thr : ℝ) :
    Stats.unmasked (sky1 (l.filter fun v => v.isSome) thr) = Stats.unmasked (sky1 l thr) := by
  unfold sky1
  split_ifs
  all_goals
    rw [← unmasked_filter (List.filter _ l)]
    simp only [List.filter_filter]
    congr 2
    funext v
    rw [Bool.and_comm]

theorem sky2_filter (l : List (Option ℝ)) (thr : ℝ) :
    sky2 (l.filter fun v => v.isSome) thr = sky2 l thr := by
  unfold sky2
  dsimp only
  rw [sky1_unmasked, mad_unmasked _ _ (sky1_unmasked l thr), List.filter_filter]
  congr 1
  funext v
  cases v <;> simp [ltNaN]

/-- **C111 (part that holds).** Pixels blanked with NaN have no influence on the noise of a channel or on the
median used for the mask: they are the same as for the plane without these pixels. -/
theorem C111_nan_partial (l : List (Option ℝ)) (thr : ℝ) :
    planeNoise (l.filter fun v => v.isSome) thr = planeNoise l thr := by
  unfold planeNoise
  rw [sky2_filter]
  by_cases h : (l.all fun v => v.isNone) = true
  · have : l.filter (fun v => v.isSome) = [] := by
      rw [List.filter_eq_nil_iff]
      intro v hv
      have := List.all_eq_true.mp h v hv
      cases v <;> simp_all
    rw [this, if_pos h]
    rfl
  · rw [if_neg h, if_neg]
    intro h'
    apply h
    rw [List.all_eq_true] at h' ⊢
    intro v hv
    cases v with
    | none => rfl
    | some a =>
      have := h' (some a) (List.mem_filter.mpr ⟨hv, rfl⟩)
      simp at this

/-- In a sorted list a value that fills more than half of the list is the middle. -/
theorem mid_majority (s : List ℝ) (hs : s.Pairwise (· ≤ ·)) (a : ℝ) (h : s.length < 2 * s.count a) :
    Stats.mid s = some a := by
  have hget : ∀ i (hi : i < s.length), s.length < i + 1 + s.count a → i < s.count a → s[i] = a := by
    intro i hi h1 h2
    by_contra hne
    rcases lt_or_gt_of_ne hne with hlt | hgt
    · -- the entries up to `i` are below `a`
      have : s.count a ≤ (s.drop (i + 1)).count a := by
        conv_lhs => rw [← List.take_append_drop (i + 1) s]
        rw [List.count_append]
        have : (s.take (i + 1)).count a = 0 := by
          rw [List.count_eq_zero]
          intro hm
          obtain ⟨k, hk, hk'⟩ := List.mem_take_iff_getElem.mp hm
          have hle : s[k] ≤ s[i] := by
            rcases Nat.lt_or_ge k i with hki | hki
            · exact List.pairwise_iff_getElem.mp hs k i (by omega) hi hki
            · have : k = i := by omega
              subst this
              exact le_rfl
          rw [hk'] at hle
          linarith
        omega
      have h3 := List.count_le_length (a := a) (l := s.drop (i + 1))
      rw [List.length_drop] at h3
      omega
    · have : s.count a ≤ (s.take i).count a := by
        conv_lhs => rw [← List.take_append_drop i s]
        rw [List.count_append]
        have : (s.drop i).count a = 0 := by
          rw [List.count_eq_zero]
          intro hm
          obtain ⟨k, hk, hk'⟩ := List.mem_drop_iff_getElem.mp hm
          have hle : s[i] ≤ s[i + k] := by
            rcases Nat.eq_zero_or_pos k with rfl | hk0
            · exact le_rfl
            · exact List.pairwise_iff_getElem.mp hs i (i + k) hi (by omega) (by omega)
          rw [hk'] at hle
          linarith
        omega
      have h3 := List.count_le_length (a := a) (l := s.take i)
      rw [List.length_take] at h3
      omega
  have hpos : s.length ≠ 0 := by
    intro h0
    have := List.count_le_length (a := a) (l := s)
    omega
  have hc := List.count_le_length (a := a) (l := s)
  unfold Stats.mid
  rw [if_neg hpos]
  split_ifs with hodd
  · rw [List.getD_eq_getElem _ _ (by omega), hget _ (by omega) (by omega) (by omega)]
  · rw [List.getD_eq_getElem _ _ (by omega), List.getD_eq_getElem _ _ (by omega),
      hget _ (by omega) (by omega) (by omega), hget _ (by omega) (by omega) (by omega)]
    congr 1
    ring

theorem median_majority (l : List ℝ) (a : ℝ) (h : l.length < 2 * l.count a) : Stats.median l = some a := by
  obtain ⟨s, hp, hs⟩ := Stats.sorted_arrangement l
  rw [Stats.median_eq_mid l s hp hs]
  apply mid_majority s hs
  rw [hp.length_eq, hp.count_eq]
  exact h

theorem mad_majority (l : List (Option ℝ)) (a : ℝ)
    (h : (Stats.unmasked l).length < 2 * (Stats.unmasked l).count a) : Stats.mad l = some 0 := by
  unfold Stats.mad
  rw [median_majority _ a h, Option.bind_some]
  apply median_majority
  rw [List.length_map]
  have : (Stats.unmasked l).count a ≤ ((Stats.unmasked l).map fun x => |x - a| / 0.6745).count 0 := by
    have := List.count_le_count_map (l := Stats.unmasked l) (f := fun x => |x - a| / 0.6745) (x := a)
    simpa using this
  omega

/-- **C111 (refuted).** Pass 1 leaves out pixels that are exactly zero, but pass 2 takes them back. With a
threshold in units of the noise, if more than half of the pixels that are not NaN are zero (blanked with
zeros) and the cut of pass 1 is positive, the noise of the channel is exactly zero, whatever the others are. -/
theorem C111_zero_blanked (l : List (Option ℝ)) (thr : ℝ) (ht : thr ≤ 0) (m r : ℝ)
    (hm : Stats.median (Stats.unmasked (l.filter fun v => decide (v ≠ some 0))) = some m)
    (hr : Stats.mad (l.filter fun v => decide (v ≠ some 0)) = some r) (hcut : 0 < m + 3 * r)
    (hz : (Stats.unmasked l).length < 2 * (Stats.unmasked l).count 0) :
    (planeNoise l thr).2 = some 0 := by
  have hn : (l.all fun v => v.isNone) = false := by
    rw [Bool.eq_false_iff]
    intro hall
    have : Stats.unmasked l = [] := by
      unfold Stats.unmasked
      rw [List.filterMap_eq_nil_iff]
      intro v hv
      have := List.all_eq_true.mp hall v hv
      cases v <;> simp_all
    rw [this] at hz
    simp at hz
  unfold planeNoise
  rw [hn, if_neg (by simp)]
  apply mad_majority _ 0
  have hs1 : sky1 l thr = l.filter fun v => decide (v ≠ some 0) := by
    unfold sky1
    rw [if_neg (by linarith)]
  have hs2 : sky2 l thr = l.filter fun v => ltNaN v (some (m + r * 3)) := by
    unfold sky2
    dsimp only
    rw [hs1, hm, hr]
    rfl
  have hcut' : (0 : ℝ) < m + r * 3 := by linarith
  rw [hs2]
  have hu := unmasked_ltNaN l (m + r * 3)
  rw [hu, List.count_filter (by simpa using hcut')]
  have := List.length_filter_le (fun a => decide (a < m + r * 3)) (Stats.unmasked l)
  omega

/-- The plane `1, -1, 2` has the noise `1 / 0.6745`; with four pixels blanked with zeros it has the noise 0. This
is also an instance of `C111_zero_blanked`. -/
theorem C111_zero_blanked_instance :
    (planeNoise [some 1, some (-1), some 2] (-3)).2 = some (1 / 0.6745) ∧
    (planeNoise [some 1, some (-1), some 2, some 0, some 0, some 0, some 0] (-3)).2 = some 0 := by
  have hmed : Stats.median [1, -1, 2] = some (1 : ℝ) := by
    rw [Stats.median_eq_mid _ [-1, 1, 2] (List.Perm.swap _ _ _) (by simp; norm_num)]
    simp [Stats.mid]
  have hmad : Stats.mad [some 1, some (-1), some 2] = some (1 / 0.6745) := by
    unfold Stats.mad
    have : Stats.unmasked [some (1 : ℝ), some (-1), some 2] = [1, -1, 2] := rfl
    rw [this, hmed, Option.bind_some,
      Stats.median_eq_mid _ [0, 1 / 0.6745, 2 / 0.6745] _ (by simp; norm_num)]
    · simp [Stats.mid]
    · have : List.map (fun x : ℝ => |x - 1| / 0.6745) [1, -1, 2] = [0, 2 / 0.6745, 1 / 0.6745] := by
        simp
        norm_num
      rw [this]
      exact List.Perm.cons _ (List.Perm.swap _ _ _)
  have hf : (([some 1, some (-1), some 2, some 0, some 0, some 0, some 0] : List (Option ℝ)).filter
      fun v => decide (v ≠ some 0)) = [some 1, some (-1), some 2] := by
    simp
  have hf' : (([some 1, some (-1), some 2] : List (Option ℝ)).filter fun v => decide (v ≠ some 0)) =
      [some 1, some (-1), some 2] := by
    simp
  constructor
  · unfold planeNoise
    rw [if_neg (by simp)]
    have h1 : sky1 [some 1, some (-1), some 2] (-3) = [some 1, some (-1), some 2] := by
      unfold sky1
      rw [if_neg (by norm_num), hf']
    have h2 : sky2 [some 1, some (-1), some 2] (-3) = [some 1, some (-1), some 2] := by
      unfold sky2
      dsimp only
      rw [h1, hmad]
      have : Stats.unmasked [some (1 : ℝ), some (-1), some 2] = [1, -1, 2] := rfl
      rw [this, hmed]
      rw [List.filter_eq_self]
      intro v hv
      rw [ltNaN_iff]
      simp only [List.mem_cons, List.not_mem_nil, or_false] at hv
      refine ⟨v.getD 0, 1 + 1 / 0.6745 * 3, ?_, rfl, ?_⟩ <;> rcases hv with rfl | rfl | rfl <;>
        first | rfl | (simp; norm_num)
    rw [h2, hmad]
  · refine C111_zero_blanked _ _ (by norm_num) 1 (1 / 0.6745) ?_ ?_ (by norm_num) ?_
    · rw [hf]
      exact hmed
    · rw [hf]
      exact hmad
    · have : Stats.unmasked [some (1 : ℝ), some (-1), some 2, some 0, some 0, some 0, some 0] =
        [1, -1, 2, 0, 0, 0, 0] := rfl
      rw [this]
      simp

end Verif.ICube
