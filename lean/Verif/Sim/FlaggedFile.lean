import Verif.Sim.Run

/-!
# Flagged channels of simulated files in rmsynth1d (C213)

The simulation marks a flagged channel with a NaN frequency (`/repo/RMtools_1D/mk_test_ascii_data.py` 276-279). Source of what rmsynth1d does
with it: `/repo/RMtools_1D/do_RMsynth_1D.py` 261-277 and 407-411, `/repo/RMutils/util_RM.py` 171-184. Only the quantities below are modelled
here; the transform at a NaN wavelength is left open (it is done by finufft).
-/

namespace Verif.Sim

/-- A channel in `run_rmsynth`: frequency, weight and whether `q` is finite. -/
structure Chan where
  freq : Option ℝ
  w : ℝ
  ok : Bool

/-- `np.power(speed_of_light.value / freqArr_Hz, 2.0)`, 261. -/
noncomputable def Chan.lamSq (x : Chan) : Option ℝ := x.freq.map fun f => (c0 / f) ^ 2

/-- The weight in `do_rmsynth_planes`, `util_RM.py` 171-176: zero if the data are NaN. -/
noncomputable def Chan.weight (x : Chan) : ℝ := if x.ok then x.w else 0

/-- `np.sum` of a product of weights and squared wavelengths: NaN if one wavelength is, also if its weight is zero. -/
noncomputable def weightedSum : List Chan → Option ℝ
  | [] => some 0
  | x :: t => x.lamSq.bind fun l => (weightedSum t).map fun s => x.weight * l + s

/-- `lam0Sq_m2`, `util_RM.py` 180-184. -/
noncomputable def lam0File (xs : List Chan) : ℝ :=
  if (xs.map Chan.weight).sum = 0 then 0
  else match weightedSum xs with
    | none => 0
    | some s => 1 / (xs.map Chan.weight).sum * s

/-- `np.nanmax`; `none` for an array without numbers. -/
noncomputable def nanMax (l : List (Option ℝ)) : Option ℝ := (l.filterMap id).max?

/-- `np.nanmin`. -/
noncomputable def nanMin (l : List (Option ℝ)) : Option ℝ := (l.filterMap id).min?

/-- `np.abs(np.diff(a))`. -/
noncomputable def absDiff : List (Option ℝ) → List (Option ℝ)
  | a :: b :: t => (a.bind fun x => b.map fun y => |y - x|) :: absDiff (b :: t)
  | _ => []

/-- `lambdaSqRange_m2`, 263. -/
noncomputable def lamRange (xs : List Chan) : Option ℝ :=
  (nanMax (xs.map Chan.lamSq)).bind fun a => (nanMin (xs.map Chan.lamSq)).map fun b => a - b

/-- `dLambdaSqMax_m2`, 265. -/
noncomputable def dLamMax (xs : List Chan) : Option ℝ := nanMax (absDiff (xs.map Chan.lamSq))

/-- `good_channels`, 407: here the channels themselves. -/
noncomputable def goodChans (xs : List Chan) : List Chan := xs.filter fun x => decide (x.w ≠ 0) && x.ok

/-- `np.diff(freqArr_Hz)`. -/
noncomputable def diffs : List (Option ℝ) → List (Option ℝ)
  | a :: b :: t => (a.bind fun x => b.map fun y => y - x) :: diffs (b :: t)
  | _ => []

/-- `np.median` is NaN if an entry is: whether `median_channel_width`, 411, is a number. -/
def widthDefined (xs : List Chan) : Prop := ∀ d ∈ diffs (xs.map Chan.freq), d ≠ none

/-- The file without the rows of flagged channels. -/
def unflagged (xs : List Chan) : List Chan := xs.filter fun x => x.freq.isSome

/-- A simulated file: channels without frequency have no data, the others a positive frequency;
no weight is negative. -/
structure FromFile (xs : List Chan) : Prop where
  flag : ∀ x ∈ xs, x.freq = none → x.ok = false
  pos : ∀ x ∈ xs, ∀ f, x.freq = some f → 0 < f
  weight : ∀ x ∈ xs, 0 ≤ x.w

theorem filterMap_unflagged {β : Type} (xs : List Chan) (g : ℝ → β) :
    (xs.map fun x => x.freq.map g).filterMap id = ((unflagged xs).map fun x => x.freq.map g).filterMap id := by
  induction xs with
  | nil => rfl
  | cons x t ih =>
    cases h : x.freq with
    | none => simpa [unflagged, h] using ih
    | some f => simpa [unflagged, h] using ih

/-- The number and the frequencies of the channels used are the same, and so is the range of the squared wavelengths. -/
theorem flagged_same (xs : List Chan) (h : FromFile xs) :
    goodChans xs = goodChans (unflagged xs) ∧ lamRange xs = lamRange (unflagged xs) := by
  constructor
  · unfold goodChans unflagged
    rw [List.filter_filter]
    refine List.filter_congr fun x hx => ?_
    cases hf : x.freq with
    | none => simp [h.flag x hx hf]
    | some f => simp
  · unfold lamRange nanMax nanMin
    have := filterMap_unflagged xs fun f => (c0 / f) ^ 2
    unfold Chan.lamSq
    rw [this]

theorem absDiff_cons (a : Option ℝ) (l : List (Option ℝ)) (d : ℝ) (h : some d ∈ absDiff l) : some d ∈ absDiff (a :: l) := by
  cases l with
  | nil => simp [absDiff] at h
  | cons b t => exact List.mem_cons_of_mem _ h

theorem absDiff_filter (l : List (Option ℝ)) (d : ℝ) (h : some d ∈ absDiff l) :
    some d ∈ absDiff ((l.filterMap id).map some) := by
  induction l with
  | nil => simp [absDiff] at h
  | cons a l ih =>
    cases l with
    | nil => simp [absDiff] at h
    | cons b t =>
      simp only [absDiff, List.mem_cons] at h
      cases a with
      | none =>
        rcases h with h | h
        · simp at h
        · simpa using ih h
      | some x =>
        cases b with
        | none =>
          rcases h with h | h
          · simp at h
          · have := absDiff_cons (some x) _ d (ih h)
            simpa using this
        | some y =>
          rcases h with h | h
          · simp only [Option.bind_some, Option.map_some, Option.some.injEq] at h
            simp [absDiff, h]
          · have := absDiff_cons (some x) _ d (ih h)
            simpa using this

theorem nanMax_le (l : List (Option ℝ)) (l' : List (Option ℝ)) (h : ∀ d : ℝ, some d ∈ l → some d ∈ l') (a : ℝ) (ha : nanMax l = some a) :
    ∃ b, nanMax l' = some b ∧ a ≤ b := by
  unfold nanMax at *
  have h1 := List.max?_mem ha
  have h2 : a ∈ l'.filterMap id := by
    simp only [List.mem_filterMap, id_eq, exists_eq_right] at h1 ⊢
    exact h a h1
  cases hm : (l'.filterMap id).max? with
  | none =>
    rw [List.max?_eq_none_iff] at hm
    rw [hm] at h2
    simp at h2
  | some b =>
    exact ⟨b, rfl, (List.max?_eq_some_iff.mp hm).2 a h2⟩

/-- The largest spacing of neighbouring channels is not larger than without the rows, as gaps are not counted: the range of Faraday depths is at
least as large. -/
theorem flagged_spacing (xs : List Chan) (a : ℝ) (ha : dLamMax xs = some a) : ∃ b, dLamMax (unflagged xs) = some b ∧ a ≤ b := by
  refine nanMax_le _ _ ?_ a ha
  intro d hd
  have h1 := absDiff_filter _ d hd
  have h2 := filterMap_unflagged xs fun f => (c0 / f) ^ 2
  have h3 : (xs.map Chan.lamSq).filterMap id = ((unflagged xs).map Chan.lamSq).filterMap id := h2
  rw [h3] at h1
  have h4 : (((unflagged xs).map Chan.lamSq).filterMap id).map some = (unflagged xs).map Chan.lamSq := by
    have : ∀ l : List (Option ℝ), (∀ o ∈ l, o.isSome = true) → (l.filterMap id).map some = l := by
      intro l hl
      induction l with
      | nil => rfl
      | cons o l ih =>
        have := hl o (by simp)
        obtain ⟨v, rfl⟩ := Option.isSome_iff_exists.mp this
        simpa using ih fun o ho => hl o (by simp [ho])
    refine this _ fun o ho => ?_
    obtain ⟨x, hx, rfl⟩ := List.mem_map.mp ho
    simp only [unflagged, List.mem_filter] at hx
    simpa [Chan.lamSq] using hx.2
  rw [h4] at h1
  exact h1

theorem weightedSum_none (xs : List Chan) (x : Chan) (hx : x ∈ xs) (h : x.freq = none) : weightedSum xs = none := by
  induction xs with
  | nil => simp at hx
  | cons y t ih =>
    unfold weightedSum
    rcases List.mem_cons.mp hx with rfl | hx
    · simp [Chan.lamSq, h]
    · rw [ih hx]
      cases y.lamSq <;> simp

/-- **C213** is false of the code: if a channel of the file is flagged, the reference wavelength is reported as zero, whatever the other
channels. The angle at the reference wavelength is then the one at wavelength zero. -/
theorem flagged_reference_wrong (xs : List Chan) (x : Chan) (hx : x ∈ xs) (h : x.freq = none) : lam0File xs = 0 := by
  unfold lam0File
  rw [weightedSum_none xs x hx h]
  simp

theorem weightedSum_pos (xs : List Chan) (h : ∀ x ∈ xs, ∃ f, x.freq = some f ∧ 0 < f) (hw : ∀ x ∈ xs, 0 ≤ x.w) :
    ∃ s, weightedSum xs = some s ∧ 0 ≤ s ∧ ((xs.map Chan.weight).sum ≠ 0 → 0 < s) ∧ 0 ≤ (xs.map Chan.weight).sum := by
  induction xs with
  | nil => exact ⟨0, rfl, le_rfl, by simp, by simp⟩
  | cons x t ih =>
    obtain ⟨s, h1, h2, h3, h4⟩ := ih (fun y hy => h y (by simp [hy])) fun y hy => hw y (by simp [hy])
    obtain ⟨f, hf, hp⟩ := h x (by simp)
    have hwx : 0 ≤ x.weight := by
      unfold Chan.weight
      split
      · exact hw x (by simp)
      · exact le_rfl
    have hl : 0 < (c0 / f) ^ 2 := by
      unfold c0
      positivity
    refine ⟨x.weight * (c0 / f) ^ 2 + s, by simp [weightedSum, Chan.lamSq, hf, h1], by positivity, ?_, ?_⟩
    · intro hne
      rw [List.map_cons, List.sum_cons] at hne
      rcases hwx.lt_or_eq with hw0 | hw0
      · positivity
      · rw [← hw0, zero_mul, zero_add]
        exact h3 (by rwa [← hw0, zero_add] at hne)
    · rw [List.map_cons, List.sum_cons]
      positivity

/-- Without the rows of the flagged channels it is a positive number. -/
theorem unflagged_reference (xs : List Chan) (h : FromFile xs) (hg : goodChans xs ≠ []) : 0 < lam0File (unflagged xs) := by
  obtain ⟨s, h1, h2, h3, h4⟩ := weightedSum_pos (unflagged xs) (by
    intro x hx
    simp only [unflagged, List.mem_filter] at hx
    obtain ⟨f, hf⟩ := Option.isSome_iff_exists.mp hx.2
    exact ⟨f, hf, h.pos x hx.1 f hf⟩) (by
    intro x hx
    simp only [unflagged, List.mem_filter] at hx
    exact h.weight x hx.1)
  have hne : ((unflagged xs).map Chan.weight).sum ≠ 0 := by
    obtain ⟨x, hx⟩ := List.exists_mem_of_ne_nil _ hg
    rw [(flagged_same xs h).1] at hx
    simp only [goodChans, List.mem_filter, Bool.and_eq_true, decide_eq_true_eq] at hx
    have hnn : ∀ y ∈ (unflagged xs).map Chan.weight, 0 ≤ y := by
      intro y hy
      obtain ⟨z, hz, rfl⟩ := List.mem_map.mp hy
      simp only [unflagged, List.mem_filter] at hz
      unfold Chan.weight
      split
      · exact h.weight z hz.1
      · exact le_rfl
    have hle := List.single_le_sum hnn x.weight (List.mem_map_of_mem hx.1)
    have hxw : 0 < x.weight := by
      unfold Chan.weight
      rw [if_pos hx.2.2]
      have hx1 := hx.1
      simp only [unflagged, List.mem_filter] at hx1
      exact lt_of_le_of_ne (h.weight x hx1.1) (Ne.symm hx.2.1)
    linarith
  unfold lam0File
  rw [if_neg hne, h1]
  have := h3 hne
  have : 0 < ((unflagged xs).map Chan.weight).sum := lt_of_le_of_ne h4 (Ne.symm hne)
  positivity

theorem diffs_none (l : List (Option ℝ)) (hl : 2 ≤ l.length) (h : none ∈ l) : none ∈ diffs l := by
  induction l with
  | nil => simp at h
  | cons a l ih =>
    cases l with
    | nil => simp at hl
    | cons b t =>
      simp only [diffs, List.mem_cons]
      cases a with
      | none => simp
      | some x =>
        cases b with
        | none => simp
        | some y =>
          right
          cases t with
          | nil => simp at h
          | cons c t =>
            refine ih (by simp) ?_
            simpa using h

/-- The channel width is reported as NaN. -/
theorem flagged_width_wrong (xs : List Chan) (hn : 2 ≤ xs.length) (x : Chan) (hx : x ∈ xs) (h : x.freq = none) : ¬ widthDefined xs := by
  intro hd
  refine hd none (diffs_none _ (by simpa using hn) ?_) rfl
  exact List.mem_map.mpr ⟨x, hx, h⟩

/-- **C213**, what holds: the channels counted (`N_channels`, `min_freq`, `max_freq`) and the theoretical width of the RMSF are those of the file
without the rows of the flagged channels, and the range of Faraday depths is not smaller; the reference wavelength is right if no channel is
flagged. -/
theorem flagged_file_partial (xs : List Chan) (h : FromFile xs) :
    goodChans xs = goodChans (unflagged xs) ∧ lamRange xs = lamRange (unflagged xs) ∧
      (∀ a, dLamMax xs = some a → ∃ b, dLamMax (unflagged xs) = some b ∧ a ≤ b) ∧
      ((∀ x ∈ xs, x.freq ≠ none) → lam0File xs = lam0File (unflagged xs)) := by
  refine ⟨(flagged_same xs h).1, (flagged_same xs h).2, fun a ha => flagged_spacing xs a ha, fun hn => ?_⟩
  congr 1
  unfold unflagged
  symm
  rw [List.filter_eq_self]
  intro x hx
  exact Option.isSome_iff_ne_none.mpr (hn x hx)

/-! ### From the simulation -/

/-- The channels as rmsynth1d has them after reading a simulated file with uniform weights: `q` is finite where `Q`, `U` and the frequency are. -/
noncomputable def chans {n : ℕ} (freq : Fin n → Option ℝ) (q : Fin n → Option ℝ) : List Chan :=
  List.ofFn fun k => ⟨freq k, 1, (q k).isSome && (freq k).isSome⟩

theorem chans_fromFile {n : ℕ} (ranges : List (ℝ × ℝ)) (f : Fin n → ℝ) (hf : ∀ k, 0 < f k) (q : Fin n → Option ℝ) :
    FromFile (chans (fun k => flagged ranges (f k)) q) := by
  refine ⟨?_, ?_, ?_⟩
  · intro x hx hn
    simp only [chans, List.mem_ofFn] at hx
    obtain ⟨k, rfl⟩ := hx
    dsimp only at hn
    simp [hn]
  · intro x hx v hv
    simp only [chans, List.mem_ofFn] at hx
    obtain ⟨k, rfl⟩ := hx
    dsimp only at hv
    rcases C106_flagged ranges (f k) with ⟨h1, -⟩ | ⟨h1, -⟩
    · rw [h1] at hv
      obtain rfl := Option.some.inj hv
      exact hf k
    · rw [h1] at hv
      simp at hv
  · intro x hx
    simp only [chans, List.mem_ofFn] at hx
    obtain ⟨k, rfl⟩ := hx
    exact zero_le_one

/-- **C213** is false: as soon as one channel of a simulation is in a range to be flagged, rmsynth1d reports the reference wavelength zero, and a
positive one for the same file without the rows of flagged channels. -/
theorem simulated_flags_wrong {n : ℕ} (ranges : List (ℝ × ℝ)) (f : Fin n → ℝ) (hf : ∀ k, 0 < f k) (q : Fin n → Option ℝ) (k j : Fin n)
    (hk : ∃ g ∈ ranges, g.1 ≤ f k ∧ f k ≤ g.2) (hj : ∀ g ∈ ranges, ¬ (g.1 ≤ f j ∧ f j ≤ g.2)) (hq : (q j).isSome = true) :
    lam0File (chans (fun k => flagged ranges (f k)) q) = 0 ∧ 0 < lam0File (unflagged (chans (fun k => flagged ranges (f k)) q)) := by
  constructor
  · refine flagged_reference_wrong _ ⟨flagged ranges (f k), 1, (q k).isSome && (flagged ranges (f k)).isSome⟩ ?_ ?_
    · exact List.mem_ofFn.mpr ⟨k, rfl⟩
    · rcases C106_flagged ranges (f k) with ⟨-, h1⟩ | ⟨h1, -⟩
      · obtain ⟨g, hg, h2⟩ := hk
        exact absurd h2 (h1 g hg)
      · exact h1
  · refine unflagged_reference _ (chans_fromFile ranges f hf q) ?_
    have hjf : flagged ranges (f j) = some (f j) := by
      rcases C106_flagged ranges (f j) with ⟨h1, -⟩ | ⟨-, g, hg, h2⟩
      · exact h1
      · exact absurd h2 (hj g hg)
    refine List.ne_nil_of_mem (a := ⟨flagged ranges (f j), 1, (q j).isSome && (flagged ranges (f j)).isSome⟩) ?_
    simp only [goodChans, List.mem_filter, Bool.and_eq_true, decide_eq_true_eq]
    refine ⟨List.mem_ofFn.mpr ⟨j, rfl⟩, by norm_num, hq, by rw [hjf]; rfl⟩

/-- A case: three channels, the second one flagged. -/
example : lam0File (chans (fun k => flagged [(15, 25)] ((![10, 20, 30] : Fin 3 → ℝ) k)) fun _ => some 1) = 0 := by
  refine (simulated_flags_wrong [(15, 25)] ![10, 20, 30] ?_ (fun _ => some 1) 1 0 ?_ ?_ rfl).1
  · intro k
    fin_cases k <;> norm_num
  · exact ⟨(15, 25), by simp, by norm_num⟩
  · intro g hg
    rw [List.mem_singleton] at hg
    subst hg
    norm_num

end Verif.Sim
