import Verif.Cube.Lemmas

/-! # Properties C60 and C61: axes of cubes -/

namespace Verif.Cube

open Verif.NumPy

variable {α β : Type*}

/-- Number of the spectral axis in numpy order, as the header tells: the last axis whose type matches, or
the slowest axis if none does. -/
def specAxis (isKey : ℕ → Bool) (shape : List ℕ) : ℕ := shape.length - findAxis isKey shape.length shape.length

theorem specAxis_lt (isKey : ℕ → Bool) (shape : List ℕ) (h : 0 < shape.length) :
    specAxis isKey shape < shape.length := by
  unfold specAxis
  rcases findAxis_le isKey shape.length shape.length with h1 | h1 <;> omega

theorem shape_split (shape : List ℕ) (h : 0 < shape.length) :
    shape = shape.getD 0 0 :: shape.eraseIdx 0 := by
  cases shape with
  | nil => simp at h
  | cons a s => simp

/-- After reading: the spectral axis first, and the same pixels in the same order. -/
theorem readCube_spec (isFreq : ℕ → Bool) (d : NdArr α) (h0 : 0 < d.shape.length)
    (hsmall : d.shape.length ≤ 3 ∨ ((sqz (d.shape.eraseIdx (specAxis isFreq d.shape))).length ≤ 2 ∧
      d.shape.getD (specAxis isFreq d.shape) 0 ≠ 1)) :
    ∃ a rest, readCube isFreq d = some a ∧ a.shape = d.shape.getD (specAxis isFreq d.shape) 0 :: rest ∧
      rest.length ≤ 2 ∧ sqz rest = sqz (d.shape.eraseIdx (specAxis isFreq d.shape)) ∧
      ∀ c, ∀ t < (d.shape.eraseIdx (specAxis isFreq d.shape)).prod,
        row a c t = canon d (specAxis isFreq d.shape) c t := by
  set k := specAxis isFreq d.shape with hk
  have hklt : k < d.shape.length := specAxis_lt isFreq d.shape h0
  unfold readCube
  dsimp only
  set d1 := if findAxis isFreq d.shape.length 0 ≠ 0 ∧ findAxis isFreq d.shape.length 0 ≠ d.shape.length then
    d.moveaxis (d.shape.length - findAxis isFreq d.shape.length 0) 0 else d with hd1
  have key : d1.shape = d.shape.getD k 0 :: d.shape.eraseIdx k ∧ ∀ c t, row d1 c t = canon d k c t := by
    by_cases hc : findAxis isFreq d.shape.length 0 ≠ 0 ∧ findAxis isFreq d.shape.length 0 ≠ d.shape.length
    · have e : d.shape.length - findAxis isFreq d.shape.length 0 = k := by
        rw [hk]
        unfold specAxis
        rw [findAxis_default isFreq _ 0 d.shape.length (Or.inl rfl) hc.1]
      rw [hd1, if_pos hc, e]
      exact ⟨(row_moveaxis d k 0 0).1, fun c t => (row_moveaxis d k c t).2⟩
    · have e : k = 0 := by
        rw [hk]
        unfold specAxis
        by_cases h1 : findAxis isFreq d.shape.length 0 = 0
        · rw [findAxis_zero _ _ _ h1]; omega
        · have h2 : findAxis isFreq d.shape.length 0 = d.shape.length := by
            by_contra h2
            exact hc ⟨h1, h2⟩
          rw [findAxis_default isFreq _ 0 d.shape.length (Or.inl rfl) h1, h2]; omega
      rw [hd1, if_neg hc, e]
      exact ⟨shape_split _ h0, fun c t => (canon_zero d c t).symm⟩
  have hlen : (d.shape.eraseIdx k).length = d.shape.length - 1 := List.length_eraseIdx_of_lt hklt
  by_cases h4 : 4 ≤ d.shape.length
  · obtain ⟨h5, h6⟩ : (sqz (d.shape.eraseIdx k)).length ≤ 2 ∧ d.shape.getD k 0 ≠ 1 := by
      rcases hsmall with h | h
      · omega
      · exact h
    have hsh : d1.squeeze.shape = d.shape.getD k 0 :: sqz (d.shape.eraseIdx k) := by
      unfold NdArr.squeeze
      simp only [key.1]
      exact sqz_cons _ _ h6
    rw [if_pos h4, if_neg (by rw [hsh]; simp; omega)]
    refine ⟨_, _, rfl, hsh, h5, sqz_sqz _, ?_⟩
    intro c t ht
    rw [← key.2]
    exact (row_squeeze d1 _ _ key.1 h6 c t ht).2
  · rw [if_neg h4, if_neg (by rw [key.1, List.length_cons, hlen]; omega)]
    exact ⟨_, _, rfl, key.1, by rw [hlen]; omega, rfl, fun c t _ => key.2 c t⟩

theorem prod_of_sqz (s t : List ℕ) (h : sqz s = sqz t) : s.prod = t.prod := by
  rw [← sqz_prod s, h, sqz_prod]

/-- **C60**, general form: the values of the file written, for any computation `F` on the table of spectra.
-/
theorem synth_axes (isFreq : ℕ → Bool) (F : List (List α) → ℕ → ℕ → β) (nPhi : ℕ) (d : NdArr α)
    (h0 : 0 < d.shape.length) (hphi : 2 ≤ nPhi)
    (hsmall : d.shape.length ≤ 3 ∨ ((sqz (d.shape.eraseIdx (specAxis isFreq d.shape))).length ≤ 2 ∧
      d.shape.getD (specAxis isFreq d.shape) 0 ≠ 1)) :
    ∃ out, synthFile isFreq F (d.shape.getD (specAxis isFreq d.shape) 0) nPhi d = some out ∧
      out.shape = d.shape.set (specAxis isFreq d.shape) nPhi ∧
      ∀ idx, out.Valid idx → out.get idx =
        F ((List.range (d.shape.getD (specAxis isFreq d.shape) 0)).map fun c =>
            (List.range (d.shape.eraseIdx (specAxis isFreq d.shape)).prod).map fun t =>
              canon d (specAxis isFreq d.shape) c t)
          (idx.getD (specAxis isFreq d.shape) 0)
          (flat (d.shape.eraseIdx (specAxis isFreq d.shape)) (idx.eraseIdx (specAxis isFreq d.shape))) := by
  obtain ⟨a, rest, hread, hsh, hlen, hsq, hrow⟩ := readCube_spec isFreq d h0 hsmall
  have hklt : specAxis isFreq d.shape < d.shape.length := specAxis_lt isFreq d.shape h0
  have hkd : d.shape.length - findAxis isFreq d.shape.length d.shape.length = specAxis isFreq d.shape := rfl
  set k := specAxis isFreq d.shape with hk
  obtain ⟨b, hb, hbs, hbrow⟩ := synthCube_spec F (d.shape.getD k 0) nPhi a rest hsh hlen (by omega)
  have hprod := prod_of_sqz _ _ hsq
  rw [hsq] at hbs
  set S := d.shape.eraseIdx k with hS
  have hSlen : S.length = d.shape.length - 1 := List.length_eraseIdx_of_lt hklt
  unfold synthFile
  rw [hread, Option.bind_some, hb, Option.bind_some]
  unfold writeCube
  dsimp only
  rw [if_neg (by omega), hbs, hkd]
  dsimp only
  have hr : b.reshape (nPhi :: S) = some
      { shape := nPhi :: S, get := fun idx => b.get (unflat (nPhi :: sqz S) (flat (nPhi :: S) idx)) } := by
    unfold NdArr.reshape
    rw [if_pos (by rw [hbs]; simp [sqz_prod]), hbs]
  rw [hr]
  refine ⟨_, rfl, ?_, ?_⟩
  · simp only [NdArr.moveaxis, List.eraseIdx_cons_zero, List.getD_cons_zero]
    rw [hS, List.insertIdx_eraseIdx_self (by omega)]
  · intro idx hidx
    simp only [NdArr.moveaxis, List.insertIdx_zero]
    have hv : InShape (nPhi :: S) (idx.getD k 0 :: idx.eraseIdx k) := by
      have h1 : InShape (S.insertIdx k nPhi) idx := by
        have h2 := hidx
        simpa only [NdArr.Valid, NdArr.moveaxis, List.eraseIdx_cons_zero, List.getD_cons_zero] using h2
      exact inShape_insertIdx S k nPhi idx (by omega) h1
    obtain ⟨hk1, hk2⟩ := List.forall₂_cons.1 hv
    have hf := flat_lt S _ hk2
    simp only [flat, unflat, sqz_prod]
    rw [mul_comm (idx.getD k 0), Nat.mul_add_div (by omega), Nat.mul_add_mod, Nat.div_eq_of_lt hf,
      Nat.mod_eq_of_lt hf, add_zero]
    have := hbrow (idx.getD k 0) hk1 (flat S (idx.eraseIdx k)) (by rw [hprod]; exact hf)
    unfold row at this
    rw [hbs, List.tail_cons] at this
    rw [this, hprod]
    congr 1
    apply List.map_congr_left
    intro c _
    apply List.map_congr_left
    intro t ht
    exact hrow c t (List.mem_range.1 ht)

/-- The valid indices of a shape with one entry replaced. -/
theorem inShape_set (s : List ℕ) (k n : ℕ) (idx : List ℕ) (hk : k < s.length) (h : InShape (s.set k n) idx) :
    k < idx.length ∧ idx.getD k 0 < n ∧ InShape (s.eraseIdx k) (idx.eraseIdx k) := by
  have h1 : InShape ((s.eraseIdx k).insertIdx k n) idx := by
    rw [List.insertIdx_eraseIdx_self (by omega)]; exact h
  have h2 := inShape_insertIdx (s.eraseIdx k) k n idx (by rw [List.length_eraseIdx_of_lt hk]; omega) h1
  obtain ⟨h3, h4⟩ := List.forall₂_cons.1 h2
  refine ⟨?_, h3, h4⟩
  have := h.length_eq
  rw [List.length_set] at this
  omega

/-- Column `t` of a table: the spectrum of a pixel. -/
def column [Inhabited α] (M : List (List α)) (t : ℕ) : List α := M.map fun r => r.getD t default

theorem column_table [Inhabited α] (g : ℕ → ℕ → α) (n m t : ℕ) (ht : t < m) :
    column ((List.range n).map fun c => (List.range m).map fun t => g c t) t =
      (List.range n).map fun c => g c t := by
  unfold column
  rw [List.map_map]
  apply List.map_congr_left
  intro c _
  simp only [Function.comp]
  rw [List.getD_eq_getElem _ _ (by simpa using ht)]
  simp

/-- **C60.** If each spectrum is transformed by itself (`G`), then every value of the file written is the
transform of the spectrum at the same place of the file read: same position along all other axes, the
depth axis at the place of the frequency axis, for any number of axes and any position of the frequency
axis, with and without axes of length one. The sizes are those of the input, except along that axis. -/
theorem synth_axes_pixelwise [Inhabited α] (isFreq : ℕ → Bool) (G : List α → ℕ → β) (nPhi : ℕ) (d : NdArr α)
    (h0 : 0 < d.shape.length) (hphi : 2 ≤ nPhi)
    (hsmall : d.shape.length ≤ 3 ∨ ((sqz (d.shape.eraseIdx (specAxis isFreq d.shape))).length ≤ 2 ∧
      d.shape.getD (specAxis isFreq d.shape) 0 ≠ 1)) :
    ∃ out, synthFile isFreq (fun M k t => G (column M t) k) (d.shape.getD (specAxis isFreq d.shape) 0) nPhi d
        = some out ∧
      out.shape = d.shape.set (specAxis isFreq d.shape) nPhi ∧
      ∀ idx, out.Valid idx → out.get idx =
        G ((List.range (d.shape.getD (specAxis isFreq d.shape) 0)).map fun c =>
          d.get (idx.set (specAxis isFreq d.shape) c)) (idx.getD (specAxis isFreq d.shape) 0) := by
  obtain ⟨out, h1, h2, h3⟩ := synth_axes isFreq (fun M k t => G (column M t) k) nPhi d h0 hphi hsmall
  refine ⟨out, h1, h2, ?_⟩
  intro idx hidx
  rw [h3 idx hidx]
  have hv : InShape (d.shape.set (specAxis isFreq d.shape) nPhi) idx := by
    rw [← h2]; exact hidx
  obtain ⟨h4, _, h5⟩ := inShape_set _ _ _ _ (specAxis_lt isFreq d.shape h0) hv
  rw [column_table _ _ _ _ (flat_lt _ _ h5)]
  congr 1
  apply List.map_congr_left
  intro c _
  exact canon_flat d _ c idx h4 h5

/-- Which axis: the last one marked as frequency in the header, counted in numpy order. -/
theorem specAxis_eq (isKey : ℕ → Bool) (shape : List ℕ) (j : ℕ) (h1 : 1 ≤ j) (hj : j ≤ shape.length)
    (hk : isKey j = true) (hlast : ∀ i, j < i → i ≤ shape.length → isKey i = false) :
    specAxis isKey shape = shape.length - j := by
  unfold specAxis
  rw [findAxis_spec isKey _ _ j h1 hj hk hlast]

/-- Non-vacuity: a file with axes (FITS order) RA 4, Dec 3, Stokes 1, frequency 7 and one with frequency
third; the frequency axis is found and the hypotheses hold. -/
example (d : NdArr ℝ) (hd : d.shape = [1, 7, 3, 4]) :
    specAxis (fun i => i == 3) d.shape = 1 ∧ ∃ out,
      synthFile (fun i => i == 3) (fun M k t => (column M t).getD k 0) 7 9 d = some out ∧
      out.shape = [1, 9, 3, 4] ∧ out.get [0, 5, 2, 1] = d.get [0, 5, 2, 1] := by
  have e : specAxis (fun i => i == 3) d.shape = 1 := by rw [hd]; decide
  refine ⟨e, ?_⟩
  obtain ⟨out, h1, h2, h3⟩ := synth_axes_pixelwise (fun i => i == 3) (fun l k => l.getD k 0) 9 d
    (by rw [hd]; decide) (by decide) (by rw [e, hd]; decide)
  rw [e] at h1 h2 h3
  rw [hd] at h1 h2 h3
  refine ⟨out, h1, h2, ?_⟩
  rw [h3 [0, 5, 2, 1] (by unfold NdArr.Valid; rw [h2]; simp)]
  simp [List.range_succ]

/-- More than two axes longer than one besides the frequency axis: the program stops with an error. -/
theorem synth_axes_rejects (isFreq : ℕ → Bool) (F : List (List α) → ℕ → ℕ → β) (nLam nPhi : ℕ) (d : NdArr α)
    (h : 3 < (sqz d.shape).length) : synthFile isFreq F nLam nPhi d = none := by
  have hle : (sqz d.shape).length ≤ d.shape.length := List.length_filter_le _ _
  have hr : readCube isFreq d = none := by
    unfold readCube
    dsimp only
    rw [if_pos (show 4 ≤ d.shape.length by omega), if_pos]
    split_ifs with h1
    · have h2 : findAxis isFreq d.shape.length 0 ≤ d.shape.length := by
        rcases findAxis_le isFreq d.shape.length 0 with h3 | h3
        · omega
        · exact h3.2
      have hlt : d.shape.length - findAxis isFreq d.shape.length 0 < d.shape.length := by omega
      have hp : (d.moveaxis (d.shape.length - findAxis isFreq d.shape.length 0) 0).shape.Perm d.shape := by
        rw [(row_moveaxis d _ 0 0).1, List.getD_eq_getElem _ _ hlt]
        exact List.getElem_cons_eraseIdx_perm hlt
      have := (hp.filter (· ≠ 1)).length_eq
      change 3 < (sqz _).length
      unfold sqz at h ⊢
      rw [this]
      exact h
    · exact h
  unfold synthFile
  rw [hr]
  rfl

/-- What the CLEAN step gives on data with the depth axis first. -/
theorem cleanCube_spec (F : List (List α) → ℕ → ℕ → β) (n : ℕ) (a : NdArr α) (rest : List ℕ)
    (hs : a.shape = n :: rest) (hlen : rest.length ≤ 2) (hn : n ≠ 1) :
    ∃ b, cleanCube F n a = some b ∧ b.shape = n :: sqz rest ∧
      ∀ k < n, ∀ t < rest.prod, row b k t =
        F ((List.range n).map fun c => (List.range rest.prod).map fun t => row a c t) k t := by
  unfold cleanCube
  rw [hs]
  dsimp only
  rw [if_neg (by simp), if_neg (by simp; omega)]
  have h3 : ∃ r3, shape3 n rest = n :: r3 ∧ r3.prod = rest.prod ∧ sqz r3 = sqz rest := by
    match rest with
    | [] => exact ⟨[1, 1], rfl, rfl, rfl⟩
    | [m] => exact ⟨[m, 1], rfl, by simp, by by_cases h : m = 1 <;> simp [sqz, h]⟩
    | _ :: _ :: _ => exact ⟨_, rfl, rfl, rfl⟩
  obtain ⟨r3, h3, h4, h5⟩ := h3
  rw [h3]
  unfold NdArr.reshape
  rw [if_pos (by rw [hs]; simp [h4]), hs, List.tail_cons]
  refine ⟨_, rfl, ?_, ?_⟩
  · unfold NdArr.squeeze
    simp only [sqz_cons _ _ hn, h5]
  · intro k hk t ht
    unfold row NdArr.squeeze
    simp only [sqz_cons _ _ hn, List.tail_cons, fill_cons _ _ hn]
    rw [fill_unflat _ _ (by omega), flat_unflat _ _ (by omega), List.getD_cons_zero]
    congr 1
    apply List.map_congr_left
    intro c _
    apply List.map_congr_left
    intro t' ht'
    have ht'' := List.mem_range.1 ht'
    have e1 : flat r3 (unflat r3 t') = t' := flat_unflat _ _ (by omega)
    simp only [flat, unflat, e1, h4]
    rw [mul_comm c, Nat.mul_add_div (by omega), Nat.mul_add_mod, Nat.div_eq_of_lt ht'', Nat.mod_eq_of_lt ht'',
      add_zero, hs, List.tail_cons]

/-- What `readFDF` gives: depth axis first, other axes of length one removed. -/
theorem readFDF_spec (isFD : ℕ → Bool) (d : NdArr α) (h0 : 0 < d.shape.length)
    (hn : d.shape.getD (specAxis isFD d.shape) 0 ≠ 1) :
    (readFDF isFD d).shape = d.shape.getD (specAxis isFD d.shape) 0 :: sqz (d.shape.eraseIdx (specAxis isFD d.shape)) ∧
      ∀ c, ∀ t < (d.shape.eraseIdx (specAxis isFD d.shape)).prod,
        row (readFDF isFD d) c t = canon d (specAxis isFD d.shape) c t := by
  have hklt : specAxis isFD d.shape < d.shape.length := specAxis_lt isFD d.shape h0
  have hkd : d.shape.length - findAxis isFD d.shape.length d.shape.length = specAxis isFD d.shape := rfl
  set k := specAxis isFD d.shape with hk
  set S := d.shape.eraseIdx k with hS
  have hSlen : S.length = d.shape.length - 1 := List.length_eraseIdx_of_lt hklt
  set n := d.shape.getD k 0 with hnn
  unfold readFDF
  dsimp only
  split_ifs with h1
  · rw [hkd]
    have h2 := (row_moveaxis d k 0 0).1
    refine ⟨?_, ?_⟩
    · unfold NdArr.squeeze
      simp only [h2]
      exact sqz_cons _ _ hn
    · intro c t ht
      rw [(row_squeeze _ _ _ h2 hn c t ht).2, (row_moveaxis d k c t).2]
  · have e : k = 0 := by omega
    have h2 : d.shape = n :: S := by
      rw [hnn, hS, e]
      exact shape_split _ h0
    refine ⟨?_, ?_⟩
    · unfold NdArr.squeeze
      simp only [h2]
      exact sqz_cons _ _ hn
    · intro c t ht
      rw [(row_squeeze _ _ _ h2 hn c t ht).2, e, canon_zero]

/-- The result of CLEAN on a file, whatever its axes: axes of length one end up in front. -/
theorem clean_axes (isFD : ℕ → Bool) (F : List (List α) → ℕ → ℕ → β) (d : NdArr α)
    (h0 : 0 < d.shape.length) (hn : d.shape.getD (specAxis isFD d.shape) 0 ≠ 1)
    (hsmall : (sqz (d.shape.eraseIdx (specAxis isFD d.shape))).length ≤ 2) :
    ∃ out, cleanFile isFD F d = some out ∧
      out.shape = (List.replicate (d.shape.length - 1 -
          (sqz (d.shape.eraseIdx (specAxis isFD d.shape))).length) 1 ++
        sqz (d.shape.eraseIdx (specAxis isFD d.shape))).insertIdx (specAxis isFD d.shape)
          (d.shape.getD (specAxis isFD d.shape) 0) ∧
      ∀ idx, out.Valid idx → out.get idx =
        F ((List.range (d.shape.getD (specAxis isFD d.shape) 0)).map fun c =>
            (List.range (d.shape.eraseIdx (specAxis isFD d.shape)).prod).map fun t =>
              canon d (specAxis isFD d.shape) c t)
          (idx.getD (specAxis isFD d.shape) 0)
          (flat (sqz (d.shape.eraseIdx (specAxis isFD d.shape))) ((idx.eraseIdx (specAxis isFD d.shape)).drop
            (d.shape.length - 1 - (sqz (d.shape.eraseIdx (specAxis isFD d.shape))).length))) := by
  have hklt : specAxis isFD d.shape < d.shape.length := specAxis_lt isFD d.shape h0
  have hkd : d.shape.length - findAxis isFD d.shape.length d.shape.length = specAxis isFD d.shape := rfl
  set k := specAxis isFD d.shape with hk
  set S := d.shape.eraseIdx k with hS
  have hSlen : S.length = d.shape.length - 1 := List.length_eraseIdx_of_lt hklt
  set n := d.shape.getD k 0 with hnn
  have hread := readFDF_spec isFD d h0 hn
  obtain ⟨b, hb, hbs, hbrow⟩ := cleanCube_spec F n (readFDF isFD d) (sqz S) hread.1 hsmall hn
  rw [sqz_sqz] at hbs
  have hsl : (sqz S).length ≤ S.length := List.length_filter_le _ _
  unfold cleanFile
  dsimp only
  rw [hkd, ← hnn, hb]
  have hm : d.shape.length - b.shape.length = d.shape.length - 1 - (sqz S).length := by
    rw [hbs, List.length_cons]; omega
  set m := d.shape.length - 1 - (sqz S).length with hmm
  have hshape : (restoreAxes isFD d.shape b).shape = (List.replicate m 1 ++ sqz S).insertIdx k n := by
    unfold restoreAxes
    dsimp only
    rw [hkd, hm]
    simp only [NdArr.moveaxis, NdArr.expandFront, hbs]
    rw [List.eraseIdx_append_of_length_le (by simp), List.getD_append_right _ _ _ _ (by simp)]
    simp
  refine ⟨_, rfl, hshape, ?_⟩
  intro idx hidx
  unfold NdArr.Valid at hidx
  rw [hshape] at hidx
  have hv := inShape_insertIdx (List.replicate m 1 ++ sqz S) k n idx
    (by rw [List.length_append, List.length_replicate]; omega) hidx
  obtain ⟨hk1, hk2⟩ := List.forall₂_cons.1 hv
  have hk3 : InShape (sqz S) ((idx.eraseIdx k).drop m) := by
    have := List.forall₂_drop m hk2
    rwa [List.drop_left' (by simp)] at this
  have hlen2 := hk2.length_eq
  have hget : (restoreAxes isFD d.shape b).get idx = b.get (idx.getD k 0 :: (idx.eraseIdx k).drop m) := by
    unfold restoreAxes
    dsimp only
    rw [hkd, hm]
    simp only [NdArr.moveaxis, NdArr.expandFront]
    congr 1
    have hle : m ≤ (idx.eraseIdx k).length := by
      rw [hlen2, List.length_append, List.length_replicate]; omega
    generalize idx.eraseIdx k = l at hle
    generalize idx.getD k 0 = x
    clear_value m
    clear * - hle
    induction m generalizing l with
    | zero => simp
    | succ m ih =>
      cases l with
      | nil => simp at hle
      | cons a l =>
        rw [List.insertIdx_succ_cons, List.drop_succ_cons, List.drop_succ_cons]
        exact ih l (by simpa using hle)
  rw [hget]
  have hf := flat_lt _ _ hk3
  have := hbrow (idx.getD k 0) hk1 (flat (sqz S) ((idx.eraseIdx k).drop m)) hf
  unfold row at this
  rw [hbs, List.tail_cons, unflat_flat _ _ hk3] at this
  rw [this, sqz_prod]
  congr 1
  apply List.map_congr_left
  intro c _
  apply List.map_congr_left
  intro t ht
  exact hread.2 c t (List.mem_range.1 ht)

/-- Axes of length one, other than the depth axis, come first (numpy order; last in FITS order). -/
def DegenerateFirst (s : List ℕ) : Prop := ∃ m r, s = List.replicate m 1 ++ r ∧ 1 ∉ r

theorem degenerateFirst_iff (s : List ℕ) :
    DegenerateFirst s ↔ s = List.replicate (s.length - (sqz s).length) 1 ++ sqz s := by
  constructor
  · rintro ⟨m, r, rfl, h⟩
    have h1 : sqz (List.replicate m 1 ++ r) = r := by
      unfold sqz
      rw [List.filter_append, List.filter_replicate_of_neg (by simp), List.nil_append,
        List.filter_eq_self.2]
      intro a ha
      simp only [ne_eq, decide_eq_true_eq]
      rintro rfl
      exact h ha
    rw [h1]
    simp
  · intro h
    refine ⟨_, _, h, ?_⟩
    simp [sqz]

/-- **C61 is false in general**: the cube that CLEAN returns has the shape of its input exactly when the
axes of length one come first (last in FITS order). -/
theorem clean_shape_iff (isFD : ℕ → Bool) (F : List (List α) → ℕ → ℕ → β) (d : NdArr α)
    (h0 : 0 < d.shape.length) (hn : d.shape.getD (specAxis isFD d.shape) 0 ≠ 1)
    (hsmall : (sqz (d.shape.eraseIdx (specAxis isFD d.shape))).length ≤ 2) :
    ∃ out, cleanFile isFD F d = some out ∧
      (out.shape = d.shape ↔ DegenerateFirst (d.shape.eraseIdx (specAxis isFD d.shape))) := by
  obtain ⟨out, h1, h2, _⟩ := clean_axes isFD F d h0 hn hsmall
  refine ⟨out, h1, ?_⟩
  have hklt : specAxis isFD d.shape < d.shape.length := specAxis_lt isFD d.shape h0
  have hSlen := List.length_eraseIdx_of_lt hklt
  rw [h2, degenerateFirst_iff, hSlen]
  constructor
  · intro h
    have := congrArg (fun l => l.eraseIdx (specAxis isFD d.shape)) h
    simp only [List.eraseIdx_insertIdx_self] at this
    exact this.symm
  · intro h
    rw [← h, List.getD_eq_getElem _ _ hklt, List.insertIdx_eraseIdx_getElem hklt]

/-- **C61, the part that holds**: with axes of length one first (last in FITS order), each spectrum of the
cube that CLEAN returns is the one computed from the spectrum at the same place. -/
theorem clean_axes_partial [Inhabited α] (isFD : ℕ → Bool) (G : List α → ℕ → β) (d : NdArr α)
    (h0 : 0 < d.shape.length) (hn : d.shape.getD (specAxis isFD d.shape) 0 ≠ 1)
    (hsmall : (sqz (d.shape.eraseIdx (specAxis isFD d.shape))).length ≤ 2)
    (hdeg : DegenerateFirst (d.shape.eraseIdx (specAxis isFD d.shape))) :
    ∃ out, cleanFile isFD (fun M k t => G (column M t) k) d = some out ∧ out.shape = d.shape ∧
      ∀ idx, d.Valid idx → out.get idx =
        G ((List.range (d.shape.getD (specAxis isFD d.shape) 0)).map fun c =>
          d.get (idx.set (specAxis isFD d.shape) c)) (idx.getD (specAxis isFD d.shape) 0) := by
  obtain ⟨out, h1, h2, h3⟩ := clean_axes isFD (fun M k t => G (column M t) k) d h0 hn hsmall
  obtain ⟨out', h1', h2'⟩ := clean_shape_iff isFD (fun M k t => G (column M t) k) d h0 hn hsmall
  have : out' = out := Option.some.inj (h1'.symm.trans h1)
  subst this
  have hsh := h2'.2 hdeg
  refine ⟨out', h1, hsh, ?_⟩
  intro idx hidx
  have hklt : specAxis isFD d.shape < d.shape.length := specAxis_lt isFD d.shape h0
  have hSlen := List.length_eraseIdx_of_lt hklt
  rw [h3 idx (by unfold NdArr.Valid; rw [hsh]; exact hidx)]
  have hv : InShape (d.shape.set (specAxis isFD d.shape) (d.shape.getD (specAxis isFD d.shape) 0)) idx := by
    rw [List.getD_eq_getElem _ _ hklt, List.set_getElem_self]; exact hidx
  obtain ⟨h4, _, h5⟩ := inShape_set _ _ _ _ hklt hv
  have hfl : flat (sqz (d.shape.eraseIdx (specAxis isFD d.shape)))
      ((idx.eraseIdx (specAxis isFD d.shape)).drop (d.shape.length - 1 -
        (sqz (d.shape.eraseIdx (specAxis isFD d.shape))).length)) =
      flat (d.shape.eraseIdx (specAxis isFD d.shape)) (idx.eraseIdx (specAxis isFD d.shape)) := by
    have hd := (degenerateFirst_iff _).1 hdeg
    rw [hSlen] at hd
    generalize d.shape.length - 1 - (sqz (d.shape.eraseIdx (specAxis isFD d.shape))).length = m at hd
    generalize sqz (d.shape.eraseIdx (specAxis isFD d.shape)) = r at hd
    rw [hd] at h5 ⊢
    generalize idx.eraseIdx (specAxis isFD d.shape) = l at h5
    clear * - h5
    induction m generalizing l with
    | zero => simp
    | succ m ih =>
      rw [List.replicate_succ, List.cons_append] at h5 ⊢
      obtain ⟨i, l', hi, hl, rfl⟩ := List.forall₂_cons_right_iff.1 h5
      rw [List.drop_succ_cons, ih l' hl]
      have : i = 0 := by omega
      subst this
      simp [flat]
  rw [hfl, column_table _ _ _ _ (flat_lt _ _ h5)]
  congr 1
  apply List.map_congr_left
  intro c _
  exact canon_flat d _ c idx h4 h5

/-- Non-vacuity: RA 4, Dec 3, depth 5, Stokes 1 (FITS order). -/
example : DegenerateFirst ([1, 5, 3, 4].eraseIdx (specAxis (fun i => i == 3) [1, 5, 3, 4])) :=
  ⟨1, [3, 4], by decide, by decide⟩

/-- **C61 refuted**: a cube with one column (NAXIS1 = 1) and `ny > 1` rows comes back with one row and
`ny` columns. -/
theorem clean_axes_wrong (F : List (List α) → ℕ → ℕ → β) (d : NdArr α) (nz ny : ℕ) (hz : nz ≠ 1)
    (hy : ny ≠ 1) (hd : d.shape = [nz, ny, 1]) :
    ∃ out, cleanFile (fun i => i == 3) F d = some out ∧ out.shape = [nz, 1, ny] := by
  have e : specAxis (fun i => i == 3) d.shape = 0 := by rw [hd]; rfl
  have e2 : sqz [ny, 1] = [ny] := by simp [sqz, hy]
  obtain ⟨out, h1, h2, _⟩ := clean_axes (fun i => i == 3) F d (by rw [hd]; simp)
    (by rw [e, hd]; simpa using hz) (by rw [e, hd]; simp [e2])
  refine ⟨out, h1, ?_⟩
  rw [h2, e, hd]
  simp [e2]

end Verif.Cube
