import Verif.Cube.PeaksModel
import Verif.Cube.Props

/-! # Properties C62, C83, C84: peak maps and Stokes I scaling of cubes -/

namespace Verif.Cube

open Verif.NumPy

/-- `j` is the first position of the largest entry. -/
def IsFirstMax (l : List ℝ) (j : ℕ) : Prop :=
  ∃ h : j < l.length, (∀ i (hi : i < l.length), l[i] ≤ l[j]) ∧ ∀ i (hi : i < j), l[i] < l[j]

theorem argmaxFrom_spec (r pre : List ℝ) (j : ℕ) (h : IsFirstMax pre j) (hj : j < pre.length) :
    IsFirstMax (pre ++ r) (argmaxFrom pre[j] j pre.length (r.map some)) := by
  induction r generalizing pre j with
  | nil => simpa [argmaxFrom] using h
  | cons x r ih =>
    obtain ⟨_, h1, h2⟩ := h
    simp only [List.map_cons, argmaxFrom]
    have e : pre ++ x :: r = (pre ++ [x]) ++ r := by simp
    rw [e]
    split_ifs with hx
    · have hlen : pre.length < (pre ++ [x]).length := by simp
      have := ih (pre ++ [x]) pre.length ⟨hlen, ?_, ?_⟩ hlen
      · simpa using this
      · intro i hi
        simp only [List.getElem_concat_length]
        rw [List.getElem_append]
        split_ifs with h3
        · exact le_trans (h1 i h3) hx.le
        · simp
      · intro i hi
        simp only [List.getElem_concat_length]
        rw [List.getElem_append_left hi]
        exact lt_of_le_of_lt (h1 i hi) hx
    · have hlen : j < (pre ++ [x]).length := by simp; omega
      have := ih (pre ++ [x]) j ⟨hlen, ?_, ?_⟩ hlen
      · rw [List.getElem_append_left hj] at this
        simpa using this
      · intro i hi
        rw [List.getElem_append_left hj, List.getElem_append]
        split_ifs with h3
        · exact h1 i h3
        · simpa using not_lt.1 hx
      · intro i hi
        rw [List.getElem_append_left hj, List.getElem_append_left (by omega)]
        exact h2 i hi

theorem argmaxNaN_spec (l : List ℝ) (hl : l ≠ []) :
    ∃ j, argmaxNaN (l.map some) = some j ∧ IsFirstMax l j := by
  cases l with
  | nil => exact absurd rfl hl
  | cons x r =>
    refine ⟨_, rfl, ?_⟩
    have := argmaxFrom_spec r [x] 0 ⟨by simp, ?_, ?_⟩ (by simp)
    · simpa using this
    · intro i hi
      simp at hi
      simp [hi]
    · intro i hi; omega

theorem maxFrom_spec (r : List ℝ) (b : ℝ) :
    ∃ m, maxFrom (some b) (r.map some) = some m ∧ b ≤ m ∧ (∀ x ∈ r, x ≤ m) ∧ (m = b ∨ m ∈ r) := by
  induction r generalizing b with
  | nil => exact ⟨b, rfl, le_rfl, by simp, Or.inl rfl⟩
  | cons x r ih =>
    simp only [List.map_cons, maxFrom]
    obtain ⟨m, h1, h2, h3, h4⟩ := ih (max b x)
    refine ⟨m, h1, le_trans (le_max_left _ _) h2, ?_, ?_⟩
    · intro y hy
      rcases List.mem_cons.1 hy with rfl | hy
      · exact le_trans (le_max_right _ _) h2
      · exact h3 y hy
    · rcases h4 with h4 | h4
      · rcases le_total b x with hbx | hbx
        · right; rw [h4, max_eq_right hbx]; simp
        · left; rw [h4, max_eq_left hbx]
      · right; exact List.mem_cons_of_mem _ h4

theorem maxFrom_none (r : List (Option ℝ)) : maxFrom none r = none := by
  induction r with
  | nil => rfl
  | cons x r ih => simpa [maxFrom] using ih

/-- **C62.** For a pixel with data: `maxPI` is the largest modulus of its spectrum and `peakRM` the depth of
the first sample that attains it. -/
theorem peak_maps (phi : ℕ → ℝ) (l : List ℂ) (hl : l ≠ []) :
    ∃ j m, peakOf phi (l.map some) = some (some m, some (phi j)) ∧
      IsFirstMax (l.map fun z => ‖z‖) j ∧ ∃ h : j < l.length, m = ‖l[j]‖ := by
  have e : (l.map some).map absNaN = (l.map fun z => ‖z‖).map some := by
    rw [List.map_map, List.map_map]; rfl
  have hne : l.map (fun z => ‖z‖) ≠ [] := by simpa using hl
  obtain ⟨j, h1, h2⟩ := argmaxNaN_spec _ hne
  have hall : (l.map some).all Option.isNone = false := by
    cases l with
    | nil => exact absurd rfl hl
    | cons x r => rfl
  obtain ⟨m, hm1, hm2, hm3⟩ : ∃ m, maxNaN ((l.map fun z => ‖z‖).map some) = some (some m) ∧
      (∀ x ∈ l.map (fun z => ‖z‖), x ≤ m) ∧ m ∈ l.map fun z => ‖z‖ := by
    cases hq : l.map (fun z => ‖z‖) with
    | nil => exact absurd hq hne
    | cons x r =>
      obtain ⟨m, a1, a2, a3, a4⟩ := maxFrom_spec r x
      refine ⟨m, by simp only [List.map_cons, maxNaN, a1], ?_, ?_⟩
      · intro y hy
        rcases List.mem_cons.1 hy with rfl | hy
        · exact a2
        · exact a3 y hy
      · rcases a4 with rfl | a4
        · simp
        · exact List.mem_cons_of_mem _ a4
  refine ⟨j, m, ?_, h2, ?_⟩
  · unfold peakOf
    rw [e, h1, hm1, hall]
    rfl
  · obtain ⟨hj, g1, _⟩ := h2
    refine ⟨by simpa using hj, ?_⟩
    apply le_antisymm
    · obtain ⟨i, hi, rfl⟩ := List.getElem_of_mem hm3
      have := g1 i hi
      simpa using this
    · apply hm2
      exact List.mem_map.2 ⟨_, List.getElem_mem _, rfl⟩

/-- **C62.** A blank pixel is NaN in both maps. -/
theorem peak_maps_blank (phi : ℕ → ℝ) (n : ℕ) :
    peakOf phi (List.replicate (n + 1) none) = some (none, none) := by
  unfold peakOf
  rw [List.map_replicate, List.replicate_succ]
  simp [absNaN, maxNaN, argmaxNaN, maxFrom_none]

/-- A pixel that is blank at some depths only (RM synthesis does not make such pixels) has no `maxPI`, but
a `peakRM`: the depth of the first blank sample. -/
theorem peak_maps_mixed (phi : ℕ → ℝ) (z w : ℂ) :
    peakOf phi [some z, none, some w] = some (none, some (phi 1)) := by
  simp [peakOf, absNaN, maxNaN, maxFrom, argmaxNaN, argmaxFrom]

/-- Non-vacuity of C62. -/
example (phi : ℕ → ℝ) : peakOf phi [some 1, some (-2), some 2] = some (some 2, some (phi 1)) := by
  have h : (1 : ℝ) < 2 := by norm_num
  simp [peakOf, absNaN, maxNaN, maxFrom, argmaxNaN, argmaxFrom, h.le]

/-- The maps keep the pixels: the value at a pixel is computed from the spectrum of that pixel. -/
theorem peak_map_pixel {α β : Type*} (g : List α → β) (k : ℕ) (a : NdArr α) (idx : List ℕ)
    (hk : k < idx.length) :
    (reduceAxis g k a).get (idx.eraseIdx k) = g ((List.range (a.shape.getD k 0)).map fun j =>
      a.get (idx.set k j)) := by
  unfold reduceAxis
  dsimp only
  congr 1
  apply List.map_congr_left
  intro j _
  rw [List.insertIdx_eraseIdx_self (by omega)]

theorem cons_eraseIdx_eq_set (s : List ℕ) (k : ℕ) (hk : k < s.length) :
    1 :: s.eraseIdx k = s.set k 1 ↔ ∀ j, j < k → s.getD j 0 = 1 := by
  induction s generalizing k with
  | nil => simp at hk
  | cons n s ih =>
    cases k with
    | zero => simp
    | succ k =>
      have hk' : k < s.length := by simpa using hk
      rw [List.eraseIdx_cons_succ, List.set_cons_succ]
      constructor
      · intro h j hj
        obtain ⟨h1, h2⟩ := List.cons.inj h
        cases j with
        | zero => simpa using h1.symm
        | succ j =>
          have := (ih k hk').1 (by rw [← h2, h1]) j (by omega)
          simpa using this
      · intro h
        have h0 : n = 1 := by simpa using h 0 (by omega)
        have := (ih k hk').2 fun j hj => by simpa using h (j + 1) (by omega)
        rw [h0, this]

/-- **C83 is false in general.** The peak map written has the shape its header announces (that of the input
with the depth axis of length one) exactly when all axes slower than the depth axis have length one. -/
theorem peak_map_shape_iff {α β : Type*} (g : List α → β) (k : ℕ) (a : NdArr α) (hk : k < a.shape.length) :
    (writtenMap g k a).shape = a.shape.set k 1 ↔ ∀ j, j < k → a.shape.getD j 0 = 1 := by
  rw [← cons_eraseIdx_eq_set _ _ hk]
  rfl

/-- **C83 refuted**: with the frequency axis first in FITS order, an image of `ny` by `nx` pixels (`ny > 1`)
is written with the axes shifted by one. -/
theorem peak_map_shape_wrong {α β : Type*} (g : List α → β) (a : NdArr α) (nz ny nx : ℕ) (hy : ny ≠ 1)
    (ha : a.shape = [ny, nx, nz]) : (writtenMap g 2 a).shape ≠ a.shape.set 2 1 := by
  intro h
  have := (peak_map_shape_iff g 2 a (by rw [ha]; simp)).1 h 0 (by omega)
  rw [ha] at this
  exact hy (by simpa using this)

/-- **C83, the part that holds**: then the pixels are in place too. -/
theorem peak_map_partial {α β : Type*} (g : List α → β) (k : ℕ) (a : NdArr α) (hk : k < a.shape.length)
    (h1 : ∀ j, j < k → a.shape.getD j 0 = 1) (idx : List ℕ) (hidx : InShape (a.shape.set k 1) idx) :
    (writtenMap g k a).shape = a.shape.set k 1 ∧
    (writtenMap g k a).get idx =
      g ((List.range (a.shape.getD k 0)).map fun j => a.get (idx.set k j)) := by
  refine ⟨(peak_map_shape_iff g k a hk).2 h1, ?_⟩
  have hlen : k < idx.length := by
    have := hidx.length_eq
    rw [List.length_set] at this
    omega
  rw [← peak_map_pixel g k a idx hlen]
  unfold writtenMap NdArr.expandFront
  dsimp only
  congr 1
  have hz : ∀ j, j ≤ k → idx.getD j 0 = 0 := by
    intro j hj
    have h2 := (List.forall₂_iff_get.1 hidx).2 j (by omega) (by rw [List.length_set]; omega)
    rw [List.get_eq_getElem, List.get_eq_getElem, List.getElem_set] at h2
    dsimp only at h2
    rw [List.getD_eq_getElem _ _ (by omega)]
    split_ifs at h2 with h3
    · omega
    · have h4 := h1 j (by omega)
      rw [List.getD_eq_getElem _ _ (by omega)] at h4
      omega
  clear hidx h1 hk
  induction k generalizing idx with
  | zero => simp
  | succ k ih =>
    cases idx with
    | nil => simp at hlen
    | cons i idx =>
      have hi : i = 0 := by simpa using hz 0 (by omega)
      rw [List.eraseIdx_cons_succ, List.drop_succ_cons, List.drop_zero]
      have h5 := ih idx (by simpa using hlen) fun j hj => by simpa using hz (j + 1) (by omega)
      rw [← h5, hi]
      cases idx with
      | nil => simp at hlen
      | cons i2 idx =>
        have hi2 : i2 = 0 := by simpa using hz 1 (by omega)
        simp [hi2]

/-- **C84, the part that holds**: with more than one column, each spectrum is multiplied by the Stokes I of
its own pixel. -/
theorem scale_partial (fdf : NdArr ℂ) (img : NdArr ℝ) (nPhi ny nx : ℕ) (hphi : nPhi ≠ 1) (hx : nx ≠ 1)
    (hf : fdf.shape = sqz [nPhi, ny, nx]) (hi : img.shape = [ny, nx]) :
    ∃ out, imul fdf img = some out ∧ out.shape = fdf.shape ∧
      ∀ k y x, k < nPhi → y < ny → x < nx → ∀ idx, fill [nPhi, ny, nx] idx = [k, y, x] → fdf.Valid idx →
        out.get idx = fdf.get idx * (img.get [y, x] : ℂ) := by
  by_cases hy : ny = 1
  · have e : sqz [nPhi, ny, nx] = [nPhi, nx] := by simp [sqz, hphi, hy, hx]
    rw [e] at hf
    unfold imul
    dsimp only
    rw [if_pos (by rw [hf, hi]; simp [hy])]
    refine ⟨_, rfl, rfl, ?_⟩
    intro k y x hk hy' hx' idx hfill hv
    unfold NdArr.Valid at hv
    rw [hf] at hv
    simp only [List.forall₂_cons_right_iff, List.forall₂_nil_right_iff] at hv
    obtain ⟨i, _, _, ⟨j, _, _, rfl, rfl⟩, rfl⟩ := hv
    simp [fill, hphi, hy, hx] at hfill
    obtain ⟨rfl, rfl, rfl⟩ := hfill
    simp [hf, hi, hy, hx]
  · have e : sqz [nPhi, ny, nx] = [nPhi, ny, nx] := by simp [sqz, hphi, hy, hx]
    rw [e] at hf
    unfold imul
    dsimp only
    rw [if_pos (by rw [hf, hi]; simp)]
    refine ⟨_, rfl, rfl, ?_⟩
    intro k y x hk hy' hx' idx hfill hv
    unfold NdArr.Valid at hv
    rw [hf] at hv
    simp only [List.forall₂_cons_right_iff, List.forall₂_nil_right_iff] at hv
    obtain ⟨i, _, _, ⟨j, _, _, ⟨l, _, _, rfl, rfl⟩, rfl⟩, rfl⟩ := hv
    simp [fill, hphi, hy, hx] at hfill
    obtain ⟨rfl, rfl, rfl⟩ := hfill
    simp [hf, hi, hy, hx]

/-- **C84 is false** for images of one column: the program raises, unless the number of rows happens to be
the number of depths. -/
theorem scale_column_raises (fdf : NdArr ℂ) (img : NdArr ℝ) (nPhi ny : ℕ) (hphi : nPhi ≠ 1)
    (hy : ny ≠ nPhi) (hf : fdf.shape = sqz [nPhi, ny, 1]) (hi : img.shape = [ny, 1]) :
    imul fdf img = none := by
  unfold imul
  dsimp only
  rw [if_neg]
  rw [hf, hi]
  by_cases h1 : ny = 1
  · simp [sqz, hphi, h1]
  · simp [sqz, hphi, h1, hy]

/-- **C84 is false**: when the number of rows is the number of depths, the Stokes I of another pixel is
used, without any message. -/
theorem scale_column_wrong (fdf : NdArr ℂ) (img : NdArr ℝ) (n : ℕ) (hn : n ≠ 1)
    (hf : fdf.shape = sqz [n, n, 1]) (hi : img.shape = [n, 1]) :
    ∃ out, imul fdf img = some out ∧
      ∀ k y, k < n → y < n → out.get [k, y] = fdf.get [k, y] * (img.get [k, 0] : ℂ) := by
  have e : sqz [n, n, 1] = [n, n] := by simp [sqz, hn]
  rw [e] at hf
  unfold imul
  dsimp only
  rw [if_pos (by rw [hf, hi]; simp)]
  refine ⟨_, rfl, ?_⟩
  intro k y _ _
  simp [hf, hi, hn]

end Verif.Cube
