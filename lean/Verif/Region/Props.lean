import Mathlib.Tactic
import Verif.Region.Model

/-! # Properties C58, C59, C82, C83 -/

namespace Verif.Region

open Verif.NumPy

variable {α : Type*}

/-- Index along FITS axis `i` (counted from 0) of a numpy index. -/
def fitsIdx (idx : List ℕ) (i : ℕ) : ℕ := idx.reverse.getD (i - 1) 0

theorem lower_pos (b : ℤ) : 1 ≤ lower b := by unfold lower; split_ifs <;> omega

theorem lower_eq (b : ℤ) : lower b = max 1 b := by unfold lower; split_ifs <;> omega

/-- A valid index into a slice is not beyond the slice: the first pixel of the slice is the one asked
for. -/
theorem slice_start (n : ℕ) (s e : ℤ) (hs : 0 ≤ s) (i : ℕ) (h : i < sliceBound n e - sliceBound n s) :
    (sliceBound n s : ℤ) = s ∧ sliceBound n s + i < n := by
  have h1 := sliceBound_le n e
  constructor
  · unfold sliceBound at *
    split_ifs at * <;> omega
  · omega

theorem cubeAxis_cases (s : List ℕ) (c : ℕ) (h : cubeAxis s = some c) :
    (∃ ny nx, s = [ny, nx] ∧ c = 2) ∨ (∃ nz ny nx, s = [nz, ny, nx] ∧ c = 3) ∨
    (∃ n4 n3 ny nx, s = [n4, n3, ny, nx] ∧ c = 3 ∧ n3 ≠ 1) ∨
    (∃ n4 n3 ny nx, s = [n4, n3, ny, nx] ∧ c = 4 ∧ n3 = 1) := by
  unfold cubeAxis at h
  split at h
  · left; exact ⟨_, _, rfl, (Option.some.inj h).symm⟩
  · right; left; exact ⟨_, _, _, rfl, (Option.some.inj h).symm⟩
  · right; right
    split_ifs at h with h1
    · left; exact ⟨_, _, _, _, rfl, (Option.some.inj h).symm, h1⟩
    · right; exact ⟨_, _, _, _, rfl, (Option.some.inj h).symm, by omega⟩
  · cases h

/-- A run that succeeds reaches the cut. -/
theorem extract_some (a : Args) (crpix : ℕ → ℝ) (d : NdArr α) (o : Out α)
    (h : extract a crpix d = some o) :
    (a.limits.1 ≤ a.limits.2.1 ∧ a.limits.2.2.1 ≤ a.limits.2.2.2 ∧ a.sky = false) ∧
    ∃ c, cubeAxis d.shape = some c ∧ cut a.zlim crpix d
      (pyInt a.limits.1, pyInt a.limits.2.1, pyInt a.limits.2.2.1, pyInt a.limits.2.2.2) c = some o := by
  unfold extract at h
  dsimp only at h
  split_ifs at h with h1 h2 h3
  exact ⟨⟨not_lt.1 h1, not_lt.1 h2, by simpa using h3⟩, Option.bind_eq_some_iff.1 h⟩

/-- **C58.** Every pixel of the output is the requested pixel of the input, and it has the same offset from
the reference pixel along every axis in the new header as in the old one. (World coordinates, linear or
with any projection, are a function of these offsets and of keywords that are copied.) `-z`, if used,
starts at 1 or more. -/
theorem extract_position (a : Args) (crpix : ℕ → ℝ) (d : NdArr α) (o : Out α)
    (h : extract a crpix d = some o) (hz : ∀ z, a.zlim = some z → 1 ≤ z.1)
    (idx : List ℕ) (hidx : o.data.Valid idx) :
    ∃ idx', d.Valid idx' ∧ o.data.get idx = d.get idx' ∧
      (fitsIdx idx' 1 : ℤ) + 1 = fitsIdx idx 1 + max 1 (pyInt a.limits.1) ∧
      (fitsIdx idx' 2 : ℤ) + 1 = fitsIdx idx 2 + max 1 (pyInt a.limits.2.2.1) ∧
      (∀ c z, cubeAxis d.shape = some c → 2 < c → a.zlim = some z →
        (fitsIdx idx' c : ℤ) + 1 = fitsIdx idx c + z.1) ∧
      ∀ i, 1 ≤ i → i ≤ d.shape.length →
        ((fitsIdx idx i : ℝ) + 1) - o.crpix i = ((fitsIdx idx' i : ℝ) + 1) - crpix i := by
  obtain ⟨_, c, hc, h⟩ := extract_some a crpix d o h
  unfold cut at h
  dsimp only at h
  obtain ⟨sl, hsl, rfl⟩ := Option.map_eq_some_iff.1 h
  have hx0 : 0 ≤ lower (pyInt a.limits.1) - 1 := by have := lower_pos (pyInt a.limits.1); omega
  have hy0 : 0 ≤ lower (pyInt a.limits.2.2.1) - 1 := by have := lower_pos (pyInt a.limits.2.2.1); omega
  rw [← lower_eq, ← lower_eq]
  have hz0 : 0 ≤ (a.zlim.getD (1, (fitsSize d.shape c : ℤ))).1 - 1 := by
    cases hzl : a.zlim with
    | none => simp
    | some w => have := hz w hzl; simpa using this
  change (d.slice sl).Valid idx at hidx
  generalize lower (pyInt a.limits.1) = x0 at *
  generalize lower (pyInt a.limits.2.2.1) = y0 at *
  generalize upper _ (pyInt a.limits.2.1) = x1 at *
  generalize upper _ (pyInt a.limits.2.2.2) = y1 at *
  refine ⟨List.zipWith (· + ·) (List.zipWith (fun n s => sliceBound n s.1) d.shape sl) idx, ?_⟩
  unfold NdArr.Valid NdArr.slice at *
  obtain ⟨shape, get⟩ := d
  dsimp only at *
  rcases cubeAxis_cases _ _ hc with ⟨ny, nx, rfl, rfl⟩ | ⟨nz, ny, nx, rfl, rfl⟩ |
    ⟨n4, n3, ny, nx, rfl, rfl, hn⟩ | ⟨n4, n3, ny, nx, rfl, rfl, hn⟩
  · simp only [slices, Option.some.injEq] at hsl
    subst hsl
    simp only [List.zipWith_cons_cons, List.zipWith_nil_right, List.forall₂_cons_right_iff,
      List.forall₂_nil_right_iff] at hidx
    obtain ⟨j, _, hj, ⟨i, _, hi, rfl, rfl⟩, rfl⟩ := hidx
    obtain ⟨ej, lj⟩ := slice_start _ _ _ hy0 _ hj
    obtain ⟨ei, li⟩ := slice_start _ _ _ hx0 _ hi
    refine ⟨by simp [*], rfl, ?_, ?_, ?_, ?_⟩
    · simp [fitsIdx]; omega
    · simp [fitsIdx]; omega
    · intro c z hc' h2; simp [cubeAxis] at hc'; omega
    · intro k hk1 hk2
      have ej' : ((sliceBound ny (y0 - 1) : ℕ) : ℝ) = y0 - 1 := by exact_mod_cast ej
      have ei' : ((sliceBound nx (x0 - 1) : ℕ) : ℝ) = x0 - 1 := by exact_mod_cast ei
      simp at hk2
      interval_cases k
      · simp [fitsIdx, newCrpix, ei']; ring
      · simp [fitsIdx, newCrpix, ej']; ring
  · simp only [slices, Option.some.injEq] at hsl
    subst hsl
    simp only [List.zipWith_cons_cons, List.zipWith_nil_right, List.forall₂_cons_right_iff,
      List.forall₂_nil_right_iff] at hidx
    obtain ⟨k, _, hk, ⟨j, _, hj, ⟨i, _, hi, rfl, rfl⟩, rfl⟩, rfl⟩ := hidx
    obtain ⟨ek, lk⟩ := slice_start _ _ _ hz0 _ hk
    obtain ⟨ej, lj⟩ := slice_start _ _ _ hy0 _ hj
    obtain ⟨ei, li⟩ := slice_start _ _ _ hx0 _ hi
    refine ⟨by simp [*], rfl, ?_, ?_, ?_, ?_⟩
    · simp [fitsIdx]; omega
    · simp [fitsIdx]; omega
    · intro c z hc' h2 hzl
      simp only [cubeAxis, Option.some.injEq] at hc'
      subst hc'
      rw [hzl] at ek
      simp [fitsIdx, hzl] at ek ⊢
      omega
    · intro m hk1 hk2
      have ek' : ((sliceBound nz ((a.zlim.getD (1, (fitsSize [nz, ny, nx] 3 : ℤ))).1 - 1) : ℕ) : ℝ) =
        (a.zlim.getD (1, (fitsSize [nz, ny, nx] 3 : ℤ))).1 - 1 := by exact_mod_cast ek
      have ej' : ((sliceBound ny (y0 - 1) : ℕ) : ℝ) = y0 - 1 := by exact_mod_cast ej
      have ei' : ((sliceBound nx (x0 - 1) : ℕ) : ℝ) = x0 - 1 := by exact_mod_cast ei
      simp at hk2
      interval_cases m
      · simp [fitsIdx, newCrpix, ei']; ring
      · simp [fitsIdx, newCrpix, ej']; ring
      · simp [fitsIdx, newCrpix, ek']
        cases a.zlim
        · simp
        · simp; ring
  · simp only [slices, if_true, Option.some.injEq] at hsl
    subst hsl
    simp only [List.zipWith_cons_cons, List.zipWith_nil_right, List.forall₂_cons_right_iff,
      List.forall₂_nil_right_iff] at hidx
    obtain ⟨l, _, hl, ⟨k, _, hk, ⟨j, _, hj, ⟨i, _, hi, rfl, rfl⟩, rfl⟩, rfl⟩, rfl⟩ := hidx
    obtain ⟨el, ll⟩ := slice_start _ _ _ (show 0 ≤ (allOf n4).1 from le_rfl) _ hl
    obtain ⟨ek, lk⟩ := slice_start _ _ _ hz0 _ hk
    obtain ⟨ej, lj⟩ := slice_start _ _ _ hy0 _ hj
    obtain ⟨ei, li⟩ := slice_start _ _ _ hx0 _ hi
    refine ⟨by simp [*], rfl, ?_, ?_, ?_, ?_⟩
    · simp [fitsIdx]; omega
    · simp [fitsIdx]; omega
    · intro c z hc' h2 hzl
      rw [hc] at hc'
      simp only [Option.some.injEq] at hc'
      subst hc'
      rw [hzl] at ek
      simp [fitsIdx, hzl] at ek ⊢
      omega
    · intro m hk1 hk2
      have ek' : ((sliceBound n3 ((a.zlim.getD (1, (fitsSize [n4, n3, ny, nx] 3 : ℤ))).1 - 1) : ℕ) : ℝ) =
        (a.zlim.getD (1, (fitsSize [n4, n3, ny, nx] 3 : ℤ))).1 - 1 := by exact_mod_cast ek
      have ej' : ((sliceBound ny (y0 - 1) : ℕ) : ℝ) = y0 - 1 := by exact_mod_cast ej
      have ei' : ((sliceBound nx (x0 - 1) : ℕ) : ℝ) = x0 - 1 := by exact_mod_cast ei
      have el' : sliceBound n4 (allOf n4).1 = 0 := by unfold sliceBound allOf; simp
      simp at hk2
      interval_cases m
      · simp [fitsIdx, newCrpix, ei']; ring
      · simp [fitsIdx, newCrpix, ej']; ring
      · simp [fitsIdx, newCrpix, ek']
        cases a.zlim
        · simp
        · simp; ring
      · simp [fitsIdx, newCrpix, el']
        cases a.zlim <;> simp
  · simp only [slices, if_neg (show ¬ (4 = 3) by decide), Option.some.injEq] at hsl
    subst hsl
    simp only [List.zipWith_cons_cons, List.zipWith_nil_right, List.forall₂_cons_right_iff,
      List.forall₂_nil_right_iff] at hidx
    obtain ⟨l, _, hl, ⟨k, _, hk, ⟨j, _, hj, ⟨i, _, hi, rfl, rfl⟩, rfl⟩, rfl⟩, rfl⟩ := hidx
    obtain ⟨el, ll⟩ := slice_start _ _ _ hz0 _ hl
    obtain ⟨ek, lk⟩ := slice_start _ _ _ (show 0 ≤ (allOf n3).1 from le_rfl) _ hk
    obtain ⟨ej, lj⟩ := slice_start _ _ _ hy0 _ hj
    obtain ⟨ei, li⟩ := slice_start _ _ _ hx0 _ hi
    refine ⟨by simp [ll, lk, lj, li], rfl, ?_, ?_, ?_, ?_⟩
    · simp [fitsIdx]; omega
    · simp [fitsIdx]; omega
    · intro c z hc' h2 hzl
      rw [hc] at hc'
      simp only [Option.some.injEq] at hc'
      subst hc'
      rw [hzl] at el
      simp [fitsIdx, hzl] at el ⊢
      omega
    · intro m hk1 hk2
      have el' : ((sliceBound n4 ((a.zlim.getD (1, (fitsSize [n4, n3, ny, nx] 4 : ℤ))).1 - 1) : ℕ) : ℝ) =
        (a.zlim.getD (1, (fitsSize [n4, n3, ny, nx] 4 : ℤ))).1 - 1 := by exact_mod_cast el
      have ej' : ((sliceBound ny (y0 - 1) : ℕ) : ℝ) = y0 - 1 := by exact_mod_cast ej
      have ei' : ((sliceBound nx (x0 - 1) : ℕ) : ℝ) = x0 - 1 := by exact_mod_cast ei
      have ek' : sliceBound n3 (allOf n3).1 = 0 := by unfold sliceBound allOf; simp
      simp at hk2
      interval_cases m
      · simp [fitsIdx, newCrpix, ei']; ring
      · simp [fitsIdx, newCrpix, ej']; ring
      · simp [fitsIdx, newCrpix, ek']
        cases a.zlim <;> simp
      · simp [fitsIdx, newCrpix, el']
        cases a.zlim
        · simp
        · simp; ring

theorem pyInt_intCast (m : ℤ) : pyInt (m : ℝ) = m := by
  unfold pyInt
  split_ifs <;> simp

/-- Arguments for a box given in whole pixels, without `-c` and `-s`. -/
def pixelBox (x0 x1 y0 y1 : ℤ) (zlim : Option (ℤ × ℤ)) : Args where
  box := (x0, x1, y0, y1)
  sky := false
  center := false
  zlim := zlim

theorem limits_pixelBox (x0 x1 y0 y1 : ℤ) (zlim : Option (ℤ × ℤ)) :
    (pixelBox x0 x1 y0 y1 zlim).limits = ((x0 : ℝ), (x1 : ℝ), (y0 : ℝ), (y1 : ℝ)) := rfl

/-- The box after rounding and clipping. -/
theorem extract_pixelBox (x0 x1 y0 y1 : ℤ) (zlim : Option (ℤ × ℤ)) (crpix : ℕ → ℝ) (d : NdArr α)
    (hx : x0 ≤ x1) (hy : y0 ≤ y1) :
    extract (pixelBox x0 x1 y0 y1 zlim) crpix d =
      (cubeAxis d.shape).bind (cut zlim crpix d (x0, x1, y0, y1)) := by
  unfold extract
  rw [limits_pixelBox]
  dsimp only
  simp only [pyInt_intCast]
  rw [if_neg (by simpa using hx), if_neg (by simpa using hy), if_neg (by simp [pixelBox])]
  rfl

/-- **C58, C59** for a box given by centre and half-widths (`-c`): it is the box of the limits
`centre ± half-width`. -/
theorem extract_center (cx wx cy wy : ℤ) (zlim : Option (ℤ × ℤ)) (crpix : ℕ → ℝ) (d : NdArr α) :
    extract { box := (cx, wx, cy, wy), sky := false, center := true, zlim := zlim } crpix d =
      extract (pixelBox (cx - wx) (cx + wx) (cy - wy) (cy + wy) zlim) crpix d := by
  unfold extract Args.limits pixelBox
  push_cast
  simp

theorem slice_len (n : ℕ) (s e : ℤ) (h0 : 1 ≤ s) (h1 : s ≤ e) (h2 : e ≤ n) :
    ((sliceBound n e - sliceBound n (s - 1) : ℕ) : ℤ) = e - s + 1 := by
  have h3 := sliceBound_of_mem n e (by omega) h2
  have h4 := sliceBound_of_mem n (s - 1) (by omega) (by omega)
  omega

theorem clip_of_mem (n : ℕ) (s e : ℤ) (h0 : 1 ≤ s) (h1 : s ≤ e) (h2 : e ≤ n) :
    lower s = s ∧ upper n e = e := by
  unfold lower upper
  constructor
  · rw [if_neg (by omega)]
  · rw [if_neg (by omega)]

/-- Size along FITS axis `i` of the extracted data, for a box within the image and (if used) a `-z` range
within the cube. -/
def IsRequested (x0 x1 y0 y1 : ℤ) (o : Out α) : Prop :=
  (fitsSize o.data.shape 1 : ℤ) = x1 - x0 + 1 ∧ (fitsSize o.data.shape 2 : ℤ) = y1 - y0 + 1

/-- **C59** for three and four axes: the data have the requested size, and the header says so. -/
theorem extract_size_partial (x0 x1 y0 y1 : ℤ) (zlim : Option (ℤ × ℤ)) (crpix : ℕ → ℝ) (d : NdArr α)
    (hd : d.shape.length = 3 ∨ d.shape.length = 4)
    (hx0 : 1 ≤ x0) (hx : x0 ≤ x1) (hx1 : x1 ≤ fitsSize d.shape 1)
    (hy0 : 1 ≤ y0) (hy : y0 ≤ y1) (hy1 : y1 ≤ fitsSize d.shape 2)
    (hz : ∀ z c, zlim = some z → cubeAxis d.shape = some c →
      1 ≤ z.1 ∧ z.1 ≤ z.2 ∧ z.2 ≤ fitsSize d.shape c) :
    ∃ o, extract (pixelBox x0 x1 y0 y1 zlim) crpix d = some o ∧ IsRequested x0 x1 y0 y1 o ∧
      (∀ i, 1 ≤ i → i ≤ d.shape.length → o.naxis i = fitsSize o.data.shape i) ∧
      o.data.shape.length = d.shape.length := by
  rw [extract_pixelBox _ _ _ _ _ _ _ hx hy]
  obtain ⟨shape, get⟩ := d
  dsimp only at *
  have ez : ∀ z : ℤ × ℤ, ∀ n : ℕ, 1 ≤ z.1 → z.1 ≤ z.2 → z.2 ≤ n →
      ((sliceBound n z.2 - sliceBound n (z.1 - 1) : ℕ) : ℤ) = z.2 - z.1 + 1 :=
    fun z n a b c => slice_len n z.1 z.2 a b c
  have ea : ∀ n : ℕ, sliceBound n n - sliceBound n 0 = n := by
    intro n
    unfold sliceBound
    simp
  have ea' : ∀ n : ℕ, sliceBound n (allOf n).2 - sliceBound n (allOf n).1 = n := ea
  obtain ⟨c, hc⟩ : ∃ c, cubeAxis shape = some c := by
    rcases hd with hd | hd
    · match shape, hd with
      | [_, _, _], _ => exact ⟨3, rfl⟩
    · match shape, hd with
      | [_, n3, _, _], _ =>
        simp only [cubeAxis]
        split_ifs
        · exact ⟨_, rfl⟩
        · exact ⟨_, rfl⟩
  rw [hc, Option.bind_some]
  unfold cut
  dsimp only
  rw [(clip_of_mem _ _ _ hx0 hx hx1).1, (clip_of_mem _ _ _ hx0 hx hx1).2,
    (clip_of_mem _ _ _ hy0 hy hy1).1, (clip_of_mem _ _ _ hy0 hy hy1).2]
  rcases cubeAxis_cases _ _ hc with ⟨ny, nx, rfl, rfl⟩ | ⟨nz, ny, nx, rfl, rfl⟩ |
    ⟨n4, n3, ny, nx, rfl, rfl, hn⟩ | ⟨n4, n3, ny, nx, rfl, rfl, hn⟩
  · simp at hd
  · have e1 := slice_len nx x0 x1 hx0 hx hx1
    have e2 := slice_len ny y0 y1 hy0 hy hy1
    refine ⟨_, rfl, ⟨?_, ?_⟩, ?_, ?_⟩
    · simpa [NdArr.slice, fitsSize] using e1
    · simpa [NdArr.slice, fitsSize] using e2
    · intro i hi1 hi2
      simp at hi2
      cases hzl : zlim with
      | none =>
        interval_cases i
        · simpa [NdArr.slice, fitsSize, newNaxis] using e1.symm
        · simpa [NdArr.slice, fitsSize, newNaxis] using e2.symm
        · simp [NdArr.slice, fitsSize, newNaxis, ea]
      | some z =>
        obtain ⟨a1, a2, a3⟩ := hz z 3 hzl hc
        have e3 := ez z nz a1 a2 a3
        interval_cases i
        · simpa [NdArr.slice, fitsSize, newNaxis] using e1.symm
        · simpa [NdArr.slice, fitsSize, newNaxis] using e2.symm
        · simpa [NdArr.slice, fitsSize, newNaxis] using e3.symm
    · simp [NdArr.slice]
  · have e1 := slice_len nx x0 x1 hx0 hx hx1
    have e2 := slice_len ny y0 y1 hy0 hy hy1
    refine ⟨_, rfl, ⟨?_, ?_⟩, ?_, ?_⟩
    · simpa [NdArr.slice, fitsSize] using e1
    · simpa [NdArr.slice, fitsSize] using e2
    · intro i hi1 hi2
      simp at hi2
      cases hzl : zlim with
      | none =>
        interval_cases i
        · simpa [NdArr.slice, fitsSize, newNaxis] using e1.symm
        · simpa [NdArr.slice, fitsSize, newNaxis] using e2.symm
        · simp [NdArr.slice, fitsSize, newNaxis, ea]
        · simp [NdArr.slice, fitsSize, newNaxis, ea']
      | some z =>
        obtain ⟨a1, a2, a3⟩ := hz z 3 hzl hc
        have e3 := ez z n3 a1 a2 a3
        interval_cases i
        · simpa [NdArr.slice, fitsSize, newNaxis] using e1.symm
        · simpa [NdArr.slice, fitsSize, newNaxis] using e2.symm
        · simpa [NdArr.slice, fitsSize, newNaxis] using e3.symm
        · simp [NdArr.slice, fitsSize, newNaxis, ea']
    · simp [NdArr.slice]
  · have e1 := slice_len nx x0 x1 hx0 hx hx1
    have e2 := slice_len ny y0 y1 hy0 hy hy1
    refine ⟨_, rfl, ⟨?_, ?_⟩, ?_, ?_⟩
    · simpa [NdArr.slice, fitsSize] using e1
    · simpa [NdArr.slice, fitsSize] using e2
    · intro i hi1 hi2
      simp at hi2
      cases hzl : zlim with
      | none =>
        interval_cases i
        · simpa [NdArr.slice, fitsSize, newNaxis] using e1.symm
        · simpa [NdArr.slice, fitsSize, newNaxis] using e2.symm
        · simp [NdArr.slice, fitsSize, newNaxis, ea']
        · simp [NdArr.slice, fitsSize, newNaxis, ea]
      | some z =>
        obtain ⟨a1, a2, a3⟩ := hz z 4 hzl hc
        have e3 := ez z n4 a1 a2 a3
        interval_cases i
        · simpa [NdArr.slice, fitsSize, newNaxis] using e1.symm
        · simpa [NdArr.slice, fitsSize, newNaxis] using e2.symm
        · simp [NdArr.slice, fitsSize, newNaxis, ea']
        · simpa [NdArr.slice, fitsSize, newNaxis] using e3.symm
    · simp [NdArr.slice]

/-- Non-vacuity of C58 and C59: pixels 2-4 by 2-2 and planes 2-3 of a cube of 4 by 3 pixels, 5 planes. -/
example (crpix : ℕ → ℝ) (d : NdArr ℝ) (hd : d.shape = [5, 3, 4]) :
    ∃ o, extract (pixelBox 2 4 2 2 (some (2, 3))) crpix d = some o ∧ o.data.shape = [2, 1, 3] ∧
      o.data.get [0, 0, 0] = d.get [1, 1, 1] ∧ o.crpix 1 = crpix 1 - 2 + 1 := by
  rw [extract_pixelBox _ _ _ _ _ _ _ (by decide) (by decide)]
  obtain ⟨shape, get⟩ := d
  subst hd
  refine ⟨_, rfl, rfl, rfl, ?_⟩
  simp [newCrpix, lower]

/-- **C59 is false for images** (two axes): one row and one column fewer than requested, for every box
within the image, although the new header is given the requested size. -/
theorem extract_size_2d (x0 x1 y0 y1 : ℤ) (zlim : Option (ℤ × ℤ)) (crpix : ℕ → ℝ) (d : NdArr α)
    (hd : d.shape.length = 2)
    (hx0 : 1 ≤ x0) (hx : x0 ≤ x1) (hx1 : x1 ≤ fitsSize d.shape 1)
    (hy0 : 1 ≤ y0) (hy : y0 ≤ y1) (hy1 : y1 ≤ fitsSize d.shape 2) :
    ∃ o, extract (pixelBox x0 x1 y0 y1 zlim) crpix d = some o ∧
      (fitsSize o.data.shape 1 : ℤ) = x1 - x0 ∧ (fitsSize o.data.shape 2 : ℤ) = y1 - y0 ∧
      ¬ IsRequested x0 x1 y0 y1 o ∧ o.naxis 1 = x1 - x0 + 1 := by
  rw [extract_pixelBox _ _ _ _ _ _ _ hx hy]
  obtain ⟨shape, get⟩ := d
  dsimp only at *
  match shape, hd with
  | [ny, nx], _ =>
    simp only [cubeAxis, Option.bind_some]
    unfold cut
    dsimp only
    rw [(clip_of_mem _ _ _ hx0 hx hx1).1, (clip_of_mem _ _ _ hx0 hx hx1).2,
      (clip_of_mem _ _ _ hy0 hy hy1).1, (clip_of_mem _ _ _ hy0 hy hy1).2]
    have e : ∀ (n : ℕ) (s e : ℤ), 1 ≤ s → s ≤ e → e ≤ n →
        ((sliceBound n (e - 1) - sliceBound n (s - 1) : ℕ) : ℤ) = e - s := by
      intro n s e h1 h2 h3
      have h4 := sliceBound_of_mem n (e - 1) (by omega) (by omega)
      have h5 := sliceBound_of_mem n (s - 1) (by omega) (by omega)
      omega
    have e1 := e nx x0 x1 hx0 hx hx1
    have e2 := e ny y0 y1 hy0 hy hy1
    refine ⟨_, rfl, ?_, ?_, ?_, ?_⟩
    · simpa [NdArr.slice, fitsSize] using e1
    · simpa [NdArr.slice, fitsSize] using e2
    · intro h
      have h1 : ((sliceBound nx (x1 - 1) - sliceBound nx (x0 - 1) : ℕ) : ℤ) = x1 - x0 + 1 := by
        simpa [NdArr.slice, fitsSize] using h.1
      omega
    · cases zlim <;> simp [newNaxis]

/-- **C82 is false**: an upper limit of `-1` raises, unless the lower limit is negative too. -/
theorem minus_one_raises (x0 y0 y1 : ℤ) (zlim : Option (ℤ × ℤ)) (crpix : ℕ → ℝ) (d : NdArr α)
    (h : 0 ≤ x0) : extract (pixelBox x0 (-1) y0 y1 zlim) crpix d = none := by
  unfold extract
  rw [limits_pixelBox]
  dsimp only
  rw [if_pos]
  have : (0 : ℝ) ≤ x0 := by exact_mod_cast h
  push_cast
  linarith

/-- **C82, the part that holds**: `-1` for all four limits of a cube selects the whole plane. -/
theorem minus_one_partial (crpix : ℕ → ℝ) (d : NdArr α) (hd : d.shape.length = 3 ∨ d.shape.length = 4) :
    ∃ o, extract (pixelBox (-1) (-1) (-1) (-1) none) crpix d = some o ∧ o.data.shape = d.shape ∧
      ∀ idx, d.Valid idx → o.data.get idx = d.get idx := by
  rw [extract_pixelBox _ _ _ _ _ _ _ le_rfl le_rfl]
  obtain ⟨shape, get⟩ := d
  dsimp only at *
  have ea : ∀ n : ℕ, sliceBound n n - sliceBound n 0 = n := by
    intro n
    unfold sliceBound
    simp
  have eb : ∀ n : ℕ, sliceBound n 0 = 0 := by intro n; unfold sliceBound; simp
  have hl : lower (-1) = 1 := by unfold lower; simp
  have hu : ∀ n, upper n (-1) = n := by intro n; unfold upper; simp
  rcases hd with hd | hd
  · match shape, hd with
    | [nz, ny, nx], _ =>
      refine ⟨_, rfl, ?_, ?_⟩
      · simp [NdArr.slice, hl, hu, ea, fitsSize]
      · intro idx hidx
        simp only [NdArr.Valid, List.forall₂_cons_right_iff, List.forall₂_nil_right_iff] at hidx
        obtain ⟨k, _, hk, ⟨j, _, hj, ⟨i, _, hi, rfl, rfl⟩, rfl⟩, rfl⟩ := hidx
        simp [NdArr.slice, hl, eb]
  · match shape, hd with
    | [n4, n3, ny, nx], _ =>
      have hc : ∃ c, cubeAxis [n4, n3, ny, nx] = some c ∧ (c = 3 ∨ c = 4) := by
        simp only [cubeAxis]
        split_ifs
        · exact ⟨_, rfl, Or.inl rfl⟩
        · exact ⟨_, rfl, Or.inr rfl⟩
      obtain ⟨c, hc, rfl | rfl⟩ := hc
      · rw [hc]
        refine ⟨_, rfl, ?_, ?_⟩
        · simp [NdArr.slice, hl, hu, ea, fitsSize, allOf]
        · intro idx hidx
          simp only [NdArr.Valid, List.forall₂_cons_right_iff, List.forall₂_nil_right_iff] at hidx
          obtain ⟨l, _, h0, ⟨k, _, hk, ⟨j, _, hj, ⟨i, _, hi, rfl, rfl⟩, rfl⟩, rfl⟩, rfl⟩ := hidx
          simp [NdArr.slice, hl, eb, allOf]
      · rw [hc]
        refine ⟨_, rfl, ?_, ?_⟩
        · simp [NdArr.slice, hl, hu, ea, fitsSize, allOf]
        · intro idx hidx
          simp only [NdArr.Valid, List.forall₂_cons_right_iff, List.forall₂_nil_right_iff] at hidx
          obtain ⟨l, _, h0, ⟨k, _, hk, ⟨j, _, hj, ⟨i, _, hi, rfl, rfl⟩, rfl⟩, rfl⟩, rfl⟩ := hidx
          simp [NdArr.slice, hl, eb, allOf]

/-- **C82 is false along the third axis**: `-z 1 -1` of a cube drops its last plane. -/
theorem minus_one_z (crpix : ℕ → ℝ) (d : NdArr α) (nz ny nx : ℕ) (hd : d.shape = [nz, ny, nx]) :
    ∃ o, extract (pixelBox (-1) (-1) (-1) (-1) (some (1, -1))) crpix d = some o ∧
      o.data.shape = [nz - 1, ny, nx] := by
  rw [extract_pixelBox _ _ _ _ _ _ _ le_rfl le_rfl]
  obtain ⟨shape, get⟩ := d
  dsimp only at *
  subst hd
  have ea : ∀ n : ℕ, sliceBound n n - sliceBound n 0 = n := by
    intro n
    unfold sliceBound
    simp
  have hl : lower (-1) = 1 := by unfold lower; simp
  have hu : ∀ n, upper n (-1) = n := by intro n; unfold upper; simp
  refine ⟨_, rfl, ?_⟩
  have h1 : sliceBound nz (-1) - sliceBound nz 0 = nz - 1 := by
    unfold sliceBound
    simp
    omega
  simp [NdArr.slice, hl, hu, ea, fitsSize, h1]

/-- The hypothesis on `-z` in C58 is needed: `-z 0 2` of a cube of two planes gives a file whose one
plane is the last plane, but the header places it one below the first. -/
theorem z_zero_position (crpix : ℕ → ℝ) (d : NdArr α) (hd : d.shape = [2, 1, 1]) :
    ∃ o, extract (pixelBox 1 1 1 1 (some (0, 2))) crpix d = some o ∧ o.data.shape = [1, 1, 1] ∧
      o.data.get [0, 0, 0] = d.get [1, 0, 0] ∧ (1 : ℝ) - o.crpix 3 = 0 - crpix 3 := by
  rw [extract_pixelBox _ _ _ _ _ _ _ (by decide) (by decide)]
  obtain ⟨shape, get⟩ := d
  dsimp only at *
  subst hd
  refine ⟨_, rfl, rfl, rfl, ?_⟩
  simp [newCrpix]

end Verif.Region
