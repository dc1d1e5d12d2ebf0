import Verif.Region.Props
import Verif.Axis.Lemmas

/-!
# Cut-outs by sky position (C206, C207)

Source: `/repo/RMutils/util_FITS.py` 317-419 (`get_subfits`). The celestial coordinates are not modelled: the pixel coordinates of the
target (`wcs_world2pix`, line 347) and the pixel scales (`mkWCSDict`, lines 135-147) are inputs. A file that does not exist (339-340) is not
modelled.
-/

namespace Verif.Region

open Verif.NumPy

/-- What the function is called with, in pixels counted from zero. -/
structure Sub where
  xCent : ℝ
  yCent : ℝ
  radius : ℝ
  xdelt : ℝ
  ydelt : ℝ
  zMin : Option ℝ
  zMax : Option ℝ
  /-- A pixel of size zero has no celestial coordinates. -/
  xdelt_ne : xdelt ≠ 0
  ydelt_ne : ydelt ≠ 0

/-- The exceptions: `world2chan` is not defined anywhere, and a map has no three-dimensional header. -/
inductive SubErr
  | nameError
  | keyError
  deriving DecidableEq

/-- `if x` in Python, for a number or `None`. -/
def truthy : Option ℝ → Prop
  | none => False
  | some x => x ≠ 0

/-- Lines 352-355: the limits along an axis of `n` pixels, both included. -/
noncomputable def subLimits (cent radius delt : ℝ) (n : ℕ) : ℤ × ℤ :=
  (max (pyRound cent - ⌈radius / |delt|⌉) 0, min (pyRound cent + ⌈radius / |delt|⌉) ((n : ℤ) - 1))

/-- The cut-out and its header. -/
structure SubOut where
  data : NdArr (Option ℝ)
  crpix : ℕ → ℝ
  naxis : ℕ → ℕ

/-- Lines 386-400: the slices of the last two axes; other numbers of axes give `(None, None)`. -/
noncomputable def subSlices (a : Sub) : List ℕ → Option (List (ℤ × ℤ))
  | [ny, nx] => some [((subLimits a.yCent a.radius a.ydelt ny).1, (subLimits a.yCent a.radius a.ydelt ny).2 + 1),
      ((subLimits a.xCent a.radius a.xdelt nx).1, (subLimits a.xCent a.radius a.xdelt nx).2 + 1)]
  | [nz, ny, nx] => some [allOf nz,
      ((subLimits a.yCent a.radius a.ydelt ny).1, (subLimits a.yCent a.radius a.ydelt ny).2 + 1),
      ((subLimits a.xCent a.radius a.xdelt nx).1, (subLimits a.xCent a.radius a.xdelt nx).2 + 1)]
  | [nw, nz, ny, nx] => some [allOf nw, allOf nz,
      ((subLimits a.yCent a.radius a.ydelt ny).1, (subLimits a.yCent a.radius a.ydelt ny).2 + 1),
      ((subLimits a.xCent a.radius a.xdelt nx).1, (subLimits a.xCent a.radius a.xdelt nx).2 + 1)]
  | _ => none

/-- Lines 407-416: the sizes are set unless an exception occurs before: `np.nanmin` of an empty array raises, and so does a
header value NaN, which is what `np.nanmin` returns if all pixels are NaN. -/
noncomputable def subNaxis (shape : List ℕ) (o : NdArr (Option ℝ)) : ℕ → ℕ :=
  open Classical in
  if ∃ idx, o.Valid idx ∧ (o.get idx).isSome then fun i => if i ≤ 3 then fitsSize o.shape i else fitsSize shape i
  else fitsSize shape

/-- `get_subfits`. `Except.ok none`: the function returns `(None, None)`. -/
noncomputable def subfits (a : Sub) (crpix : ℕ → ℝ) (d : NdArr (Option ℝ)) : Except SubErr (Option SubOut) :=
  open Classical in
  if truthy a.zMin ∧ truthy a.zMax then
    if 3 ≤ d.shape.length then .error .nameError else .error .keyError
  else
    .ok ((subSlices a d.shape).map fun sl =>
      { data := d.slice sl
        crpix := Function.update (Function.update crpix 1
          (crpix 1 - (subLimits a.xCent a.radius a.xdelt (fitsSize d.shape 1)).1)) 2
          (crpix 2 - (subLimits a.yCent a.radius a.ydelt (fitsSize d.shape 2)).1)
        naxis := subNaxis d.shape (d.slice sl) })

theorem subLimits_nonneg (c r δ : ℝ) (n : ℕ) : 0 ≤ (subLimits c r δ n).1 := le_max_right _ _

theorem subSlices_cases (a : Sub) (s : List ℕ) (sl : List (ℤ × ℤ)) (h : subSlices a s = some sl) :
    ∃ pre ny nx, pre.length ≤ 2 ∧ s = pre ++ [ny, nx] ∧ sl = pre.map allOf ++
      [((subLimits a.yCent a.radius a.ydelt ny).1, (subLimits a.yCent a.radius a.ydelt ny).2 + 1),
      ((subLimits a.xCent a.radius a.xdelt nx).1, (subLimits a.xCent a.radius a.xdelt nx).2 + 1)] := by
  unfold subSlices at h
  split at h
  · exact ⟨[], _, _, by simp, rfl, (Option.some.inj h).symm⟩
  · exact ⟨[_], _, _, by simp, rfl, (Option.some.inj h).symm⟩
  · exact ⟨[_, _], _, _, by simp, rfl, (Option.some.inj h).symm⟩
  · cases h

theorem allOf_bound (n : ℕ) : sliceBound n (allOf n).1 = 0 ∧ sliceBound n (allOf n).2 = n := by
  simp [sliceBound, allOf]

/-- **C206**, positions. Every pixel of a cut-out is a pixel of the image, and it is at the same place relative to the reference pixel along
every axis. -/
theorem subfits_position (a : Sub) (crpix : ℕ → ℝ) (d : NdArr (Option ℝ)) (o : SubOut)
    (h : subfits a crpix d = .ok (some o)) (idx : List ℕ) (hidx : o.data.Valid idx) :
    ∃ idx', d.Valid idx' ∧ o.data.get idx = d.get idx' ∧ idx'.length = idx.length ∧
      ∀ i, 1 ≤ i → i ≤ d.shape.length →
        ((fitsIdx idx i : ℝ) + 1) - o.crpix i = ((fitsIdx idx' i : ℝ) + 1) - crpix i := by
  unfold subfits at h
  split_ifs at h
  simp only [Except.ok.injEq] at h
  obtain ⟨sl, hsl, rfl⟩ := Option.map_eq_some_iff.1 h
  obtain ⟨pre, ny, nx, hpre, hs, rfl⟩ := subSlices_cases a _ _ hsl
  obtain ⟨shape, get⟩ := d
  dsimp only at hs
  subst hs
  have hx0 := subLimits_nonneg a.xCent a.radius a.xdelt nx
  have hy0 := subLimits_nonneg a.yCent a.radius a.ydelt ny
  have e1 : fitsSize (pre ++ [ny, nx]) 1 = nx := by simp [fitsSize]
  have e2 : fitsSize (pre ++ [ny, nx]) 2 = ny := by simp [fitsSize]
  dsimp only at hidx ⊢
  rw [e1, e2]
  generalize subLimits a.xCent a.radius a.xdelt nx = X at *
  generalize subLimits a.yCent a.radius a.ydelt ny = Y at *
  refine ⟨List.zipWith (· + ·) (List.zipWith (fun n s => sliceBound n s.1) (pre ++ [ny, nx])
    (pre.map allOf ++ [(Y.1, Y.2 + 1), (X.1, X.2 + 1)])) idx, ?_⟩
  unfold NdArr.Valid NdArr.slice at *
  dsimp only at *
  match pre, hpre with
  | [], _ =>
    simp only [List.map_nil, List.nil_append, List.zipWith_cons_cons, List.zipWith_nil_right,
      List.forall₂_cons_right_iff, List.forall₂_nil_right_iff] at hidx
    obtain ⟨j, _, hj, ⟨i, _, hi, rfl, rfl⟩, rfl⟩ := hidx
    obtain ⟨ej, lj⟩ := slice_start _ _ _ hy0 _ hj
    obtain ⟨ei, li⟩ := slice_start _ _ _ hx0 _ hi
    have ej' : ((sliceBound ny Y.1 : ℕ) : ℝ) = Y.1 := by exact_mod_cast ej
    have ei' : ((sliceBound nx X.1 : ℕ) : ℝ) = X.1 := by exact_mod_cast ei
    refine ⟨by simp [*], rfl, by simp, ?_⟩
    intro k hk1 hk2
    simp at hk2
    interval_cases k
    · simp [fitsIdx, ei']; ring
    · simp [fitsIdx, ej']; ring
  | [nz], _ =>
    simp only [List.map_cons, List.map_nil, List.cons_append, List.nil_append, List.zipWith_cons_cons,
      List.zipWith_nil_right, List.forall₂_cons_right_iff, List.forall₂_nil_right_iff] at hidx
    obtain ⟨z, _, hz, ⟨j, _, hj, ⟨i, _, hi, rfl, rfl⟩, rfl⟩, rfl⟩ := hidx
    obtain ⟨ej, lj⟩ := slice_start _ _ _ hy0 _ hj
    obtain ⟨ei, li⟩ := slice_start _ _ _ hx0 _ hi
    have ej' : ((sliceBound ny Y.1 : ℕ) : ℝ) = Y.1 := by exact_mod_cast ej
    have ei' : ((sliceBound nx X.1 : ℕ) : ℝ) = X.1 := by exact_mod_cast ei
    have hz0 := allOf_bound nz
    rw [hz0.1, hz0.2] at hz
    refine ⟨by simp [*]; omega, rfl, by simp, ?_⟩
    intro k hk1 hk2
    simp at hk2
    interval_cases k
    · simp [fitsIdx, ei']; ring
    · simp [fitsIdx, ej']; ring
    · simp [fitsIdx, hz0.1]
  | [nw, nz], _ =>
    simp only [List.map_cons, List.map_nil, List.cons_append, List.nil_append, List.zipWith_cons_cons,
      List.zipWith_nil_right, List.forall₂_cons_right_iff, List.forall₂_nil_right_iff] at hidx
    obtain ⟨w, _, hw, ⟨z, _, hz, ⟨j, _, hj, ⟨i, _, hi, rfl, rfl⟩, rfl⟩, rfl⟩, rfl⟩ := hidx
    obtain ⟨ej, lj⟩ := slice_start _ _ _ hy0 _ hj
    obtain ⟨ei, li⟩ := slice_start _ _ _ hx0 _ hi
    have ej' : ((sliceBound ny Y.1 : ℕ) : ℝ) = Y.1 := by exact_mod_cast ej
    have ei' : ((sliceBound nx X.1 : ℕ) : ℝ) = X.1 := by exact_mod_cast ei
    have hz0 := allOf_bound nz
    have hw0 := allOf_bound nw
    rw [hz0.1, hz0.2] at hz
    rw [hw0.1, hw0.2] at hw
    refine ⟨by simp [*]; omega, rfl, by simp, ?_⟩
    intro k hk1 hk2
    simp at hk2
    interval_cases k
    · simp [fitsIdx, ei']; ring
    · simp [fitsIdx, ej']; ring
    · simp [fitsIdx, hz0.1]
    · simp [fitsIdx, hw0.1]

/-- **C206**, sizes: what holds. If a pixel of the cut-out is not NaN, the sizes in the new header are those of the data. -/
theorem subfits_naxis_partial (a : Sub) (crpix : ℕ → ℝ) (d : NdArr (Option ℝ)) (o : SubOut)
    (h : subfits a crpix d = .ok (some o)) (idx : List ℕ) (hidx : o.data.Valid idx) (hv : (o.data.get idx).isSome)
    (i : ℕ) (h1 : 1 ≤ i) : o.naxis i = fitsSize o.data.shape i := by
  unfold subfits at h
  split_ifs at h
  simp only [Except.ok.injEq] at h
  obtain ⟨sl, hsl, rfl⟩ := Option.map_eq_some_iff.1 h
  obtain ⟨pre, ny, nx, hpre, hs, rfl⟩ := subSlices_cases a _ _ hsl
  dsimp only at *
  unfold subNaxis
  rw [if_pos ⟨idx, hidx, hv⟩]
  by_cases h3 : i ≤ 3
  · rw [if_pos h3]
  · rw [if_neg h3]
    simp only [NdArr.slice, hs]
    match pre, hpre with
    | [], _ =>
      obtain ⟨k, rfl⟩ : ∃ k, i = k + 4 := ⟨i - 4, by omega⟩
      simp [fitsSize]
    | [nz], _ =>
      obtain ⟨k, rfl⟩ : ∃ k, i = k + 4 := ⟨i - 4, by omega⟩
      simp [fitsSize]
    | [nw, nz], _ =>
      obtain ⟨k, rfl⟩ : ∃ k, i = k + 4 := ⟨i - 4, by omega⟩
      cases k with
      | zero => simp [fitsSize, (allOf_bound nw).1, (allOf_bound nw).2]
      | succ k => simp [fitsSize]

/-- The function on an image without limits along the third axis. -/
theorem subfits_image (a : Sub) (hz : a.zMin = none) (crpix : ℕ → ℝ) (ny nx : ℕ) (get : List ℕ → Option ℝ) :
    ∃ o, subfits a crpix ⟨[ny, nx], get⟩ = .ok (some o) ∧
      o.data = NdArr.slice ⟨[ny, nx], get⟩
        [((subLimits a.yCent a.radius a.ydelt ny).1, (subLimits a.yCent a.radius a.ydelt ny).2 + 1),
        ((subLimits a.xCent a.radius a.xdelt nx).1, (subLimits a.xCent a.radius a.xdelt nx).2 + 1)] ∧
      o.naxis = subNaxis [ny, nx] o.data := by
  unfold subfits
  rw [if_neg (by simp [truthy, hz])]
  exact ⟨_, rfl, rfl, rfl⟩

/-- **C206**, sizes: what is wrong. A cut-out of blank pixels keeps the sizes of the whole image in its header. -/
theorem subfits_naxis_wrong (n : ℕ) (hn : 2 ≤ n) : ∃ (a : Sub) (o : SubOut),
    subfits a (fun _ => 0) ⟨[n, n], fun _ => none⟩ = .ok (some o) ∧ o.data.shape = [1, 1] ∧ o.naxis 1 = n ∧ o.naxis 2 = n := by
  have hr : pyRound (0 : ℝ) = 0 := by simp [pyRound]
  have hl : subLimits 0 0 1 n = (0, 0) := by
    unfold subLimits
    rw [hr]
    simp
    omega
  obtain ⟨o, ho, hd, hna⟩ := subfits_image ⟨0, 0, 0, 1, 1, none, none, one_ne_zero, one_ne_zero⟩ rfl (fun _ => 0) n n (fun _ => none)
  refine ⟨_, o, ho, ?_, ?_, ?_⟩
  · rw [hd]
    simp only [NdArr.slice, hl]
    simp [sliceBound]
    omega
  · rw [hna, hd]; simp [subNaxis, NdArr.slice, fitsSize]
  · rw [hna, hd]; simp [subNaxis, NdArr.slice, fitsSize]

/-- The limits contain what is within the radius, and nothing much further away. -/
theorem subLimits_cover (c r δ : ℝ) (n x : ℕ) (hx : x < n) :
    (|(x : ℝ) - c| ≤ r / |δ| → (subLimits c r δ n).1 ≤ x ∧ (x : ℤ) ≤ (subLimits c r δ n).2) ∧
    ((subLimits c r δ n).1 ≤ x → (x : ℤ) ≤ (subLimits c r δ n).2 → |(x : ℝ) - c| ≤ r / |δ| + 3 / 2) := by
  unfold subLimits
  have h0 := abs_le.1 (pyRound_near c)
  have h1 := Int.le_ceil (r / |δ|)
  have h2 := Int.ceil_lt_add_one (r / |δ|)
  set m := pyRound c
  set k := ⌈r / |δ|⌉
  dsimp only
  constructor
  · intro h
    obtain ⟨h3, h4⟩ := abs_le.1 h
    have h5 : ((m - k - 1 : ℤ) : ℝ) < (x : ℤ) := by push_cast; linarith
    have h6 : ((x : ℤ) : ℝ) < (m + k + 1 : ℤ) := by push_cast; linarith
    have h5' : m - k - 1 < (x : ℤ) := by exact_mod_cast h5
    have h6' : (x : ℤ) < m + k + 1 := by exact_mod_cast h6
    omega
  · intro h3 h4
    have h5 : m - k ≤ (x : ℤ) := by omega
    have h6 : (x : ℤ) ≤ m + k := by omega
    have h5' : ((m - k : ℤ) : ℝ) ≤ (x : ℤ) := by exact_mod_cast h5
    have h6' : ((x : ℤ) : ℝ) ≤ (m + k : ℤ) := by exact_mod_cast h6
    push_cast at h5' h6'
    rw [abs_le]
    constructor <;> linarith

/-- A pixel is in the slice. -/
theorem slice_mem (n : ℕ) (s e : ℤ) (hs : 0 ≤ s) (he : 0 ≤ e + 1) (i : ℕ) (hi : i < n) (h1 : s ≤ i) (h2 : (i : ℤ) ≤ e) :
    ∃ j, j < sliceBound n (e + 1) - sliceBound n s ∧ sliceBound n s + j = i := by
  refine ⟨i - sliceBound n s, ?_, ?_⟩ <;>
  · unfold sliceBound
    split_ifs <;> omega

theorem slice_mem' (n : ℕ) (s e : ℤ) (hs : 0 ≤ s) (he : 0 ≤ e + 1) (j : ℕ)
    (h : j < sliceBound n (e + 1) - sliceBound n s) :
    s ≤ (sliceBound n s + j : ℕ) ∧ ((sliceBound n s + j : ℕ) : ℤ) ≤ e ∧ sliceBound n s + j < n := by
  unfold sliceBound at *
  split_ifs at * <;> omega

/-- The box around the target is not entirely to the left of the image, nor below it. -/
def Reaches (a : Sub) (ny nx : ℕ) : Prop :=
  -1 ≤ (subLimits a.xCent a.radius a.xdelt nx).2 ∧ -1 ≤ (subLimits a.yCent a.radius a.ydelt ny).2

/-- In particular if the circle around the target touches the half planes in which the image is. -/
theorem reaches_of (a : Sub) (ny nx : ℕ) (hx : -(1 / 2) ≤ a.xCent + a.radius / |a.xdelt|)
    (hy : -(1 / 2) ≤ a.yCent + a.radius / |a.ydelt|) : Reaches a ny nx := by
  have key : ∀ (c r δ : ℝ) (n : ℕ), -(1 / 2) ≤ c + r / |δ| → -1 ≤ (subLimits c r δ n).2 := by
    intro c r δ n h
    have h0 := abs_le.1 (pyRound_near c)
    have h1 := Int.le_ceil (r / |δ|)
    unfold subLimits
    have : ((-1 : ℤ) : ℝ) ≤ (pyRound c + ⌈r / |δ|⌉ : ℤ) := by push_cast; linarith
    have : -1 ≤ pyRound c + ⌈r / |δ|⌉ := by exact_mod_cast this
    dsimp only
    omega
  exact ⟨key _ _ _ _ hx, key _ _ _ _ hy⟩

/-- **C207**, what holds, for a cube `[nz, ny, nx]`. If the box reaches the image, the cut-out has every pixel whose two coordinates are
within the radius of the target, at all channels, and no pixel further than a pixel and a half beyond the radius. -/
theorem subfits_cover_partial (a : Sub) (hz : ¬(truthy a.zMin ∧ truthy a.zMax)) (crpix : ℕ → ℝ) (nz ny nx : ℕ)
    (get : List ℕ → Option ℝ) (hr : Reaches a ny nx) :
    ∃ o, subfits a crpix ⟨[nz, ny, nx], get⟩ = .ok (some o) ∧
      (∀ z < nz, ∀ y < ny, ∀ x < nx, |(x : ℝ) - a.xCent| ≤ a.radius / |a.xdelt| →
        |(y : ℝ) - a.yCent| ≤ a.radius / |a.ydelt| →
        ∃ j i, o.data.Valid [z, j, i] ∧ o.data.get [z, j, i] = get [z, y, x]) ∧
      (∀ z j i, o.data.Valid [z, j, i] → ∃ y x, y < ny ∧ x < nx ∧ o.data.get [z, j, i] = get [z, y, x] ∧
        |(x : ℝ) - a.xCent| ≤ a.radius / |a.xdelt| + 3 / 2 ∧ |(y : ℝ) - a.yCent| ≤ a.radius / |a.ydelt| + 3 / 2) := by
  obtain ⟨rx, ry⟩ := hr
  have hx0 := subLimits_nonneg a.xCent a.radius a.xdelt nx
  have hy0 := subLimits_nonneg a.yCent a.radius a.ydelt ny
  have hcx := subLimits_cover a.xCent a.radius a.xdelt nx
  have hcy := subLimits_cover a.yCent a.radius a.ydelt ny
  unfold subfits
  rw [if_neg hz]
  refine ⟨_, rfl, ?_, ?_⟩
  · intro z hz y hy x hx h1 h2
    obtain ⟨a1, a2⟩ := (hcx x hx).1 h1
    obtain ⟨b1, b2⟩ := (hcy y hy).1 h2
    obtain ⟨i, hi, ei⟩ := slice_mem nx _ _ hx0 (by omega) x hx a1 a2
    obtain ⟨j, hj, ej⟩ := slice_mem ny _ _ hy0 (by omega) y hy b1 b2
    refine ⟨j, i, ?_, ?_⟩
    · simp only [NdArr.Valid, NdArr.slice, List.zipWith_cons_cons, List.zipWith_nil_right, List.forall₂_cons,
        (allOf_bound nz).1, (allOf_bound nz).2]
      exact ⟨by omega, hj, hi, List.Forall₂.nil⟩
    · simp only [NdArr.slice, List.zipWith_cons_cons, List.zipWith_nil_right, (allOf_bound nz).1, zero_add, ei, ej]
  · intro z j i hv
    simp only [NdArr.Valid, NdArr.slice, List.zipWith_cons_cons, List.zipWith_nil_right, List.forall₂_cons] at hv
    obtain ⟨-, hj, hi, -⟩ := hv
    obtain ⟨a1, a2, a3⟩ := slice_mem' nx _ _ hx0 (by omega) i hi
    obtain ⟨b1, b2, b3⟩ := slice_mem' ny _ _ hy0 (by omega) j hj
    refine ⟨_, _, b3, a3, ?_, (hcx _ a3).2 a1 a2, (hcy _ b3).2 b1 b2⟩
    simp only [NdArr.slice, List.zipWith_cons_cons, List.zipWith_nil_right, (allOf_bound nz).1, zero_add]

/-- **C207**, what holds, for a map `[ny, nx]`. -/
theorem subfits_cover_map_partial (a : Sub) (hz : ¬(truthy a.zMin ∧ truthy a.zMax)) (crpix : ℕ → ℝ) (ny nx : ℕ)
    (get : List ℕ → Option ℝ) (hr : Reaches a ny nx) :
    ∃ o, subfits a crpix ⟨[ny, nx], get⟩ = .ok (some o) ∧
      (∀ y < ny, ∀ x < nx, |(x : ℝ) - a.xCent| ≤ a.radius / |a.xdelt| → |(y : ℝ) - a.yCent| ≤ a.radius / |a.ydelt| →
        ∃ j i, o.data.Valid [j, i] ∧ o.data.get [j, i] = get [y, x]) ∧
      (∀ j i, o.data.Valid [j, i] → ∃ y x, y < ny ∧ x < nx ∧ o.data.get [j, i] = get [y, x] ∧
        |(x : ℝ) - a.xCent| ≤ a.radius / |a.xdelt| + 3 / 2 ∧ |(y : ℝ) - a.yCent| ≤ a.radius / |a.ydelt| + 3 / 2) := by
  obtain ⟨rx, ry⟩ := hr
  have hx0 := subLimits_nonneg a.xCent a.radius a.xdelt nx
  have hy0 := subLimits_nonneg a.yCent a.radius a.ydelt ny
  have hcx := subLimits_cover a.xCent a.radius a.xdelt nx
  have hcy := subLimits_cover a.yCent a.radius a.ydelt ny
  unfold subfits
  rw [if_neg hz]
  refine ⟨_, rfl, ?_, ?_⟩
  · intro y hy x hx h1 h2
    obtain ⟨a1, a2⟩ := (hcx x hx).1 h1
    obtain ⟨b1, b2⟩ := (hcy y hy).1 h2
    obtain ⟨i, hi, ei⟩ := slice_mem nx _ _ hx0 (by omega) x hx a1 a2
    obtain ⟨j, hj, ej⟩ := slice_mem ny _ _ hy0 (by omega) y hy b1 b2
    refine ⟨j, i, ?_, ?_⟩
    · simp only [NdArr.Valid, NdArr.slice, List.zipWith_cons_cons, List.zipWith_nil_right, List.forall₂_cons]
      exact ⟨hj, hi, List.Forall₂.nil⟩
    · simp only [NdArr.slice, List.zipWith_cons_cons, List.zipWith_nil_right, ei, ej]
  · intro j i hv
    simp only [NdArr.Valid, NdArr.slice, List.zipWith_cons_cons, List.zipWith_nil_right, List.forall₂_cons] at hv
    obtain ⟨hj, hi, -⟩ := hv
    obtain ⟨a1, a2, a3⟩ := slice_mem' nx _ _ hx0 (by omega) i hi
    obtain ⟨b1, b2, b3⟩ := slice_mem' ny _ _ hy0 (by omega) j hj
    refine ⟨_, _, b3, a3, ?_, (hcx _ a3).2 a1 a2, (hcy _ b3).2 b1 b2⟩
    simp only [NdArr.slice, List.zipWith_cons_cons, List.zipWith_nil_right]

/-- **C207**, what holds, for four axes `[nw, nz, ny, nx]`. -/
theorem subfits_cover_four_partial (a : Sub) (hz : ¬(truthy a.zMin ∧ truthy a.zMax)) (crpix : ℕ → ℝ) (nw nz ny nx : ℕ)
    (get : List ℕ → Option ℝ) (hr : Reaches a ny nx) :
    ∃ o, subfits a crpix ⟨[nw, nz, ny, nx], get⟩ = .ok (some o) ∧
      (∀ w < nw, ∀ z < nz, ∀ y < ny, ∀ x < nx, |(x : ℝ) - a.xCent| ≤ a.radius / |a.xdelt| →
        |(y : ℝ) - a.yCent| ≤ a.radius / |a.ydelt| →
        ∃ j i, o.data.Valid [w, z, j, i] ∧ o.data.get [w, z, j, i] = get [w, z, y, x]) ∧
      (∀ w z j i, o.data.Valid [w, z, j, i] → ∃ y x, y < ny ∧ x < nx ∧ o.data.get [w, z, j, i] = get [w, z, y, x] ∧
        |(x : ℝ) - a.xCent| ≤ a.radius / |a.xdelt| + 3 / 2 ∧ |(y : ℝ) - a.yCent| ≤ a.radius / |a.ydelt| + 3 / 2) := by
  obtain ⟨rx, ry⟩ := hr
  have hx0 := subLimits_nonneg a.xCent a.radius a.xdelt nx
  have hy0 := subLimits_nonneg a.yCent a.radius a.ydelt ny
  have hcx := subLimits_cover a.xCent a.radius a.xdelt nx
  have hcy := subLimits_cover a.yCent a.radius a.ydelt ny
  unfold subfits
  rw [if_neg hz]
  refine ⟨_, rfl, ?_, ?_⟩
  · intro w hw z hz y hy x hx h1 h2
    obtain ⟨a1, a2⟩ := (hcx x hx).1 h1
    obtain ⟨b1, b2⟩ := (hcy y hy).1 h2
    obtain ⟨i, hi, ei⟩ := slice_mem nx _ _ hx0 (by omega) x hx a1 a2
    obtain ⟨j, hj, ej⟩ := slice_mem ny _ _ hy0 (by omega) y hy b1 b2
    refine ⟨j, i, ?_, ?_⟩
    · simp only [NdArr.Valid, NdArr.slice, List.zipWith_cons_cons, List.zipWith_nil_right, List.forall₂_cons,
        (allOf_bound nz).1, (allOf_bound nz).2, (allOf_bound nw).1, (allOf_bound nw).2]
      exact ⟨by omega, by omega, hj, hi, List.Forall₂.nil⟩
    · simp only [NdArr.slice, List.zipWith_cons_cons, List.zipWith_nil_right, (allOf_bound nz).1, (allOf_bound nw).1, zero_add, ei, ej]
  · intro w z j i hv
    simp only [NdArr.Valid, NdArr.slice, List.zipWith_cons_cons, List.zipWith_nil_right, List.forall₂_cons] at hv
    obtain ⟨-, -, hj, hi, -⟩ := hv
    obtain ⟨a1, a2, a3⟩ := slice_mem' nx _ _ hx0 (by omega) i hi
    obtain ⟨b1, b2, b3⟩ := slice_mem' ny _ _ hy0 (by omega) j hj
    refine ⟨_, _, b3, a3, ?_, (hcx _ a3).2 a1 a2, (hcy _ b3).2 b1 b2⟩
    simp only [NdArr.slice, List.zipWith_cons_cons, List.zipWith_nil_right, (allOf_bound nz).1, (allOf_bound nw).1, zero_add]

/-- **C207**, what is wrong: a target to the left of the image. The upper limit is negative and counts from the right end: the cut-out is most of the
image, though no pixel is within the radius of the target. -/
theorem subfits_outside_wrong (n k : ℕ) (hk : 1 ≤ k) (hkn : k < n) (get : List ℕ → Option ℝ) :
    ∃ (a : Sub) (o : SubOut), subfits a (fun _ => 0) ⟨[n, n], get⟩ = .ok (some o) ∧
      o.data.shape = [2, n - k] ∧ ∀ x : ℕ, a.radius / |a.xdelt| < |(x : ℝ) - a.xCent| := by
  have hr : pyRound (-((k : ℝ) + 2)) = -((k : ℤ) + 2) := by
    have : (-((k : ℝ) + 2)) = ((-((k : ℤ) + 2) : ℤ) : ℝ) := by push_cast; ring
    rw [this]
    generalize (-((k : ℤ) + 2)) = m
    simp [pyRound]
  have hr0 : pyRound (0 : ℝ) = 0 := by simp [pyRound]
  have hx : subLimits (-((k : ℝ) + 2)) 1 1 n = (0, -(k : ℤ) - 1) := by
    unfold subLimits
    rw [hr]
    simp
    omega
  have hy : subLimits 0 1 1 n = (0, 1) := by
    unfold subLimits
    rw [hr0]
    simp
    omega
  obtain ⟨o, ho, hd, -⟩ := subfits_image ⟨-((k : ℝ) + 2), 0, 1, 1, 1, none, none, one_ne_zero, one_ne_zero⟩ rfl (fun _ => 0) n n get
  refine ⟨_, o, ho, ?_, ?_⟩
  · rw [hd]
    simp only [NdArr.slice, hx, hy]
    simp only [sliceBound, List.zipWith_cons_cons, List.zipWith_nil_right, List.cons.injEq, and_true]
    constructor
    · split_ifs <;> omega
    · split_ifs <;> omega
  · intro x
    have h1 : (0 : ℝ) ≤ x := Nat.cast_nonneg x
    have h2 : (0 : ℝ) ≤ k := Nat.cast_nonneg k
    dsimp only
    rw [abs_of_nonneg (show (0 : ℝ) ≤ x - -((k : ℝ) + 2) by linarith), abs_one, div_one]
    linarith

/-- **C207**, what is wrong: limits along the third axis. If both are numbers other than zero the function always raises. -/
theorem subfits_z_raises (a : Sub) (hz : truthy a.zMin ∧ truthy a.zMax) (crpix : ℕ → ℝ) (d : NdArr (Option ℝ)) :
    ∃ e, subfits a crpix d = .error e := by
  unfold subfits
  rw [if_pos hz]
  split_ifs
  · exact ⟨_, rfl⟩
  · exact ⟨_, rfl⟩

/-- If one of them is zero, they are ignored: the cut-out has all channels. -/
theorem subfits_z_zero (a : Sub) (hz : a.zMin = some 0 ∨ a.zMax = some 0) (crpix : ℕ → ℝ) (d : NdArr (Option ℝ)) :
    subfits a crpix d = subfits { a with zMin := none, zMax := none } crpix d := by
  unfold subfits
  rw [if_neg (by rcases hz with h | h <;> simp [truthy, h]), if_neg (by simp [truthy])]
  have : subSlices a d.shape = subSlices { a with zMin := none, zMax := none } d.shape := by
    unfold subSlices; rfl
  rw [this]

/-- A target inside the image. -/
example : Reaches ⟨5, 5, 2, 1, 1, none, none, one_ne_zero, one_ne_zero⟩ 10 10 := by
  have h5 : pyRound (5 : ℝ) = 5 := by simp [pyRound]
  have hc : ⌈(2 : ℝ) / |1|⌉ = 2 := by norm_num
  unfold Reaches subLimits
  rw [h5, hc]
  norm_num

end Verif.Region
