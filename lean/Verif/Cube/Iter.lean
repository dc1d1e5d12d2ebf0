import Verif.Cube.Props
import Verif.Cube.Peaks

/-!
# The map of iteration counts of three-dimensional RM-CLEAN

Source: `/repo/RMtools_3D/do_RMclean_3D.py` (`run_rmclean` 56-166, `writefits` 306-334) and
`/repo/RMutils/util_RM.py` (`do_rmclean_hogbom` 551-561, 597-604, 632-637).
-/

namespace Verif.Cube

open Verif.NumPy

variable {α β : Type*}

/-- `do_rmclean_hogbom`: the array of iteration counts. It is made with the two sky axes of the data (551-561,
597), filled pixel by pixel by the computation `H` (`H M t`: pixel `t` from the table `M` of spectra), and
squeezed (634). -/
def iterCube (H : List (List α) → ℕ → β) (nPhi : ℕ) (a : NdArr α) : Option (NdArr β) :=
  match a.shape with
  | [] => none
  | n :: rest =>
    if n ≠ nPhi then none
    else if 3 < (n :: rest).length then none
    else
      let s3 := shape3 n rest
      (a.reshape s3).map fun a3 =>
        let M := (List.range n).map fun c =>
          (List.range rest.prod).map fun t => a3.get (c :: unflat s3.tail t)
        let b2 : NdArr β :=
          { shape := s3.tail
            get := fun idx => H M (flat s3.tail idx) }
        b2.squeeze

/-- The map as written, `writefits` 325-331: axes of length one are put in front up to `NAXIS`. -/
def iterFile (isFD : ℕ → Bool) (H : List (List α) → ℕ → β) (d : NdArr α) : Option (NdArr β) :=
  let N := d.shape.length
  let nPhi := d.shape.getD (N - findAxis isFD N N) 0
  (iterCube H nPhi (readFDF isFD d)).map fun b => b.expandFront (N - b.shape.length)

theorem iterCube_spec (H : List (List α) → ℕ → β) (n : ℕ) (a : NdArr α) (rest : List ℕ)
    (hs : a.shape = n :: rest) (hlen : rest.length ≤ 2) :
    ∃ b, iterCube H n a = some b ∧ b.shape = sqz rest ∧
      ∀ t < rest.prod, b.get (unflat (sqz rest) t) =
        H ((List.range n).map fun c => (List.range rest.prod).map fun t => row a c t) t := by
  unfold iterCube
  rw [hs]
  dsimp only
  rw [if_neg (by simp), if_neg (by simp; omega)]
  have h3 : ∃ r3, shape3 n rest = n :: r3 ∧ r3.prod = rest.prod ∧ sqz r3 = sqz rest := by
    match rest with
    | [] => exact ⟨[1, 1], rfl, rfl, rfl⟩
    | [m] => exact ⟨[m, 1], rfl, by simp, by by_cases h : m = 1 <;> simp [sqz, h]⟩
    | _ :: _ :: _ => exact ⟨_, rfl, rfl, rfl⟩
  obtain ⟨r3, h3, h4, h5⟩ := h3
  rw [h3]
  unfold NdArr.reshape
  rw [if_pos (by rw [hs]; simp [h4]), hs, List.tail_cons]
  refine ⟨_, rfl, h5, ?_⟩
  intro t ht
  unfold NdArr.squeeze
  dsimp only
  rw [← h5, fill_unflat _ _ (by omega), flat_unflat _ _ (by omega)]
  congr 1
  apply List.map_congr_left
  intro c _
  apply List.map_congr_left
  intro t' ht'
  have ht'' := List.mem_range.1 ht'
  have e1 : flat r3 (unflat r3 t') = t' := flat_unflat _ _ (by omega)
  unfold row
  simp only [flat, unflat, e1, h4]
  rw [mul_comm c, Nat.mul_add_div (by omega), Nat.mul_add_mod, Nat.div_eq_of_lt ht'', Nat.mod_eq_of_lt ht'',
    add_zero, hs, List.tail_cons]

theorem sqz_set (s : List ℕ) (k : ℕ) (hk : k < s.length) : sqz (s.set k 1) = sqz (s.eraseIdx k) := by
  induction s generalizing k with
  | nil => simp at hk
  | cons n s ih =>
    cases k with
    | zero => simp [sqz]
    | succ k =>
      have := ih k (by simpa using hk)
      rw [List.set_cons_succ, List.eraseIdx_cons_succ]
      by_cases hn : n = 1
      · unfold sqz at this ⊢
        simpa [hn] using this
      · rw [sqz_cons _ _ hn, sqz_cons _ _ hn, this]

/-- What is written, whatever the axes: all axes of length one in front. -/
theorem iter_axes (isFD : ℕ → Bool) (H : List (List α) → ℕ → β) (d : NdArr α)
    (h0 : 0 < d.shape.length) (hn : d.shape.getD (specAxis isFD d.shape) 0 ≠ 1)
    (hsmall : (sqz (d.shape.eraseIdx (specAxis isFD d.shape))).length ≤ 2) :
    ∃ out, iterFile isFD H d = some out ∧
      out.shape = List.replicate (d.shape.length - (sqz (d.shape.eraseIdx (specAxis isFD d.shape))).length) 1 ++
        sqz (d.shape.eraseIdx (specAxis isFD d.shape)) ∧
      ∀ idx, out.Valid idx → out.get idx =
        H ((List.range (d.shape.getD (specAxis isFD d.shape) 0)).map fun c =>
            (List.range (d.shape.eraseIdx (specAxis isFD d.shape)).prod).map fun t =>
              canon d (specAxis isFD d.shape) c t)
          (flat (sqz (d.shape.eraseIdx (specAxis isFD d.shape)))
            (idx.drop (d.shape.length - (sqz (d.shape.eraseIdx (specAxis isFD d.shape))).length))) := by
  have hklt : specAxis isFD d.shape < d.shape.length := specAxis_lt isFD d.shape h0
  have hkd : d.shape.length - findAxis isFD d.shape.length d.shape.length = specAxis isFD d.shape := rfl
  obtain ⟨hrs, hrow⟩ := readFDF_spec isFD d h0 hn
  set k := specAxis isFD d.shape with hk
  set S := d.shape.eraseIdx k with hS
  set n := d.shape.getD k 0 with hnn
  obtain ⟨b, hb, hbs, hbrow⟩ := iterCube_spec H n (readFDF isFD d) (sqz S) hrs hsmall
  rw [sqz_sqz] at hbs hbrow
  unfold iterFile
  dsimp only
  rw [hkd, ← hnn, hb]
  refine ⟨_, rfl, ?_, ?_⟩
  · unfold NdArr.expandFront
    dsimp only
    rw [hbs]
  · intro idx hidx
    unfold NdArr.Valid NdArr.expandFront at hidx
    dsimp only at hidx
    rw [hbs] at hidx
    have hk3 : InShape (sqz S) (idx.drop (d.shape.length - (sqz S).length)) := by
      have := List.forall₂_drop (d.shape.length - (sqz S).length) hidx
      rwa [List.drop_left' (by simp)] at this
    unfold NdArr.expandFront
    dsimp only
    rw [hbs]
    have := hbrow _ (flat_lt _ _ hk3)
    rw [unflat_flat _ _ hk3] at this
    rw [this, sqz_prod]
    congr 1
    apply List.map_congr_left
    intro c _
    apply List.map_congr_left
    intro t ht
    exact hrow c t (List.mem_range.1 ht)

/-- **C132 is false in general**: the map of iteration counts has the axes of the data, with the depth axis of
length one, exactly when all axes of length one, the depth axis among them, come first (last in FITS order). -/
theorem iter_shape_iff (isFD : ℕ → Bool) (H : List (List α) → ℕ → β) (d : NdArr α)
    (h0 : 0 < d.shape.length) (hn : d.shape.getD (specAxis isFD d.shape) 0 ≠ 1)
    (hsmall : (sqz (d.shape.eraseIdx (specAxis isFD d.shape))).length ≤ 2) :
    ∃ out, iterFile isFD H d = some out ∧
      (out.shape = d.shape.set (specAxis isFD d.shape) 1 ↔ DegenerateFirst (d.shape.set (specAxis isFD d.shape) 1)) := by
  obtain ⟨out, h1, h2, _⟩ := iter_axes isFD H d h0 hn hsmall
  refine ⟨out, h1, ?_⟩
  have hklt : specAxis isFD d.shape < d.shape.length := specAxis_lt isFD d.shape h0
  rw [h2, degenerateFirst_iff, sqz_set _ _ hklt, List.length_set]
  exact eq_comm

theorem degFirst_flat (m : ℕ) (r idx : List ℕ) (h : InShape (List.replicate m 1 ++ r) idx) :
    flat (List.replicate m 1 ++ r) idx = flat r (idx.drop m) := by
  induction m generalizing idx with
  | zero => simp
  | succ m ih =>
    rw [List.replicate_succ, List.cons_append] at h ⊢
    obtain ⟨i, l', hi, hl, rfl⟩ := List.forall₂_cons_right_iff.1 h
    rw [List.drop_succ_cons, ← ih l' hl]
    have : i = 0 := by omega
    subst this
    simp [flat]

/-- The position of an index does not change when an axis of length one is left out. -/
theorem flat_set_one (s idx : List ℕ) (k : ℕ) (hk : k < s.length) (h : InShape (s.set k 1) idx) :
    flat (s.set k 1) idx = flat (s.eraseIdx k) (idx.eraseIdx k) := by
  induction s generalizing k idx with
  | nil => simp at hk
  | cons n s ih =>
    cases k with
    | zero =>
      rw [List.set_cons_zero] at h ⊢
      obtain ⟨i, l', hi, hl, rfl⟩ := List.forall₂_cons_right_iff.1 h
      have : i = 0 := by omega
      subst this
      simp [flat]
    | succ k =>
      have hk' : k < s.length := by simpa using hk
      rw [List.set_cons_succ] at h ⊢
      obtain ⟨i, l', hi, hl, rfl⟩ := List.forall₂_cons_right_iff.1 h
      rw [List.eraseIdx_cons_succ, List.eraseIdx_cons_succ]
      simp only [flat]
      rw [ih l' k hk' hl]
      congr 2
      rw [← sqz_prod, sqz_set _ _ hk', sqz_prod]

/-- **C132, the part that holds**: then the count at each place is that of the spectrum at the same place. -/
theorem iter_partial [Inhabited α] (isFD : ℕ → Bool) (G : List α → β) (d : NdArr α)
    (h0 : 0 < d.shape.length) (hn : d.shape.getD (specAxis isFD d.shape) 0 ≠ 1)
    (hsmall : (sqz (d.shape.eraseIdx (specAxis isFD d.shape))).length ≤ 2)
    (hdeg : DegenerateFirst (d.shape.set (specAxis isFD d.shape) 1)) :
    ∃ out, iterFile isFD (fun M t => G (column M t)) d = some out ∧
      out.shape = d.shape.set (specAxis isFD d.shape) 1 ∧
      ∀ idx, InShape (d.shape.set (specAxis isFD d.shape) 1) idx → out.get idx =
        G ((List.range (d.shape.getD (specAxis isFD d.shape) 0)).map fun c =>
          d.get (idx.set (specAxis isFD d.shape) c)) := by
  obtain ⟨out, h1, h2, h3⟩ := iter_axes isFD (fun M t => G (column M t)) d h0 hn hsmall
  obtain ⟨out', h1', h2'⟩ := iter_shape_iff isFD (fun M t => G (column M t)) d h0 hn hsmall
  have : out' = out := Option.some.inj (h1'.symm.trans h1)
  subst this
  have hsh := h2'.2 hdeg
  refine ⟨out', h1, hsh, ?_⟩
  intro idx hidx
  have hklt : specAxis isFD d.shape < d.shape.length := specAxis_lt isFD d.shape h0
  rw [h3 idx (by unfold NdArr.Valid; rw [hsh]; exact hidx)]
  obtain ⟨h4, _, h5⟩ := inShape_set _ _ _ _ hklt hidx
  rw [← degFirst_flat _ _ _ (by rw [← h2, hsh]; exact hidx), ← h2, hsh, flat_set_one _ _ _ hklt hidx,
    column_table _ _ _ _ (flat_lt _ _ h5)]
  congr 1
  apply List.map_congr_left
  intro c _
  exact canon_flat d _ c idx h4 h5

/-- Non-vacuity of C132: RA 4, Dec 3, depth 5, Stokes 1 (FITS order), ... -/
example : DegenerateFirst ([1, 5, 3, 4].set (specAxis (fun i => i == 3) [1, 5, 3, 4]) 1) :=
  ⟨2, [3, 4], by decide, by decide⟩

/-- ... and the count of iterations is at its pixel. -/
example (d : NdArr ℕ) (hd : d.shape = [1, 5, 3, 4]) (G : List ℕ → ℕ) :
    ∃ out, iterFile (fun i => i == 3) (fun M t => G (column M t)) d = some out ∧ out.shape = [1, 1, 3, 4] ∧
      out.get [0, 0, 2, 1] = G [d.get [0, 0, 2, 1], d.get [0, 1, 2, 1], d.get [0, 2, 2, 1], d.get [0, 3, 2, 1],
        d.get [0, 4, 2, 1]] := by
  have e : specAxis (fun i => i == 3) d.shape = 1 := by rw [hd]; rfl
  obtain ⟨out, h1, h2, h3⟩ := iter_partial (fun i => i == 3) G d (by rw [hd]; simp) (by rw [e, hd]; simp)
    (by rw [e, hd]; decide) (by rw [e, hd]; exact ⟨2, [3, 4], by decide, by decide⟩)
  rw [e, hd] at h2 h3
  exact ⟨out, h1, h2, h3 [0, 0, 2, 1] (by decide)⟩

/-- **C132 refuted**: with the depth axis first in FITS order, an image of `ny` rows and `nx` columns gives a
map whose axes are shifted by one against the header of the data. -/
theorem iter_shape_wrong (H : List (List α) → ℕ → β) (d : NdArr α) (nz ny nx : ℕ) (hz : nz ≠ 1) (hy : ny ≠ 1)
    (hx : nx ≠ 1) (hd : d.shape = [ny, nx, nz]) :
    ∃ out, iterFile (fun i => i == 1) H d = some out ∧ out.shape = [1, ny, nx] ∧
      out.shape ≠ d.shape.set 2 1 := by
  have e : specAxis (fun i => i == 1) d.shape = 2 := by rw [hd]; rfl
  obtain ⟨out, h1, h2, _⟩ := iter_axes (fun i => i == 1) H d (by rw [hd]; simp) (by rw [e, hd]; simpa using hz)
    (by rw [e, hd]; simp [sqz, hy, hx])
  have h : out.shape = [1, ny, nx] := by rw [h2, e, hd]; simp [sqz, hy, hx]
  refine ⟨out, h1, h, ?_⟩
  rw [h, hd]
  intro hh
  injection hh with h5 _
  exact hy h5.symm

/-- **C132 refuted**: an image of one column and `ny` rows gives a map of one row and `ny` columns. -/
theorem iter_column_wrong (H : List (List α) → ℕ → β) (d : NdArr α) (nz ny : ℕ) (hz : nz ≠ 1) (hy : ny ≠ 1)
    (hd : d.shape = [nz, ny, 1]) :
    ∃ out, iterFile (fun i => i == 3) H d = some out ∧ out.shape = [1, 1, ny] := by
  have e : specAxis (fun i => i == 3) d.shape = 0 := by rw [hd]; rfl
  obtain ⟨out, h1, h2, _⟩ := iter_axes (fun i => i == 3) H d (by rw [hd]; simp) (by rw [e, hd]; simpa using hz)
    (by rw [e, hd]; simp [sqz, hy])
  exact ⟨out, h1, by rw [h2, e, hd]; simp [sqz, hy]⟩

end Verif.Cube
