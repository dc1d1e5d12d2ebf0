import Verif.ICube.Props

/-!
# Stokes I cubes: file headers, inputs that fail, rescaling. Properties C112-C115
-/

namespace Verif.ICube

open Verif.NumPy Verif.StokesI

variable {nChan ny nx : ℕ}

/-! ## C112, C113 -/

/-- **C113 (which inputs work).** The fit of a cube ends normally if and only if the frequency vector has the
length of the cube, no axis has length one, the header has the keyword `BUNIT` and the order is at most five in
absolute value. -/
theorem C113_outcome_partial (fit : (Fin nChan → Option ℝ) → (Fin nChan → Option ℝ) → PixFit nChan)
    (x : Input nChan ny nx) : (∃ F, makeModel fit x = .ok F) ↔
      x.nFreq = nChan ∧ (nChan ≠ 1 ∧ ny ≠ 1 ∧ nx ≠ 1) ∧ x.hasBUNIT = true ∧ |x.polyOrd| ≤ 5 := by
  have hs : (sqz [nChan, ny, nx]).length < 3 ↔ ¬ (nChan ≠ 1 ∧ ny ≠ 1 ∧ nx ≠ 1) := by
    unfold sqz
    by_cases h1 : nChan = 1 <;> by_cases h2 : ny = 1 <;> by_cases h3 : nx = 1 <;> simp [h1, h2, h3]
  have hp : 5 < x.polyOrd.natAbs ↔ ¬ |x.polyOrd| ≤ 5 := by
    rw [Int.abs_eq_natAbs]
    omega
  unfold makeModel
  simp only [hs, hp]
  constructor
  · rintro ⟨F, hF⟩
    split_ifs at hF with h1 h2 h3 h4
    exact ⟨by push Not at h1; exact h1.symm, by tauto, by simpa using h3, by tauto⟩
  · rintro ⟨h1, h2, h3, h4⟩
    rw [if_neg (by simp [h1]), if_neg (by tauto), if_neg (by simp [h3]), if_neg (by tauto)]
    exact ⟨_, rfl⟩

/-- **C113 (refuted).** A cube of an image with one row (or one column) is rejected with an `IndexError`, and a cube
without `BUNIT` with a `KeyError` after all the fits, whatever the data. -/
theorem C113_rejected (fit : (Fin nChan → Option ℝ) → (Fin nChan → Option ℝ) → PixFit nChan)
    (x : Input nChan ny nx) (hn : x.nFreq = nChan) :
    (ny = 1 ∨ nx = 1 → makeModel fit x = .error .indexError) ∧
    (nChan ≠ 1 → ny ≠ 1 → nx ≠ 1 → x.hasBUNIT = false → makeModel fit x = .error .keyError) := by
  constructor
  · intro h
    unfold makeModel
    rw [if_neg (by simp [hn]), if_pos]
    unfold sqz
    rcases h with rfl | rfl
    · by_cases h1 : nChan = 1 <;> by_cases h3 : nx = 1 <;> simp [h1, h3]
    · by_cases h1 : nChan = 1 <;> by_cases h3 : ny = 1 <;> simp [h1, h3]
  · intro h1 h2 h3 h4
    unfold makeModel
    rw [if_neg (by simp [hn]), if_neg, if_pos h4]
    simp [sqz, h1, h2, h3]

theorem saveMaskHeader_range (h : Header) :
    saveMaskHeader h "DATAMAX" = some 1 ∧ saveMaskHeader h "DATAMIN" = some 0 := by
  constructor <;> simp [saveMaskHeader, Header.set, Header.pop]

/-- **C112 (part that holds).** The mask file has only values between its `DATAMIN` and `DATAMAX`. -/
theorem C112_mask_partial (fit : (Fin nChan → Option ℝ) → (Fin nChan → Option ℝ) → PixFit nChan)
    (x : Input nChan ny nx) (F : Files nChan ny nx) (hF : makeModel fit x = .ok F) (i : Fin ny) (j : Fin nx)
    (v : ℝ) (hv : F.mask i j = some v) :
    ∃ lo hi, F.coeffHeader "DATAMIN" = some lo ∧ F.coeffHeader "DATAMAX" = some hi ∧ lo ≤ v ∧ v ≤ hi := by
  unfold makeModel at hF
  split_ifs at hF with h1 h2 h3 h4
  injection hF with hF
  subst hF
  dsimp only at hv ⊢
  split_ifs at hv with h
  cases hv
  exact ⟨0, 1, (saveMaskHeader_range _).2, (saveMaskHeader_range _).1, by norm_num, le_rfl⟩

/-- **C112 (refuted).** The header of the mask is the same object as that of the other maps, so every one of them
claims the range 0 to 1. The reference frequency map of every run with a fitted pixel is outside the range its
header claims (frequencies above 1 Hz), and so is every coefficient above 1. -/
theorem C112_range_wrong (fit : (Fin nChan → Option ℝ) → (Fin nChan → Option ℝ) → PixFit nChan)
    (x : Input nChan ny nx) (F : Files nChan ny nx) (hF : makeModel fit x = .ok F) :
    F.refFreqHeader "DATAMAX" = some 1 ∧ F.coeffHeader "DATAMAX" = some 1 ∧
    (∀ i j f, F.refFreq i j = some f → 1 < f →
      ∃ hi, F.refFreqHeader "DATAMAX" = some hi ∧ hi < f) ∧
    ∀ k m i j v, F.coeff k = some m → m i j = some v → 1 < v →
      ∃ hi, F.coeffHeader "DATAMAX" = some hi ∧ hi < v := by
  unfold makeModel at hF
  split_ifs at hF with h1 h2 h3 h4
  injection hF with hF
  subst hF
  have h := (saveMaskHeader_range (removeAxes x.header)).1
  exact ⟨h, h, fun i j f _ hf => ⟨1, h, hf⟩, fun k m i j v _ _ hv => ⟨1, h, hv⟩⟩

/-! ## C114: rescaling -/

theorem flatMap_getElem? {α β : Type*} (L : List α) (f : α → List β) (n : ℕ) (hf : ∀ a, (f a).length = n)
    (i j : ℕ) (hi : i < L.length) (hj : j < n) : (L.flatMap f)[i * n + j]? = (f L[i])[j]? := by
  induction L generalizing i with
  | nil => simp at hi
  | cons a L ih =>
    rw [List.flatMap_cons]
    cases i with
    | zero =>
      rw [zero_mul, zero_add, List.getElem?_append_left (by rw [hf]; exact hj)]
      rfl
    | succ i =>
      rw [List.getElem?_append_right (by rw [hf]; nlinarith), hf]
      have : (i + 1) * n + j - n = i * n + j := by
        rw [add_mul, one_mul]
        omega
      rw [this, ih i (by simpa using hi)]
      rfl

theorem pixels_getElem? (y : Fin ny) (x : Fin nx) : (pixels ny nx)[(y : ℕ) * nx + x]? = some (y, x) := by
  unfold pixels
  rw [flatMap_getElem? _ _ nx (by simp) _ _ (by simp) x.2]
  simp

theorem pixels_length : (pixels ny nx).length = ny * nx := by
  unfold pixels
  rw [List.length_flatMap]
  simp

theorem foldl_put (L : List (((Fin 6 → Option ℝ) × (Fin 6 → Option ℝ)) × ℕ))
    (acc0 : (Fin 6 → Img ny nx (Option ℝ)) × (Fin 6 → Img ny nx (Option ℝ))) (y : Fin ny) (x : Fin nx)
    (G : (Fin 6 → Option ℝ) × (Fin 6 → Option ℝ)) (hG : ∀ rt ∈ L, rt.2 = (y : ℕ) * nx + x → rt.1 = G)
    (hex : ∃ rt ∈ L, rt.2 = (y : ℕ) * nx + x) :
    (∀ k, (L.foldl put acc0).1 k y x = G.1 k) ∧ ∀ k, (L.foldl put acc0).2 k y x = G.2 k := by
  induction L using List.reverseRecOn with
  | nil => simp at hex
  | append_singleton L a ih =>
    rw [List.foldl_append, List.foldl_cons, List.foldl_nil]
    by_cases h : a.2 = (y : ℕ) * nx + x
    · have hx : (x : ℕ) < nx := x.2
      have hd : a.2 / nx = y := by
        rw [h, mul_comm, Nat.mul_add_div (by omega), Nat.div_eq_of_lt hx, add_zero]
      have hm : a.2 % nx = x := by
        rw [h, mul_comm, Nat.mul_add_mod, Nat.mod_eq_of_lt hx]
      have ha := hG a (by simp) h
      unfold put
      rw [dif_pos ⟨by rw [hd]; exact y.2, by rw [hm]; exact hx⟩]
      simp only [setPix]
      have he : (y, x) = ((⟨a.2 / nx, by rw [hd]; exact y.2⟩ : Fin ny),
          (⟨a.2 % nx, by rw [hm]; exact hx⟩ : Fin nx)) := by
        simp [hd, hm]
      simp only [← he, if_true, ha, implies_true, and_self]
    · obtain ⟨rt, h1, h2⟩ := hex
      have h1' : rt ∈ L := by
        rcases List.mem_append.mp h1 with h1 | h1
        · exact h1
        · rw [List.mem_singleton] at h1
          subst h1
          exact absurd h2 h
      have := ih (fun rt hrt => hG rt (by simp [hrt])) ⟨rt, h1', h2⟩
      unfold put
      split_ifs with hb
      · simp only [setPix]
        have hne : ¬ (y, x) = ((⟨a.2 / nx, hb.1⟩ : Fin ny), (⟨a.2 % nx, hb.2⟩ : Fin nx)) := by
          intro he
          apply h
          have e1 := congrArg (fun q => ((q.1 : Fin ny) : ℕ)) he
          have e2 := congrArg (fun q => ((q.2 : Fin nx) : ℕ)) he
          simp only at e1 e2
          rw [e1, e2, mul_comm]
          exact (Nat.div_add_mod _ _).symm
        simp only [if_neg hne]
        exact this
      · exact this

/-- **C114.** Every pixel is rescaled with its own covariance, coefficients and frequencies. -/
theorem C114_own_pixel (fn : FitFun) (covar : Fin 6 → Fin 6 → Img ny nx (Option ℝ))
    (old new : Img ny nx (Option ℝ)) (coeffs : Fin 6 → Img ny nx (Option ℝ)) (y : Fin ny) (x : Fin nx) :
    let r := rescalePixel fn (fun i j => covar i j y x) (fun k => coeffs k y x) (old y x) (new y x)
    (∀ k, (rescale3D fn covar old new coeffs).1 k y x = r.1 k) ∧
      ∀ k, (rescale3D fn covar old new coeffs).2 k y x = r.2 k := by
  unfold rescale3D
  dsimp only
  rw [List.map_map]
  apply foldl_put
  · rintro ⟨v, t⟩ hm ht
    rw [List.mk_mem_zipIdx_iff_getElem?] at hm
    simp only at ht
    rw [ht, List.getElem?_map, pixels_getElem?] at hm
    simp only [Option.map_some, Option.some.injEq] at hm
    exact hm.symm
  · refine ⟨(rescalePixel fn (fun i j => covar i j y x) (fun k => coeffs k y x) (old y x) (new y x),
      (y : ℕ) * nx + x), ?_, rfl⟩
    rw [List.mk_mem_zipIdx_iff_getElem?, List.getElem?_map, pixels_getElem?]
    rfl

/-- What is read back: file `5 - k` if it and all the files of lower order exist, else zero. -/
theorem readCoeffs_eq (file : ℕ → Option (Img ny nx (Option ℝ))) (n : ℕ) (hn : n ≤ 5)
    (h1 : ∀ k ≤ n, (file k).isSome) (h2 : ∀ k, n < k → file k = none) (k : Fin 6) (y : Fin ny) (x : Fin nx) :
    readCoeffs file k y x = if 5 - (k : ℕ) ≤ n then (file (5 - k)).getD (fun _ _ => none) y x else some 0 := by
  have hget : ∀ i, i ≤ n → ∃ m, file i = some m := fun i hi => Option.isSome_iff_exists.mp (h1 i hi)
  obtain ⟨m0, e0⟩ := hget 0 (by omega)
  unfold readCoeffs
  rw [readCoeffs.go, e0]
  dsimp only
  interval_cases n
  · rw [readCoeffs.go, h2 1 (by omega)]
    fin_cases k <;> simp [e0]
  · obtain ⟨m1, e1⟩ := hget 1 (by omega)
    rw [readCoeffs.go, e1]
    dsimp only
    rw [readCoeffs.go, h2 2 (by omega)]
    fin_cases k <;> simp [e0, e1]
  · obtain ⟨m1, e1⟩ := hget 1 (by omega)
    obtain ⟨m2, e2⟩ := hget 2 (by omega)
    rw [readCoeffs.go, e1]
    dsimp only
    rw [readCoeffs.go, e2]
    dsimp only
    rw [readCoeffs.go, h2 3 (by omega)]
    fin_cases k <;> simp [e0, e1, e2]
  · obtain ⟨m1, e1⟩ := hget 1 (by omega)
    obtain ⟨m2, e2⟩ := hget 2 (by omega)
    obtain ⟨m3, e3⟩ := hget 3 (by omega)
    rw [readCoeffs.go, e1]
    dsimp only
    rw [readCoeffs.go, e2]
    dsimp only
    rw [readCoeffs.go, e3]
    dsimp only
    rw [readCoeffs.go, h2 4 (by omega)]
    fin_cases k <;> simp [e0, e1, e2, e3]
  · obtain ⟨m1, e1⟩ := hget 1 (by omega)
    obtain ⟨m2, e2⟩ := hget 2 (by omega)
    obtain ⟨m3, e3⟩ := hget 3 (by omega)
    obtain ⟨m4, e4⟩ := hget 4 (by omega)
    rw [readCoeffs.go, e1]
    dsimp only
    rw [readCoeffs.go, e2]
    dsimp only
    rw [readCoeffs.go, e3]
    dsimp only
    rw [readCoeffs.go, e4]
    dsimp only
    rw [readCoeffs.go, h2 5 (by omega)]
    fin_cases k <;> simp [e0, e1, e2, e3, e4]
  · obtain ⟨m1, e1⟩ := hget 1 (by omega)
    obtain ⟨m2, e2⟩ := hget 2 (by omega)
    obtain ⟨m3, e3⟩ := hget 3 (by omega)
    obtain ⟨m4, e4⟩ := hget 4 (by omega)
    obtain ⟨m5, e5⟩ := hget 5 (by omega)
    rw [readCoeffs.go, e1]
    dsimp only
    rw [readCoeffs.go, e2]
    dsimp only
    rw [readCoeffs.go, e3]
    dsimp only
    rw [readCoeffs.go, e4]
    dsimp only
    rw [readCoeffs.go, e5]
    dsimp only
    rw [readCoeffs.go]
    fin_cases k <;> simp [e0, e1, e2, e3, e4, e5]

theorem nGood_card (c : Fin 6 → Img ny nx (Option ℝ)) :
    nGood c = (Finset.univ.filter fun k => goodPlane (c k) = true).card := by
  unfold nGood
  rw [← List.toFinset_card_of_nodup ((List.nodup_finRange 6).filter _)]
  congr 1
  ext k
  simp

theorem goodPlane_iff (p : Img ny nx (Option ℝ)) :
    goodPlane p = true ↔ ∃ y x v, p y x = some v ∧ v ≠ 0 := by
  unfold goodPlane
  rw [List.any_eq_true]
  constructor
  · rintro ⟨q, -, h⟩
    simp only [decide_eq_true_eq] at h
    obtain ⟨v, hv⟩ := Option.ne_none_iff_exists'.mp h.2
    exact ⟨q.1, q.2, v, hv, fun h0 => h.1 (by rw [hv, h0])⟩
  · rintro ⟨y, x, v, h1, h2⟩
    exact ⟨(y, x), mem_pixels _, by simp [h1, h2]⟩

/-- If every order below a non-zero one is non-zero somewhere in the image, all non-zero planes are written. -/
theorem writeNew_complete (c : Fin 6 → Img ny nx (Option ℝ))
    (hc : ∀ j k : Fin 6, k ≤ j → goodPlane (c k) = true → goodPlane (c j) = true) (k : Fin 6)
    (hk : goodPlane (c k) = true) : 5 - (k : ℕ) < nGood c := by
  rw [nGood_card]
  have : (Finset.Ici k).card ≤ (Finset.univ.filter fun k => goodPlane (c k) = true).card := by
    apply Finset.card_le_card
    intro j hj
    rw [Finset.mem_Ici] at hj
    simp [hc j k hj hk]
  rw [Fin.card_Ici] at this
  have := k.2
  omega

/-- **C114 (refuted).** If the plane of some order `j` is zero or NaN in the whole image while that of a higher order
`t` is not (and none above), the file of the highest order is not written. -/
theorem C114_top_lost (c e : Fin 6 → Img ny nx (Option ℝ)) (j t : Fin 6) (hjt : j < t)
    (hj : goodPlane (c j.rev) = false) (ht : ∀ k, t < k → goodPlane (c k.rev) = false) :
    writeNew c e t = none := by
  unfold writeNew
  rw [dif_neg]
  rintro ⟨h1, -⟩
  rw [nGood_card] at h1
  have hsub : (Finset.univ.filter fun k => goodPlane (c k) = true) ⊆ (Finset.Ici t.rev).erase j.rev := by
    intro k hk
    rw [Finset.mem_filter] at hk
    rw [Finset.mem_erase, Finset.mem_Ici]
    constructor
    · rintro rfl
      rw [hk.2] at hj
      exact absurd hj (by simp)
    · by_contra hlt
      push Not at hlt
      have := ht k.rev (by rw [← Fin.rev_rev t]; exact Fin.rev_lt_rev.mpr hlt)
      rw [Fin.rev_rev, hk.2] at this
      exact absurd this (by simp)
  have hcard := Finset.card_le_card hsub
  rw [Finset.card_erase_of_mem (by rw [Finset.mem_Ici]; exact Fin.rev_le_rev.mpr hjt.le), Fin.card_Ici,
    Fin.val_rev] at hcard
  have := t.2
  omega

/-- The files that a run of `make_model_I` leaves, for the rescaling: a fitted pixel has the coefficients of a
model of order at most `n` and a positive reference frequency; other pixels are NaN everywhere. -/
structure IsFit (F : Files nChan ny nx) (n : ℕ) : Prop where
  order : n ≤ 5
  exist : ∀ k, (F.coeff k).isSome ↔ k ≤ n
  pixel : ∀ y x, (∃ f, F.refFreq y x = some f ∧ 0 < f ∧ ∀ k m, F.coeff k = some m → ∃ v, m y x = some v) ∨
    (F.refFreq y x = none ∧ ∀ k m, F.coeff k = some m → m y x = none)

/-- Every successful run leaves such files. -/
theorem makeModel_isFit (freq : Fin nChan → ℝ)
    (fitted : (Fin nChan → Option ℝ) → (Fin nChan → Option ℝ) → FitResult)
    (x : Input nChan ny nx) (F : Files nChan ny nx)
    (hF : makeModel (fun n s => PixFit.ofFit freq (fitted n s)) x = .ok F)
    (href : ∀ n s, 0 < (fitted n s).refFreq) : IsFit F x.polyOrd.natAbs := by
  unfold makeModel at hF
  split_ifs at hF with h1 h2 h3 h4
  dsimp only at hF
  have key := C108_own_fit (fun s => PixFit.ofFit freq (fitted (noise x.d x.threshold) s)) x.d x.mask
  injection hF with hF
  subst hF
  refine ⟨by omega, ?_, ?_⟩
  · intro k
    dsimp only
    split_ifs with h
    · exact iff_of_true rfl h.1
    · refine iff_of_false (by simp) (by omega)
  · intro i j
    dsimp only
    cases hm : x.mask i j with
    | true =>
      left
      obtain ⟨-, k2, -, k4, -⟩ := (key i j).1 hm
      refine ⟨_, k4, href _ _, ?_⟩
      intro k m hk
      split_ifs at hk with h
      simp only [Option.some.injEq] at hk
      exact ⟨_, by rw [← hk, k2]; rfl⟩
    | false =>
      right
      obtain ⟨-, k2, -, k4, -⟩ := (key i j).2 hm
      refine ⟨k4, ?_⟩
      intro k m hk
      split_ifs at hk with h
      simp only [Option.some.injEq] at hk
      rw [← hk]
      exact k2 _

/-- **C114 (part that holds).** After rescaling to the frequency `f'`, in every fitted pixel and at every frequency
the new coefficient maps with the new reference frequency describe the same spectrum as the old ones, if in the
new maps every order below a non-zero one is non-zero somewhere in the image (`hc`). -/
theorem C114_same_spectrum_partial (fn : FitFun) (F : Files nChan ny nx) (n : ℕ) (hF : IsFit F n)
    (how : NewFreq) (f' : ℝ) (hf' : newFreq F.refFreq how = some f') (hpos : 0 < f')
    (hc : ∀ j k : Fin 6, k ≤ j →
      goodPlane ((rescale3D fn F.covar F.refFreq (fun _ _ => some f') (readCoeffs F.coeff)).1 k) = true →
      goodPlane ((rescale3D fn F.covar F.refFreq (fun _ _ => some f') (readCoeffs F.coeff)).1 j) = true)
    (y : Fin ny) (x : Fin nx) (ref : ℝ) (href : F.refFreq y x = some ref) (f : ℝ) (hf : 0 < f) :
    (rescaleFiles fn F how).refFreq = some f' ∧
    mapSpectrum fn (rescaleFiles fn F how).coeff y x f' f = mapSpectrum fn F.coeff y x ref f := by
  have hpix : 0 < ref ∧ ∀ k m, F.coeff k = some m → ∃ v, m y x = some v := by
    rcases hF.pixel y x with ⟨g, h1, h2, h3⟩ | ⟨h1, -⟩
    · rw [href] at h1
      cases h1
      exact ⟨h2, h3⟩
    · rw [href] at h1
      exact absurd h1 (by simp)
  have hco : ∀ k, n < k → F.coeff k = none := by
    intro k hk
    have := (not_congr (hF.exist k)).mpr (by omega)
    simpa using this
  have hread := readCoeffs_eq F.coeff n hF.order (fun k hk => (hF.exist k).mpr hk) hco
  have hval : ∀ k : Fin 6, readCoeffs F.coeff k y x =
      some (((F.coeff (5 - (k : ℕ))).bind fun m => m y x).getD 0) := by
    intro k
    rw [hread k y x]
    split_ifs with h
    · obtain ⟨m, hm⟩ := Option.isSome_iff_exists.mp ((hF.exist _).mpr h)
      obtain ⟨v, hv⟩ := hpix.2 _ _ hm
      rw [hm]
      simp [hv]
    · rw [hco _ (by omega)]
      rfl
  have hall : allSome (fun k => readCoeffs F.coeff k y x) =
      some fun k : Fin 6 => ((F.coeff (5 - (k : ℕ))).bind fun m => m y x).getD 0 := by
    unfold allSome
    rw [if_pos (by intro k; dsimp only; rw [hval]; rfl)]
    congr 1
    funext k
    dsimp only
    rw [hval]
    rfl
  -- the old pixel as a fit
  set C : Option (Fin 6 → Fin 6 → ℝ) :=
    if ∀ i j, (F.covar i j y x).isSome then some fun i j => (F.covar i j y x).getD 0 else none with hC
  set r : FitResult :=
    { params := fun k : Fin 6 => ((F.coeff (5 - (k : ℕ))).bind fun m => m y x).getD 0
      fitStatus := 0
      chiSq := 0
      dof := 0
      aic := 0
      polyOrd := 5
      refFreq := ref
      pcov := C.getD fun _ _ => 0
      perror := fun _ => some 0
      fn := fn } with hr
  have hnew : ∀ k, (rescale3D fn F.covar F.refFreq (fun _ _ => some f') (readCoeffs F.coeff)).1 k y x =
      some ((renormalize r f').params k) := by
    intro k
    rw [(C114_own_pixel fn F.covar F.refFreq (fun _ _ => some f') (readCoeffs F.coeff) y x).1 k]
    unfold rescalePixel
    rw [hall, href]
  have hfn : (renormalize r f').fn = fn := by
    unfold renormalize
    dsimp only
    split <;> rfl
  have href' : (renormalize r f').refFreq = f' := by
    unfold renormalize
    dsimp only
    split <;> rfl
  refine ⟨hf', ?_⟩
  have hsame := renormalize_same_model r f' f hpix.1 hpos hf
  have hold := calcModel_eq_spec r f hf hpix.1
    (fun k => ((F.coeff k).bind fun m => m y x).getD 0) (by
      intro k
      simp only [hr, Fin.val_rev]
      congr 4
      have := k.2
      omega)
  have hnewspec := calcModel_eq_spec (renormalize r f') f hf (by rw [href']; exact hpos)
    (fun k => (((rescaleFiles fn F how).coeff k).bind fun m => m y x).getD 0) (by
      intro k
      unfold rescaleFiles
      dsimp only
      rw [hf']
      unfold writeNew
      set c := (rescale3D fn F.covar F.refFreq (fun _ _ => some f') (readCoeffs F.coeff)).1 with hcdef
      by_cases hk : (k : ℕ) < nGood c
      · rw [dif_pos ⟨hk, k.2⟩]
        simp only [Option.bind_some]
        rw [hnew]
        simp only [Option.getD_some]
        congr 1
        ext
        simp only [Fin.val_rev]
        omega
      · rw [dif_neg (by tauto)]
        simp only [Option.bind_none, Option.getD_none]
        by_contra hne
        apply hk
        have := writeNew_complete c hc k.rev ((goodPlane_iff _).mpr ⟨y, x, _, hnew _, fun h => hne h.symm⟩)
        rw [Fin.val_rev] at this
        omega)
  rw [hfn, href'] at hnewspec
  unfold mapSpectrum
  have e1 : r.fn = fn := rfl
  have e2 : r.refFreq = ref := rfl
  rw [e1, e2] at hold
  dsimp only
  rw [← hold, ← hnewspec]
  exact hsame.1

/-- **C114**: there is an error map for every coefficient map; for linear models it has, in every fitted pixel, the error
from the covariance of that pixel, times the factor by which the coefficient changes. -/
theorem C114_errors (F : Files nChan ny nx) (n : ℕ) (hF : IsFit F n) (how : NewFreq) (f' : ℝ)
    (hf' : newFreq F.refFreq how = some f') (hpos : 0 < f') :
    (∀ fn k, ((rescaleFiles fn F how).coeffErr k).isSome = ((rescaleFiles fn F how).coeff k).isSome) ∧
    ∀ (y : Fin ny) (x : Fin nx) (ref : ℝ), F.refFreq y x = some ref → (∀ i j, (F.covar i j y x).isSome) →
      ∀ (k : Fin 6) (e : ℝ) (m : Img ny nx (Option ℝ)), 0 ≤ e → F.covar k.rev k.rev y x = some (e ^ 2) →
        (rescaleFiles .linear F how).coeffErr k = some m → m y x = some (e * (f' / ref) ^ (k : ℕ)) := by
  refine ⟨fun fn k => ?_, fun y x ref href hcov k e m he hk hm => ?_⟩
  · unfold rescaleFiles writeNew
    dsimp only
    split_ifs <;> rfl
  have hpix : 0 < ref ∧ ∀ k m, F.coeff k = some m → ∃ v, m y x = some v := by
    rcases hF.pixel y x with ⟨g, h1, h2, h3⟩ | ⟨h1, -⟩
    · rw [href] at h1
      cases h1
      exact ⟨h2, h3⟩
    · rw [href] at h1
      exact absurd h1 (by simp)
  have hco : ∀ k, n < k → F.coeff k = none := by
    intro k hk
    have := (not_congr (hF.exist k)).mpr (by omega)
    simpa using this
  have hread := readCoeffs_eq F.coeff n hF.order (fun k hk => (hF.exist k).mpr hk) hco
  have hall : ∃ p, allSome (fun k => readCoeffs F.coeff k y x) = some p := by
    unfold allSome
    rw [if_pos]
    · exact ⟨_, rfl⟩
    · intro k
      dsimp only
      rw [hread k y x]
      split_ifs with h
      · obtain ⟨m, hm⟩ := Option.isSome_iff_exists.mp ((hF.exist _).mpr h)
        obtain ⟨v, hv⟩ := hpix.2 _ _ hm
        rw [hm]
        simp [hv]
      · rfl
  obtain ⟨p, hp⟩ := hall
  unfold rescaleFiles writeNew at hm
  dsimp only at hm
  rw [hf'] at hm
  split_ifs at hm with hlt
  rw [Option.some.injEq] at hm
  rw [← hm, (C114_own_pixel .linear F.covar F.refFreq (fun _ _ => some f') (readCoeffs F.coeff) y x).2]
  unfold rescalePixel
  rw [hp, href]
  dsimp only
  rw [if_pos hcov, if_pos (by rfl)]
  unfold renormalize errLinear
  have hrev : (⟨5 - (k : ℕ), by omega⟩ : Fin 6) = k.rev := by
    ext
    rw [Fin.val_rev]
    show 5 - (k : ℕ) = _
    omega
  rw [hrev]
  dsimp only
  have hx : 0 < f' / ref := div_pos hpos hpix.1
  generalize f' / ref = t at hx
  have key : ∀ (j : ℕ) (C : ℝ), C = e ^ 2 → sqrtNaN (t ^ (2 * j) * C) = some (e * t ^ j) := by
    intro j C hC
    have h0 : 0 ≤ e * t ^ j := mul_nonneg he (pow_nonneg hx.le _)
    have h1 : t ^ (2 * j) * C = (e * t ^ j) ^ 2 := by rw [hC]; ring
    unfold sqrtNaN
    rw [h1, if_neg (not_lt.mpr (sq_nonneg _)), Real.sqrt_sq h0]
  have hC : ((F.covar k.rev k.rev y x).getD 0 : ℝ) = e ^ 2 := by rw [hk]; rfl
  fin_cases k
  · have := key 0 _ hC
    rw [mul_zero, pow_zero, one_mul] at this
    exact this
  · exact key 1 _ hC
  · exact key 2 _ hC
  · exact key 3 _ hC
  · exact key 4 _ hC
  · exact key 5 _ hC

/-- **C114 (part that holds), linear models.** If every order up to `n` is non-zero somewhere in the image, the new
maps describe the same spectrum in every fitted pixel at every frequency. -/
theorem C114_linear_partial (F : Files nChan ny nx) (n : ℕ) (hF : IsFit F n) (how : NewFreq) (f' : ℝ)
    (hf' : newFreq F.refFreq how = some f') (hpos : 0 < f')
    (hnz : ∀ k ≤ n, ∃ m y x v, F.coeff k = some m ∧ m y x = some v ∧ v ≠ 0)
    (y : Fin ny) (x : Fin nx) (ref : ℝ) (href : F.refFreq y x = some ref) (f : ℝ) (hf : 0 < f) :
    mapSpectrum .linear (rescaleFiles .linear F how).coeff y x f' f = mapSpectrum .linear F.coeff y x ref f := by
  refine (C114_same_spectrum_partial .linear F n hF how f' hf' hpos ?_ y x ref href f hf).2
  have hco : ∀ k, n < k → F.coeff k = none := by
    intro k hk
    have := (not_congr (hF.exist k)).mpr (by omega)
    simpa using this
  have hread := readCoeffs_eq F.coeff n hF.order (fun k hk => (hF.exist k).mpr hk) hco
  have hpix : ∀ i j,
      (∃ g, F.refFreq i j = some g ∧ 0 < g ∧ (∀ k m, F.coeff k = some m → ∃ v, m i j = some v) ∧
        ∀ k : Fin 6, (rescale3D .linear F.covar F.refFreq (fun _ _ => some f') (readCoeffs F.coeff)).1 k i j =
          some (((F.coeff (5 - (k : ℕ))).bind fun m => m i j).getD 0 * (f' / g) ^ (5 - (k : ℕ)))) ∨
      ((∀ k m, F.coeff k = some m → m i j = none) ∧
        ∀ k, (rescale3D .linear F.covar F.refFreq (fun _ _ => some f') (readCoeffs F.coeff)).1 k i j = none) := by
    intro i j
    rcases hF.pixel i j with ⟨g, h1, h2, h3⟩ | ⟨h1, h1'⟩
    · left
      refine ⟨g, h1, h2, h3, fun k => ?_⟩
      have hval : ∀ k : Fin 6, readCoeffs F.coeff k i j =
          some (((F.coeff (5 - (k : ℕ))).bind fun m => m i j).getD 0) := by
        intro k
        rw [hread k i j]
        split_ifs with h
        · obtain ⟨m, hm⟩ := Option.isSome_iff_exists.mp ((hF.exist _).mpr h)
          obtain ⟨v, hv⟩ := h3 _ _ hm
          rw [hm]
          simp [hv]
        · rw [hco _ (by omega)]
          rfl
      have hall : allSome (fun k => readCoeffs F.coeff k i j) =
          some fun k : Fin 6 => ((F.coeff (5 - (k : ℕ))).bind fun m => m i j).getD 0 := by
        unfold allSome
        rw [if_pos (by intro k; dsimp only; rw [hval]; rfl)]
        congr 1
        funext k
        dsimp only
        rw [hval]
        rfl
      rw [(C114_own_pixel .linear F.covar F.refFreq (fun _ _ => some f') (readCoeffs F.coeff) i j).1 k]
      unfold rescalePixel
      rw [hall, h1]
      simp only [renormalize, renormLinear]
      fin_cases k <;> simp
    · right
      refine ⟨h1', fun k => ?_⟩
      rw [(C114_own_pixel .linear F.covar F.refFreq (fun _ _ => some f') (readCoeffs F.coeff) i j).1 k]
      unfold rescalePixel
      rw [h1]
      cases allSome (fun k => readCoeffs F.coeff k i j) <;> rfl
  intro j k hkj hk
  have hkn : 5 - (k : ℕ) ≤ n := by
    obtain ⟨a, b, v, e1, e2⟩ := (goodPlane_iff _).mp hk
    rcases hpix a b with ⟨g, -, -, -, h⟩ | ⟨-, h⟩
    · by_contra hn
      rw [h k, hco _ (by omega)] at e1
      simp only [Option.bind_none, Option.getD_none, zero_mul, Option.some.injEq] at e1
      exact e2 e1.symm
    · rw [h k] at e1
      exact absurd e1 (by simp)
  have hjk : (k : ℕ) ≤ j := hkj
  obtain ⟨m, a, b, v, e1, e2, e3⟩ := hnz (5 - (j : ℕ)) (by omega)
  rcases hpix a b with ⟨g, -, hg, -, h⟩ | ⟨h, -⟩
  · refine (goodPlane_iff _).mpr ⟨a, b, _, h j, ?_⟩
    rw [e1]
    simp only [Option.bind_some, e2, Option.getD_some]
    exact mul_ne_zero e3 (pow_ne_zero _ (div_pos hpos hg).ne')
  · rw [h _ _ e1] at e2
    exact absurd e2 (by simp)

theorem vec_zero (p q : ℝ) (k : Fin 6) (h3 : k ≠ 3) (h5 : k ≠ 5) :
    (![0, 0, 0, p, 0, q] : Fin 6 → ℝ) k = 0 := by
  fin_cases k <;> first | rfl | exact absurd rfl h3 | exact absurd rfl h5

/-- **C114 (refuted).** Linear model of order two whose map of the linear coefficient is zero: in every pixel with a
non-zero quadratic coefficient the spectrum of the new maps differs from the old one at every frequency. -/
theorem C114_spectrum_changed (F : Files nChan ny nx) (hF : IsFit F 2) (how : NewFreq) (f' : ℝ)
    (hf' : newFreq F.refFreq how = some f') (hpos : 0 < f')
    (hz : ∀ m y x v, F.coeff 1 = some m → m y x = some v → v = 0)
    (y : Fin ny) (x : Fin nx) (ref : ℝ) (href : F.refFreq y x = some ref)
    (m2 : Img ny nx (Option ℝ)) (hm2 : F.coeff 2 = some m2) (v2 : ℝ) (hv2 : m2 y x = some v2) (hne : v2 ≠ 0)
    (f : ℝ) (hf : 0 < f) :
    mapSpectrum .linear (rescaleFiles .linear F how).coeff y x f' f ≠ mapSpectrum .linear F.coeff y x ref f := by
  have hco : ∀ k, 2 < k → F.coeff k = none := by
    intro k hk
    have := (not_congr (hF.exist k)).mpr (by omega)
    simpa using this
  obtain ⟨m0, hm0⟩ := Option.isSome_iff_exists.mp ((hF.exist 0).mpr (by norm_num))
  obtain ⟨m1, hm1⟩ := Option.isSome_iff_exists.mp ((hF.exist 1).mpr (by norm_num))
  have hread := readCoeffs_eq F.coeff 2 (by norm_num) (fun k hk => (hF.exist k).mpr hk) hco
  -- the new maps in a fitted pixel and in a blank pixel
  have hpix : ∀ i j,
      (∃ g a b, F.refFreq i j = some g ∧ 0 < g ∧ m0 i j = some a ∧ m2 i j = some b ∧
        ∀ k, (rescale3D .linear F.covar F.refFreq (fun _ _ => some f') (readCoeffs F.coeff)).1 k i j =
          some (![0, 0, 0, b * (f' / g) ^ 2, 0, a] k)) ∨
      (F.refFreq i j = none ∧
        ∀ k, (rescale3D .linear F.covar F.refFreq (fun _ _ => some f') (readCoeffs F.coeff)).1 k i j = none) := by
    intro i j
    rcases hF.pixel i j with ⟨g, h1, h2, h3⟩ | ⟨h1, -⟩
    · left
      obtain ⟨a, ha⟩ := h3 0 m0 hm0
      obtain ⟨b, hb⟩ := h3 2 m2 hm2
      obtain ⟨z, hz'⟩ := h3 1 m1 hm1
      have hz0 := hz m1 i j z hm1 hz'
      refine ⟨g, a, b, h1, h2, ha, hb, ?_⟩
      have hval : ∀ k : Fin 6, readCoeffs F.coeff k i j = some (![0, 0, 0, b, 0, a] k) := by
        intro k
        rw [hread k i j]
        fin_cases k <;> simp [hm0, hm1, hm2, ha, hb, hz', hz0]
      have hall : allSome (fun k => readCoeffs F.coeff k i j) = some ![0, 0, 0, b, 0, a] := by
        unfold allSome
        rw [if_pos (by intro k; dsimp only; rw [hval]; rfl)]
        congr 1
        funext k
        dsimp only
        rw [hval]
        rfl
      intro k
      rw [(C114_own_pixel .linear F.covar F.refFreq (fun _ _ => some f') (readCoeffs F.coeff) i j).1 k]
      unfold rescalePixel
      rw [hall, h1]
      simp only [renormalize, renormLinear]
      fin_cases k <;> simp
    · right
      refine ⟨h1, fun k => ?_⟩
      rw [(C114_own_pixel .linear F.covar F.refFreq (fun _ _ => some f') (readCoeffs F.coeff) i j).1 k]
      unfold rescalePixel
      rw [h1]
      cases allSome (fun k => readCoeffs F.coeff k i j) <;> rfl
  set c := (rescale3D .linear F.covar F.refFreq (fun _ _ => some f') (readCoeffs F.coeff)).1 with hc
  have hbad : ∀ k : Fin 6, k ≠ 3 → k ≠ 5 → goodPlane (c k) = false := by
    intro k h3 h5
    rw [Bool.eq_false_iff]
    intro hg
    obtain ⟨i, j, v, e1, e2⟩ := (goodPlane_iff _).mp hg
    rcases hpix i j with ⟨g, a, b, -, -, -, -, h⟩ | ⟨-, h⟩
    · rw [h k, vec_zero _ _ k h3 h5] at e1
      exact e2 (Option.some.inj e1).symm
    · rw [h k] at e1
      exact absurd e1 (by simp)
  obtain ⟨g, a, b, e1, e2, e3, e4, e5⟩ := (hpix y x).resolve_right (by rw [href]; simp)
  rw [href] at e1
  cases e1
  rw [hv2] at e4
  cases e4
  have hgood3 : goodPlane (c 3) = true :=
    (goodPlane_iff _).mpr ⟨y, x, _, e5 3, mul_ne_zero hne (pow_ne_zero _ (div_pos hpos e2).ne')⟩
  have hn1 : 0 < nGood c := by
    rw [nGood_card]
    exact Finset.card_pos.mpr ⟨3, by simp [hgood3]⟩
  have hn2 : nGood c ≤ 2 := by
    rw [nGood_card]
    have : (Finset.univ.filter fun k => goodPlane (c k) = true) ⊆ {3, 5} := by
      intro k hk
      rw [Finset.mem_filter] at hk
      by_contra hn
      simp only [Finset.mem_insert, Finset.mem_singleton, not_or] at hn
      rw [hbad k hn.1 hn.2] at hk
      exact absurd hk.2 (by simp)
    exact (Finset.card_le_card this).trans (by decide)
  have hw : (rescaleFiles .linear F how).coeff = writeNew c c := by
    unfold rescaleFiles
    dsimp only
    rw [hf']
  have hw0 : (writeNew c c 0).bind (fun m => m y x) = some a := by
    unfold writeNew
    rw [dif_pos ⟨hn1, by norm_num⟩]
    exact e5 5
  have hw1 : ((writeNew c c 1).bind fun m => m y x).getD 0 = 0 := by
    unfold writeNew
    split_ifs with h
    · have := e5 4
      simp only [Option.bind_some]
      rw [show (⟨5 - 1, by omega⟩ : Fin 6) = 4 from rfl, this]
      rfl
    · rfl
  have hwk : ∀ k, 2 ≤ k → writeNew c c k = none := by
    intro k hk
    unfold writeNew
    rw [dif_neg (by omega)]
  have hx : f / ref ≠ 0 := (div_pos hf e2).ne'
  have hold1 : ((F.coeff 1).bind fun m => m y x).getD 0 = 0 := by
    rw [hm1]
    simp only [Option.bind_some]
    cases h : m1 y x with
    | none => rfl
    | some z => exact hz m1 y x z hm1 h
  rw [hw]
  unfold mapSpectrum
  simp only [linSpec, Finset.sum_range_succ, Finset.sum_range_zero, hw0, hw1, hwk 2 le_rfl, hwk 3 (by norm_num),
    hwk 4 (by norm_num), hwk 5 (by norm_num), hold1, hm0, hm2, hco 3 (by norm_num), hco 4 (by norm_num),
    hco 5 (by norm_num), e3, hv2, Option.bind_some, Option.bind_none, Option.getD_some, Option.getD_none]
  intro h
  have : v2 * (f / ref) ^ 2 = 0 := by linarith
  exact mul_ne_zero hne (pow_ne_zero 2 hx) this

/-! ## C115: the frequency of the polarisation products -/

/-- Speed of light in m/s. -/
def cLight : ℝ := 299792458

/-- **C115 (refuted).** With `-l` the frequency is never that of the wavelength squared in the header: the constant in
the code is 2.997924538e8. -/
theorem C115_frequency_wrong (old : Img ny nx (Option ℝ)) (l : ℝ) (hl : 0 < l) :
    newFreq old (.lamSq0 l) ≠ some (cLight / Real.sqrt l) := by
  have hs := Real.sqrt_pos.mpr hl
  simp only [newFreq, cLight]
  rw [if_neg (not_le.mpr hl)]
  intro h
  rw [Option.some.injEq, div_left_inj' hs.ne'] at h
  norm_num at h

/-- **C115 (part that holds).** The frequency is within a relative error of 1.5e-8 of that of the wavelength squared. -/
theorem C115_frequency_partial (old : Img ny nx (Option ℝ)) (l : ℝ) (hl : 0 < l) :
    ∃ f, newFreq old (.lamSq0 l) = some f ∧ |f - cLight / Real.sqrt l| ≤ 1.5e-8 * (cLight / Real.sqrt l) := by
  have hs := Real.sqrt_pos.mpr hl
  refine ⟨2.997924538e8 / Real.sqrt l, ?_, ?_⟩
  · simp only [newFreq]
    rw [if_neg (not_le.mpr hl)]
  · unfold cLight
    rw [← sub_div, abs_div, abs_of_pos hs, ← mul_div_assoc]
    apply div_le_div_of_nonneg_right _ hs.le
    norm_num [abs_of_neg]

/-- Without options the common frequency lies between the smallest and the largest reference frequency of the map. -/
theorem C115_mean (old : Img ny nx (Option ℝ)) (f lo hi : ℝ) (h : newFreq old .mean = some f)
    (hb : ∀ y x v, old y x = some v → lo ≤ v ∧ v ≤ hi) : lo ≤ f ∧ f ≤ hi := by
  unfold newFreq at h
  dsimp only at h
  split_ifs at h with h0
  simp only [Option.some.injEq] at h
  set v := (planeVals old).filterMap id with hv
  have hmem : ∀ a ∈ v, lo ≤ a ∧ a ≤ hi := by
    intro a ha
    rw [hv, List.mem_filterMap] at ha
    obtain ⟨b, hb1, hb2⟩ := ha
    unfold planeVals at hb1
    obtain ⟨q, -, hq⟩ := List.mem_map.mp hb1
    exact hb q.1 q.2 a (by rw [hq]; exact hb2)
  have hpos : (0 : ℝ) < v.length := by exact_mod_cast Nat.pos_of_ne_zero h0
  have h1 : v.length • lo ≤ v.sum := List.card_nsmul_le_sum v lo fun a ha => (hmem a ha).1
  have h2 : v.sum ≤ v.length • hi := List.sum_le_card_nsmul v hi fun a ha => (hmem a ha).2
  rw [nsmul_eq_mul] at h1 h2
  rw [← h]
  constructor
  · rw [le_div_iff₀ hpos]
    linarith
  · rw [div_le_iff₀ hpos]
    linarith

/-! ## Instances -/

/-- Products of a fit of order two in an image of two by two pixels, coefficients `1, b, 3`, reference frequency 2,
one pixel blank. -/
noncomputable def demo (b : ℝ) : Files 2 2 2 :=
  let m (v : ℝ) : Img 2 2 (Option ℝ) := fun y x => if y = 1 ∧ x = 1 then none else some v
  { mask := m 1
    coeff := fun k => if k = 0 then some (m 1) else if k = 1 then some (m b) else if k = 2 then some (m 3) else none
    coeffErr := fun _ => none
    coeffHeader := fun _ => none
    refFreq := m 2
    refFreqHeader := fun _ => none
    covar := fun _ _ => m 1
    model := fun _ _ _ => none
    noise := fun _ => none }

theorem demo_isFit (b : ℝ) : IsFit (demo b) 2 := by
  refine ⟨by norm_num, ?_, ?_⟩
  · intro k
    unfold demo
    dsimp only
    split_ifs <;> simp <;> omega
  · intro y x
    by_cases h : y = 1 ∧ x = 1
    · right
      unfold demo
      dsimp only
      refine ⟨if_pos h, ?_⟩
      intro k m hk
      split_ifs at hk <;> (simp only [Option.some.injEq] at hk; rw [← hk]; exact if_pos h)
    · left
      unfold demo
      dsimp only
      refine ⟨2, if_neg h, by norm_num, ?_⟩
      intro k m hk
      split_ifs at hk <;> (simp only [Option.some.injEq] at hk; rw [← hk]; exact ⟨_, if_neg h⟩)

/-- An instance of `C114_linear_partial`. -/
example : mapSpectrum .linear (rescaleFiles .linear (demo 5) (.given 7)).coeff 0 0 7 11 =
    mapSpectrum .linear (demo 5).coeff 0 0 2 11 := by
  refine C114_linear_partial (demo 5) 2 (demo_isFit 5) (.given 7) 7 rfl (by norm_num) ?_ 0 0 2 rfl 11 (by norm_num)
  intro k hk
  interval_cases k
  · exact ⟨_, 0, 0, 1, rfl, rfl, by norm_num⟩
  · exact ⟨_, 0, 0, 5, rfl, rfl, by norm_num⟩
  · exact ⟨_, 0, 0, 3, rfl, rfl, by norm_num⟩

/-- An instance of `C114_errors`: the error of the quadratic coefficient. -/
example (m : Img 2 2 (Option ℝ)) (hm : (rescaleFiles .linear (demo 5) (.given 7)).coeffErr 2 = some m) :
    m 0 0 = some ((7 / 2) ^ 2) := by
  have := (C114_errors (demo 5) 2 (demo_isFit 5) (.given 7) 7 rfl (by norm_num)).2 0 0 2 rfl (fun _ _ => rfl) 2 1 m
    (by norm_num) (by rw [one_pow]; rfl) hm
  rw [this, one_mul]
  rfl

/-- An instance of `C114_spectrum_changed`. -/
example : mapSpectrum .linear (rescaleFiles .linear (demo 0) (.given 7)).coeff 0 0 7 11 ≠
    mapSpectrum .linear (demo 0).coeff 0 0 2 11 := by
  refine C114_spectrum_changed (demo 0) (demo_isFit 0) (.given 7) 7 rfl (by norm_num) ?_ 0 0 2 rfl _ rfl 3 rfl
    (by norm_num) 11 (by norm_num)
  intro m y x v hm hv
  simp only [demo] at hm
  rw [if_neg (by norm_num), if_pos trivial, Option.some.injEq] at hm
  rw [← hm] at hv
  dsimp only at hv
  split_ifs at hv
  exact (Option.some.inj hv).symm

/-- Cubes of three channels and two by two pixels with `BUNIT` are fitted, for every order from -5 to 5; an instance of
`C113_outcome_partial`, and with it of the hypotheses of C109 and C112. -/
example (fit : (Fin 3 → Option ℝ) → (Fin 3 → Option ℝ) → PixFit 3) (d : Fin 3 → Img 2 2 (Option ℝ)) :
    ∃ F, makeModel fit ⟨d, 3, fun _ => none, true, -5, -3, false⟩ = .ok F :=
  (C113_outcome_partial fit _).mpr ⟨rfl, by norm_num, rfl, by norm_num⟩

end Verif.ICube
