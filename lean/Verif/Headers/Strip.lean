import Verif.Headers.Maps

/-!
# Fewer axes: the Stokes I model cube and `strip_fits_dims` (C195, C197)
-/

namespace Verif.Headers

open Header

/-- A coordinate keyword of the first `m` axes. -/
def Key.Within (k : Key) (m : ℕ) : Prop := k.axes ≠ [] ∧ ∀ a ∈ k.axes, a ≤ m

theorem Key.Within.ne_plain {k : Key} {m : ℕ} (hk : k.Within m) (s : String) : k ≠ .plain s := by
  rintro rfl
  exact hk.1 rfl

theorem mem_stripKeys (k : Key) (i : ℕ) : k ∈ stripKeys i ↔
    (∃ s ∈ stripNames, k = .ax s i) ∨ k = .mat "CD" 1 i ∨ k = .mat "CD" 2 i := by
  unfold stripKeys
  simp only [List.mem_append, List.mem_map, List.mem_cons, List.not_mem_nil, or_false]
  constructor
  · rintro (⟨s, hs, rfl⟩ | h)
    · exact Or.inl ⟨s, hs, rfl⟩
    · exact Or.inr h
  · rintro (⟨s, hs, rfl⟩ | h)
    · exact Or.inl ⟨s, hs, rfl⟩
    · exact Or.inr h

theorem foldl_old (ps : List (ℕ × ℕ)) (h : Header) :
    ps.foldl (fun h p => h.del (.old p.1 p.2)) h = (ps.map fun p => Key.old p.1 p.2).foldl del h := by
  rw [List.foldl_map]

/-- Which cards `strip_fits_dims` deletes. -/
def Stripped (minDim n : ℕ) (k : Key) : Prop :=
  (∃ i, minDim < i ∧ i ≤ n ∧ ((∃ s ∈ stripNames, k = .ax s i) ∨ k = .mat "CD" 1 i ∨ k = .mat "CD" 2 i)) ∨
    ∃ i j, 1 ≤ i ∧ i ≤ n ∧ 1 ≤ j ∧ j ≤ n ∧ (minDim < i ∨ minDim < j) ∧ k = .old i j

/-- `strip_fits_dims` deletes these cards and sets `NAXIS` and `WCSAXES`. -/
theorem stripDims_eq (h : Header) (naxis minDim fc : ℕ) (hn : minDim ≤ axesAssumed naxis fc) :
    ∃ ks : List Key, (∀ k, k ∈ ks ↔ Stripped minDim (axesAssumed naxis fc) k) ∧
      stripDims h naxis minDim fc =
        some (((ks.foldl del h).set (.plain "NAXIS") (.num minDim)).set (.plain "WCSAXES") (.num minDim)) := by
  set n := axesAssumed naxis fc with hndef
  refine ⟨((List.range' (minDim + 1) (n - minDim)).flatMap stripKeys) ++
    ((((List.range' 1 n).flatMap fun i => (List.range' 1 n).map fun j => (i, j)).filter
      fun p => decide (minDim < p.1 ∨ minDim < p.2)).map fun p => Key.old p.1 p.2), ?_, ?_⟩
  · intro k
    simp only [List.mem_append, List.mem_flatMap, List.mem_range'_1, List.mem_map, List.mem_filter, decide_eq_true_eq,
      Prod.exists, Prod.mk.injEq]
    unfold Stripped
    constructor
    · rintro (⟨i, hi, hk⟩ | ⟨i, j, ⟨⟨⟨a, ha, b, hb, e1, e2⟩, hij⟩, e⟩⟩)
      · exact Or.inl ⟨i, by omega, by omega, (mem_stripKeys k i).mp hk⟩
      · exact Or.inr ⟨i, j, by omega, by omega, by omega, by omega, hij, e.symm⟩
    · rintro (⟨i, h1, h2, hk⟩ | ⟨i, j, h1, h2, h3, h4, h5, e⟩)
      · exact Or.inl ⟨i, by omega, (mem_stripKeys k i).mpr hk⟩
      · exact Or.inr ⟨i, j, ⟨⟨⟨i, by omega, j, by omega, rfl, rfl⟩, h5⟩, e.symm⟩⟩
  · unfold stripDims
    dsimp only
    rw [← hndef, if_neg (by omega), foldl_old, List.foldl_append]

/-- C197, what holds: the keywords of the first `minDim` axes are unchanged, the header says that there are `minDim`
axes, and of every removed axis length, type, unit, reference pixel, reference value, increment and rotation are gone. -/
theorem strip_partial (h : Header) (naxis minDim fc : ℕ) (hn : minDim ≤ axesAssumed naxis fc) :
    ∃ h', stripDims h naxis minDim fc = some h' ∧ (∀ k : Key, k.Within minDim → h'.get k = h.get k) ∧
      h'.get (.plain "NAXIS") = some (.num minDim) ∧ h'.get (.plain "WCSAXES") = some (.num minDim) ∧
      ∀ i, minDim < i → i ≤ naxis →
        ∀ s ∈ ["NAXIS", "CTYPE", "CUNIT", "CRPIX", "CRVAL", "CDELT", "CROTA"], h'.get (.ax s i) = none := by
  obtain ⟨ks, hks, e⟩ := stripDims_eq h naxis minDim fc hn
  refine ⟨_, e, ?_, ?_, get_set_self _ _ _, ?_⟩
  · intro k hk
    rw [get_set_ne _ _ _ _ (hk.ne_plain _), get_set_ne _ _ _ _ (hk.ne_plain _), get_foldl_del_ne]
    rw [hks]
    rintro (⟨i, h1, h2, ⟨s, hs, rfl⟩ | rfl | rfl⟩ | ⟨i, j, h1, h2, h3, h4, h5, rfl⟩)
    · have := hk.2 i (by simp [Key.axes])
      omega
    · have := hk.2 i (by simp [Key.axes])
      omega
    · have := hk.2 i (by simp [Key.axes])
      omega
    · have a1 := hk.2 i (by simp [Key.axes])
      have a2 := hk.2 j (by simp [Key.axes])
      omega
  · rw [get_set_ne _ _ _ _ (by decide), get_set_self]
  · intro i h1 h2 s hs
    rw [get_set_ne _ _ _ _ (by intro e; exact Key.noConfusion e), get_set_ne _ _ _ _ (by intro e; exact Key.noConfusion e),
      get_none]
    intro c hc e
    refine ((mem_foldl_del _ _ _).mp hc).2 ?_
    rw [hks, e]
    refine Or.inl ⟨i, h1, le_trans h2 (le_max_left _ _), Or.inl ⟨s, ?_, rfl⟩⟩
    have : ∀ s ∈ ["NAXIS", "CTYPE", "CUNIT", "CRPIX", "CRVAL", "CDELT", "CROTA"], s ∈ stripNames := by decide
    exact this s hs

/-- C197 is false of the code: an element of the matrix in the form `PCi_j` of the FITS standard is never removed (only
the obsolete form `PC00i00j` is), nor is one of `CDi_j` with `i` at least three. -/
theorem strip_matrix_left (h h' : Header) (naxis minDim fc : ℕ) (hs : stripDims h naxis minDim fc = some h') (i j : ℕ) :
    h'.get (.mat "PC" i j) = h.get (.mat "PC" i j) ∧ (3 ≤ i → h'.get (.mat "CD" i j) = h.get (.mat "CD" i j)) := by
  have hn : minDim ≤ axesAssumed naxis fc := by
    by_contra hc
    push Not at hc
    unfold stripDims at hs
    dsimp only at hs
    rw [if_pos hc] at hs
    exact absurd hs (by simp)
  obtain ⟨ks, hks, e⟩ := stripDims_eq h naxis minDim fc hn
  rw [hs] at e
  obtain rfl := Option.some.inj e
  have hp : ∀ s t, Key.mat s i j ≠ .plain t := by
    intro s t e
    exact Key.noConfusion e
  have key : ∀ s, (s = "CD" → 3 ≤ i) → Key.mat s i j ∉ ks := by
    intro s hs hm
    rw [hks] at hm
    rcases hm with ⟨a, -, -, ⟨t, -, e⟩ | e | e⟩ | ⟨a, b, -, -, -, -, -, e⟩
    · exact Key.noConfusion e
    · injection e with e1 e2 _
      have := hs e1
      omega
    · injection e with e1 e2 _
      have := hs e1
      omega
    · exact Key.noConfusion e
  constructor
  · rw [get_set_ne _ _ _ _ (hp _ _), get_set_ne _ _ _ _ (hp _ _), get_foldl_del_ne _ _ _ (key "PC" fun e =>
      absurd e (by decide))]
  · intro hi
    rw [get_set_ne _ _ _ _ (hp _ _), get_set_ne _ _ _ _ (hp _ _), get_foldl_del_ne _ _ _ (key "CD" fun _ => hi)]

/-- C197: with too few axes the program ends. -/
theorem strip_too_few (h : Header) (naxis minDim fc : ℕ) (hn : axesAssumed naxis fc < minDim) :
    stripDims h naxis minDim fc = none := by
  unfold stripDims
  dsimp only
  rw [if_pos hn]

/-! ## C195 -/

theorem modelHeader_get (h : Header) (naxis nChan ny nx : ℕ) (hn : 3 ≤ naxis)
    (hax : ∀ i, 1 ≤ i → i ≤ 3 → h.has (.ax "NAXIS" i) = true) :
    ∃ h', modelHeader h naxis nChan ny nx = some h' ∧
      (∀ k : Key, k.Within 3 → (∀ i, k ≠ .ax "NAXIS" i) → h'.get k = h.get k) ∧
      h'.get (.ax "NAXIS" 1) = some (.num nx) ∧ h'.get (.ax "NAXIS" 2) = some (.num ny) ∧
      h'.get (.ax "NAXIS" 3) = some (.num nChan) ∧ h'.get (.plain "NAXIS") = some (.num 3) ∧
      ∀ i, 3 < i → i ≤ naxis →
        ∀ s ∈ ["NAXIS", "CTYPE", "CUNIT", "CRPIX", "CRVAL", "CDELT", "CROTA"], h'.get (.ax s i) = none := by
  obtain ⟨h1, e, k1, k2, k3, k4⟩ := strip_partial h naxis 3 0 (le_trans hn (le_max_left _ _))
  have hne : ∀ i j : ℕ, i ≠ j → Key.ax "NAXIS" i ≠ .ax "NAXIS" j := by
    intro i j hij e
    injection e with _ e2
    exact hij e2
  refine ⟨((h1.set (.ax "NAXIS" 1) (.num nx)).set (.ax "NAXIS" 2) (.num ny)).set (.ax "NAXIS" 3) (.num nChan), ?_, ?_, ?_,
    ?_, get_set_self _ _ _, ?_, ?_⟩
  · unfold modelHeader
    rw [e, Option.bind_some, hax 1 (by norm_num) (by norm_num), hax 2 (by norm_num) (by norm_num),
      hax 3 (by norm_num) (by norm_num)]
    rfl
  · intro k hk hkn
    rw [get_set_ne _ _ _ _ (hkn _), get_set_ne _ _ _ _ (hkn _), get_set_ne _ _ _ _ (hkn _), k1 k hk]
  · rw [get_set_ne _ _ _ _ (hne _ _ (by decide)), get_set_ne _ _ _ _ (hne _ _ (by decide)), get_set_self]
  · rw [get_set_ne _ _ _ _ (hne _ _ (by decide)), get_set_self]
  · rw [get_set_ne _ _ _ _ (by decide), get_set_ne _ _ _ _ (by decide), get_set_ne _ _ _ _ (by decide), k2]
    norm_num
  · intro i h3 hi s hs
    have hx : ∀ j, j ≤ 3 → Key.ax s i ≠ .ax "NAXIS" j := by
      intro j hj e
      injection e with _ e2
      omega
    rw [get_set_ne _ _ _ _ (hx _ (by norm_num)), get_set_ne _ _ _ _ (hx _ (by norm_num)),
      get_set_ne _ _ _ _ (hx _ (by norm_num))]
    exact k4 i h3 hi s hs

theorem findAxis_congr (isFreq : String → Bool) (h h' : Header) (n d : ℕ)
    (e : ∀ i, 1 ≤ i → i ≤ n → h'.get (.ax "CTYPE" i) = h.get (.ax "CTYPE" i)) :
    findAxis isFreq h' n d = findAxis isFreq h n d := by
  induction n with
  | zero => rfl
  | succ n ih =>
    have st : ∀ g : Header, findAxis isFreq g (n + 1) d =
        if mentions isFreq (g.get (.ax "CTYPE" (n + 1))) then n + 1 else findAxis isFreq g n d := by
      intro g
      unfold findAxis
      rw [List.range'_concat, List.foldl_append]
      simp [add_comm]
    rw [st, st, ih fun i h1 h2 => e i h1 (by omega), e (n + 1) (by omega) (le_refl _)]

/-- The axis found is exactly the last one of the first `n` whose type is a text that contains `FREQ`; axes without a
type, or with a number as type, are passed over; the default is used exactly when there is no such axis. -/
theorem findAxis_exact (isFreq : String → Bool) (h : Header) (n d : ℕ) :
    (∃ i s, findAxis isFreq h n d = i ∧ 1 ≤ i ∧ i ≤ n ∧ h.get (.ax "CTYPE" i) = some (.txt s) ∧ isFreq s = true ∧
      ∀ k t, i < k → k ≤ n → h.get (.ax "CTYPE" k) = some (.txt t) → isFreq t = false) ∨
    (findAxis isFreq h n d = d ∧ ∀ k t, 1 ≤ k → k ≤ n → h.get (.ax "CTYPE" k) = some (.txt t) → isFreq t = false) := by
  induction n with
  | zero => exact Or.inr ⟨rfl, fun k t h1 h2 => by omega⟩
  | succ n ih =>
    have st : findAxis isFreq h (n + 1) d =
        if mentions isFreq (h.get (.ax "CTYPE" (n + 1))) then n + 1 else findAxis isFreq h n d := by
      unfold findAxis
      rw [List.range'_concat, List.foldl_append]
      simp [add_comm]
    rw [st]
    by_cases hm : ∃ s, h.get (.ax "CTYPE" (n + 1)) = some (.txt s) ∧ isFreq s = true
    · obtain ⟨s, hs, hb⟩ := hm
      rw [if_pos (by rw [hs]; exact hb)]
      exact Or.inl ⟨n + 1, s, rfl, by omega, le_rfl, hs, hb, fun k t h1 h2 => by omega⟩
    · have hno : ∀ t, h.get (.ax "CTYPE" (n + 1)) = some (.txt t) → isFreq t = false := fun t ht => by
        by_contra hc
        exact hm ⟨t, ht, by simpa using hc⟩
      have hk : ∀ k t, k = n + 1 → h.get (.ax "CTYPE" k) = some (.txt t) → isFreq t = false := by
        rintro k t rfl
        exact hno t
      rw [if_neg]
      · rcases ih with ⟨i, s, e, h1, h2, hs, hb, hl⟩ | ⟨e, hl⟩
        · refine Or.inl ⟨i, s, e, h1, by omega, hs, hb, fun k t k1 k2 => ?_⟩
          rcases Nat.lt_or_ge n k with h' | h'
          · exact hk k t (by omega)
          · exact hl k t k1 h'
        · refine Or.inr ⟨e, fun k t k1 k2 => ?_⟩
          rcases Nat.lt_or_ge n k with h' | h'
          · exact hk k t (by omega)
          · exact hl k t k1 h'
      · cases hg : h.get (.ax "CTYPE" (n + 1)) with
        | none => simp [mentions]
        | some v =>
          cases v with
          | txt t => simp [mentions, hno t hg]
          | num _ => simp [mentions]

/-- C195, for cubes whose frequency axis is the third: the third axis of the model cube is the frequency axis, with as
many channels as the model has planes, and this axis and the image plane have the coordinates of the cube (all keywords
of these axes but the number of samples are those of the cube). -/
theorem model_cube_partial (isFreq : String → Bool) (h : Header) (naxis nChan ny nx : ℕ) (hn : 3 ≤ naxis)
    (hax : ∀ i, 1 ≤ i → i ≤ 3 → h.has (.ax "NAXIS" i) = true) (hf : findAxis isFreq h 3 0 = 3) :
    ∃ h', modelHeader h naxis nChan ny nx = some h' ∧ h'.get (.plain "NAXIS") = some (.num 3) ∧
      findAxis isFreq h' 3 0 = 3 ∧ h'.get (.ax "NAXIS" 3) = some (.num nChan) ∧ 
      (∀ s i, 1 ≤ i → i ≤ 3 → s ≠ "NAXIS" → h'.get (.ax s i) = h.get (.ax s i)) ∧
      h'.get (.ax "NAXIS" 1) = some (.num nx) ∧ h'.get (.ax "NAXIS" 2) = some (.num ny) := by
  obtain ⟨h', e, k1, k2, k3, k4, k5, -⟩ := modelHeader_get h naxis nChan ny nx hn hax
  have hk : ∀ s i, i ≤ 3 → s ≠ "NAXIS" → h'.get (.ax s i) = h.get (.ax s i) := by
    intro s i hi hs
    refine k1 _ ⟨by simp [Key.axes], ?_⟩ ?_
    · intro a ha
      have : a = i := by simpa [Key.axes] using ha
      omega
    · intro j e
      injection e with e1 _
      exact hs e1
  refine ⟨h', e, k5, ?_, k4, ?_, k2, k3⟩
  · rw [findAxis_congr isFreq h h' 3 0 fun i _ h2 => hk _ i h2 (by decide), hf]
  · intro s i _ h2 hs
    exact hk s i h2 hs

/-- C195 is false of cubes with the axes x, y, Stokes, frequency: the keywords of the fourth axis are removed, the third
axis of the model, which is frequency, is labelled as the Stokes axis of the cube, and no axis is a frequency axis. -/
theorem model_cube_wrong (isFreq : String → Bool) (h : Header) (naxis nChan ny nx : ℕ) (hn : 4 ≤ naxis)
    (hax : ∀ i, 1 ≤ i → i ≤ 3 → h.has (.ax "NAXIS" i) = true) (hf : findAxis isFreq h 3 0 = 0) :
    ∃ h', modelHeader h naxis nChan ny nx = some h' ∧ h'.get (.ax "NAXIS" 3) = some (.num nChan) ∧
      h'.get (.ax "CTYPE" 3) = h.get (.ax "CTYPE" 3) ∧ h'.get (.ax "CTYPE" 4) = none ∧
      h'.get (.ax "CRVAL" 4) = none ∧ findAxis isFreq h' 3 0 = 0 := by
  obtain ⟨h', e, k1, k2, k3, k4, k5, k6⟩ := modelHeader_get h naxis nChan ny nx (by omega) hax
  have hk : ∀ i, i ≤ 3 → h'.get (.ax "CTYPE" i) = h.get (.ax "CTYPE" i) := by
    intro i hi
    refine k1 _ ⟨by simp [Key.axes], ?_⟩ ?_
    · intro a ha
      have : a = i := by simpa [Key.axes] using ha
      omega
    · intro j e
      injection e with e1 _
      exact absurd e1 (by decide)
  refine ⟨h', e, k4, hk 3 (le_refl _), k6 4 (by norm_num) hn _ (by decide), k6 4 (by norm_num) hn _ (by decide), ?_⟩
  rw [findAxis_congr isFreq h h' 3 0 fun i _ h2 => hk i h2, hf]

/-! ## Cases -/

theorem plainCube_has (i : ℕ) (h1 : 1 ≤ i) (h3 : i ≤ 3) : plainCube.has (.ax "NAXIS" i) = true := by
  interval_cases i <;> rfl

/-- The hypotheses of `model_cube_partial` hold for a cube with axes right ascension, declination, frequency. -/
example : ∃ h', modelHeader plainCube 3 100 4 5 = some h' ∧ h'.get (.ax "CRVAL" 3) = some (.num 1000000000) := by
  obtain ⟨h', e, -, -, -, hc, -⟩ := model_cube_partial (fun s => s == "FREQ") plainCube 3 100 4 5 (le_refl _) plainCube_has
    (by decide)
  exact ⟨h', e, hc "CRVAL" 3 (by norm_num) (le_refl _) (by decide)⟩

/-- A cube as many programs write it: right ascension, declination, Stokes, frequency. -/
def stokesCube : Header :=
  [(.plain "NAXIS", .num 4), (.ax "NAXIS" 1, .num 5), (.ax "NAXIS" 2, .num 4), (.ax "NAXIS" 3, .num 1),
   (.ax "NAXIS" 4, .num 100), (.mat "PC" 4 4, .num 1), (.ax "CTYPE" 1, .txt "RA---SIN"),
   (.ax "CTYPE" 2, .txt "DEC--SIN"), (.ax "CTYPE" 3, .txt "STOKES"), (.ax "CTYPE" 4, .txt "FREQ"),
   (.ax "CRVAL" 4, .num 1000000000)]

/-- The hypotheses of `model_cube_wrong` and `strip_matrix_left` hold for this cube. -/
example : ∃ h', modelHeader stokesCube 4 100 4 5 = some h' ∧ h'.get (.ax "CTYPE" 3) = some (.txt "STOKES") ∧
    findAxis (fun s => s == "FREQ") h' 3 0 = 0 := by
  obtain ⟨h', e, -, h3, -, -, hf⟩ := model_cube_wrong (fun s => s == "FREQ") stokesCube 4 100 4 5 (le_refl _) (by
    intro i h1 h3
    interval_cases i <;> rfl) (by decide)
  exact ⟨h', e, h3, hf⟩

example : ∃ h', stripDims stokesCube 4 3 0 = some h' ∧ h'.get (.mat "PC" 4 4) = some (.num 1) := by
  obtain ⟨h', e, -⟩ := strip_partial stokesCube 4 3 0 (by decide)
  exact ⟨h', e, (strip_matrix_left stokesCube h' 4 3 0 e 4 4).1⟩

end Verif.Headers
