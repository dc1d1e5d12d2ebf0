import Verif.Headers.Props

/-!
# The headers of the products of RM synthesis of cubes (C193, C194, C196)
-/

namespace Verif.Headers

open Header

/-- What is asked of the header `X` of a product made from the header `h` of a cube: the spectral axis `f` describes the
`nPhi` depths `phi`, the Stokes axis (if there is one) has the given number, the keyword `STOKES` has the given text (or is
absent) and everything else is as in the cube. -/
structure Product (h X : Header) (f nPhi : ℕ) (phi : ℕ → ℝ) (stokes : Option ℕ) (number : ℝ) (label : Option String) :
    Prop where
  kept : ∀ k, (∀ s, k ≠ .ax s f) → (∀ i, stokes = some i → k ≠ .ax "CRPIX" i ∧ k ≠ .ax "CRVAL" i) →
    k ≠ .plain "STOKES" → X.get k = h.get k
  ctype : X.get (.ax "CTYPE" f) = some (.txt "FDEP")
  cunit : X.get (.ax "CUNIT" f) = some (.txt "rad/m^2")
  naxis : X.get (.ax "NAXIS" f) = some (.num nPhi)
  cdelt : X.get (.ax "CDELT" f) = some (.num (phi 1 - phi 0))
  crpix : X.get (.ax "CRPIX" f) = some (.num ((nPhi / 2 : ℕ) + 1))
  crval : X.get (.ax "CRVAL" f) = some (.num (phi (nPhi / 2)))
  number : ∀ i, stokes = some i → X.get (.ax "CRPIX" i) = some (.num 1) ∧ X.get (.ax "CRVAL" i) = some (.num number)
  label : X.get (.plain "STOKES") = label.map .txt

/-- The axis of the Stokes parameter, the spectral axis `f` left out. -/
structure IsStokesAxis (isStokes : String → Bool) (h : Header) (naxis f : ℕ) (a : Option ℕ) : Prop where
  found : ∀ i, a = some i → i ≠ f ∧ 1 ≤ i ∧ i ≤ naxis ∧ ∃ s, h.get (.ax "CTYPE" i) = some (.txt s) ∧ isStokes s = true
  absent : a = none → ∀ i, i ≠ f → 1 ≤ i → i ≤ naxis → ∀ s, h.get (.ax "CTYPE" i) = some (.txt s) → isStokes s = false

theorem stokesAxis_none (isStokes : String → Bool) (h : Header) (n : ℕ) (hs : stokesAxis isStokes h n = some none) :
    ∀ i, 1 ≤ i → i ≤ n → ∀ s, h.get (.ax "CTYPE" i) = some (.txt s) → isStokes s = false := by
  induction n with
  | zero =>
    intro i h1 h2
    omega
  | succ n ih =>
    intro i h1 h2 s e
    rw [stokesAxis_succ, Option.bind_eq_some_iff] at hs
    obtain ⟨r, hr, hm⟩ := hs
    rcases hc : h.get (.ax "CTYPE" (n + 1)) with _ | v
    · rw [hc] at hm
      simp at hm
    · rw [hc] at hm
      cases v with
      | num r => simp at hm
      | txt t =>
        simp only [Option.some.injEq] at hm
        by_cases hb : isStokes t = true
        · rw [if_pos hb] at hm
          simp at hm
        · rw [if_neg hb] at hm
          subst hm
          by_cases ei : i = n + 1
          · subst ei
            rw [hc] at e
            simp only [Option.some.injEq, Val.txt.injEq] at e
            rw [← e]
            simpa using hb
          · exact ih hr i h1 (by omega) s e

theorem setStokes_label (isStokes : String → Bool) (h h' : Header) (naxis : ℕ) (s : String) (a : Option ℕ)
    (ha : stokesAxis isStokes h naxis = some a) (hs : setStokes isStokes h naxis s = some h') :
    h'.get (.plain "STOKES") = some (.txt s) ∧
      ∀ i, a = some i → h'.get (.ax "CRPIX" i) = some (.num 1) ∧ h'.get (.ax "CRVAL" i) = some (.num (stokesNumber s)) := by
  unfold setStokes at hs
  rw [ha, Option.map_some] at hs
  obtain rfl := Option.some.inj hs
  refine ⟨get_set_self _ _ _, ?_⟩
  rintro i rfl
  have hne : Key.ax "CRPIX" i ≠ .ax "CRVAL" i := by
    intro e
    injection e with e1 _
    exact absurd e1 (by decide)
  constructor
  · rw [get_set_ne _ _ _ _ (by intro e; exact Key.noConfusion e), get_set_ne _ _ _ _ hne, get_set_self]
  · rw [get_set_ne _ _ _ _ (by intro e; exact Key.noConfusion e), get_set_self]

/-- One call of `_setStokes` for a header that describes the depths. -/
theorem product_step (isStokes : String → Bool) (h X : Header) (f nPhi naxis : ℕ) (phi : ℕ → ℝ) (a : Option ℕ)
    (ha : stokesAxis isStokes X naxis = some a) (haf : ∀ i, a = some i → i ≠ f)
    (hk : ∀ k, (∀ s, k ≠ .ax s f) → (∀ i, a = some i → k ≠ .ax "CRPIX" i ∧ k ≠ .ax "CRVAL" i) →
      k ≠ .plain "STOKES" → X.get k = h.get k)
    (hd : ∀ s, X.get (.ax s f) = (setDepths h f nPhi phi).get (.ax s f)) (s : String) :
    ∃ Y, setStokes isStokes X naxis s = some Y ∧ Product h Y f nPhi phi a (stokesNumber s) (some s) ∧
      stokesAxis isStokes Y naxis = some a ∧ ∀ s, Y.get (.ax s f) = (setDepths h f nPhi phi).get (.ax s f) := by
  have hY : ∃ Y, setStokes isStokes X naxis s = some Y := by
    unfold setStokes
    rw [ha]
    exact ⟨_, rfl⟩
  obtain ⟨Y, hY⟩ := hY
  have hf : ∀ t, Y.get (.ax t f) = (setDepths h f nPhi phi).get (.ax t f) := by
    intro t
    rw [setStokes_get isStokes X Y naxis s a ha hY _ ?_ (by intro e; exact Key.noConfusion e)]
    · exact hd t
    · intro i hi
      have := haf i hi
      constructor
      · intro e
        injection e with _ e2
        exact this e2.symm
      · intro e
        injection e with _ e2
        exact this e2.symm
  obtain ⟨d1, d2, d3, d4, d5, d6⟩ := setDepths_axis h f nPhi phi
  obtain ⟨l1, l2⟩ := setStokes_label isStokes X Y naxis s a ha hY
  refine ⟨Y, hY, ⟨?_, ?_, ?_, ?_, ?_, ?_, ?_, l2, l1⟩, ?_, hf⟩
  · intro k k1 k2 k3
    rw [setStokes_get isStokes X Y naxis s a ha hY k k2 k3]
    exact hk k k1 k2 k3
  · rw [hf, d1]
  · rw [hf, d2]
  · rw [hf, d3]
  · rw [hf, d4]
  · rw [hf, d5]
  · rw [hf, d6]
  · rw [stokesAxis_congr isStokes X Y naxis, ha]
    intro i
    refine setStokes_get isStokes X Y naxis s a ha hY _ ?_ (by intro e; exact Key.noConfusion e)
    intro j _
    constructor
    · intro e
      injection e with e1 _
      exact absurd e1 (by decide)
    · intro e
      injection e with e1 _
      exact absurd e1 (by decide)

theorem findAxis_range (isFreq : String → Bool) (h : Header) (n : ℕ) (hn : 1 ≤ n) :
    1 ≤ findAxis isFreq h n n ∧ findAxis isFreq h n n ≤ n := by
  rcases findAxis_cases isFreq h n n with e | ⟨h1, h2, -⟩
  · rw [e]
    exact ⟨hn, le_refl _⟩
  · exact ⟨h1, h2⟩

/-- C196, for cubes all of whose axes have a type. The files with the real and the imaginary part of the Faraday depth
spectrum are labelled Q and U, the one with the amplitude is not labelled; a Stokes axis has the FITS number 2, 3 and 0;
the spectral axis describes the depths and everything else is as in the cube. -/
theorem fdf_headers_partial (isFreq isStokes : String → Bool) (hFD : isStokes "FDEP" = false) (h : Header)
    (naxis nPhi : ℕ) (phi : ℕ → ℝ) (hn : 1 ≤ naxis)
    (ht : ∀ i, 1 ≤ i → i ≤ naxis → i ≠ findAxis isFreq h naxis naxis → ∃ s, h.get (.ax "CTYPE" i) = some (.txt s)) :
    ∃ hQ hU hP a, fdfHeaders isFreq isStokes h naxis nPhi phi = some (hQ, hU, hP) ∧
      IsStokesAxis isStokes h naxis (findAxis isFreq h naxis naxis) a ∧
      Product h hQ (findAxis isFreq h naxis naxis) nPhi phi a 2 (some "Q") ∧
      Product h hU (findAxis isFreq h naxis naxis) nPhi phi a 3 (some "U") ∧
      Product h hP (findAxis isFreq h naxis naxis) nPhi phi a 0 none := by
  obtain ⟨f1, fn⟩ := findAxis_range isFreq h naxis hn
  set f := findAxis isFreq h naxis naxis with hf
  have hget : ∀ k, (∀ s, k ≠ .ax s f) → (setDepths h f nPhi phi).get k = h.get k := fun k hk =>
    get_setDepths h f nPhi phi k hk
  have hne : ∀ i, i ≠ f → ∀ s t, Key.ax s i ≠ .ax t f := by
    intro i hi s t e
    injection e with _ e2
    exact hi e2
  obtain ⟨d1, -⟩ := setDepths_axis h f nPhi phi
  have hT : Typed (setDepths h f nPhi phi) naxis := by
    intro i h1 h2
    by_cases e : i = f
    · rw [e]
      exact ⟨_, d1⟩
    · rw [hget _ fun s => hne i e _ s]
      exact ht i h1 h2 e
  obtain ⟨a, ha, has⟩ := stokesAxis_typed isStokes _ naxis hT
  have haf : ∀ i, a = some i → i ≠ f := by
    rintro i hi rfl
    obtain ⟨-, -, s, e, hs⟩ := has _ hi
    rw [d1] at e
    simp only [Option.some.injEq, Val.txt.injEq] at e
    rw [← e, hFD] at hs
    exact absurd hs (by decide)
  obtain ⟨hQ, eQ, pQ, aQ, dQ⟩ := product_step isStokes h _ f nPhi naxis phi a ha haf
    (fun k k1 _ _ => hget k k1) (fun _ => rfl) "Q"
  obtain ⟨hU, eU, pU, aU, dU⟩ := product_step isStokes h hQ f nPhi naxis phi a aQ haf pQ.kept dQ "U"
  obtain ⟨hP, eP, pP, aP, dP⟩ := product_step isStokes h hU f nPhi naxis phi a aU haf pU.kept dU "PI"
  have n2 : stokesNumber "Q" = 2 := by
    simp [stokesNumber]
  have n3 : stokesNumber "U" = 3 := by
    simp [stokesNumber]
  have n0 : stokesNumber "PI" = 0 := by
    simp [stokesNumber]
  rw [n2] at pQ
  rw [n3] at pU
  rw [n0] at pP
  have hax : ∀ s i, Key.ax s i ≠ .plain "STOKES" := by
    intro s i e
    exact Key.noConfusion e
  refine ⟨hQ, hU, hP.del (.plain "STOKES"), a, ?_, ⟨?_, ?_⟩, pQ, pU, ⟨?_, ?_, ?_, ?_, ?_, ?_, ?_, ?_, ?_⟩⟩
  · unfold fdfHeaders
    dsimp only
    rw [← hf, eQ, Option.bind_some, eU, Option.bind_some, eP, Option.map_some]
  · intro i hi
    obtain ⟨h1, h2, s, e, hs⟩ := has i hi
    refine ⟨haf i hi, h1, h2, s, ?_, hs⟩
    rw [← e, hget _ fun t => hne i (haf i hi) _ t]
  · intro hnone i hi h1 h2 s e
    rw [hnone] at ha
    refine stokesAxis_none isStokes _ naxis ha i h1 h2 s ?_
    rw [hget _ fun t => hne i hi _ t]
    exact e
  · intro k k1 k2 k3
    rw [get_del_ne _ _ _ k3]
    exact pP.kept k k1 k2 k3
  · rw [get_del_ne _ _ _ (hax _ _)]
    exact pP.ctype
  · rw [get_del_ne _ _ _ (hax _ _)]
    exact pP.cunit
  · rw [get_del_ne _ _ _ (hax _ _)]
    exact pP.naxis
  · rw [get_del_ne _ _ _ (hax _ _)]
    exact pP.cdelt
  · rw [get_del_ne _ _ _ (hax _ _)]
    exact pP.crpix
  · rw [get_del_ne _ _ _ (hax _ _)]
    exact pP.crval
  · intro i hi
    rw [get_del_ne _ _ _ (hax _ _), get_del_ne _ _ _ (hax _ _)]
    exact pP.number i hi
  · exact get_del_self _ _

/-- C196 is false of cubes that lack the type of an axis that is not the spectral one: no file is written, as a `KeyError`
is raised, although the search for the spectral axis allows for it. -/
theorem fdf_headers_untyped (isFreq isStokes : String → Bool) (h : Header) (naxis nPhi : ℕ) (phi : ℕ → ℝ) (i : ℕ)
    (h1 : 1 ≤ i) (hi : i ≤ naxis) (hf : i ≠ findAxis isFreq h naxis naxis) (hn : h.get (.ax "CTYPE" i) = none) :
    fdfHeaders isFreq isStokes h naxis nPhi phi = none := by
  unfold fdfHeaders
  dsimp only
  have : setStokes isStokes (setDepths h (findAxis isFreq h naxis naxis) nPhi phi) naxis "Q" = none := by
    unfold setStokes
    rw [stokesAxis_untyped isStokes _ naxis i h1 hi, Option.map_none]
    rw [get_setDepths, hn]
    intro s e
    injection e with _ e2
    exact hf e2
  rw [this, Option.bind_none]

/-! ## C193 -/

theorem usual_product (isFreq isStokes : String → Bool) (h : Header) (naxis nPhi : ℕ) (phi : ℕ → ℝ)
    (hQ hU hP : Header) (hr : fdfHeaders isFreq isStokes h naxis nPhi phi = some (hQ, hU, hP)) (hu : Usual h)
    (hf : findAxis isFreq h naxis naxis ≤ 4) (hst : ∀ i, 1 ≤ i → i ≤ naxis → i ≤ 4) : Usual hP := by
  set f := findAxis isFreq h naxis naxis with hfd
  have hax : ∀ s ∈ ["NAXIS", "CRPIX", "CDELT", "CUNIT", "CTYPE", "CRVAL"], ∀ i, i ≤ 4 → ∀ c : Key × Val,
      c.1 = .ax s i → c.1.Plane ∨
      (∃ s ∈ ["NAXIS", "CRPIX", "CDELT", "CUNIT", "CTYPE", "CRVAL"], ∃ i, (i = 3 ∨ i = 4) ∧ c.1 = .ax s i) ∨
      ∃ i j, 1 ≤ i ∧ i ≤ 4 ∧ 1 ≤ j ∧ j ≤ 4 ∧ c.1 = .mat "PC" i j := by
    intro s hs i hi c hc
    by_cases h2 : i ≤ 2
    · left
      rw [hc]
      intro a ha
      have : a = i := by simpa [Key.axes] using ha
      omega
    · exact Or.inr (Or.inl ⟨s, hs, i, by omega, hc⟩)
  have h0 : Usual (setDepths h f nPhi phi) := by
    intro c hc
    rcases setDepths_mem h f nPhi phi c hc with hc | ⟨s, hs, e⟩
    · exact hu c hc
    · exact hax s hs f hf c e
  have step : ∀ X Y s, Usual X → setStokes isStokes X naxis s = some Y → Usual Y := by
    intro X Y s hX hY c hc
    have hs : ∃ a, stokesAxis isStokes X naxis = some a := by
      unfold setStokes at hY
      rcases e : stokesAxis isStokes X naxis with _ | a
      · rw [e] at hY
        simp at hY
      · exact ⟨a, rfl⟩
    obtain ⟨a, ha⟩ := hs
    rcases setStokes_mem isStokes X Y naxis s a ha hY c hc with h1 | h1 | ⟨i, hi, h1⟩
    · exact hX c h1
    · left
      rw [h1]
      intro b hb
      simp [Key.axes] at hb
    · have hi4 : i ≤ 4 := by
        have hrange : ∀ n, ∀ r, stokesAxis isStokes X n = some r → ∀ i, r = some i → 1 ≤ i ∧ i ≤ n := by
          intro n
          induction n with
          | zero =>
            intro r hr i hi
            have : r = none := (Option.some.inj hr).symm
            rw [this] at hi
            exact absurd hi (by simp)
          | succ n ih =>
            intro r hr i hi
            rw [stokesAxis_succ, Option.bind_eq_some_iff] at hr
            obtain ⟨q, hq, hm⟩ := hr
            rcases hcx : X.get (.ax "CTYPE" (n + 1)) with _ | v
            · rw [hcx] at hm
              simp at hm
            · rw [hcx] at hm
              cases v with
              | num r => simp at hm
              | txt t =>
                simp only [Option.some.injEq] at hm
                by_cases hb : isStokes t = true
                · rw [if_pos hb] at hm
                  rw [← hm] at hi
                  have := Option.some.inj hi
                  omega
                · rw [if_neg hb] at hm
                  subst hm
                  have := ih q hq i hi
                  omega
        have := hrange naxis a ha i hi
        exact hst i this.1 this.2
      rcases h1 with e | e
      · exact hax "CRPIX" (by decide) i hi4 c e
      · exact hax "CRVAL" (by decide) i hi4 c e
  unfold fdfHeaders at hr
  dsimp only at hr
  rw [← hfd, Option.bind_eq_some_iff] at hr
  obtain ⟨X1, e1, hr⟩ := hr
  rw [Option.bind_eq_some_iff] at hr
  obtain ⟨X2, e2, hr⟩ := hr
  rw [Option.map_eq_some_iff] at hr
  obtain ⟨X3, e3, hr⟩ := hr
  have u3 := step _ _ _ (step _ _ _ (step _ _ _ h0 e1) e2) e3
  simp only [Prod.mk.injEq] at hr
  obtain ⟨-, -, rfl⟩ := hr
  intro c hc
  exact u3 c ((mem_del _ _ _).mp hc).1

/-- C193, for cubes whose spectral axis (and Stokes axis) is not the first or second: the map of the RMSF's width has the
coordinates of the image, and says that it has two axes. If the axes of the cube are described in the usual way, nothing
is left of the third and fourth one. -/
theorem map_coords_partial (isFreq isStokes : String → Bool) (hFD : isStokes "FDEP" = false) (h : Header)
    (naxis nPhi nPhi2 : ℕ) (phi phi2 : ℕ → ℝ) (hn : 3 ≤ naxis) (ht : Typed h naxis)
    (hf : ∀ i, i = 1 ∨ i = 2 → ∀ s, h.get (.ax "CTYPE" i) = some (.txt s) → isFreq s = false ∧ isStokes s = false) :
    ∃ h', fwhmHeader isFreq isStokes h naxis nPhi nPhi2 phi phi2 = some h' ∧
      (∀ k, Key.Coord k → h'.get k = h.get k) ∧ h'.get (.plain "NAXIS") = some (.num 2) ∧
      h'.get (.plain "WCSAXES") = some (.num 2) ∧ (naxis ≤ 4 → Usual h → ∀ c ∈ h', c.1.Plane) := by
  obtain ⟨hQ, hU, hP, a, e, ha, -, -, pP⟩ := fdf_headers_partial isFreq isStokes hFD h naxis nPhi phi (by omega)
    fun i h1 h2 _ => ht i h1 h2
  have hf3 : 3 ≤ findAxis isFreq h naxis naxis := by
    rcases findAxis_cases isFreq h naxis naxis with e | ⟨h1, h2, h3⟩
    · rw [e]
      exact hn
    · by_contra hc
      push Not at hc
      have h12 : findAxis isFreq h naxis naxis = 1 ∨ findAxis isFreq h naxis naxis = 2 := by omega
      obtain ⟨s, hs⟩ := ht _ h1 h2
      have := (hf _ h12 s hs).1
      rw [hs] at h3
      simp only [mentions] at h3
      rw [this] at h3
      exact absurd h3 (by decide)
  have ha3 : ∀ i, a = some i → 3 ≤ i := by
    intro i hi
    obtain ⟨-, h1, -, s, hs, hb⟩ := ha.found i hi
    by_contra hc
    push Not at hc
    have h12 : i = 1 ∨ i = 2 := by omega
    rw [(hf i h12 s hs).2] at hb
    exact absurd hb (by decide)
  have hkeep : ∀ k, Key.Coord k →
      (setDepths hP (findAxis isFreq h naxis naxis) nPhi2 phi2).get k = h.get k := by
    intro k hk
    have hx : ∀ s i, 3 ≤ i → k ≠ .ax s i := by
      rintro s i hi rfl
      have := hk.2 i (by simp [Key.axes])
      omega
    rw [get_setDepths _ _ _ _ _ fun s => hx s _ hf3]
    refine pP.kept k (fun s => hx s _ hf3) (fun i hi => ⟨hx _ _ (ha3 i hi), hx _ _ (ha3 i hi)⟩) ?_
    rintro rfl
    exact hk.1 rfl
  have hc1 : Key.Coord (.ax "CTYPE" 1) := ⟨by simp [Key.axes], by intro a ha; simp [Key.axes] at ha; omega⟩
  have hsome : ∃ h', removeAxes (setDepths hP (findAxis isFreq h naxis naxis) nPhi2 phi2) = some h' := by
    rw [removeAxes_some]
    refine ⟨.ax "CTYPE" 1, by decide, ?_⟩
    unfold Header.has
    rw [hkeep _ hc1]
    obtain ⟨s, hs⟩ := ht 1 (le_refl _) (by omega)
    rw [hs]
    rfl
  obtain ⟨h', hr⟩ := hsome
  obtain ⟨s1, s2, s3, s4⟩ := removeAxes_spec _ _ hr
  refine ⟨h', ?_, ?_, s2, s3, ?_⟩
  · unfold fwhmHeader
    rw [e, Option.bind_some]
    exact hr
  · intro k hk
    rw [s1 k hk, hkeep k hk]
  · intro h4 hu
    refine s4 ?_
    have hfr := (findAxis_range isFreq h naxis (by omega)).2
    have huP := usual_product isFreq isStokes h naxis nPhi phi hQ hU hP e hu (by omega) fun i _ hi => by omega
    intro c hc
    rcases setDepths_mem _ _ _ _ c hc with hc | ⟨s, hs, e⟩
    · exact huP c hc
    · exact Or.inr (Or.inl ⟨s, hs, _, by omega, e⟩)

/-- C193 is false of cubes whose first axis is frequency. The map (whose rows and columns are those of the second and
third axis of the cube) is labelled with Faraday depth on its first axis, and with the second axis of the cube on its
second. -/
theorem map_coords_wrong (isFreq isStokes : String → Bool) (hFD : isStokes "FDEP" = false) (h : Header)
    (naxis nPhi nPhi2 : ℕ) (phi phi2 : ℕ → ℝ) (hn : 3 ≤ naxis) (ht : Typed h naxis)
    (hf : findAxis isFreq h naxis naxis = 1) :
    ∃ h', fwhmHeader isFreq isStokes h naxis nPhi nPhi2 phi phi2 = some h' ∧
      h'.get (.ax "CTYPE" 1) = some (.txt "FDEP") ∧ h'.get (.ax "CTYPE" 2) = h.get (.ax "CTYPE" 2) := by
  obtain ⟨hQ, hU, hP, a, e, ha, -, -, pP⟩ := fdf_headers_partial isFreq isStokes hFD h naxis nPhi phi (by omega)
    fun i h1 h2 _ => ht i h1 h2
  rw [hf] at pP
  obtain ⟨d1, -⟩ := setDepths_axis hP 1 nPhi2 phi2
  have hsome : ∃ h', removeAxes (setDepths hP 1 nPhi2 phi2) = some h' := by
    rw [removeAxes_some]
    refine ⟨.ax "CTYPE" 1, by decide, ?_⟩
    unfold Header.has
    rw [d1]
    rfl
  obtain ⟨h', hr⟩ := hsome
  obtain ⟨s1, -⟩ := removeAxes_spec _ _ hr
  refine ⟨h', ?_, ?_, ?_⟩
  · unfold fwhmHeader
    rw [e, Option.bind_some, hf]
    exact hr
  · rw [s1 _ ⟨by simp [Key.axes], by intro a ha; simp [Key.axes] at ha; omega⟩, d1]
  · rw [s1 _ ⟨by simp [Key.axes], by intro a ha; simp [Key.axes] at ha; omega⟩, get_setDepths]
    · refine pP.kept _ ?_ ?_ (by intro e; exact Key.noConfusion e)
      · intro s e
        injection e with _ e2
        exact absurd e2 (by decide)
      · intro i _
        constructor
        · intro e
          injection e with e1 _
          exact absurd e1 (by decide)
        · intro e
          injection e with e1 _
          exact absurd e1 (by decide)
    · intro s e
      injection e with _ e2
      exact absurd e2 (by decide)

/-- C193: of a cube described by a `CD` matrix the elements of the removed axes stay in the header of the map. -/
theorem map_cd_left (h h' : Header) (hr : removeAxes h = some h') (i j : ℕ) :
    h'.get (.mat "CD" i j) = h.get (.mat "CD" i j) := by
  refine removeAxes_get h h' hr _ ?_ (by intro e; exact Key.noConfusion e) (by intro e; exact Key.noConfusion e)
    (by intro e; exact Key.noConfusion e)
  intro hm
  have : ∀ k ∈ removeKeys, (match k with | .mat s _ _ => decide (s = "PC") | _ => true) = true := by decide
  simpa using this _ hm

/-! ## C194: the position of `WCSAXES` -/

/-- The coordinate keywords of the FITS standard that occur in images (section 8 there): those of axes and matrices, and
some without number. The lengths of the axes are not among them. -/
def IsWcs : Key → Prop
  | .plain s => s ∈ ["LONPOLE", "LATPOLE", "RADESYS", "EQUINOX", "SPECSYS", "RESTFRQ"]
  | .ax s _ => s ≠ "NAXIS"
  | .mat _ _ _ => True
  | .old _ _ => True

/-- The keywords with reference pixel, reference value, type and unit of the first two axes, and the diagonal of the matrix. -/
def FirstTwo : Key → Prop
  | .ax s i => s ∈ ["CRPIX", "CRVAL", "CTYPE", "CUNIT"] ∧ (i = 1 ∨ i = 2)
  | .mat s i j => s ∈ ["PC", "CD"] ∧ i = j ∧ (i = 1 ∨ i = 2)
  | .plain _ => False
  | .old _ _ => False

theorem mem_wcsKeys (k : Key) : k ∈ wcsKeys ↔ FirstTwo k := by
  cases k with
  | plain s => simp [wcsKeys, FirstTwo]
  | old i j => simp [wcsKeys, FirstTwo]
  | ax s i =>
    simp only [wcsKeys, FirstTwo, List.mem_cons, Key.ax.injEq, List.not_mem_nil, or_false, reduceCtorEq]
    tauto
  | mat s i j =>
    simp only [wcsKeys, FirstTwo, List.mem_cons, Key.mat.injEq, List.not_mem_nil, or_false, reduceCtorEq, false_or]
    constructor
    · rintro (⟨rfl, rfl, rfl⟩ | ⟨rfl, rfl, rfl⟩ | ⟨rfl, rfl, rfl⟩ | ⟨rfl, rfl, rfl⟩) <;> simp
    · rintro ⟨rfl | rfl, rfl, rfl | rfl⟩ <;> simp

/-- C194, what holds: none of the twelve keywords that are looked at precedes `WCSAXES`, the other cards keep their order,
and `WCSAXES` precedes all coordinate keywords if it is one of the twelve that comes first. -/
theorem wcsaxes_partial (h h' : Header) (hr : updatePosition h = some h') :
    ∃ v pre post, h' = pre ++ (.plain "WCSAXES", v) :: post ∧ pre ++ post = h.del (.plain "WCSAXES") ∧
      (∀ c ∈ pre, ¬ FirstTwo c.1) ∧
      ((∀ g c l, h.del (.plain "WCSAXES") = g ++ c :: l → (∀ d ∈ g, ¬ IsWcs d.1) → IsWcs c.1 → FirstTwo c.1) →
        ∀ c ∈ pre, ¬ IsWcs c.1) := by
  simp only [← mem_wcsKeys]
  obtain ⟨v, pre, c, post, -, e, hc, hpre, e'⟩ := updatePosition_spec h h' hr
  refine ⟨v, pre, c :: post, e', e.symm, hpre, ?_⟩
  intro hfirst
  -- the first coordinate keyword of the part before
  by_contra hne
  push Not at hne
  obtain ⟨d, hd, hw⟩ := hne
  have hex : ∃ g c' l, pre = g ++ c' :: l ∧ (∀ d ∈ g, ¬ IsWcs d.1) ∧ IsWcs c'.1 := by
    clear e e' hpre hfirst
    induction pre with
    | nil => simp at hd
    | cons a pre ih =>
      by_cases ha : IsWcs a.1
      · exact ⟨[], a, pre, rfl, by simp, ha⟩
      · rcases List.mem_cons.mp hd with rfl | hd'
        · exact absurd hw ha
        · obtain ⟨g, c', l, e1, e2, e3⟩ := ih hd'
          refine ⟨a :: g, c', l, by rw [e1]; rfl, ?_, e3⟩
          intro d hd
          rcases List.mem_cons.mp hd with rfl | hd
          · exact ha
          · exact e2 d hd
  obtain ⟨g, c', l, e1, e2, e3⟩ := hex
  have := hfirst g c' (l ++ c :: post) (by rw [e, e1]; simp) e2 e3
  exact hpre c' (by rw [e1]; simp) this

/-- C194 is false of the code: `CDELT1` and `LONPOLE` are not among the keywords looked at. In a header where they come
first they still come before `WCSAXES`. -/
theorem wcsaxes_wrong (x y z : Val) :
    removeAxes [(.plain "SIMPLE", x), (.plain "NAXIS", .num 3), (.plain "LONPOLE", x), (.ax "CDELT" 1, y),
      (.ax "CRPIX" 1, z)] =
    some [(.plain "SIMPLE", x), (.plain "NAXIS", .num 2), (.plain "LONPOLE", x), (.ax "CDELT" 1, y),
      (.plain "WCSAXES", .num 2), (.ax "CRPIX" 1, z)] := by
  have e : removeKeys.foldl del [(.plain "SIMPLE", x), (.plain "NAXIS", .num 3), (.plain "LONPOLE", x),
      (.ax "CDELT" 1, y), (.ax "CRPIX" 1, z)] = [(.plain "SIMPLE", x), (.plain "NAXIS", .num 3), (.plain "LONPOLE", x),
      (.ax "CDELT" 1, y), (.ax "CRPIX" 1, z)] := by
    simp [removeKeys, Header.del]
  have e2 : (((removeKeys.foldl del [(.plain "SIMPLE", x), (.plain "NAXIS", .num 3), (.plain "LONPOLE", x),
      (.ax "CDELT" 1, y), (.ax "CRPIX" 1, z)]).set (.plain "NAXIS") (.num 2)).del (.plain "STOKES")).set
      (.plain "WCSAXES") (.num 2) = [(.plain "SIMPLE", x), (.plain "NAXIS", .num 2), (.plain "LONPOLE", x),
      (.ax "CDELT" 1, y), (.ax "CRPIX" 1, z), (.plain "WCSAXES", .num 2)] := by
    rw [e]
    simp [Header.set, Header.del]
  unfold removeAxes
  rw [e2]
  simp [updatePosition, Header.get, Header.del, Header.index, wcsKeys, List.findIdx?_cons]

/-! ## Cases -/

/-- A cube with axes right ascension, declination, frequency, as in most files. -/
def plainCube : Header :=
  [(.plain "NAXIS", .num 3), (.ax "NAXIS" 1, .num 5), (.ax "NAXIS" 2, .num 4), (.ax "NAXIS" 3, .num 100),
   (.ax "CTYPE" 1, .txt "RA---SIN"), (.ax "CRVAL" 1, .num 30), (.ax "CTYPE" 2, .txt "DEC--SIN"),
   (.ax "CRVAL" 2, .num (-20)), (.ax "CTYPE" 3, .txt "FREQ"), (.ax "CRVAL" 3, .num 1000000000), (.mat "PC" 3 3, .num 1)]

theorem plainCube_typed : Typed plainCube 3 := by
  intro i h1 h2
  interval_cases i
  · exact ⟨_, rfl⟩
  · exact ⟨_, rfl⟩
  · exact ⟨_, rfl⟩

theorem plainCube_usual : Usual plainCube := by
  intro c hc
  simp only [plainCube, List.mem_cons, List.not_mem_nil, or_false] at hc
  rcases hc with rfl | rfl | rfl | rfl | rfl | rfl | rfl | rfl | rfl | rfl | rfl
  all_goals first
    | exact Or.inl (show ∀ a ∈ _, a ≤ 2 by decide)
    | exact Or.inr (Or.inl ⟨_, by decide, 3, Or.inl rfl, rfl⟩)
    | exact Or.inr (Or.inr ⟨3, 3, by decide, by decide, by decide, by decide, rfl⟩)

/-- The hypotheses of `map_coords_partial` hold for this cube. -/
example : ∃ h', fwhmHeader (fun s => s == "FREQ") (fun s => s == "STOKES") plainCube 3 7 15 (fun k => k) (fun k => k) = some h' ∧
    h'.get (.ax "CRVAL" 1) = some (.num 30) ∧ ∀ c ∈ h', c.1.Plane := by
  obtain ⟨h', e, h1, -, -, h2⟩ := map_coords_partial (fun s => s == "FREQ") (fun s => s == "STOKES") (by decide) plainCube
    3 7 15 (fun k => k) (fun k => k) (le_refl _) plainCube_typed (by
      intro i hi s hs
      rcases hi with rfl | rfl
      · have : s = "RA---SIN" := by
          have h0 : plainCube.get (.ax "CTYPE" 1) = some (.txt "RA---SIN") := rfl
          rw [h0] at hs
          simp only [Option.some.injEq, Val.txt.injEq] at hs
          exact hs.symm
        subst this
        decide
      · have : s = "DEC--SIN" := by
          have h0 : plainCube.get (.ax "CTYPE" 2) = some (.txt "DEC--SIN") := rfl
          rw [h0] at hs
          simp only [Option.some.injEq, Val.txt.injEq] at hs
          exact hs.symm
        subst this
        decide)
  refine ⟨h', e, ?_, h2 (by norm_num) plainCube_usual⟩
  rw [h1 _ ⟨by simp [Key.axes], by intro a ha; simp [Key.axes] at ha; omega⟩]
  rfl

/-- A cube whose first axis is frequency. -/
def freqFirst : Header :=
  [(.plain "NAXIS", .num 3), (.ax "CTYPE" 1, .txt "FREQ"), (.ax "CTYPE" 2, .txt "RA---SIN"),
   (.ax "CTYPE" 3, .txt "DEC--SIN")]

/-- The hypotheses of `map_coords_wrong` hold for this cube. -/
example : ∃ h', fwhmHeader (fun s => s == "FREQ") (fun s => s == "STOKES") freqFirst 3 7 15 (fun k => k) (fun k => k) =
    some h' ∧ h'.get (.ax "CTYPE" 1) = some (.txt "FDEP") ∧ h'.get (.ax "CTYPE" 2) = some (.txt "RA---SIN") := by
  refine map_coords_wrong _ _ (by decide) freqFirst 3 7 15 _ _ (le_refl _) ?_ (by decide)
  intro i h1 h2
  interval_cases i
  · exact ⟨_, rfl⟩
  · exact ⟨_, rfl⟩
  · exact ⟨_, rfl⟩

/-- The hypotheses of `fdf_headers_untyped` hold for a cube without types of its axes. -/
example : fdfHeaders (fun s => s == "FREQ") (fun s => s == "STOKES") [(.plain "NAXIS", .num 3)] 3 7 (fun k => k) = none :=
  fdf_headers_untyped _ _ _ _ _ _ 1 (le_refl _) (by norm_num) (by decide) rfl

end Verif.Headers
