import Verif.PeakFit.Frac
import Verif.Headers.Props

/-!
# The files of the peak fit: places, headers and units (C201, C202)

Source: `/repo/RMtools_3D/RMpeakfit_3D.py` (`save_maps` 164-237, `main` 401-402 and 488).
The conversion to 32 bits (231-232) is left out. A path is the list of its components; the empty path is the working
directory or the root. Not modelled: links, rights, full discs.
-/

namespace Verif.PeakFit

open Verif.NumPy Verif.Headers Verif.Headers.Header

variable {n N : ℕ}

/-- What is found at a path. -/
inductive Entry
  | dir
  | file (h : Header) (data : ℕ × ℕ → Option ℝ)
  | other

abbrev FS := List String → Option Entry

inductive SaveErr
  | noSuchDir
  | notADir
  | keyError
  | badHeader
deriving DecidableEq

/-- `os.mkdir`: makes the last directory of the path only. (Called for paths that do not exist.) -/
def mkdir (fs : FS) (d : List String) : Except SaveErr FS :=
  match fs d.dropLast with
  | some .dir => .ok fun p => if p = d then some .dir else fs p
  | some _ => .error .notADir
  | none => .error .noSuchDir

/-- `pf.writeto(…, overwrite=True)`. -/
def writeTo (fs : FS) (d : List String) (name : String) (h : Header) (data : ℕ × ℕ → Option ℝ) : Except SaveErr FS :=
  match fs d with
  | some .dir => .ok fun p => if p = d ++ [name] then some (.file h data) else fs p
  | some _ => .error .notADir
  | none => .error .noSuchDir

/-- `unit_dict`, lines 188-223, of the products that the program makes (`allProducts`) and some others. -/
def unitDict (flux : Val) : List (String × Val) :=
  [("dFDFcorMAD", flux), ("phiPeakPIfit_rm2", .txt "rad/m^2"), ("dPhiPeakPIfit_rm2", .txt "rad/m^2"),
   ("ampPeakPIfit", flux), ("ampPeakPIfitEff", flux), ("dAmpPeakPIfit", flux), ("snrPIfit", .txt ""),
   ("indxPeakPIfit", .txt ""), ("peakFDFimagFit", flux), ("peakFDFrealFit", flux), ("polAngleFit_deg", .txt "deg"),
   ("dPolAngleFit_deg", .txt "deg"), ("polAngle0Fit_deg", .txt "deg"), ("dPolAngle0Fit_deg", .txt "deg"),
   ("Ifreq0", flux), ("polyCoeffs", .txt ""), ("IfitStat", .txt ""), ("IfitChiSqRed", .txt ""),
   ("lam0Sq_m2", .txt "m^2"), ("freq0_Hz", .txt "Hz"), ("fwhmRMSF", .txt "rad/m^2"), ("dQU", flux), ("dFDFth", flux),
   ("min_freq", .txt "Hz"), ("max_freq", .txt "Hz"), ("N_channels", .txt ""), ("median_channel_width", .txt "Hz"),
   ("fracPol", .txt ""), ("sigmaAddQ", .txt ""), ("dSigmaAddMinusQ", .txt ""), ("dSigmaAddPlusQ", .txt ""),
   ("sigmaAddU", .txt ""), ("dSigmaAddMinusU", .txt ""), ("dSigmaAddPlusU", .txt "")]

/-- Lines 230-237 for one product: the header is shared, its unit is overwritten. -/
def saveStep (units : List (String × Val)) (d : List String) (stem : String) (maps : Maps) (st : FS × Header)
    (product : String) : Except SaveErr (FS × Header) :=
  match units.lookup product with
  | none => .error .keyError
  | some u =>
    let h := st.2.set (.plain "BUNIT") u
    (writeTo st.1 d (stem ++ product ++ ".fits") h (maps product)).map fun fs => (fs, h)

/-- `save_maps`, 164-237. The prefix is `d` followed by `stem`: in `main` it begins with `/` or `./` (401-402), so that
`os.path.dirname` of it is a directory. The new `HISTORY` card goes to the end. -/
def saveMaps (fs : FS) (prods : List String) (maps : Maps) (d : List String) (stem : String) (fdfHeader : Header) :
    Except SaveErr FS :=
  match removeAxes fdfHeader with
  | none => .error .badHeader
  | some h0 =>
    let h1 := h0 ++ [(.plain "HISTORY", .txt "Polarization peak maps created with RM-Tools RMpeakfit_3D")]
    let flux := (fdfHeader.get (.plain "BUNIT")).getD (.txt "")
    (if (fs d).isSome then .ok fs else mkdir fs d).bind fun fs1 =>
      (prods.foldlM (saveStep (unitDict flux) d stem maps) (fs1, h1)).map Prod.fst

/-- `main`: fit, then save. The outer `none`: the fit raises. -/
noncomputable def fitAndSave [NeZero n] (x : In n N) (prods : List String) (fs : FS) (d : List String) (stem : String)
    (fdfHeader : Header) : Option (Except SaveErr FS) :=
  (fit x prods).map fun r => saveMaps fs prods r.1 d stem fdfHeader

/-! ## Helpers -/

theorem lookup_unit (flux : Val) (name : String) (h : name ∈ allProducts) : ∃ u, (unitDict flux).lookup name = some u := by
  simp only [allProducts, List.mem_cons, List.not_mem_nil, or_false] at h
  rcases h with rfl | rfl | rfl | rfl | rfl | rfl | rfl | rfl | rfl | rfl | rfl | rfl | rfl | rfl | rfl | rfl | rfl |
    rfl | rfl | rfl | rfl | rfl | rfl | rfl <;> exact ⟨_, rfl⟩

theorem name_inj (stem a b : String) (h : stem ++ a ++ ".fits" = stem ++ b ++ ".fits") : a = b := by
  have := congrArg String.toList h
  simp only [String.toList_append, List.append_assoc, List.append_cancel_left_eq] at this
  exact String.toList_inj.mp (List.append_cancel_right_eq _ _ _ ▸ this)

/-- What the loop over the products leaves behind. -/
theorem save_loop (units : List (String × Val)) (d : List String) (stem : String) (maps : Maps)
    (prods : List String) (hk : ∀ p ∈ prods, ∃ u, units.lookup p = some u) (hnd : prods.Nodup) :
    ∀ (fs : FS) (h : Header), fs d = some .dir →
      ∃ fs' h', prods.foldlM (saveStep units d stem maps) (fs, h) = .ok (fs', h') ∧ fs' d = some .dir ∧
        (∀ p ∈ prods, ∃ u g, units.lookup p = some u ∧ g.get (.plain "BUNIT") = some u ∧
          (∀ key, key ≠ .plain "BUNIT" → g.get key = h.get key) ∧
          fs' (d ++ [stem ++ p ++ ".fits"]) = some (.file g (maps p))) ∧
        (∀ q, (∀ p ∈ prods, q ≠ d ++ [stem ++ p ++ ".fits"]) → fs' q = fs q) := by
  induction prods with
  | nil =>
    intro fs h hd
    exact ⟨fs, h, rfl, hd, by simp, fun _ _ => rfl⟩
  | cons a l ih =>
    intro fs h hd
    obtain ⟨u, hu⟩ := hk a (by simp)
    have hda : d ≠ d ++ [stem ++ a ++ ".fits"] := by
      intro e
      have := congrArg List.length e
      simp at this
    set h1 := h.set (.plain "BUNIT") u with hh1
    set fs1 : FS := fun p => if p = d ++ [stem ++ a ++ ".fits"] then some (.file h1 (maps a)) else fs p with hfs1
    have hs : saveStep units d stem maps (fs, h) a = .ok (fs1, h1) := by
      unfold saveStep
      rw [hu]
      dsimp only
      unfold writeTo
      rw [hd]
      rfl
    have hd1 : fs1 d = some .dir := by rw [hfs1]; dsimp only; rw [if_neg hda]; exact hd
    obtain ⟨hal, hl⟩ := List.nodup_cons.mp hnd
    obtain ⟨fs', h', e, hd', h2, h3⟩ := ih (fun p hp => hk p (by simp [hp])) hl fs1 h1 hd1
    refine ⟨fs', h', ?_, hd', ?_, ?_⟩
    · rw [List.foldlM_cons, hs]
      exact e
    · intro p hp
      rcases List.mem_cons.mp hp with rfl | hp
      · refine ⟨u, h1, hu, get_set_self _ _ _, fun key hkey => get_set_ne _ _ _ _ hkey, ?_⟩
        rw [h3 _ (fun q hq e => hal ?_)]
        · rw [hfs1]; dsimp only; rw [if_pos rfl]
        · have := List.append_cancel_left e
          have := name_inj stem p q (by simpa using this)
          rw [this]; exact hq
      · obtain ⟨u', g, r1, r2, r3, r4⟩ := h2 p hp
        exact ⟨u', g, r1, r2, fun key hkey => by rw [r3 key hkey]; exact get_set_ne _ _ _ _ hkey, r4⟩
    · intro q hq
      rw [h3 q fun p hp => hq p (by simp [hp]), hfs1]
      dsimp only
      rw [if_neg (hq a (by simp))]

/-! ## C202 -/

/-- The directory of the maps is there, or can be made by adding one directory. -/
def Reachable (fs : FS) (d : List String) : Prop :=
  fs d = some .dir ∨ (fs d = none ∧ fs d.dropLast = some .dir)

/-- C202, the part that holds: if the directory of the output exists or only its last part is missing, the run writes,
for each product that was asked for, one file, named by the prefix and the product. It has the map of the fit, and a header of
the image plane that has the coordinates of the cube. Nothing else is changed, apart from the new directory. -/
theorem save_partial (fs : FS) (prods : List String) (maps : Maps) (d : List String) (stem : String) (h h0 : Header)
    (hr : removeAxes h = some h0) (hk : ∀ p ∈ prods, p ∈ allProducts) (hnd : prods.Nodup) (hd : Reachable fs d) :
    ∃ fs', saveMaps fs prods maps d stem h = .ok fs' ∧ fs' d = some .dir ∧
      (∀ p ∈ prods, ∃ g, fs' (d ++ [stem ++ p ++ ".fits"]) = some (.file g (maps p)) ∧
        g.get (.plain "NAXIS") = some (.num 2) ∧ ∀ key, Key.Coord key → g.get key = h.get key) ∧
      ∀ q, q ≠ d → (∀ p ∈ prods, q ≠ d ++ [stem ++ p ++ ".fits"]) → fs' q = fs q := by
  obtain ⟨c1, c2, -, -⟩ := removeAxes_spec h h0 hr
  obtain ⟨fs1, e1, hd1, hfs1⟩ : ∃ fs1 : FS, (if (fs d).isSome then .ok fs else mkdir fs d : Except SaveErr FS) = .ok fs1 ∧
      fs1 d = some .dir ∧ ∀ q, q ≠ d → fs1 q = fs q := by
    rcases hd with hd | ⟨hd, hp⟩
    · exact ⟨fs, by rw [hd]; rfl, hd, fun _ _ => rfl⟩
    · refine ⟨fun p => if p = d then some .dir else fs p, ?_, by simp, fun q hq => if_neg hq⟩
      rw [hd]
      simp only [Option.isSome_none, Bool.false_eq_true, if_false]
      unfold mkdir
      rw [hp]
  set h1 : Header := h0 ++ [(.plain "HISTORY", .txt "Polarization peak maps created with RM-Tools RMpeakfit_3D")] with hh1
  obtain ⟨fs', h', e, hd', h2, h3⟩ := save_loop (unitDict ((h.get (.plain "BUNIT")).getD (.txt ""))) d stem maps prods
    (fun p hp => lookup_unit _ p (hk p hp)) hnd fs1 h1 hd1
  have keep : ∀ key, key ≠ .plain "HISTORY" → h1.get key = h0.get key := by
    intro key hkey
    rw [hh1, get_append_cons_ne _ _ _ _ _ hkey, List.append_nil]
  refine ⟨fs', ?_, hd', ?_, ?_⟩
  · unfold saveMaps
    rw [hr]
    dsimp only
    rw [e1]
    change Except.map Prod.fst _ = _
    rw [e]
    rfl
  · intro p hp
    obtain ⟨u, g, -, -, r3, r4⟩ := h2 p hp
    refine ⟨g, r4, ?_, ?_⟩
    · rw [r3 _ (by decide), keep _ (by decide), c2]
    · intro key hkey
      have hne : ∀ s, key ≠ .plain s := by
        rintro s rfl
        exact hkey.1 rfl
      rw [r3 _ (hne _), keep _ (hne _), c1 key hkey]
  · intro q hq hq'
    rw [h3 q hq', hfs1 q hq]

/-- C202 is false if more than one directory is missing: the run ends with an error after the fit, and no file is
written. -/
theorem save_nested_wrong (fs : FS) (prods : List String) (maps : Maps) (d : List String) (stem : String) (h h0 : Header)
    (hr : removeAxes h = some h0) (hd : fs d = none) (hp : fs d.dropLast = none) :
    saveMaps fs prods maps d stem h = .error .noSuchDir := by
  unfold saveMaps
  rw [hr]
  dsimp only
  rw [hd]
  simp only [Option.isSome_none, Bool.false_eq_true, if_false]
  unfold mkdir
  rw [hp]
  rfl

/-! ## C201 -/

/-- The maps in another unit of flux: without a Stokes I model, or without a noise file. -/
theorem units_general [NeZero n] (k : ℝ) (hk : 0 < k) (x x' : In n N) (s0 s1 : ℕ) (h : Rescaled k x x')
    (hd : ∀ d j s, x.noise = some d → d j = some s → s ≠ 0) (hx : Fits x s0 s1) (hN : 3 ≤ N)
    (hor : x.i = none ∨ x.noise = none) (prods : List String) (hprods : ∀ p ∈ prods, p ∈ allProducts) :
    ∃ maps maps', fit x prods = some (maps, [s0, s1]) ∧ fit x' prods = some (maps', [s0, s1]) ∧
      ∀ a b, a < s0 → b < s1 → ∀ name ∈ prods,
        (x.i = none → name = "Ifreq0" → maps' name (a, b) = maps name (a, b)) ∧
        (x.i = none → name = "fracPol" → maps' name (a, b) = (maps name (a, b)).map (k * ·)) ∧
        ((x.i = none → name ≠ "Ifreq0" ∧ name ≠ "fracPol") →
          maps' name (a, b) = (maps name (a, b)).map (unitOf name k * ·)) := by
  obtain ⟨maps, hm, hp⟩ := maps_spec x s0 s1 hx hN prods hprods
  obtain ⟨maps', hm', hp'⟩ := maps_spec x' s0 s1 (fits_rescaled k hk x x' s0 s1 h hd hx) hN prods hprods
  refine ⟨maps, maps', hm, hm', fun a b ha hb name hnameP => ?_⟩
  have hname := hprods name hnameP
  have hget : ∀ idx, x'.fdf.get idx = (x.fdf.get idx).map ((k : ℂ) * ·) := fun idx => by rw [h.fdf]
  by_cases hbl : ∃ l : Fin N, x.fdf.get [l, a, b] = none
  · rw [(hp a b ha hb).1 hbl name hnameP]
    obtain ⟨l, hl⟩ := hbl
    rw [(hp' a b ha hb).1 ⟨l, by rw [hget, hl]; rfl⟩ name hnameP]
    exact ⟨fun _ _ => rfl, fun _ _ => rfl, fun _ => rfl⟩
  · push Not at hbl
    have hF : ∀ l : Fin N, ∃ z, x.fdf.get [l, a, b] = some z := fun l => Option.ne_none_iff_exists'.mp (hbl l)
    choose F hF using hF
    obtain ⟨v, m, hv, hme, hval⟩ := (hp a b ha hb).2 F hF
    obtain ⟨v', m', hv', hme', hval'⟩ := (hp' a b ha hb).2 (fun l => (k : ℂ) * F l)
      (fun l => by rw [hget, hF l]; rfl)
    have hvv : (x.i = none → v = 1 ∧ v' = 1) ∧ (x.i ≠ none → v' = k * v) := by
      constructor
      · intro hi
        unfold stokesAt at hv hv'
        rw [hi] at hv
        rw [h.i, hi] at hv'
        exact ⟨(Option.some.inj hv).symm, (Option.some.inj hv').symm⟩
      · intro hi
        obtain ⟨c, hc⟩ := Option.ne_none_iff_exists'.mp hi
        unfold stokesAt at hv hv'
        rw [h.i, hc, h.lamSq, h.lam0] at hv'
        rw [hc] at hv
        dsimp only [Option.map_some] at hv hv'
        rw [ifreq0Pix_scale, hv] at hv'
        exact (Option.some.inj hv').symm
    have hno : noiseAt x' v' = (noiseAt x v).map fun w => k * w := by
      rcases hor with hi | hn
      · obtain ⟨rfl, rfl⟩ := hvv.1 hi
        unfold noiseAt
        rw [h.noise, h.variance]
        cases hn : x.noise with
        | none => rfl
        | some d =>
          simp only [Option.map_some, Option.bind_some]
          rw [noiseFactor_scale x.variance d k hk (fun j s => hd d j s hn)]
          cases noiseFactor x.variance d <;> simp
      · unfold noiseAt
        rw [h.noise, hn]
        rfl
    rw [h.phi, h.fwhm, h.lamSq, h.lam0, hno] at hme'
    obtain ⟨u1, u2, u3, u4, u5, u6, u7, u8, u9, u10, u11, u12, u13, u14⟩ :=
      measureN_units F x.phi _ _ x.lamSq x.lam0 k hk m m' hme hme'
    rw [hval name hnameP, hval' name hnameP, h.fwhm, h.lamSq, h.lam0, hno]
    refine ⟨?_, ?_, ?_⟩
    · rintro hi rfl
      obtain ⟨rfl, rfl⟩ := hvv.1 hi
      rfl
    · rintro hi rfl
      obtain ⟨rfl, rfl⟩ := hvv.1 hi
      show m'.amp.bind _ = (m.amp.bind _).map _
      rw [u9]
      cases m.amp <;> simp [Peak.fdiv]
    · intro hex
      have one : ∀ o : Option ℝ, o = o.map ((1 : ℝ) * ·) := fun o => by cases o <;> simp
      have unit1 : ∀ s : String, s ∉ ["ampPeakPIfit", "ampPeakPIfitEff", "dAmpPeakPIfit", "dFDFcorMAD",
          "peakFDFimagFit", "peakFDFrealFit", "Ifreq0", "dFDFth"] → unitOf s k = 1 := fun s hs => if_neg hs
      have unitk : ∀ s : String, s ∈ ["ampPeakPIfit", "ampPeakPIfitEff", "dAmpPeakPIfit", "dFDFcorMAD",
          "peakFDFimagFit", "peakFDFrealFit", "Ifreq0", "dFDFth"] → unitOf s k = k := fun s hs => if_pos hs
      simp only [allProducts, List.mem_cons, List.not_mem_nil, or_false] at hname
      rcases hname with rfl | rfl | rfl | rfl | rfl | rfl | rfl | rfl | rfl | rfl | rfl | rfl | rfl | rfl | rfl | rfl |
        rfl | rfl | rfl | rfl | rfl | rfl | rfl | rfl
      · rw [unitk _ (by decide)]; exact u12
      · rw [unit1 _ (by decide), ← one]; exact u1
      · rw [unit1 _ (by decide), ← one]; exact u2
      · rw [unitk _ (by decide)]; exact u9
      · rw [unitk _ (by decide)]; exact u10
      · rw [unitk _ (by decide)]; exact u11
      · rw [unit1 _ (by decide), ← one]; exact u3
      · rw [unit1 _ (by decide), ← one]; exact u4
      · rw [unitk _ (by decide)]; exact u14
      · rw [unitk _ (by decide)]; exact u13
      · rw [unit1 _ (by decide), ← one]; exact u5
      · rw [unit1 _ (by decide), ← one]; exact u6
      · rw [unit1 _ (by decide), ← one]; exact u7
      · rw [unit1 _ (by decide), ← one]; exact u8
      · have hi : x.i ≠ none := fun hi => (hex hi).1 rfl
        rw [unitk _ (by decide), hvv.2 hi]; rfl
      · rw [unitk _ (by decide)]; rfl
      · rw [unit1 _ (by decide), ← one]; rfl
      · rw [unit1 _ (by decide), ← one]; rfl
      · rw [unit1 _ (by decide), ← one]; rfl
      · rw [unit1 _ (by decide), ← one]; rfl
      · rw [unit1 _ (by decide), ← one]; rfl
      · rw [unit1 _ (by decide), ← one]; rfl
      · rw [unit1 _ (by decide), ← one]; rfl
      · have hi : x.i ≠ none := fun hi => (hex hi).2 rfl
        rw [unit1 _ (by decide), ← one, hvv.2 hi]
        show m'.amp.bind _ = m.amp.bind _
        rw [u9]
        cases m.amp with
        | none => rfl
        | some w =>
          simp only [Option.map_some, Option.bind_some]
          unfold Peak.fdiv
          by_cases hv0 : v = 0
          · rw [if_pos hv0, if_pos (by rw [hv0, mul_zero])]
          · rw [if_neg hv0, if_neg (mul_ne_zero hk.ne' hv0)]
            congr 1
            field_simp

/-- The text of the unit of the file of a product, and its map. -/
def Holds (fs : FS) (d : List String) (stem name : String) (unit : Val) (data : ℕ × ℕ → Option ℝ) : Prop :=
  ∃ g, fs (d ++ [stem ++ name ++ ".fits"]) = some (.file g data) ∧ g.get (.plain "BUNIT") = some unit

theorem save_units (fs : FS) (prods : List String) (maps : Maps) (d : List String) (stem : String) (h : Header)
    (hr : ∃ h0, removeAxes h = some h0) (hk : ∀ p ∈ prods, p ∈ allProducts) (hnd : prods.Nodup) (hd : fs d = some .dir) :
    ∃ fs', saveMaps fs prods maps d stem h = .ok fs' ∧
      ∀ p ∈ prods, ∃ u, (unitDict ((h.get (.plain "BUNIT")).getD (.txt ""))).lookup p = some u ∧
        Holds fs' d stem p u (maps p) := by
  obtain ⟨h0, hr⟩ := hr
  obtain ⟨fs', h', e, hd', h2, h3⟩ := save_loop (unitDict ((h.get (.plain "BUNIT")).getD (.txt ""))) d stem maps prods
    (fun p hp => lookup_unit _ p (hk p hp)) hnd fs
    (h0 ++ [(.plain "HISTORY", .txt "Polarization peak maps created with RM-Tools RMpeakfit_3D")]) hd
  refine ⟨fs', ?_, ?_⟩
  · unfold saveMaps
    rw [hr]
    dsimp only
    rw [hd]
    change Except.map Prod.fst _ = _
    rw [e]
    rfl
  · intro p hp
    obtain ⟨u, g, r1, r2, -, r4⟩ := h2 p hp
    exact ⟨u, r1, g, r4, r2⟩

/-- Two runs, on the same sky in two units of flux, on a cube whose header names the unit `u`, write for `name` a file
with the unit `unit u` and the map `data` resp. `data'`. -/
def Writes [NeZero n] (x x' : In n N) (prods : List String) (fs : FS) (d : List String) (stem : String) (h : Header)
    (name : String) (unit : Val → Val) (data data' : ℕ × ℕ → Option ℝ) : Prop :=
  ∀ u, ∃ fs1 fs2, fitAndSave x prods fs d stem (h.set (.plain "BUNIT") u) = some (.ok fs1) ∧
    fitAndSave x' prods fs d stem (h.set (.plain "BUNIT") u) = some (.ok fs2) ∧
    Holds fs1 d stem name (unit u) data ∧ Holds fs2 d stem name (unit u) data'

/-- The unit that `unit_dict` gives a product, as a function of the unit of flux. -/
theorem unit_kind (name : String) (hn : name ∈ allProducts) : ∃ unit : Val → Val,
    (∀ u, (unitDict u).lookup name = some (unit u)) ∧
      ((name ∈ ["ampPeakPIfit", "ampPeakPIfitEff", "dAmpPeakPIfit", "dFDFcorMAD", "peakFDFimagFit", "peakFDFrealFit",
        "Ifreq0", "dFDFth"] ∧ ∀ u, unit u = u) ∨
       (name ∉ ["ampPeakPIfit", "ampPeakPIfitEff", "dAmpPeakPIfit", "dFDFcorMAD", "peakFDFimagFit", "peakFDFrealFit",
        "Ifreq0", "dFDFth"] ∧ ∃ c, ∀ u, unit u = .txt c)) := by
  simp only [allProducts, List.mem_cons, List.not_mem_nil, or_false] at hn
  rcases hn with rfl | rfl | rfl | rfl | rfl | rfl | rfl | rfl | rfl | rfl | rfl | rfl | rfl | rfl | rfl | rfl | rfl |
    rfl | rfl | rfl | rfl | rfl | rfl | rfl <;>
  first
  | exact ⟨fun u => u, fun _ => rfl, Or.inl ⟨by decide, fun _ => rfl⟩⟩
  | exact ⟨fun _ => .txt "rad/m^2", fun _ => rfl, Or.inr ⟨by decide, _, fun _ => rfl⟩⟩
  | exact ⟨fun _ => .txt "deg", fun _ => rfl, Or.inr ⟨by decide, _, fun _ => rfl⟩⟩
  | exact ⟨fun _ => .txt "Hz", fun _ => rfl, Or.inr ⟨by decide, _, fun _ => rfl⟩⟩
  | exact ⟨fun _ => .txt "m^2", fun _ => rfl, Or.inr ⟨by decide, _, fun _ => rfl⟩⟩
  | exact ⟨fun _ => .txt "", fun _ => rfl, Or.inr ⟨by decide, _, fun _ => rfl⟩⟩

theorem writes_of_fit [NeZero n] (x x' : In n N) (prods : List String) (fs : FS) (d : List String) (stem : String)
    (h : Header) (hw : ∃ k ∈ wcsKeys, h.has k = true) (hprods : ∀ p ∈ prods, p ∈ allProducts) (hnd : prods.Nodup)
    (hd : fs d = some .dir) (maps maps' : Maps) (sh sh' : List ℕ) (hm : fit x prods = some (maps, sh))
    (hm' : fit x' prods = some (maps', sh')) (name : String) (hname : name ∈ prods) (unit : Val → Val)
    (hu : ∀ u, (unitDict u).lookup name = some (unit u)) :
    Writes x x' prods fs d stem h name unit (maps name) (maps' name) := by
  intro u
  have hr : ∃ h0, removeAxes (h.set (.plain "BUNIT") u) = some h0 := by
    rw [removeAxes_some]
    obtain ⟨k, hk, hk'⟩ := hw
    refine ⟨k, hk, ?_⟩
    unfold Header.has at hk' ⊢
    rw [get_set_ne _ _ _ _ ?_]
    · exact hk'
    · rintro rfl
      exact absurd hk (by decide)
  obtain ⟨fs1, e1, r1⟩ := save_units fs prods maps d stem _ hr hprods hnd hd
  obtain ⟨fs2, e2, r2⟩ := save_units fs prods maps' d stem _ hr hprods hnd hd
  obtain ⟨u1, a1, b1⟩ := r1 name hname
  obtain ⟨u2, a2, b2⟩ := r2 name hname
  rw [get_set_self, Option.getD_some, hu] at a1 a2
  have := Option.some.inj a1; subst this
  have := Option.some.inj a2; subst this
  refine ⟨fs1, fs2, ?_, ?_, b1, b2⟩
  · unfold fitAndSave; rw [hm, Option.map_some, e1]
  · unfold fitAndSave; rw [hm', Option.map_some, e2]

/-- C201, the part that holds (no Stokes I cube or no noise file; without a Stokes I cube, not for the maps of Stokes I
and of the fractional polarisation): the unit that is written into a map is either the unit of flux of the cube, and then
the values of the map are those of the same sky in that unit, or it is a fixed one, and the values do not depend on the
unit of flux. -/
theorem labels_partial [NeZero n] (k : ℝ) (hk : 0 < k) (x x' : In n N) (s0 s1 : ℕ) (hx' : Rescaled k x x')
    (hdn : ∀ d j s, x.noise = some d → d j = some s → s ≠ 0) (hx : Fits x s0 s1) (hN : 3 ≤ N)
    (hor : x.i = none ∨ x.noise = none) (prods : List String) (hprods : ∀ p ∈ prods, p ∈ allProducts)
    (hnd : prods.Nodup) (fs : FS) (d : List String) (stem : String) (hd : fs d = some .dir)
    (h : Header) (hw : ∃ k ∈ wcsKeys, h.has k = true) (name : String) (hname : name ∈ prods)
    (hex : x.i = none → name ≠ "Ifreq0" ∧ name ≠ "fracPol") :
    ∃ (unit : Val → Val) (data data' : ℕ × ℕ → Option ℝ), Writes x x' prods fs d stem h name unit data data' ∧
      (((∀ u, unit u = u) ∧ ∀ a b, a < s0 → b < s1 → data' (a, b) = (data (a, b)).map (k * ·)) ∨
       ((∃ c, ∀ u, unit u = .txt c) ∧ ∀ a b, a < s0 → b < s1 → data' (a, b) = data (a, b))) := by
  obtain ⟨maps, maps', hm, hm', hv⟩ := units_general k hk x x' s0 s1 hx' hdn hx hN hor prods hprods
  obtain ⟨unit, hu, hkind⟩ := unit_kind name (hprods name hname)
  refine ⟨unit, maps name, maps' name, writes_of_fit x x' prods fs d stem h hw hprods hnd hd maps maps' _ _ hm hm' name
    hname unit hu, ?_⟩
  rcases hkind with ⟨hmem, hk1⟩ | ⟨hmem, c, hk1⟩
  · refine Or.inl ⟨hk1, fun a b ha hb => ?_⟩
    rw [(hv a b ha hb name hname).2.2 hex]
    unfold unitOf
    rw [if_pos hmem]
  · refine Or.inr ⟨⟨c, hk1⟩, fun a b ha hb => ?_⟩
    rw [(hv a b ha hb name hname).2.2 hex]
    unfold unitOf
    rw [if_neg hmem]
    cases maps name (a, b) <;> simp

/-- C201 is false without a Stokes I cube: the map of Stokes I has the unit of flux, but its values are the same in all
units, and the map of the fractional polarisation has no unit, but its values change with the unit of flux. -/
theorem labels_wrong [NeZero n] (k : ℝ) (hk : 0 < k) (x x' : In n N) (s0 s1 : ℕ) (hx' : Rescaled k x x')
    (hdn : ∀ d j s, x.noise = some d → d j = some s → s ≠ 0) (hx : Fits x s0 s1) (hN : 3 ≤ N) (hi : x.i = none)
    (fs : FS) (d : List String) (stem : String) (hd : fs d = some .dir)
    (h : Header) (hw : ∃ k ∈ wcsKeys, h.has k = true) :
    (∃ data data', Writes x x' allProducts fs d stem h "Ifreq0" (fun u => u) data data' ∧
      ∀ a b, a < s0 → b < s1 → data' (a, b) = data (a, b)) ∧
    ∃ data data', Writes x x' allProducts fs d stem h "fracPol" (fun _ => .txt "") data data' ∧
      ∀ a b, a < s0 → b < s1 → data' (a, b) = (data (a, b)).map (k * ·) := by
  have hnd : allProducts.Nodup := by decide
  obtain ⟨maps, maps', hm, hm', hv⟩ := units_general k hk x x' s0 s1 hx' hdn hx hN (Or.inl hi) allProducts fun _ h => h
  constructor
  · exact ⟨_, _, writes_of_fit x x' allProducts fs d stem h hw (fun _ h => h) hnd hd maps maps' _ _ hm hm' "Ifreq0"
      (by decide) _ (fun _ => rfl), fun a b ha hb => (hv a b ha hb "Ifreq0" (by decide)).1 hi rfl⟩
  · exact ⟨_, _, writes_of_fit x x' allProducts fs d stem h hw (fun _ h => h) hnd hd maps maps' _ _ hm hm' "fracPol"
      (by decide) _ (fun _ => rfl), fun a b ha hb => (hv a b ha hb "fracPol" (by decide)).2.1 hi rfl⟩

/-! ## Instances -/

/-- The default list of products has no product twice. -/
theorem products_nodup : defaultProducts.Nodup ∧ peakProducts.Nodup ∧ allProducts.Nodup := by
  refine ⟨?_, ?_, ?_⟩ <;> decide

/-- One pixel, three depths, two channels, no noise file; with a Stokes I cube if `withI`. -/
noncomputable def exIn (withI : Bool) : In 2 3 where
  fdf := { shape := [3, 1, 1], get := fun idx => some (idx.headD 0 : ℂ) }
  phi := fun i => i
  fwhm := { shape := [1, 1], get := fun _ => 1 }
  lamSq := fun j => 1 / (1 + j : ℝ)
  lam0 := 0
  noise := none
  i := if withI then some { shape := [2, 1, 1], get := fun _ => 3 } else none
  variance := false

theorem exIn_fits (w : Bool) : Fits (exIn w) 1 1 := by
  refine ⟨rfl, rfl, ?_, ?_⟩
  · intro c hc
    cases w with
    | false => cases hc
    | true =>
      have := Option.some.inj hc
      subst this
      refine ⟨rfl, fun i => ?_⟩
      unfold ifreq0Pix freq0
      rw [if_pos (show (exIn true).lam0 = 0 from rfl)]
      rfl
  · intro d hd
    cases hd

/-- Every input has a rescaled one, so `labels_partial` and `labels_wrong` apply to `exIn`. -/
theorem exIn_rescaled (k : ℝ) (x : In n N) : ∃ x', Rescaled k x x' :=
  ⟨⟨_, _, _, _, _, _, _, _⟩, ⟨rfl, rfl, rfl, rfl, rfl, rfl, rfl, rfl⟩⟩

/-- A file system with the working directory only: `save_partial` applies to `maps/cube`, `save_nested_wrong` to
`maps/new/cube`. -/
def exFS : FS := fun p => if p = [] then some .dir else none

example : Reachable exFS [] ∧ Reachable exFS ["maps"] ∧ exFS ["maps", "new"] = none ∧
    exFS (["maps", "new"] : List String).dropLast = none :=
  ⟨Or.inl rfl, Or.inr ⟨by simp [exFS], rfl⟩, by simp [exFS], by simp [exFS]⟩

example : ∃ h0, removeAxes [(.ax "CTYPE" 1, .txt "RA---SIN"), (.ax "CTYPE" 2, .txt "DEC--SIN")] = some h0 :=
  (removeAxes_some _).mpr ⟨.ax "CTYPE" 1, by decide, rfl⟩

end Verif.PeakFit
