import Verif.Headers.Maps

/-!
# All headers written by RM synthesis of cubes (C250)

Source: `/repo/RMtools_3D/do_RMsynth_3D.py` (`writefits` 363-646): the headers of the Faraday spectra, of the spread function, of its width and of
the peak maps, with the keywords `BUNIT`, `BTYPE`, `LAMSQ0`, `DATAMAX`, `DATAMIN` that `Verif.Headers.Model` leaves out. Whether the parts of a cube
are separate files or extensions of one file makes no difference to the headers. Not modelled: comments of cards.
-/

namespace Verif.Headers

open Header

/-- Real part, imaginary part, amplitude. -/
inductive Part
  | re
  | im
  | tot
deriving DecidableEq

/-- The products of `writefits`. -/
inductive Item
  | fdf (a : Part)
  | rmsf (a : Part)
  | fwhm
  | maxPI
  | peakRM
deriving DecidableEq

/-- The arguments of `writefits` that matter for the headers: the switches, the depth axes and the reference wavelength (zero if it is not finite,
line 385). -/
structure Job where
  notRmsynth : Bool
  notRmsf : Bool
  peaks : Bool
  nPhi : ℕ
  nPhi2 : ℕ
  phi : ℕ → ℝ
  phi2 : ℕ → ℝ
  lam0 : ℝ

/-- Lines 383-405. `none`: `TypeError`, as `BUNIT` is a number. -/
noncomputable def startHeader (h : Header) (f : ℕ) (lam0 : ℝ) : Option Header :=
  let h1 := ((((h.set (.ax "CTYPE" f) (.txt "FDEP")).set (.ax "CUNIT" f) (.txt "rad/m^2")).set (.plain "LAMSQ0") (.num lam0)).del
    (.plain "DATAMAX")).del (.plain "DATAMIN")
  match h1.get (.plain "BUNIT") with
  | none => some h1
  | some (.txt s) => some (h1.set (.plain "BUNIT") (.txt (s ++ "/RMSF")))
  | some (.num _) => none

/-- Lines 409-418 and 484-494: length, increment, reference pixel and value of the depth axis. -/
noncomputable def setAxis (h : Header) (f nPhi : ℕ) (phi : ℕ → ℝ) : Header :=
  (((h.set (.ax "NAXIS" f) (.num nPhi)).set (.ax "CDELT" f) (.num (phi 1 - phi 0))).set (.ax "CRPIX" f) (.num ((nPhi / 2 : ℕ) + 1))).set
    (.ax "CRVAL" f) (.num (phi (nPhi / 2)))

/-- Lines 425-451 and 505-533: the three parts of a cube; the last header is the one the program goes on with. -/
noncomputable def threeParts {ι : Type} (isStokes : String → Bool) (h : Header) (naxis : ℕ) (prod : Part → ι) : Option (List (ι × Header) × Header) :=
  (setStokes isStokes h naxis "Q").bind fun hQ =>
    (setStokes isStokes hQ naxis "U").bind fun hU =>
      (setStokes isStokes hU naxis "PI").map fun hP =>
        ([(prod .re, hQ), (prod .im, hU), (prod .tot, hP.del (.plain "STOKES"))], hP.del (.plain "STOKES"))

/-- The Faraday spectra, lines 407-472. -/
noncomputable def fdfStep (isStokes : String → Bool) (j : Job) (f naxis : ℕ) (h : Header) : Option (List (Item × Header) × Header) :=
  if j.notRmsynth then some ([], h) else threeParts isStokes (setAxis h f j.nPhi j.phi) naxis .fdf

/-- The spread function and its width, lines 474-567. -/
noncomputable def rmsfStep (isStokes : String → Bool) (j : Job) (f naxis : ℕ) (h : Header) : Option (List (Item × Header) × Header) :=
  if j.notRmsf then some ([], h)
  else
    let h1 := (setAxis h f j.nPhi2 j.phi2).set (.plain "BUNIT") (.txt "")
    (removeAxes ((h1.set (.plain "BUNIT") (.txt "rad/m^2")).del (.plain "BTYPE"))).bind fun hW =>
      (threeParts isStokes h1 naxis .rmsf).map fun r => (r.1 ++ [(.fwhm, hW)], r.2)

/-- The peak maps, lines 569-646; `h0` is the header of the cube. -/
noncomputable def peakStep (isStokes : String → Bool) (j : Job) (h0 : Header) (f naxis : ℕ) (h : Header) : Option (List (Item × Header)) :=
  if j.notRmsynth || !j.peaks then some []
  else
    let h1 := match h0.get (.plain "BUNIT") with
      | some v => h.set (.plain "BUNIT") v
      | none => h
    let h2 := (((((h1.set (.ax "NAXIS" f) (.num 1)).set (.ax "CTYPE" f) (.txt "DEGENERATE")).set (.ax "CUNIT" f) (.txt "")).set
      (.ax "CRVAL" f) (.num (j.phi 0))).del (.plain "DATAMAX")).del (.plain "DATAMIN")
    (stokesAxis isStokes h2 naxis).map fun a =>
      let h3 := match a with
        | some i => h2.set (.ax "CTYPE" i) (.txt "DEGENERATE")
        | none => h2
      [(.maxPI, h3), (.peakRM, (h3.set (.plain "BUNIT") (.txt "rad/m^2")).set (.plain "BTYPE") (.txt "FDEP"))]

/-- The products of `writefits` with their headers, in the order in which they are written. `none`: the program ends or an exception is raised. -/
noncomputable def writefits (isFreq isStokes : String → Bool) (h : Header) (naxis : ℕ) (j : Job) : Option (List (Item × Header)) :=
  if j.notRmsynth && j.notRmsf then none
  else
    let f := findAxis isFreq h naxis naxis
    (startHeader h f j.lam0).bind fun h1 =>
      (fdfStep isStokes j f naxis h1).bind fun a =>
        (rmsfStep isStokes j f naxis a.2).bind fun b =>
          (peakStep isStokes j h f naxis b.2).map fun c => a.1 ++ b.1 ++ c

/-! ## Which keywords the steps change -/

theorem setStokes_plain (isStokes : String → Bool) (h h' : Header) (naxis : ℕ) (st s : String) (hs : s ≠ "STOKES")
    (e : setStokes isStokes h naxis st = some h') : h'.get (.plain s) = h.get (.plain s) := by
  unfold setStokes at e
  rw [Option.map_eq_some_iff] at e
  obtain ⟨a, -, rfl⟩ := e
  dsimp only
  rw [get_set_ne _ _ _ _ (by simpa using hs)]
  cases a with
  | none => rfl
  | some i =>
    dsimp only
    rw [get_set_ne _ _ _ _ (by simp), get_set_ne _ _ _ _ (by simp)]

theorem setAxis_plain (h : Header) (f nPhi : ℕ) (phi : ℕ → ℝ) (s : String) : (setAxis h f nPhi phi).get (.plain s) = h.get (.plain s) := by
  unfold setAxis
  rw [get_set_ne _ _ _ _ (by simp), get_set_ne _ _ _ _ (by simp), get_set_ne _ _ _ _ (by simp), get_set_ne _ _ _ _ (by simp)]

theorem threeParts_plain {ι : Type} (isStokes : String → Bool) (h : Header) (naxis : ℕ) (prod : Part → ι) (L : List (ι × Header)) (g : Header)
    (e : threeParts isStokes h naxis prod = some (L, g)) (s : String) (hs : s ≠ "STOKES") :
    g.get (.plain s) = h.get (.plain s) ∧ L.map Prod.fst = [prod .re, prod .im, prod .tot] ∧
      ∀ c ∈ L, c.2.get (.plain s) = h.get (.plain s) := by
  unfold threeParts at e
  rw [Option.bind_eq_some_iff] at e
  obtain ⟨hQ, e1, e⟩ := e
  rw [Option.bind_eq_some_iff] at e
  obtain ⟨hU, e2, e⟩ := e
  rw [Option.map_eq_some_iff] at e
  obtain ⟨hP, e3, e⟩ := e
  rw [Prod.mk.injEq] at e
  obtain ⟨rfl, rfl⟩ := e
  have q1 := setStokes_plain _ _ _ _ _ s hs e1
  have q2 := (setStokes_plain _ _ _ _ _ s hs e2).trans q1
  have q3 := (setStokes_plain _ _ _ _ _ s hs e3).trans q2
  have q4 : (hP.del (.plain "STOKES")).get (.plain s) = h.get (.plain s) := by
    rw [get_del_ne _ _ _ (by simpa using hs)]
    exact q3
  refine ⟨q4, rfl, ?_⟩
  intro c hc
  simp only [List.mem_cons, List.not_mem_nil, or_false] at hc
  rcases hc with rfl | rfl | rfl
  · exact q1
  · exact q2
  · exact q4

theorem removeAxes_plain (h h' : Header) (hr : removeAxes h = some h') (s : String) (h1 : s ≠ "NAXIS") (h2 : s ≠ "STOKES") (h3 : s ≠ "WCSAXES") :
    h'.get (.plain s) = h.get (.plain s) :=
  removeAxes_get h h' hr _ (by simp [removeKeys]) (by simpa using h1) (by simpa using h2) (by simpa using h3)

/-- What the headers say about units, for the unit `B` of the Faraday spectra. -/
def unitWritten (B : Option Val) (b : Option Val) (notRmsf : Bool) : Item → Option Val
  | .fdf _ => B
  | .rmsf _ => some (.txt "")
  | .fwhm => some (.txt "rad/m^2")
  | .peakRM => some (.txt "rad/m^2")
  | .maxPI => b.or (if notRmsf then B else some (.txt ""))

theorem startHeader_plain (h h1 : Header) (f : ℕ) (lam0 : ℝ) (e : startHeader h f lam0 = some h1) :
    h1.get (.plain "BUNIT") = (match h.get (.plain "BUNIT") with
      | some (.txt s) => some (.txt (s ++ "/RMSF"))
      | x => x) ∧
    h1.get (.plain "LAMSQ0") = some (.num lam0) ∧ h1.get (.plain "DATAMAX") = none ∧ h1.get (.plain "DATAMIN") = none := by
  unfold startHeader at e
  dsimp only at e
  have hb : ((((((h.set (.ax "CTYPE" f) (.txt "FDEP")).set (.ax "CUNIT" f) (.txt "rad/m^2")).set (.plain "LAMSQ0") (.num lam0)).del
      (.plain "DATAMAX")).del (.plain "DATAMIN"))).get (.plain "BUNIT") = h.get (.plain "BUNIT") := by
    rw [get_del_ne _ _ _ (by decide), get_del_ne _ _ _ (by decide), get_set_ne _ _ _ _ (by decide), get_set_ne _ _ _ _ (by simp),
      get_set_ne _ _ _ _ (by simp)]
  have hl : ((((((h.set (.ax "CTYPE" f) (.txt "FDEP")).set (.ax "CUNIT" f) (.txt "rad/m^2")).set (.plain "LAMSQ0") (.num lam0)).del
      (.plain "DATAMAX")).del (.plain "DATAMIN"))).get (.plain "LAMSQ0") = some (.num lam0) := by
    rw [get_del_ne _ _ _ (by decide), get_del_ne _ _ _ (by decide), get_set_self]
  have hx : ((((((h.set (.ax "CTYPE" f) (.txt "FDEP")).set (.ax "CUNIT" f) (.txt "rad/m^2")).set (.plain "LAMSQ0") (.num lam0)).del
      (.plain "DATAMAX")).del (.plain "DATAMIN"))).get (.plain "DATAMAX") = none := by
    rw [get_del_ne _ _ _ (by decide), get_del_self]
  have hn : ((((((h.set (.ax "CTYPE" f) (.txt "FDEP")).set (.ax "CUNIT" f) (.txt "rad/m^2")).set (.plain "LAMSQ0") (.num lam0)).del
      (.plain "DATAMAX")).del (.plain "DATAMIN"))).get (.plain "DATAMIN") = none := get_del_self _ _
  rw [hb] at e
  generalize (((((h.set (.ax "CTYPE" f) (.txt "FDEP")).set (.ax "CUNIT" f) (.txt "rad/m^2")).set (.plain "LAMSQ0") (.num lam0)).del
      (.plain "DATAMAX")).del (.plain "DATAMIN")) = g at *
  cases hB : h.get (.plain "BUNIT") with
  | none =>
    rw [hB] at e hb
    obtain rfl := Option.some.inj e
    exact ⟨hb, hl, hx, hn⟩
  | some v =>
    rw [hB] at e
    cases v with
    | num r => cases e
    | txt s =>
      obtain rfl := Option.some.inj e
      exact ⟨get_set_self _ _ _, by rw [get_set_ne _ _ _ _ (by decide), hl], by rw [get_set_ne _ _ _ _ (by decide), hx],
        by rw [get_set_ne _ _ _ _ (by decide), hn]⟩

/-- The other keywords of which `writefits` takes care. -/
def Cared (lam0 : ℝ) (h : Header) : Prop :=
  h.get (.plain "LAMSQ0") = some (.num lam0) ∧ h.get (.plain "DATAMAX") = none ∧ h.get (.plain "DATAMIN") = none

theorem fdfStep_spec (isStokes : String → Bool) (j : Job) (f naxis : ℕ) (h : Header) (a : List (Item × Header) × Header)
    (e : fdfStep isStokes j f naxis h = some a) (hc : Cared j.lam0 h) :
    a.2.get (.plain "BUNIT") = h.get (.plain "BUNIT") ∧ Cared j.lam0 a.2 ∧
    a.1.map Prod.fst = (if j.notRmsynth then [] else [.fdf .re, .fdf .im, .fdf .tot]) ∧
    ∀ c ∈ a.1, c.2.get (.plain "BUNIT") = h.get (.plain "BUNIT") ∧ Cared j.lam0 c.2 := by
  unfold fdfStep at e
  by_cases hn : j.notRmsynth = true
  · rw [if_pos hn] at e
    obtain rfl := Option.some.inj e
    rw [if_pos hn]
    exact ⟨rfl, hc, rfl, by simp⟩
  · rw [if_neg hn] at e
    rw [if_neg hn]
    obtain ⟨L, g⟩ := a
    have t := fun s hs => threeParts_plain _ _ _ _ _ _ e s hs
    simp only [setAxis_plain] at t
    refine ⟨(t "BUNIT" (by decide)).1, ⟨?_, ?_, ?_⟩, (t "BUNIT" (by decide)).2.1, fun c hcL => ⟨(t "BUNIT" (by decide)).2.2 c hcL, ?_, ?_, ?_⟩⟩
    · rw [(t "LAMSQ0" (by decide)).1]; exact hc.1
    · rw [(t "DATAMAX" (by decide)).1]; exact hc.2.1
    · rw [(t "DATAMIN" (by decide)).1]; exact hc.2.2
    · rw [(t "LAMSQ0" (by decide)).2.2 c hcL]; exact hc.1
    · rw [(t "DATAMAX" (by decide)).2.2 c hcL]; exact hc.2.1
    · rw [(t "DATAMIN" (by decide)).2.2 c hcL]; exact hc.2.2

theorem rmsfStep_spec (isStokes : String → Bool) (j : Job) (f naxis : ℕ) (h : Header) (a : List (Item × Header) × Header)
    (e : rmsfStep isStokes j f naxis h = some a) (hc : Cared j.lam0 h) :
    a.2.get (.plain "BUNIT") = (if j.notRmsf then h.get (.plain "BUNIT") else some (.txt "")) ∧ Cared j.lam0 a.2 ∧
    a.1.map Prod.fst = (if j.notRmsf then [] else [.rmsf .re, .rmsf .im, .rmsf .tot, .fwhm]) ∧
    ∀ c ∈ a.1, c.2.get (.plain "BUNIT") = some (.txt (if c.1 = .fwhm then "rad/m^2" else "")) ∧ Cared j.lam0 c.2 ∧
      (c.1 = .fwhm → c.2.get (.plain "BTYPE") = none) := by
  unfold rmsfStep at e
  by_cases hn : j.notRmsf = true
  · rw [if_pos hn] at e
    obtain rfl := Option.some.inj e
    rw [if_pos hn, if_pos hn]
    exact ⟨rfl, hc, rfl, by simp⟩
  · rw [if_neg hn] at e
    rw [if_neg hn, if_neg hn]
    dsimp only at e
    rw [Option.bind_eq_some_iff] at e
    obtain ⟨hW, eW, e⟩ := e
    rw [Option.map_eq_some_iff] at e
    obtain ⟨⟨L, g⟩, e3, rfl⟩ := e
    have t := fun s hs => threeParts_plain _ _ _ _ _ _ e3 s hs
    have w := fun s h1 h2 h3 => removeAxes_plain _ _ eW s h1 h2 h3
    have q : ∀ s, s ≠ "BUNIT" → ((setAxis h f j.nPhi2 j.phi2).set (.plain "BUNIT") (.txt "")).get (.plain s) = h.get (.plain s) := fun s hs => by
      rw [get_set_ne _ _ _ _ (by simpa using hs), setAxis_plain]
    have q' : ∀ s, s ≠ "BUNIT" → s ≠ "BTYPE" → ((((setAxis h f j.nPhi2 j.phi2).set (.plain "BUNIT") (.txt "")).set (.plain "BUNIT")
        (.txt "rad/m^2")).del (.plain "BTYPE")).get (.plain s) = h.get (.plain s) := fun s hs hs' => by
      rw [get_del_ne _ _ _ (by simpa using hs'), get_set_ne _ _ _ _ (by simpa using hs), q s hs]
    obtain ⟨c1, c2, c3⟩ := hc
    refine ⟨?_, ⟨?_, ?_, ?_⟩, ?_, ?_⟩
    · rw [(t "BUNIT" (by decide)).1, get_set_self]
    · rw [(t "LAMSQ0" (by decide)).1, q _ (by decide), c1]
    · rw [(t "DATAMAX" (by decide)).1, q _ (by decide), c2]
    · rw [(t "DATAMIN" (by decide)).1, q _ (by decide), c3]
    · rw [List.map_append, (t "BUNIT" (by decide)).2.1]
      rfl
    · intro c hcL
      rw [List.mem_append, List.mem_singleton] at hcL
      rcases hcL with hcL | rfl
      · have hne : c.1 ≠ .fwhm := by
          have : c.1 ∈ L.map Prod.fst := List.mem_map_of_mem hcL
          rw [(t "BUNIT" (by decide)).2.1] at this
          intro e
          rw [e] at this
          simp at this
        rw [if_neg hne]
        refine ⟨?_, ⟨?_, ?_, ?_⟩, fun e => absurd e hne⟩
        · rw [(t "BUNIT" (by decide)).2.2 c hcL, get_set_self]
        · rw [(t "LAMSQ0" (by decide)).2.2 c hcL, q _ (by decide), c1]
        · rw [(t "DATAMAX" (by decide)).2.2 c hcL, q _ (by decide), c2]
        · rw [(t "DATAMIN" (by decide)).2.2 c hcL, q _ (by decide), c3]
      · rw [if_pos rfl]
        refine ⟨?_, ⟨?_, ?_, ?_⟩, fun _ => ?_⟩
        · rw [w _ (by decide) (by decide) (by decide), get_del_ne _ _ _ (by decide), get_set_self]
        · rw [w _ (by decide) (by decide) (by decide), q' _ (by decide) (by decide), c1]
        · rw [w _ (by decide) (by decide) (by decide), q' _ (by decide) (by decide), c2]
        · rw [w _ (by decide) (by decide) (by decide), q' _ (by decide) (by decide), c3]
        · rw [w _ (by decide) (by decide) (by decide), get_del_self]

theorem peakStep_spec (isStokes : String → Bool) (j : Job) (h0 : Header) (f naxis : ℕ) (h : Header) (L : List (Item × Header))
    (e : peakStep isStokes j h0 f naxis h = some L) (hc : Cared j.lam0 h) :
    L.map Prod.fst = (if j.notRmsynth || !j.peaks then [] else [.maxPI, .peakRM]) ∧
    ∀ c ∈ L, (c.1 = .maxPI → c.2.get (.plain "BUNIT") = (h0.get (.plain "BUNIT")).or (h.get (.plain "BUNIT"))) ∧
      (c.1 = .peakRM → c.2.get (.plain "BUNIT") = some (.txt "rad/m^2") ∧ c.2.get (.plain "BTYPE") = some (.txt "FDEP")) ∧ Cared j.lam0 c.2 := by
  unfold peakStep at e
  by_cases hn : (j.notRmsynth || !j.peaks) = true
  · rw [if_pos hn] at e
    obtain rfl := Option.some.inj e
    rw [if_pos hn]
    exact ⟨rfl, by simp⟩
  · rw [if_neg hn] at e
    rw [if_neg hn]
    dsimp only at e
    rw [Option.map_eq_some_iff] at e
    obtain ⟨a, -, rfl⟩ := e
    refine ⟨rfl, ?_⟩
    have h1 : ∀ s, (match h0.get (.plain "BUNIT") with
        | some v => h.set (.plain "BUNIT") v
        | none => h).get (.plain s) = if s = "BUNIT" then (h0.get (.plain "BUNIT")).or (h.get (.plain "BUNIT")) else h.get (.plain s) := by
      intro s
      cases h0.get (.plain "BUNIT") with
      | none =>
        dsimp only
        split_ifs with hs
        · rw [hs]; rfl
        · rfl
      | some v =>
        dsimp only
        split_ifs with hs
        · rw [hs, get_set_self]; rfl
        · rw [get_set_ne _ _ _ _ (by simpa using hs)]
    generalize (match h0.get (.plain "BUNIT") with
        | some v => h.set (.plain "BUNIT") v
        | none => h) = g at *
    have h2 : ∀ s, s ≠ "DATAMAX" → s ≠ "DATAMIN" → ((((((g.set (.ax "NAXIS" f) (.num 1)).set (.ax "CTYPE" f) (.txt "DEGENERATE")).set
        (.ax "CUNIT" f) (.txt "")).set (.ax "CRVAL" f) (.num (j.phi 0))).del (.plain "DATAMAX")).del (.plain "DATAMIN")).get (.plain s) =
        g.get (.plain s) := by
      intro s hs1 hs2
      rw [get_del_ne _ _ _ (by simpa using hs2), get_del_ne _ _ _ (by simpa using hs1), get_set_ne _ _ _ _ (by simp), get_set_ne _ _ _ _ (by simp),
        get_set_ne _ _ _ _ (by simp), get_set_ne _ _ _ _ (by simp)]
    have hx : ((((((g.set (.ax "NAXIS" f) (.num 1)).set (.ax "CTYPE" f) (.txt "DEGENERATE")).set
        (.ax "CUNIT" f) (.txt "")).set (.ax "CRVAL" f) (.num (j.phi 0))).del (.plain "DATAMAX")).del (.plain "DATAMIN")).get (.plain "DATAMAX") =
        none := by rw [get_del_ne _ _ _ (by decide), get_del_self]
    have hm : ((((((g.set (.ax "NAXIS" f) (.num 1)).set (.ax "CTYPE" f) (.txt "DEGENERATE")).set
        (.ax "CUNIT" f) (.txt "")).set (.ax "CRVAL" f) (.num (j.phi 0))).del (.plain "DATAMAX")).del (.plain "DATAMIN")).get (.plain "DATAMIN") =
        none := get_del_self _ _
    generalize (((((g.set (.ax "NAXIS" f) (.num 1)).set (.ax "CTYPE" f) (.txt "DEGENERATE")).set
        (.ax "CUNIT" f) (.txt "")).set (.ax "CRVAL" f) (.num (j.phi 0))).del (.plain "DATAMAX")).del (.plain "DATAMIN") = g2 at *
    have key : ∀ g3 : Header, (∀ s, g3.get (.plain s) = g2.get (.plain s)) →
        ∀ c ∈ ([(.maxPI, g3), (.peakRM, (g3.set (.plain "BUNIT") (.txt "rad/m^2")).set (.plain "BTYPE") (.txt "FDEP"))] : List (Item × Header)),
        (c.1 = .maxPI → c.2.get (.plain "BUNIT") = (h0.get (.plain "BUNIT")).or (h.get (.plain "BUNIT"))) ∧
        (c.1 = .peakRM → c.2.get (.plain "BUNIT") = some (.txt "rad/m^2") ∧ c.2.get (.plain "BTYPE") = some (.txt "FDEP")) ∧ Cared j.lam0 c.2 := by
      intro g3 h3
      have hl : g3.get (.plain "LAMSQ0") = some (.num j.lam0) := by rw [h3, h2 _ (by decide) (by decide), h1, if_neg (by decide)]; exact hc.1
      intro c hcL
      simp only [List.mem_cons, List.not_mem_nil, or_false] at hcL
      rcases hcL with rfl | rfl
      · refine ⟨fun _ => ?_, fun hh => (by cases hh), hl, by rw [h3, hx], by rw [h3, hm]⟩
        rw [h3, h2 _ (by decide) (by decide), h1, if_pos rfl]
      · refine ⟨fun hh => (by cases hh), fun _ => ⟨?_, get_set_self _ _ _⟩, ?_, ?_, ?_⟩
        · rw [get_set_ne _ _ _ _ (by decide), get_set_self]
        · rw [get_set_ne _ _ _ _ (by decide), get_set_ne _ _ _ _ (by decide), hl]
        · rw [get_set_ne _ _ _ _ (by decide), get_set_ne _ _ _ _ (by decide), h3, hx]
        · rw [get_set_ne _ _ _ _ (by decide), get_set_ne _ _ _ _ (by decide), h3, hm]
    cases a with
    | none => exact key g2 fun _ => rfl
    | some i => exact key _ fun s => get_set_ne _ _ _ _ (by simp)

theorem writefits_spec (isFreq isStokes : String → Bool) (h : Header) (naxis : ℕ) (j : Job) (L : List (Item × Header))
    (e : writefits isFreq isStokes h naxis j = some L) : ∃ B : Option Val,
    B = (match h.get (.plain "BUNIT") with
      | some (.txt s) => some (.txt (s ++ "/RMSF"))
      | x => x) ∧
    L.map Prod.fst = (if j.notRmsynth then [] else [.fdf .re, .fdf .im, .fdf .tot]) ++
      (if j.notRmsf then [] else [.rmsf .re, .rmsf .im, .rmsf .tot, .fwhm]) ++
      (if j.notRmsynth || !j.peaks then [] else [.maxPI, .peakRM]) ∧
    ∀ c ∈ L, c.2.get (.plain "BUNIT") = unitWritten B (h.get (.plain "BUNIT")) j.notRmsf c.1 ∧ Cared j.lam0 c.2 ∧
      (c.1 = .fwhm → c.2.get (.plain "BTYPE") = none) ∧ (c.1 = .peakRM → c.2.get (.plain "BTYPE") = some (.txt "FDEP")) := by
  unfold writefits at e
  split_ifs at e
  dsimp only at e
  rw [Option.bind_eq_some_iff] at e
  obtain ⟨h1, e1, e⟩ := e
  rw [Option.bind_eq_some_iff] at e
  obtain ⟨a, e2, e⟩ := e
  rw [Option.bind_eq_some_iff] at e
  obtain ⟨b, e3, e⟩ := e
  rw [Option.map_eq_some_iff] at e
  obtain ⟨c, e4, rfl⟩ := e
  obtain ⟨s1, s2⟩ := startHeader_plain _ _ _ _ e1
  obtain ⟨a1, a2, a3, a4⟩ := fdfStep_spec _ _ _ _ _ _ e2 s2
  obtain ⟨b1, b2, b3, b4⟩ := rmsfStep_spec _ _ _ _ _ _ e3 a2
  obtain ⟨c1, c2⟩ := peakStep_spec _ _ _ _ _ _ _ e4 b2
  refine ⟨_, rfl, by rw [List.map_append, List.map_append, a3, b3, c1], ?_⟩
  intro d hd
  rw [List.mem_append, List.mem_append] at hd
  rcases hd with (hd | hd) | hd
  · have hm : d.1 ∈ a.1.map Prod.fst := List.mem_map_of_mem hd
    have hk : ∃ q, d.1 = .fdf q := by
      rw [a3] at hm
      split_ifs at hm
      · simp at hm
      · simp only [List.mem_cons, List.not_mem_nil, or_false] at hm
        rcases hm with hm | hm | hm <;> exact ⟨_, hm⟩
    obtain ⟨q, hq⟩ := hk
    rw [hq]
    exact ⟨(a4 d hd).1.trans s1, (a4 d hd).2, by simp, by simp⟩
  · have hm : d.1 ∈ b.1.map Prod.fst := List.mem_map_of_mem hd
    have hk : (∃ q, d.1 = .rmsf q) ∨ d.1 = .fwhm := by
      rw [b3] at hm
      split_ifs at hm
      · simp at hm
      · simp only [List.mem_cons, List.not_mem_nil, or_false] at hm
        rcases hm with hm | hm | hm | hm
        · exact Or.inl ⟨_, hm⟩
        · exact Or.inl ⟨_, hm⟩
        · exact Or.inl ⟨_, hm⟩
        · exact Or.inr hm
    obtain ⟨u1, u2, u3⟩ := b4 d hd
    rcases hk with ⟨q, hq⟩ | hq
    · rw [hq] at u1 ⊢
      exact ⟨u1, u2, by simp, by simp⟩
    · rw [hq] at u1 u3 ⊢
      exact ⟨u1, u2, u3, by simp⟩
  · have hm : d.1 ∈ c.map Prod.fst := List.mem_map_of_mem hd
    have hk : d.1 = .maxPI ∨ d.1 = .peakRM := by
      rw [c1] at hm
      split_ifs at hm
      · simp at hm
      · simpa using hm
    obtain ⟨u1, u2, u3⟩ := c2 d hd
    rcases hk with hq | hq
    · rw [hq]
      refine ⟨(u1 hq).trans ?_, u3, by simp, by simp⟩
      unfold unitWritten
      rw [b1, a1, s1]
    · rw [hq]
      exact ⟨(u2 hq).1, u3, by simp, fun _ => (u2 hq).2⟩

/-! ## When all is written -/

theorem typed_set (h : Header) (n : ℕ) (ht : Typed h n) (k : Key) (v : Val) (hk : (∃ s, v = .txt s) ∨ ∀ i, k ≠ .ax "CTYPE" i) :
    Typed (h.set k v) n := by
  intro i h1 h2
  by_cases e : .ax "CTYPE" i = k
  · rcases hk with ⟨s, rfl⟩ | hk
    · exact ⟨s, by rw [e, get_set_self]⟩
    · exact absurd e.symm (hk i)
  · rw [get_set_ne _ _ _ _ e]
    exact ht i h1 h2

theorem typed_del (h : Header) (n : ℕ) (ht : Typed h n) (s : String) : Typed (h.del (.plain s)) n := by
  intro i h1 h2
  rw [get_del_ne _ _ _ (by simp)]
  exact ht i h1 h2

theorem typed_setStokes (isStokes : String → Bool) (h : Header) (n : ℕ) (ht : Typed h n) (st : String) :
    ∃ h', setStokes isStokes h n st = some h' ∧ Typed h' n := by
  obtain ⟨a, ha, -⟩ := stokesAxis_typed isStokes h n ht
  refine ⟨_, by unfold setStokes; rw [ha]; rfl, ?_⟩
  refine typed_set _ _ ?_ _ _ (Or.inr (by simp))
  cases a with
  | none => exact ht
  | some i => exact typed_set _ _ (typed_set _ _ ht _ _ (Or.inr (by simp))) _ _ (Or.inr (by simp))

theorem typed_setAxis (h : Header) (n : ℕ) (ht : Typed h n) (f k : ℕ) (phi : ℕ → ℝ) : Typed (setAxis h f k phi) n :=
  typed_set _ _ (typed_set _ _ (typed_set _ _ (typed_set _ _ ht _ _ (Or.inr (by simp))) _ _ (Or.inr (by simp))) _ _ (Or.inr (by simp))) _ _
    (Or.inr (by simp))

theorem typed_threeParts {ι : Type} (isStokes : String → Bool) (h : Header) (n : ℕ) (ht : Typed h n) (prod : Part → ι) :
    ∃ L g, threeParts isStokes h n prod = some (L, g) ∧ Typed g n := by
  obtain ⟨hQ, e1, t1⟩ := typed_setStokes isStokes h n ht "Q"
  obtain ⟨hU, e2, t2⟩ := typed_setStokes isStokes hQ n t1 "U"
  obtain ⟨hP, e3, t3⟩ := typed_setStokes isStokes hU n t2 "PI"
  have e : threeParts isStokes h n prod = some ([(prod .re, hQ), (prod .im, hU), (prod .tot, hP.del (.plain "STOKES"))], hP.del (.plain "STOKES")) := by
    unfold threeParts
    rw [e1, Option.bind_some, e2, Option.bind_some, e3, Option.map_some]
  exact ⟨_, _, e, typed_del _ _ t3 "STOKES"⟩

/-- All products are written if the axes of the cube have types and its unit, if it has one, is a text, except if neither Faraday spectra nor spread
function are asked for. -/
theorem writefits_some (isFreq isStokes : String → Bool) (h : Header) (naxis : ℕ) (j : Job) (hn : 1 ≤ naxis) (ht : Typed h naxis)
    (hu : ∀ r, h.get (.plain "BUNIT") ≠ some (.num r)) (hj : (j.notRmsynth && j.notRmsf) = false) :
    ∃ L, writefits isFreq isStokes h naxis j = some L := by
  unfold writefits
  rw [if_neg (by rw [hj]; decide)]
  dsimp only
  generalize findAxis isFreq h naxis naxis = f
  have t0 : Typed (((((h.set (.ax "CTYPE" f) (.txt "FDEP")).set (.ax "CUNIT" f) (.txt "rad/m^2")).set (.plain "LAMSQ0") (.num j.lam0)).del
      (.plain "DATAMAX")).del (.plain "DATAMIN")) naxis :=
    typed_del _ _ (typed_del _ _ (typed_set _ _ (typed_set _ _ (typed_set _ _ ht _ _ (Or.inl ⟨_, rfl⟩)) _ _ (Or.inl ⟨_, rfl⟩)) _ _
      (Or.inr (by simp))) _) _
  have hb : ((((((h.set (.ax "CTYPE" f) (.txt "FDEP")).set (.ax "CUNIT" f) (.txt "rad/m^2")).set (.plain "LAMSQ0") (.num j.lam0)).del
      (.plain "DATAMAX")).del (.plain "DATAMIN"))).get (.plain "BUNIT") = h.get (.plain "BUNIT") := by
    rw [get_del_ne _ _ _ (by decide), get_del_ne _ _ _ (by decide), get_set_ne _ _ _ _ (by decide), get_set_ne _ _ _ _ (by simp),
      get_set_ne _ _ _ _ (by simp)]
  obtain ⟨h1, e1, t1⟩ : ∃ h1, startHeader h f j.lam0 = some h1 ∧ Typed h1 naxis := by
    unfold startHeader
    dsimp only
    rw [hb]
    generalize (((((h.set (.ax "CTYPE" f) (.txt "FDEP")).set (.ax "CUNIT" f) (.txt "rad/m^2")).set (.plain "LAMSQ0") (.num j.lam0)).del
      (.plain "DATAMAX")).del (.plain "DATAMIN")) = g at t0
    cases hB : h.get (.plain "BUNIT") with
    | none => exact ⟨_, rfl, t0⟩
    | some v =>
      cases v with
      | num r => exact absurd hB (hu r)
      | txt s => exact ⟨_, rfl, typed_set _ _ t0 _ _ (Or.inl ⟨_, rfl⟩)⟩
  rw [e1, Option.bind_some]
  obtain ⟨a, e2, t2⟩ : ∃ a, fdfStep isStokes j f naxis h1 = some a ∧ Typed a.2 naxis := by
    unfold fdfStep
    by_cases hs : j.notRmsynth = true
    · rw [if_pos hs]
      exact ⟨_, rfl, t1⟩
    · rw [if_neg hs]
      obtain ⟨L, g, e, t⟩ := typed_threeParts isStokes _ naxis (typed_setAxis _ _ t1 f j.nPhi j.phi) Item.fdf
      exact ⟨_, e, t⟩
  rw [e2, Option.bind_some]
  obtain ⟨b, e3, t3⟩ : ∃ b, rmsfStep isStokes j f naxis a.2 = some b ∧ Typed b.2 naxis := by
    unfold rmsfStep
    by_cases hs : j.notRmsf = true
    · rw [if_pos hs]
      exact ⟨_, rfl, t2⟩
    · rw [if_neg hs]
      dsimp only
      have tb := typed_set _ _ (typed_setAxis _ _ t2 f j.nPhi2 j.phi2) (.plain "BUNIT") (.txt "") (Or.inl ⟨_, rfl⟩)
      have tw := typed_del _ _ (typed_set _ _ tb (.plain "BUNIT") (.txt "rad/m^2") (Or.inl ⟨_, rfl⟩)) "BTYPE"
      obtain ⟨W, eW⟩ := (removeAxes_some _).mpr ⟨.ax "CTYPE" 1, by decide, by
        obtain ⟨s, es⟩ := tw 1 (le_refl _) hn
        unfold Header.has
        rw [es]
        rfl⟩
      obtain ⟨L, g, e, t⟩ := typed_threeParts isStokes _ naxis tb Item.rmsf
      exact ⟨_, by rw [eW, Option.bind_some, e, Option.map_some], t⟩
  rw [e3, Option.bind_some]
  unfold peakStep
  by_cases hs : (j.notRmsynth || !j.peaks) = true
  · rw [if_pos hs]
    exact ⟨_, rfl⟩
  · rw [if_neg hs]
    dsimp only
    have key : ∀ g, Typed g naxis → Typed ((((((g.set (.ax "NAXIS" f) (.num 1)).set (.ax "CTYPE" f) (.txt "DEGENERATE")).set
        (.ax "CUNIT" f) (.txt "")).set (.ax "CRVAL" f) (.num (j.phi 0))).del (.plain "DATAMAX")).del (.plain "DATAMIN")) naxis := fun g tg =>
      typed_del _ _ (typed_del _ _ (typed_set _ _ (typed_set _ _ (typed_set _ _ (typed_set _ _ tg _ _ (Or.inr (by simp))) _ _ (Or.inl ⟨_, rfl⟩)) _ _
        (Or.inl ⟨_, rfl⟩)) _ _ (Or.inr (by simp))) _) _
    cases h.get (.plain "BUNIT") with
    | none =>
      obtain ⟨a, ha, -⟩ := stokesAxis_typed isStokes _ naxis (key _ t3)
      dsimp only
      rw [ha]
      exact ⟨_, rfl⟩
    | some v =>
      obtain ⟨a, ha, -⟩ := stokesAxis_typed isStokes _ naxis (key _ (typed_set _ _ t3 (.plain "BUNIT") v (Or.inr (by simp))))
      dsimp only
      rw [ha]
      exact ⟨_, rfl⟩

end Verif.Headers
