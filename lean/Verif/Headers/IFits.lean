import Verif.Headers.Strip
import Verif.Headers.Writefits

/-!
# Headers written by the Stokes I fit of cubes (C252)

Source: `/repo/RMtools_3D/do_fitIcube.py` (`savefits_mask` 332-350, `savefits_Coeffs` 353-373, `savefits_model_I` 376-407, `make_model_I` 570-648).
`savefits_mask` and `savefits_Coeffs` change the header they are given, so the header of the mask goes on to the coefficients, and theirs to the map of
the reference frequency and to the covariance. Not modelled: `HISTORY` cards, comments.
-/

namespace Verif.Headers

open Header

/-- The files of `make_model_I` that have a header. -/
inductive IItem
  | mask
  | coeff (k : ℕ)
  | coeffErr (k : ℕ)
  | refFreq
  | covar
  | model
deriving DecidableEq

/-- The covariance: lines 629-641. -/
def covarHeader (h : Header) : Header :=
  [((.plain "NAXIS" : Key), Val.num 4), (.ax "NAXIS" 3, .num 6), (.ax "NAXIS" 4, .num 6), (.ax "CTYPE" 3, .txt "INDEX"), (.ax "CTYPE" 4, .txt "INDEX"),
    (.ax "CRVAL" 3, .num 0), (.ax "CRVAL" 4, .num 0), (.ax "CDELT" 3, .num 1), (.ax "CDELT" 4, .num 1), (.ax "CRPIX" 3, .num 1),
    (.ax "CRPIX" 4, .num 1), (.ax "CUNIT" 3, .txt ""), (.ax "CUNIT" 4, .txt "")].foldl (fun g c => g.set c.1 c.2) h

/-- The headers of all files of `make_model_I`, from the header `h` of the Stokes I cube with `naxis` axes; `order` is the absolute value of the order.
`none`: an exception (no `BUNIT` at line 571, an order above five at line 370, those of the parts). -/
def iFits (h : Header) (naxis order nChan ny nx : ℕ) : Option (List (IItem × Header)) :=
  (removeAxes h).bind fun h1 =>
    if h1.has (.plain "BUNIT") && decide (order ≤ 5) then
      (removeAxes (h1.del (.plain "BUNIT"))).bind fun h2 =>
        let hM := ((h2.set (.plain "DATAMAX") (.num 1)).set (.plain "DATAMIN") (.num 0)).del (.plain "BUNIT")
        let hC := (hM.set (.plain "BUNIT") (.txt "")).del (.plain "BTYPE")
        (modelHeader h naxis nChan ny nx).map fun hI =>
          (.mask, hM) :: (List.range (order + 1)).flatMap (fun k => [(.coeff k, hC), (.coeffErr k, hC)]) ++
            [(.refFreq, hC.set (.plain "BUNIT") (.txt "Hz")), (.covar, covarHeader hC), (.model, hI)]
    else none

theorem removeAxes_wcs (h h' : Header) (hr : removeAxes h = some h') : ∃ k ∈ wcsKeys, h'.has k = true := by
  unfold removeAxes at hr
  obtain ⟨v, pre, c, post, hv, e, hc, -, rfl⟩ := updatePosition_spec _ _ hr
  exact ⟨c.1, hc, (has_iff _ _).mpr ⟨c, by simp, rfl⟩⟩

theorem modelHeader_plain (h h' : Header) (naxis nChan ny nx : ℕ) (hm : modelHeader h naxis nChan ny nx = some h') (s : String) (h1 : s ≠ "NAXIS")
    (h2 : s ≠ "WCSAXES") : h'.get (.plain s) = h.get (.plain s) := by
  unfold modelHeader at hm
  rw [Option.bind_eq_some_iff] at hm
  obtain ⟨g, hg, hm⟩ := hm
  split_ifs at hm
  have hn : 3 ≤ axesAssumed naxis 0 := by
    by_contra hc
    rw [strip_too_few _ _ _ _ (by omega)] at hg
    cases hg
  obtain ⟨ks, hks, e⟩ := stripDims_eq h naxis 3 0 hn
  rw [hg, Option.some.injEq] at e
  rw [← Option.some.inj hm, get_set_ne _ _ _ _ (by simp), get_set_ne _ _ _ _ (by simp), get_set_ne _ _ _ _ (by simp), e,
    get_set_ne _ _ _ _ (by simpa using h2), get_set_ne _ _ _ _ (by simpa using h1), get_foldl_del_ne]
  rw [hks]
  rintro (⟨i, -, -, ⟨t, -, e⟩ | e | e⟩ | ⟨i, j, -, -, -, -, -, e⟩) <;> exact Key.noConfusion e

theorem covarHeader_plain (h : Header) (s : String) (h1 : s ≠ "NAXIS") : (covarHeader h).get (.plain s) = h.get (.plain s) := by
  unfold covarHeader
  simp only [List.foldl_cons, List.foldl_nil]
  iterate 12 rw [get_set_ne _ _ _ _ (by simp)]
  exact get_set_ne _ _ _ _ (by simpa using h1)

/-- The unit and the type in the header of each file, for a cube with the unit `B` and the type `T`. -/
def iUnit (B : Option Val) : IItem → Option Val
  | .mask => none
  | .coeff _ => some (.txt "")
  | .coeffErr _ => some (.txt "")
  | .refFreq => some (.txt "Hz")
  | .covar => some (.txt "")
  | .model => B

/-- See `iUnit`. -/
def iType (T : Option Val) : IItem → Option Val
  | .mask => T
  | .model => T
  | _ => none

theorem iFits_spec (h : Header) (naxis order nChan ny nx : ℕ) (L : List (IItem × Header)) (hL : iFits h naxis order nChan ny nx = some L) :
    (h.get (.plain "BUNIT") ≠ none ∧ order ≤ 5) ∧
    L.map Prod.fst = .mask :: (List.range (order + 1)).flatMap (fun k => [.coeff k, .coeffErr k]) ++ [.refFreq, .covar, .model] ∧
    ∀ c ∈ L, c.2.get (.plain "BUNIT") = iUnit (h.get (.plain "BUNIT")) c.1 ∧ c.2.get (.plain "BTYPE") = iType (h.get (.plain "BTYPE")) c.1 := by
  unfold iFits at hL
  rw [Option.bind_eq_some_iff] at hL
  obtain ⟨h1, e1, hL⟩ := hL
  split_ifs at hL with hB
  rw [Bool.and_eq_true, decide_eq_true_eq] at hB
  rw [Option.bind_eq_some_iff] at hL
  obtain ⟨h2, e2, hL⟩ := hL
  dsimp only at hL
  rw [Option.map_eq_some_iff] at hL
  obtain ⟨hI, e3, rfl⟩ := hL
  have t1 : h2.get (.plain "BTYPE") = h.get (.plain "BTYPE") := by
    rw [removeAxes_plain _ _ e2 _ (by decide) (by decide) (by decide), get_del_ne _ _ _ (by decide),
      removeAxes_plain _ _ e1 _ (by decide) (by decide) (by decide)]
  refine ⟨⟨?_, hB.2⟩, ?_, ?_⟩
  · rw [← removeAxes_plain _ _ e1 "BUNIT" (by decide) (by decide) (by decide)]
    exact Option.isSome_iff_ne_none.mp hB.1
  · rw [List.map_append, List.map_cons, List.map_flatMap]
    rfl
  · intro c hc
    simp only [List.mem_append, List.mem_cons, List.mem_flatMap, List.not_mem_nil, or_false] at hc
    rcases hc with (rfl | ⟨k, -, rfl | rfl⟩) | rfl | rfl | rfl
    · refine ⟨get_del_self _ _, ?_⟩
      dsimp only
      rw [get_del_ne _ _ _ (by decide), get_set_ne _ _ _ _ (by decide), get_set_ne _ _ _ _ (by decide), t1]
      rfl
    · refine ⟨?_, get_del_self _ _⟩
      dsimp only
      rw [get_del_ne _ _ _ (by decide), get_set_self]
      rfl
    · refine ⟨?_, get_del_self _ _⟩
      dsimp only
      rw [get_del_ne _ _ _ (by decide), get_set_self]
      rfl
    · refine ⟨get_set_self _ _ _, ?_⟩
      dsimp only
      rw [get_set_ne _ _ _ _ (by decide), get_del_self]
      rfl
    · constructor
      · dsimp only
        rw [covarHeader_plain _ _ (by decide), get_del_ne _ _ _ (by decide), get_set_self]
        rfl
      · dsimp only
        rw [covarHeader_plain _ _ (by decide), get_del_self]
        rfl
    · exact ⟨modelHeader_plain _ _ _ _ _ _ e3 _ (by decide) (by decide), modelHeader_plain _ _ _ _ _ _ e3 _ (by decide) (by decide)⟩

/-- **C252**, which files there are: for a cube with a unit, three axes or more and some coordinate of the image plane, and an order up to five. -/
theorem iFits_some (h : Header) (naxis order nChan ny nx : ℕ) (hB : h.get (.plain "BUNIT") ≠ none) (ho : order ≤ 5) (hn : 3 ≤ naxis)
    (hax : ∀ i, 1 ≤ i → i ≤ 3 → h.has (.ax "NAXIS" i) = true) (hk : ∃ k ∈ wcsKeys, h.has k = true) :
    ∃ L, iFits h naxis order nChan ny nx = some L := by
  obtain ⟨h1, e1⟩ := (removeAxes_some h).mpr hk
  have hw : ∃ k ∈ wcsKeys, (h1.del (.plain "BUNIT")).has k = true := by
    obtain ⟨k, hk, hh⟩ := removeAxes_wcs h h1 e1
    refine ⟨k, hk, ?_⟩
    unfold Header.has at hh ⊢
    rw [get_del_ne _ _ _ (by rintro rfl; simp [wcsKeys] at hk)]
    exact hh
  obtain ⟨h2, e2⟩ := (removeAxes_some _).mpr hw
  obtain ⟨hI, e3, -⟩ := modelHeader_get h naxis nChan ny nx hn hax
  unfold iFits
  rw [e1, Option.bind_some, if_pos, e2, Option.bind_some, e3]
  · exact ⟨_, rfl⟩
  · rw [Bool.and_eq_true, decide_eq_true_eq]
    refine ⟨Option.isSome_iff_ne_none.mpr ?_, ho⟩
    rw [removeAxes_plain _ _ e1 "BUNIT" (by decide) (by decide) (by decide)]
    exact hB

end Verif.Headers
