import Verif.ICube.ChainEnds
import Verif.Similar.Props
import Verif.Headers.IFits

/-!
# Products of the Stokes I fit of cubes carry the unit of their values (C252)

Source: `/repo/RMtools_3D/do_fitIcube.py` 411-650 (`fit_spectra_I`, `make_model_I`), `/repo/RMutils/util_misc.py` 449-533
(`fit_StokesI_model`).
-/

namespace Verif.ICube

open Verif.StokesI Verif.StokesFit Verif.Mpfit Verif.NumPy

variable {n ny nx : ℕ}

/-- The same cube in other units of flux density, times `s`; a threshold in units of flux density (one that is positive) too. -/
noncomputable def Input.scale (x : Input n ny nx) (s : ℝ) : Input n ny nx :=
  { x with
    d := fun ch i j => (x.d ch i j).map (s * ·)
    threshold := if 0 < x.threshold then s * x.threshold else x.threshold }

/-- The files of fits in other units of flux density, times `s`, and at frequencies `r` times higher. -/
structure FilesAt (s r : ℝ) (F F' : Files n ny nx) : Prop where
  mask : F'.mask = F.mask
  model : ∀ ch i j, F'.model ch i j = (F.model ch i j).map (s * ·)
  noise : ∀ ch, F'.noise ch = (F.noise ch).map (s * ·)
  refFreq : ∀ i j, F'.refFreq i j = (F.refFreq i j).map (r * ·)
  coeff : ∀ k, F'.coeff k = (F.coeff k).map fun A i j => (A i j).map (s * ·)
  coeffErr : ∀ k, F'.coeffErr k = (F.coeffErr k).map fun A i j => (A i j).map (s * ·)
  covar : ∀ a b i j, F'.covar a b i j = (F.covar a b i j).map (s ^ 2 * ·)

/-! ## One pixel -/

/-- The result of one fit in other units. -/
noncomputable def fitIn (s r : ℝ) : Outcome → Outcome
  | .raised => .raised
  | .nan => .nan
  | .fit f cov => .fit (Similar.fitAt r (scaleResult s f)) cov

theorem fit_units_blank (w : Raw n) (c : Cfg) (s : ℝ) (hg : w.good = []) : (w.scale s).fitStokes c = w.fitStokes c := by
  have hspec : (w.scale s).spec = w.spec := by
    rw [spec_scale]
    unfold Raw.spec Spec.scale
    rw [hg]
    simp
  have hpoly : (w.scale s).poly c = w.poly c := by
    funext o
    unfold Raw.poly
    rw [hspec]
    rfl
  unfold Raw.fitStokes
  rw [hpoly, good_scale, hg]
  show Option.map _ (choose (w.poly c) w.polyOrd) = _
  simp

theorem fit_blank_outcome (w : Raw n) (c : Cfg) (hg : w.good = []) (f : FitResult) (cov : Bool) : w.fitStokes c ≠ some (.fit f cov) := by
  unfold Raw.fitStokes
  rw [hg]
  intro h
  rw [Option.map_eq_some_iff] at h
  obtain ⟨v, -, h⟩ := h
  rw [if_pos rfl] at h
  split_ifs at h

theorem outcome_units (c : Cfg) (hc : c.Ok) (s : ℝ) (hs : 0 < s) (r : ℝ) (hr : 0 < r) (freq : Fin n → ℝ) (hf : ∀ ch, 0 < freq ch) (x : Input n ny nx)
    (hz : ∀ ch, noise x.d x.threshold ch ≠ some 0) (i : Fin ny) (j : Fin nx) :
    outcome c (fun ch => r * freq ch) .linear (x.scale s) i j = (outcome c freq .linear x i j).map (fitIn s r) := by
  set w := fitRaw freq x.polyOrd .linear (noise x.d x.threshold) fun ch => x.d ch i j with hw
  have e : fitRaw (fun ch => r * freq ch) (x.scale s).polyOrd .linear (noise (x.scale s).d (x.scale s).threshold) (fun ch => (x.scale s).d ch i j) =
      Similar.rawAt r (w.scale s) := by
    have hn : noise (x.scale s).d (x.scale s).threshold = fun ch => (noise x.d x.threshold ch).map (s * ·) := by
      funext ch
      exact (C110_flux_unit s hs x.d x.threshold).1 ch
    rw [hn]
    rfl
  show (fitRaw _ _ _ _ _).fitStokes c = (w.fitStokes c).map _
  rw [e, Similar.fitStokes_at r hr]
  by_cases hg : w.good = []
  · rw [fit_units_blank w c s hg]
    cases ho : w.fitStokes c with
    | none => rfl
    | some o =>
      cases o with
      | raised => rfl
      | nan => rfl
      | fit f cov => exact absurd ho (fit_blank_outcome w c hg f cov)
  · obtain ⟨ch, hch⟩ := List.exists_mem_of_ne_nil _ hg
    rw [fit_units w c hc s hs rfl hf ⟨ch, (mem_good w ch).mp hch⟩ (by
      intro ch e _ he h0
      exact hz ch (by rw [← h0]; exact he)), Option.map_map]
    congr 1
    funext o
    cases o <;> rfl

/-- What one fit gives, in other units. -/
def PixAt (s r : ℝ) (f g : PixFit n) : Prop :=
  (∀ ch, g.I ch = (f.I ch).map (s * ·)) ∧ (∀ k, g.coeffs k = (f.coeffs k).map (s * ·)) ∧ (∀ k, g.coeffsErr k = (f.coeffsErr k).map (s * ·)) ∧
    (∀ a b, g.covar a b = (f.covar a b).map (s ^ 2 * ·)) ∧ g.refFreq = f.refFreq.map (r * ·)

theorem fitStokes_fn (w : Raw n) (c : Cfg) (f : FitResult) (cov : Bool) (h : w.fitStokes c = some (.fit f cov)) : f.fn = w.fn := by
  unfold Raw.fitStokes at h
  rw [Option.map_eq_some_iff] at h
  obtain ⟨v, -, h⟩ := h
  split_ifs at h
  injection h with h1 h2
  rw [← h1]
  rfl

theorem pixFit_units (s r : ℝ) (hr : 0 < r) (freq : Fin n → ℝ) (o : Outcome) (ho : o ≠ .raised) (hfn : ∀ f cov, o = .fit f cov → f.fn = .linear) :
    ∃ f g, pixFit freq o = some f ∧ pixFit (fun ch => r * freq ch) (fitIn s r o) = some g ∧ PixAt s r f g := by
  cases o with
  | raised => exact absurd rfl ho
  | nan =>
    refine ⟨_, _, rfl, rfl, fun ch => rfl, fun k => ?_, fun k => ?_, fun a b => rfl, rfl⟩
    · dsimp only
      split_ifs <;> simp
    · simp
  | fit f cov =>
    have hl := hfn f cov rfl
    refine ⟨_, _, rfl, rfl, fun ch => ?_, fun k => ?_, fun k => ?_, fun a b => ?_, ?_⟩
    · show some (calcModel (Similar.fitAt r (scaleResult s f)) (r * freq ch)) = (some (calcModel f (freq ch))).map (s * ·)
      rw [Similar.calcModel_at _ r hr.ne', scaleResult_inUnits f s hl, Pipe1D.calcModel_units]
      rfl
    · rfl
    · rfl
    · dsimp only
      cases cov <;> rfl
    · rfl

/-! ## All pixels -/

theorem mask_units (s : ℝ) (hs : 0 < s) (x : Input n ny nx) : (x.scale s).mask = x.mask := by
  funext i j
  unfold Input.mask
  have := (C110_flux_unit s hs x.d x.threshold).2 i j
  have e : mskCount (x.scale s).d (x.scale s).threshold i j = mskCount x.d x.threshold i j := this
  rw [e]
  rfl

/-- The fit of one spectrum as `runModel` has it. -/
noncomputable def totalFit (c : Cfg) (freq : Fin n → ℝ) (polyOrd : ℤ) (rms s : Fin n → Option ℝ) : PixFit n :=
  match ((fitRaw freq polyOrd .linear rms s).fitStokes c).bind (pixFit freq) with
  | some f => f
  | none => PixFit.ofFit freq (dummyFit n 0 .linear 0)

theorem runModel_eq (c : Cfg) (freq : Fin n → ℝ) (x : Input n ny nx) (hn : n = x.nFreq) (hs : ¬ (sqz [n, ny, nx]).length < 3)
    (h1 : ¬ ∃ i j, x.mask i j = true ∧ outcome c freq .linear x i j = none)
    (h2 : ¬ ∃ i j, x.mask i j = true ∧ outcome c freq .linear x i j = some .raised) :
    runModel c freq .linear x = some ((makeModel (totalFit c freq x.polyOrd) x).mapError .known) := by
  unfold runModel
  rw [if_neg (not_not.mpr hn), if_neg hs, if_neg h1, if_neg h2]
  rfl

theorem fitPixels_at (s r : ℝ) (fit fit' : (Fin n → Option ℝ) → PixFit n) (d d' : Fin n → Img ny nx (Option ℝ)) (mask : Img ny nx Bool)
    (h : ∀ i j, mask i j = true → PixAt s r (fit fun ch => d ch i j) (fit' fun ch => d' ch i j)) (i : Fin ny) (j : Fin nx) :
    (∀ ch, (fitPixels fit' d' mask).model ch i j = ((fitPixels fit d mask).model ch i j).map (s * ·)) ∧
    (∀ k, (fitPixels fit' d' mask).coeffs k i j = ((fitPixels fit d mask).coeffs k i j).map (s * ·)) ∧
    (∀ k, (fitPixels fit' d' mask).coeffsErr k i j = ((fitPixels fit d mask).coeffsErr k i j).map (s * ·)) ∧
    (fitPixels fit' d' mask).refFreq i j = ((fitPixels fit d mask).refFreq i j).map (r * ·) ∧
    ∀ a b, (fitPixels fit' d' mask).covar a b i j = ((fitPixels fit d mask).covar a b i j).map (s ^ 2 * ·) := by
  have k := C108_own_fit fit d mask i j
  have k' := C108_own_fit fit' d' mask i j
  dsimp only at k k'
  cases hm : mask i j with
  | true =>
    obtain ⟨a1, a2, a3, a4, a5⟩ := k.1 hm
    obtain ⟨b1, b2, b3, b4, b5⟩ := k'.1 hm
    obtain ⟨p1, p2, p3, p4, p5⟩ := h i j hm
    refine ⟨fun ch => ?_, fun k => ?_, fun k => ?_, ?_, fun a b => ?_⟩
    · rw [a1, b1, p1]
    · rw [a2, b2, p2]
    · rw [a3, b3, p3]
    · rw [a4, b4, p5]
    · rw [a5, b5, p4]
  | false =>
    obtain ⟨a1, a2, a3, a4, a5⟩ := k.2 hm
    obtain ⟨b1, b2, b3, b4, b5⟩ := k'.2 hm
    refine ⟨fun ch => ?_, fun k => ?_, fun k => ?_, ?_, fun a b => ?_⟩
    · rw [a1, b1]; rfl
    · rw [a2, b2]; rfl
    · rw [a3, b3]; rfl
    · rw [a4, b4]; rfl
    · rw [a5, b5]; rfl

/-- **C252**, numbers. The polynomial fit of a cube in other units of flux density (times `s`), and at frequencies `r` times higher, ends in the same way
as the fit of the cube, and gives the same mask, model and noise times `s`, reference frequencies times `r`, coefficients and their errors times `s`, and
covariances times `s²`. The noise of no channel may be zero. -/
theorem cube_fit_units (c : Cfg) (hc : c.Ok) (s : ℝ) (hs : 0 < s) (r : ℝ) (hr : 0 < r) (freq : Fin n → ℝ) (hf : ∀ ch, 0 < freq ch) (x : Input n ny nx)
    (hz : ∀ ch, noise x.d x.threshold ch ≠ some 0) :
    (runModel c freq .linear x = none ∧ runModel c (fun ch => r * freq ch) .linear (x.scale s) = none) ∨
    (∃ e, runModel c freq .linear x = some (.error e) ∧ runModel c (fun ch => r * freq ch) .linear (x.scale s) = some (.error e)) ∨
    ∃ F F', runModel c freq .linear x = some (.ok F) ∧ runModel c (fun ch => r * freq ch) .linear (x.scale s) = some (.ok F') ∧ FilesAt s r F F' := by
  have ho := outcome_units c hc s hs r hr freq hf x hz
  have hmask := mask_units s hs x
  by_cases hn : n = x.nFreq
  swap
  · exact Or.inr (Or.inl ⟨_, (run_ends c freq .linear x).1 hn, (run_ends c _ .linear (x.scale s)).1 hn⟩)
  have hn' : ¬ n ≠ (x.scale s).nFreq := not_not.mpr hn
  by_cases hq : (sqz [n, ny, nx]).length < 3
  · refine Or.inr (Or.inl ⟨.known .indexError, ?_, ?_⟩)
    · unfold runModel
      rw [if_neg (not_not.mpr hn), if_pos hq]
    · unfold runModel
      rw [if_neg hn', if_pos hq]
  by_cases h1 : ∃ i j, x.mask i j = true ∧ outcome c freq .linear x i j = none
  · refine Or.inl ⟨?_, ?_⟩
    · unfold runModel
      rw [if_neg (not_not.mpr hn), if_neg hq, if_pos h1]
    · obtain ⟨i, j, hm, h⟩ := h1
      unfold runModel
      rw [if_neg hn', if_neg hq, if_pos ⟨i, j, by rw [hmask]; exact hm, by rw [ho, h]; rfl⟩]
  have h1' : ¬ ∃ i j, (x.scale s).mask i j = true ∧ outcome c (fun ch => r * freq ch) .linear (x.scale s) i j = none := by
    rintro ⟨i, j, hm, h⟩
    rw [hmask] at hm
    rw [ho, Option.map_eq_none_iff] at h
    exact h1 ⟨i, j, hm, h⟩
  by_cases h2 : ∃ i j, x.mask i j = true ∧ outcome c freq .linear x i j = some .raised
  · refine Or.inr (Or.inl ⟨.zeroDivision, ?_, ?_⟩)
    · unfold runModel
      rw [if_neg (not_not.mpr hn), if_neg hq, if_neg h1, if_pos h2]
    · obtain ⟨i, j, hm, h⟩ := h2
      unfold runModel
      rw [if_neg hn', if_neg hq, if_neg h1', if_pos ⟨i, j, by rw [hmask]; exact hm, by rw [ho, h]; rfl⟩]
  have h2' : ¬ ∃ i j, (x.scale s).mask i j = true ∧ outcome c (fun ch => r * freq ch) .linear (x.scale s) i j = some .raised := by
    rintro ⟨i, j, hm, h⟩
    rw [hmask] at hm
    rw [ho, Option.map_eq_some_iff] at h
    obtain ⟨o, h, e⟩ := h
    cases o with
    | raised => exact h2 ⟨i, j, hm, h⟩
    | nan => cases e
    | fit f cov => cases e
  rw [runModel_eq c freq x hn hq h1 h2, runModel_eq c _ (x.scale s) hn hq h1' h2']
  have hpix : ∀ i j, x.mask i j = true → PixAt s r (totalFit c freq x.polyOrd (noise x.d x.threshold) fun ch => x.d ch i j)
      (totalFit c (fun ch => r * freq ch) (x.scale s).polyOrd (noise (x.scale s).d (x.scale s).threshold) fun ch => (x.scale s).d ch i j) := by
    intro i j hm
    cases hout : outcome c freq .linear x i j with
    | none => exact absurd ⟨i, j, hm, hout⟩ h1
    | some o =>
      obtain ⟨f, g, hf1, hg1, hfg⟩ := pixFit_units s r hr freq o (by rintro rfl; exact h2 ⟨i, j, hm, hout⟩) (by
        rintro f cov rfl
        exact fitStokes_fn _ c f cov hout)
      have hout' := ho i j
      rw [hout, Option.map_some] at hout'
      have e1 : totalFit c freq x.polyOrd (noise x.d x.threshold) (fun ch => x.d ch i j) = f := by
        unfold totalFit
        rw [show (fitRaw freq x.polyOrd .linear (noise x.d x.threshold) fun ch => x.d ch i j).fitStokes c = some o from hout, Option.bind_some, hf1]
      have e2 : totalFit c (fun ch => r * freq ch) (x.scale s).polyOrd (noise (x.scale s).d (x.scale s).threshold)
          (fun ch => (x.scale s).d ch i j) = g := by
        unfold totalFit
        rw [show (fitRaw (fun ch => r * freq ch) (x.scale s).polyOrd .linear (noise (x.scale s).d (x.scale s).threshold)
          fun ch => (x.scale s).d ch i j).fitStokes c = some (fitIn s r o) from hout', Option.bind_some, hg1]
      rw [e1, e2]
      exact hfg
  have key := fitPixels_at s r _ _ x.d (x.scale s).d x.mask hpix
  unfold makeModel
  rw [if_neg (not_not.mpr hn), if_neg hq, if_neg (show ¬ n ≠ (x.scale s).nFreq from not_not.mpr hn), if_neg hq]
  dsimp only
  rw [hmask]
  by_cases hb : x.hasBUNIT = false
  · rw [if_pos hb, if_pos (show (x.scale s).hasBUNIT = false from hb)]
    exact Or.inr (Or.inl ⟨_, rfl, rfl⟩)
  rw [if_neg hb, if_neg (show ¬ (x.scale s).hasBUNIT = false from hb)]
  by_cases hp : 5 < x.polyOrd.natAbs
  · rw [if_pos hp, if_pos (show 5 < (x.scale s).polyOrd.natAbs from hp)]
    exact Or.inr (Or.inl ⟨_, rfl, rfl⟩)
  rw [if_neg hp, if_neg (show ¬ 5 < (x.scale s).polyOrd.natAbs from hp)]
  refine Or.inr (Or.inr ⟨_, _, rfl, rfl, ⟨rfl, fun ch i j => (key i j).1 ch, ?_, fun i j => (key i j).2.2.2.1, ?_, ?_, fun a b i j => (key i j).2.2.2.2 a b⟩⟩)
  · exact (C110_flux_unit s hs x.d x.threshold).1
  · intro k
    dsimp only
    by_cases hk : k ≤ x.polyOrd.natAbs ∧ k < 6
    · rw [dif_pos hk, dif_pos (show k ≤ (x.scale s).polyOrd.natAbs ∧ k < 6 from hk), Option.map_some]
      congr 1
      funext i j
      exact (key i j).2.1 _
    · rw [dif_neg hk, dif_neg (show ¬ (k ≤ (x.scale s).polyOrd.natAbs ∧ k < 6) from hk)]
      rfl
  · intro k
    dsimp only
    by_cases hk : k ≤ x.polyOrd.natAbs ∧ k < 6
    · rw [dif_pos hk, dif_pos (show k ≤ (x.scale s).polyOrd.natAbs ∧ k < 6 from hk), Option.map_some]
      congr 1
      funext i j
      exact (key i j).2.2.1 _
    · rw [dif_neg hk, dif_neg (show ¬ (k ≤ (x.scale s).polyOrd.natAbs ∧ k < 6) from hk)]
      rfl

/-! ## The unit of a product -/

open Headers (IItem iFits)

/-- By what the numbers in the unit of a header are multiplied if flux densities are multiplied by `s` and frequencies by `r`; `F` is the unit of the cube,
no unit or an empty one mean a number. `none`: the unit is unknown. -/
noncomputable def unitFactor (F : String) (s r : ℝ) : Option Headers.Val → Option ℝ
  | none => some 1
  | some (.txt u) => if u = F then some s else if u = "" then some 1 else if u = "Hz" then some r else none
  | some (.num _) => none

/-- The numbers of a file; `ch` is the plane of the model, `a` and `b` are those of the covariance. -/
def Files.value (G : Files n ny nx) (ch : Fin n) (a b : Fin 6) (i : Fin ny) (j : Fin nx) : IItem → Option ℝ
  | .mask => G.mask i j
  | .coeff k => (G.coeff k).bind fun A => A i j
  | .coeffErr k => (G.coeffErr k).bind fun A => A i j
  | .refFreq => G.refFreq i j
  | .covar => G.covar a b i j
  | .model => G.model ch i j

/-- The files whose unit is right. -/
def IItem.named : IItem → Prop
  | .mask => True
  | .refFreq => True
  | .model => True
  | _ => False

/-- **C252, the part that holds.** In the files of the polynomial fit of a cube in the unit `F`, the numbers of the mask, of the map of the reference frequency
and of the model are in the unit which the header names: if flux densities are given in another unit and frequencies are other ones, these numbers are those of
the first run times the factor by which quantities in the unit that is named change. -/
theorem cube_fit_products_partial (c : Cfg) (hc : c.Ok) (s : ℝ) (hs : 0 < s) (r : ℝ) (hr : 0 < r) (freq : Fin n → ℝ) (hf : ∀ ch, 0 < freq ch)
    (x : Input n ny nx) (hz : ∀ ch, noise x.d x.threshold ch ≠ some 0) (G : Files n ny nx) (hG : runModel c freq .linear x = some (.ok G))
    (h : Headers.Header) (naxis : ℕ) (F : String) (hF : h.get (.plain "BUNIT") = some (.txt F)) (hF1 : F ≠ "Hz")
    (L : List (IItem × Headers.Header)) (hL : iFits h naxis x.polyOrd.natAbs n ny nx = some L) :
    ∃ G', runModel c (fun ch => r * freq ch) .linear (x.scale s) = some (.ok G') ∧
      ∀ p ∈ L, IItem.named p.1 → ∃ k, unitFactor F s r (p.2.get (.plain "BUNIT")) = some k ∧
        ∀ ch a b i j, G'.value ch a b i j p.1 = (G.value ch a b i j p.1).map (k * ·) := by
  rcases cube_fit_units c hc s hs r hr freq hf x hz with ⟨h1, -⟩ | ⟨e, h1, -⟩ | ⟨G1, G', h1, h2, h3⟩
  · rw [h1] at hG; cases hG
  · rw [h1] at hG; cases hG
  rw [h1] at hG
  obtain rfl : G1 = G := by simpa using hG
  refine ⟨G', h2, ?_⟩
  intro p hp hnm
  obtain ⟨-, -, hall⟩ := Headers.iFits_spec _ _ _ _ _ _ _ hL
  have hu := (hall p hp).1
  rw [hF] at hu
  rw [hu]
  match hp1 : p.1 with
  | .mask =>
    refine ⟨1, rfl, fun ch a b i j => ?_⟩
    show G'.mask i j = _
    rw [h3.mask]
    show G1.mask i j = (G1.mask i j).map _
    cases G1.mask i j <;> simp
  | .refFreq =>
    refine ⟨r, ?_, fun ch a b i j => h3.refFreq i j⟩
    show (if "Hz" = F then some s else _) = _
    rw [if_neg (Ne.symm hF1)]
    rfl
  | .model =>
    refine ⟨s, ?_, fun ch a b i j => h3.model ch i j⟩
    show (if F = F then some s else _) = _
    rw [if_pos rfl]
  | .coeff k => rw [hp1] at hnm; exact hnm.elim
  | .coeffErr k => rw [hp1] at hnm; exact hnm.elim
  | .covar => rw [hp1] at hnm; exact hnm.elim

/-- **C252 is false of the coefficients.** The headers of the maps of the coefficients, of their errors and of the covariance say that the numbers have no unit.
But coefficients and errors are flux densities, and covariances are their products: they change with the unit of the cube. -/
theorem cube_fit_coefficients_wrong (c : Cfg) (hc : c.Ok) (s : ℝ) (hs : 0 < s) (r : ℝ) (hr : 0 < r) (freq : Fin n → ℝ) (hf : ∀ ch, 0 < freq ch)
    (x : Input n ny nx) (hz : ∀ ch, noise x.d x.threshold ch ≠ some 0) (G : Files n ny nx) (hG : runModel c freq .linear x = some (.ok G))
    (h : Headers.Header) (naxis : ℕ) (L : List (IItem × Headers.Header)) (hL : iFits h naxis x.polyOrd.natAbs n ny nx = some L) :
    ∃ G', runModel c (fun ch => r * freq ch) .linear (x.scale s) = some (.ok G') ∧
      ∀ p ∈ L, ¬ IItem.named p.1 → p.2.get (.plain "BUNIT") = some (.txt "") ∧
        ∀ ch a b i j, G'.value ch a b i j p.1 = (G.value ch a b i j p.1).map ((if p.1 = .covar then s ^ 2 else s) * ·) := by
  rcases cube_fit_units c hc s hs r hr freq hf x hz with ⟨h1, -⟩ | ⟨e, h1, -⟩ | ⟨G1, G', h1, h2, h3⟩
  · rw [h1] at hG; cases hG
  · rw [h1] at hG; cases hG
  rw [h1] at hG
  obtain rfl : G1 = G := by simpa using hG
  refine ⟨G', h2, ?_⟩
  intro p hp hnm
  obtain ⟨-, -, hall⟩ := Headers.iFits_spec _ _ _ _ _ _ _ hL
  have hu := (hall p hp).1
  rw [hu]
  match hp1 : p.1 with
  | .mask => rw [hp1] at hnm; exact absurd trivial hnm
  | .refFreq => rw [hp1] at hnm; exact absurd trivial hnm
  | .model => rw [hp1] at hnm; exact absurd trivial hnm
  | .coeff k =>
    refine ⟨rfl, fun ch a b i j => ?_⟩
    rw [if_neg (by simp)]
    show (G'.coeff k).bind _ = ((G1.coeff k).bind _).map _
    rw [h3.coeff k]
    cases G1.coeff k <;> rfl
  | .coeffErr k =>
    refine ⟨rfl, fun ch a b i j => ?_⟩
    rw [if_neg (by simp)]
    show (G'.coeffErr k).bind _ = ((G1.coeffErr k).bind _).map _
    rw [h3.coeffErr k]
    cases G1.coeffErr k <;> rfl
  | .covar =>
    refine ⟨rfl, fun ch a b i j => ?_⟩
    rw [if_pos rfl]
    exact h3.covar a b i j

/-! ## A case -/

/-- The four pixels, fitted with a constant: the noise of no channel is zero, the program writes files, and in pixel (1, 0) the file `coeff0.fits`, whose header
names no unit, has the number 2 for the cube and the number `2 s` for the same cube in other units. -/
theorem case_units (c : Cfg) (hc : c.Ok) (s : ℝ) (hs : 0 < s) (freq : Fin 2 → ℝ) (hf : ∀ ch, 0 < freq ch) (hd : Header) :
    (∀ ch, noise (four hd).d (four hd).threshold ch ≠ some 0) ∧
    ∃ G G' A A', runModel c freq .linear (four hd) = some (.ok G) ∧ runModel c (fun ch => 1 * freq ch) .linear ((four hd).scale s) = some (.ok G') ∧
      G.coeff 0 = some A ∧ G'.coeff 0 = some A' ∧ A 1 0 = some 2 ∧ A' 1 0 = some (s * 2) := by
  have hz : ∀ ch, noise (four hd).d (four hd).threshold ch ≠ some 0 := by
    intro ch
    rw [four_noise]
    norm_num
  refine ⟨hz, ?_⟩
  obtain ⟨G, r, hG, -⟩ := case_four c hc freq .linear hd ⟨false, false, none, none, 1⟩ rfl fun _ => none
  obtain ⟨r, hr, hm⟩ := four_flat c hc freq .linear hd 1 0 2 fun _ => rfl
  obtain ⟨-, -, -, hp, -⟩ := fit_planes c freq .linear (four hd) G hG 1 0 rfl r true hr
  obtain ⟨⟨A, hA, hA1⟩, -⟩ := hp 0 (by norm_num)
  have hlin : r.fn = .linear := fitStokes_fn _ c r true hr
  have hp5 : r.params 5 = 2 := by
    have := hm 0
    unfold calcModel at this
    rw [hlin] at this
    simpa [poly5] using this
  have hA2 : A 1 0 = some 2 := by
    rw [hA1]
    exact congrArg some hp5
  rcases cube_fit_units c hc s hs 1 one_pos freq hf (four hd) hz with ⟨h1, -⟩ | ⟨e, h1, -⟩ | ⟨G1, G', h1, h2, h3⟩
  · rw [h1] at hG; cases hG
  · rw [h1] at hG; cases hG
  rw [h1] at hG
  obtain rfl : G1 = G := by simpa using hG
  have hA' := h3.coeff 0
  rw [show G1.coeff 0 = some A from hA, Option.map_some] at hA'
  exact ⟨G1, G', A, _, h1, h2, hA, hA', hA2, by rw [hA2]; rfl⟩

/-- A cube with a unit meets the hypotheses on the header. -/
example : ∃ L, iFits (Headers.plainCube ++ [(.plain "BUNIT", .txt "Jy/beam")]) 3 2 100 4 5 = some L :=
  Headers.iFits_some _ 3 2 100 4 5 (by simp [Headers.plainCube, Headers.Header.get]) (by norm_num) (le_refl _) (by
    intro i h1 h3
    interval_cases i <;> rfl) ⟨.ax "CTYPE" 1, by decide, rfl⟩

end Verif.ICube
