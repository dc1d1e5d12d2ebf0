import Verif.Order.Cube
import Verif.Order.FlaggedCase

/-!
# A flagged plane and a plane which is not in the cubes (C285)

Source: `/repo/RMtools_3D/do_RMsynth_3D.py` 57-268, `/repo/RMutils/util_RM.py` 60-225 (`do_rmsynth_planes`), 228-412 (`get_rmsf_planes`).
-/

namespace Verif.Order

open Verif.NumPy Verif.Pipe3D

variable {n k m N : ℕ}

/-! ## Specification -/

/-- The cubes with the planes `e` only. -/
def cubeRows (e : Fin k → Fin n) (x : In n m) : In k m where
  q := fun j => x.q (e j)
  u := fun j => x.u (e j)
  i := x.i.map fun i j => i (e j)
  freq := x.freq ∘ e
  rms := x.rms.map (· ∘ e)

/-! ## Helper lemmas -/

/-- The RMSF without the planes which are flagged in every pixel. -/
theorem rmsf_select (e : Fin k → Fin n) (he : Function.Injective e) (x : Rmsf.Input n m N)
    (hf : ∀ j, (∀ i, e i ≠ j) → ∀ p, x.msk j p = true) : Rmsf.rmsf (Rmsf.selectChannels e x) = Rmsf.rmsf x := by
  have hw0 : ∀ j, Rmsf.weight0 (Rmsf.selectChannels e x) j = Rmsf.weight0 x (e j) := by
    intro j; unfold Rmsf.weight0 Rmsf.selectChannels
    cases x.weight <;> rfl
  have hw : ∀ j, Rmsf.weight1 (Rmsf.selectChannels e x) j = Rmsf.weight1 x (e j) := by
    intro j; unfold Rmsf.weight1; rw [hw0]; rfl
  have hxy : ∀ j, (∀ i, e i ≠ j) → Rmsf.xySum x j = m := fun j hj => by
    unfold Rmsf.xySum
    simp [hf j hj]
  have hz : ∀ j, (∀ i, e i ≠ j) → Rmsf.weight1 x j = 0 := fun j hj => by
    unfold Rmsf.weight1
    rw [if_pos (hxy j hj), mul_zero]
  have s1 : ∑ j, Rmsf.weight1 (Rmsf.selectChannels e x) j = ∑ j, Rmsf.weight1 x j := by
    simp only [hw]
    exact Synth.sum_select e he (Rmsf.weight1 x) hz
  have s2 : ∑ j, Rmsf.weight1 (Rmsf.selectChannels e x) j * (Rmsf.selectChannels e x).lamSq j = ∑ j, Rmsf.weight1 x j * x.lamSq j := by
    simp only [hw]
    exact Synth.sum_select e he (fun j => Rmsf.weight1 x j * x.lamSq j) fun j hj => by rw [hz j hj]; simp
  have hl : Rmsf.lam0Sq (Rmsf.selectChannels e x) = Rmsf.lam0Sq x := by
    unfold Rmsf.lam0Sq; rw [s1, s2]; rfl
  have h1D : Rmsf.do1D (Rmsf.selectChannels e x) ↔ Rmsf.do1D x := by
    constructor
    · intro h j
      by_cases hd : ∃ i, e i = j
      · obtain ⟨i, rfl⟩ := hd
        exact h i
      · exact Or.inr (hxy j fun i hi => hd ⟨i, hi⟩)
    · intro h j
      exact h (e j)
  funext l p
  unfold Rmsf.rmsf
  rw [hl]
  cases Rmsf.lam0Sq x with
  | none => rfl
  | some L =>
    dsimp only
    have e1 : Rmsf.rmsf1D (Rmsf.selectChannels e x) L l = Rmsf.rmsf1D x L l := by
      unfold Rmsf.rmsf1D
      rw [s1]
      simp only [hw]
      congr 3
      exact Synth.sum_select e he (fun j => (Rmsf.weight1 x j : ℂ) *
        Complex.exp (-2 * Complex.I * (x.phi2 l : ℂ) * ((x.lamSq j - L : ℝ) : ℂ))) fun j hj => by rw [hz j hj]; simp
    have e2 : Rmsf.rmsfPix (Rmsf.selectChannels e x) L l p = Rmsf.rmsfPix x L l p := by
      unfold Rmsf.rmsfPix Rmsf.kArr Synth.nufft1d3
      simp only [hw]
      have a1 : (∑ j, if (Rmsf.selectChannels e x).msk j p = true then 0 else Rmsf.weight1 x (e j)) =
          ∑ j, if x.msk j p = true then 0 else Rmsf.weight1 x j :=
        Synth.sum_select e he (fun j => if x.msk j p = true then 0 else Rmsf.weight1 x j) fun j hj => by rw [if_pos (hf j hj p)]
      have a2 : (∑ j, (if (Rmsf.selectChannels e x).msk j p = true then 0 else (Rmsf.weight1 x (e j) : ℂ)) *
          Complex.exp ((((Rmsf.selectChannels e x).phi2 (Fin.rev l) * 2 * ((Rmsf.selectChannels e x).lamSq j - L) : ℝ) : ℂ) * Complex.I)) =
          ∑ j, (if x.msk j p = true then 0 else (Rmsf.weight1 x j : ℂ)) *
          Complex.exp (((x.phi2 (Fin.rev l) * 2 * (x.lamSq j - L) : ℝ) : ℂ) * Complex.I) :=
        Synth.sum_select e he (fun j => (if x.msk j p = true then 0 else (Rmsf.weight1 x j : ℂ)) *
          Complex.exp (((x.phi2 (Fin.rev l) * 2 * (x.lamSq j - L) : ℝ) : ℂ) * Complex.I)) fun j hj => by rw [if_pos (hf j hj p), zero_mul]
      rw [a1, a2]
    simp only [e1, e2, h1D]

theorem planes_weight (e : Fin k → Fin n) (x : In n m) (o : Pipe1D.Opts) (j : Fin k) : Pipe3D.weight (cubeRows e x) o j = Pipe3D.weight x o (e j) := by
  unfold Pipe3D.weight cubeRows
  cases x.rms <;> rfl

theorem planes_divided (e : Fin k → Fin n) (x : In n m) (d : Fin n → Fin m → Option ℝ) (j : Fin k) (p : Fin m) :
    divided (cubeRows e x) (fun j => d (e j)) j p = divided x d (e j) p := by
  unfold divided cubeRows
  cases x.i <;> rfl

theorem synthAt_planes (e : Fin k → Fin n) (x : In n m) (o : Pipe1D.Opts) (a : ℝ × ℝ) :
    synthAt (cubeRows e x) o a = Synth.selectChannels e (synthAt x o a) := by
  unfold synthAt Synth.selectChannels
  congr 1
  · funext j p
    exact planes_divided e x x.q j p
  · funext j p
    exact planes_divided e x x.u j p
  · exact congrArg some (funext fun j => planes_weight e x o j)

theorem rmsfAt_planes (e : Fin k → Fin n) (x : In n m) (o : Pipe1D.Opts) (phi2 : Fin N → ℝ) (l : ℝ) :
    rmsfAt (cubeRows e x) o phi2 l = Rmsf.selectChannels e (rmsfAt x o phi2 l) := by
  unfold rmsfAt Rmsf.selectChannels
  congr 1
  exact congrArg some (funext fun j => planes_weight e x o j)

theorem planes_axis [NeZero n] [NeZero k] (e : Fin k → Fin n) (x : In n m) (o : Pipe1D.Opts) (hd : o.dPhi.isSome) (hp : o.phiMax.isSome) :
    Pipe3D.axisParams (cubeRows e x) o = Pipe3D.axisParams x o := by
  obtain ⟨vd, hvd⟩ := Option.isSome_iff_exists.mp hd
  obtain ⟨vp, hvp⟩ := Option.isSome_iff_exists.mp hp
  unfold Pipe3D.axisParams Pipe1D.axisParams
  dsimp only
  rw [hvd, hvp]
  rfl

theorem planes_regular [NeZero n] [NeZero k] (e : Fin k → Fin n) (x : In n m) (o : Pipe1D.Opts) (hd : o.dPhi.isSome) (hp : o.phiMax.isSome)
    (h2 : ∃ i i', x.freq (e i) ≠ x.freq (e i')) (h : Pipe3D.Regular x o) : Pipe3D.Regular (cubeRows e x) o := by
  refine ⟨fun i => h.1 (e i), h2, ?_, fun r hr => ?_⟩
  · rw [planes_axis e x o hd hp]
    exact h.2.2.1
  · change x.rms.map (· ∘ e) = some r at hr
    obtain ⟨r0, h0, rfl⟩ := Option.map_eq_some_iff.mp hr
    exact fun hv j => h.2.2.2 r0 h0 hv (e j)

theorem divided_none (x : In n m) (d : Fin n → Fin m → Option ℝ) (j : Fin n) (p : Fin m) (h : d j p = none) : divided x d j p = none := by
  unfold divided
  rw [h]
  cases x.i <;> rfl

/-! ## C285 -/

/-- **C285, the part that holds.** The cubes without some planes in which Stokes Q is NaN in every pixel, for a given axis of depths: the depths, the
reference wavelength, the spectra before the multiplication by Stokes I and the RMSF cube are the same, and so is the FDF cube wherever the
factor of Stokes I is the same, in particular without Stokes I. -/
theorem flagged_planes_partial [NeZero n] [NeZero k] (e : Fin k → Fin n) (he : Function.Injective e) (x : In n m) (o : Pipe1D.Opts)
    (hd : o.dPhi.isSome) (hp : o.phiMax.isSome) (hq : ∀ j, (∀ i, e i ≠ j) → ∀ p, x.q j p = none) (h2 : ∃ i i', x.freq (e i) ≠ x.freq (e i'))
    (hR : Pipe3D.Regular x o) :
    ∃ hN : nPhi (cubeRows e x) o = nPhi x o,
      (∀ l, (synthInput (cubeRows e x) o).phi l = (synthInput x o).phi (l.cast hN)) ∧
      Synth.lam0Sq (synthInput (cubeRows e x) o) = Synth.lam0Sq (synthInput x o) ∧
      (∀ l p, Synth.fdf (synthInput (cubeRows e x) o) l p = Synth.fdf (synthInput x o) (l.cast hN) p) ∧
      (∃ hM : Axis.nPhi2 (nPhi (cubeRows e x) o) = Axis.nPhi2 (nPhi x o), rmsfCube (cubeRows e x) o = (rmsfCube x o).map fun g l => g (l.cast hM)) ∧
      (∀ p, scale (cubeRows e x) o p = scale x o p → ∀ l, fdfCube (cubeRows e x) o l p = fdfCube x o (l.cast hN) p) ∧
      (x.i = none → ∀ p, scale (cubeRows e x) o p = scale x o p) := by
  have key : ∀ a b : ℝ × ℝ, a = b → ∃ hN : Axis.nChanRM a.2 a.1 = Axis.nChanRM b.2 b.1,
      (∀ l, (synthAt (cubeRows e x) o a).phi l = (synthAt x o b).phi (l.cast hN)) ∧
      Synth.lam0Sq (synthAt (cubeRows e x) o a) = Synth.lam0Sq (synthAt x o b) ∧
      (∀ l p, Synth.fdf (synthAt (cubeRows e x) o a) l p = Synth.fdf (synthAt x o b) (l.cast hN) p) ∧
      ∃ hM : Axis.nPhi2 (Axis.nChanRM a.2 a.1) = Axis.nPhi2 (Axis.nChanRM b.2 b.1),
        ((Axis.phi2 (synthAt (cubeRows e x) o a).phi).map fun g => Rmsf.rmsf (rmsfAt (cubeRows e x) o g (Synth.lam0Sq (synthAt (cubeRows e x) o a)))) =
          ((Axis.phi2 (synthAt x o b).phi).map fun g => Rmsf.rmsf (rmsfAt x o g (Synth.lam0Sq (synthAt x o b)))).map fun g l => g (l.cast hM) := by
    rintro a _ rfl
    have hs := Synth.select_channels e he (synthAt x o a) fun j hj => Or.inr fun p => by
      change SynthSpec.pol (divided x x.q j p) _ = none
      rw [divided_none x x.q j p (hq j hj p)]
      rfl
    rw [← synthAt_planes] at hs
    have h2 : Synth.lam0Sq (synthAt (cubeRows e x) o a) = Synth.lam0Sq (synthAt x o a) := congrArg Prod.snd hs
    refine ⟨rfl, fun l => rfl, h2, fun l p => congrFun (congrFun (congrArg Prod.fst hs) l) p, rfl, ?_⟩
    rw [h2, Option.map_map]
    show _ = Option.map _ (Axis.phi2 (synthAt x o a).phi)
    have : ∀ (N : ℕ) (g : Fin N → ℝ) (l : ℝ), Rmsf.rmsf (rmsfAt (cubeRows e x) o g l) = Rmsf.rmsf (rmsfAt x o g l) := fun N g l => by
      rw [rmsfAt_planes, rmsf_select e he]
      intro j hj p
      change (x.q j p).isNone = true
      rw [hq j hj p]
      rfl
    simp only [this]
    rfl
  obtain ⟨hN, h1, h3, h4, hM, h5⟩ := key _ _ (planes_axis e x o hd hp)
  have hR' := planes_regular e x o hd hp h2 hR
  refine ⟨hN, h1, h3, h4, ⟨hM, ?_⟩, fun p hsc l => ?_, fun hi p => ?_⟩
  · unfold rmsfCube
    rw [if_pos hR, if_pos hR']
    exact h5
  · unfold fdfCube
    rw [if_pos hR, if_pos hR', hsc, show Synth.fdf (synthInput (cubeRows e x) o) l p = _ from h4 l p]
    rfl
  · unfold scale
    rw [hi, show (cubeRows e x).i = none by simp [cubeRows, hi]]

/-! ## With Stokes I -/

theorem ifreq_at [NeZero n] (freq : Fin n → ℝ) (v : Fin n → Option ℝ) (f0 : ℝ) (i : Fin n) (hi : npArgmax (fun j => -|freq j - f0|) = i)
    (h : freq i = f0) : Pipe3D.ifreq0 freq v f0 = some (v i) := by
  subst hi
  unfold Pipe3D.ifreq0
  dsimp only
  rw [h, if_neg (lt_irrefl _), if_neg (lt_irrefl _)]

open Verif.Errors in
/-- Three planes of one pixel, with `λ² = 3, 2, 1`; the middle one is flagged in all cubes. -/
noncomputable def holed : In 3 1 where
  q := fun j _ => (![some 1, none, some 1] : Fin 3 → Option ℝ) j
  u := fun j _ => (![some 0, none, some 0] : Fin 3 → Option ℝ) j
  i := some fun j _ => (![some 1, none, some 1] : Fin 3 → Option ℝ) j
  freq := fun j => threeFreq (Fin.rev j)
  rms := none

/-- The first and the last plane. -/
def ends : Fin 2 → Fin 3 := ![0, 2]

theorem ends_inj : Function.Injective ends := by decide

theorem ends_drop (j : Fin 3) (h : ∀ i, ends i ≠ j) : j = 1 := by
  revert h j
  decide

theorem holed_regular : Pipe3D.Regular holed Errors.threeOpts := by
  have hc : (0 : ℝ) < Pipe1D.c := by unfold Pipe1D.c; norm_num
  refine ⟨fun j => div_pos hc (Real.sqrt_pos.mpr (by positivity)), ⟨0, 2, fun h => ?_⟩, ?_, fun r hr => by cases hr⟩
  · have h1 := Errors.threeFreq_lamSq 2
    have h2 := Errors.threeFreq_lamSq 0
    have h3 : Errors.threeFreq 2 = Errors.threeFreq 0 := h
    unfold Pipe1D.lamSq at h1 h2
    rw [h3, h2] at h1
    norm_num at h1
  · change (1 / 2 : ℝ) ≠ 0
    norm_num

/-- The reference wavelength squared is that of the flagged plane. -/
theorem holed_ref : Synth.lam0Sq (synthInput holed Errors.threeOpts) = 2 := by
  have hw : ∀ j, Synth.weight1 (synthInput holed Errors.threeOpts) j = (![1, 0, 1] : Fin 3 → ℝ) j := fun j => by
    rw [Synth.weight1_eq, Synth.weight0_eq]
    have hp : ∀ p, Synth.pixPol (synthInput holed Errors.threeOpts) p j = (![some 1, none, some 1] : Fin 3 → Option ℂ) j := fun p => by
      change SynthSpec.pol (StokesI.divNaN (holed.q j p) _) (StokesI.divNaN (holed.u j p) _) = _
      fin_cases j <;> simp [holed, StokesI.divNaN, SynthSpec.pol] <;> rfl
    simp only [hp]
    fin_cases j <;> simp [SynthSpec.effWeight, synthInput, Pipe3D.weight, holed]
  have hl : ∀ j : Fin 3, (synthInput holed Errors.threeOpts).lamSq j = ((Fin.rev j : Fin 3) : ℕ) + 1 := fun j => Errors.threeFreq_lamSq (Fin.rev j)
  unfold Synth.lam0Sq
  rw [show (synthInput holed Errors.threeOpts).lam0 = none from rfl]
  simp only [hw, Fin.sum_univ_three, hl]
  norm_num [Fin.rev, show (![1, 0, 1] : Fin 3 → ℝ) 2 = 1 from rfl]

theorem holed_freq0 {k : ℕ} (freq : Fin k → ℝ) : freq0 freq 2 = Errors.threeFreq 1 := by
  unfold freq0 Errors.threeFreq
  rw [if_pos two_pos]
  norm_num

theorem holed_order : Errors.threeFreq 2 < Errors.threeFreq 1 ∧ Errors.threeFreq 1 < (Errors.threeFreq 2 + Errors.threeFreq 0) / 2 := by
  have hc : (0 : ℝ) < Pipe1D.c := by unfold Pipe1D.c; norm_num
  unfold Errors.threeFreq
  have h3 : (17 / 10 : ℝ) < Real.sqrt 3 := Real.lt_sqrt_of_sq_lt (by norm_num)
  have h3' : Real.sqrt 3 < 7 / 4 := by rw [Real.sqrt_lt' (by norm_num)]; norm_num
  have h2 : (7 / 5 : ℝ) < Real.sqrt 2 := Real.lt_sqrt_of_sq_lt (by norm_num)
  have h2' : Real.sqrt 2 < 3 / 2 := by rw [Real.sqrt_lt' (by norm_num)]; norm_num
  norm_num
  constructor
  · exact div_lt_div_of_pos_left hc (by linarith) (by linarith)
  · have a1 : Pipe1D.c / Real.sqrt 2 < Pipe1D.c / (7 / 5) := div_lt_div_of_pos_left hc (by norm_num) h2
    have a2 : Pipe1D.c / (7 / 4) < Pipe1D.c / Real.sqrt 3 := div_lt_div_of_pos_left hc (by linarith) h3'
    have a3 : Pipe1D.c / (7 / 5) = Pipe1D.c * (5 / 7) := by ring
    have a4 : Pipe1D.c / (7 / 4) = Pipe1D.c * (4 / 7) := by ring
    linarith

/-- **C285, the part that fails.** A flagged plane at the reference frequency, with Stokes I: the whole FDF is blank. With the same planes without the
flagged one the FDF is there: the peak of fractional polarisation 1, times the mean of the two planes of Stokes I. -/
theorem flagged_plane_blanks :
    (∀ l, fdfCube holed Errors.threeOpts l 0 = some none) ∧
    (∀ j, (∀ i, ends i ≠ j) → ∀ p, holed.q j p = none) ∧
    ∃ l, (synthInput (cubeRows ends holed) Errors.threeOpts).phi l = 0 ∧ fdfCube (cubeRows ends holed) Errors.threeOpts l 0 = some (some 1) := by
  have hq : ∀ j, (∀ i, ends i ≠ j) → ∀ p, holed.q j p = none := fun j hj p => by
    rw [ends_drop j hj]
    rfl
  obtain ⟨o1, o2⟩ := holed_order
  have h2 : ∃ i i', holed.freq (ends i) ≠ holed.freq (ends i') := ⟨0, 1, fun h => by
    have : Errors.threeFreq 2 = Errors.threeFreq 0 := h
    linarith⟩
  obtain ⟨hN, p1, p2, p3, -, -, -⟩ := flagged_planes_partial ends ends_inj holed Errors.threeOpts rfl rfl hq h2 holed_regular
  refine ⟨fun l => ?_, hq, ?_⟩
  · unfold fdfCube
    rw [if_pos holed_regular]
    have : scale holed Errors.threeOpts 0 = some none := by
      unfold scale
      change Pipe3D.ifreq0 _ (fun j => (![some 1, none, some 1] : Fin 3 → Option ℝ) j) _ = _
      rw [holed_ref, holed_freq0]
      have hidx : npArgmax (fun j => -|holed.freq j - Errors.threeFreq 1|) = 1 := by
        rw [npArgmax_eq_iff]
        have e1 : holed.freq 1 = Errors.threeFreq 1 := rfl
        have e0 : holed.freq 0 = Errors.threeFreq 2 := rfl
        refine ⟨fun j => ?_, fun j hj => ?_⟩
        · rw [e1, sub_self, abs_zero, neg_zero]
          exact neg_nonpos.mpr (abs_nonneg _)
        · obtain rfl : j = 0 := by omega
          rw [e1, sub_self, abs_zero, neg_zero, e0]
          exact neg_neg_of_pos (abs_pos.mpr (by linarith))
      rw [ifreq_at _ _ _ _ hidx rfl]
      rfl
    rw [this]
    rfl
  · have hax : nPhi (cubeRows ends holed) Errors.threeOpts = 3 := Errors.three_axis
    have hphi : Axis.phiAxis (1 / 2) (1 / 2) ⟨1, by rw [show Axis.nChanRM (1 / 2) (1 / 2) = 3 from hax]; norm_num⟩ = 0 := by
      obtain ⟨cc, h1, h2, -, -⟩ := Axis.phiAxis_spec (1 / 2) (1 / 2) (by norm_num)
      have h3 : Axis.nChanRM (1 / 2) (1 / 2) = 3 := Errors.three_axis
      have hcc : cc = 1 := by omega
      rw [h2, hcc]
      simp
    refine ⟨⟨1, by rw [hax]; norm_num⟩, hphi, ?_⟩
    have hsc : scale (cubeRows ends holed) Errors.threeOpts 0 = some (some 1) := by
      unfold scale
      change Pipe3D.ifreq0 (holed.freq ∘ ends) (fun j => (![some 1, none, some 1] : Fin 3 → Option ℝ) (ends j)) _ = _
      rw [p2, holed_ref, holed_freq0]
      have hidx : npArgmax (fun j => -|(holed.freq ∘ ends) j - Errors.threeFreq 1|) = 0 := by
        have e0 : (holed.freq ∘ ends) 0 = Errors.threeFreq 2 := rfl
        have e1 : (holed.freq ∘ ends) 1 = Errors.threeFreq 0 := rfl
        rw [npArgmax_eq_iff]
        refine ⟨fun j => ?_, fun j hj => absurd hj (Nat.not_lt_zero _)⟩
        fin_cases j
        · exact le_refl _
        · change -|(holed.freq ∘ ends) 1 - _| ≤ -|(holed.freq ∘ ends) 0 - _|
          have a1 : Errors.threeFreq 2 - Errors.threeFreq 1 < 0 := by linarith
          have a2 : 0 < Errors.threeFreq 0 - Errors.threeFreq 1 := by linarith
          rw [e0, e1, abs_of_neg a1, abs_of_pos a2]
          linarith
      rw [ifreq_below _ _ _ 0 hidx o1, dif_pos (by norm_num)]
      change some (some ((1 / 2 : ℝ) * 1 + (1 / 2) * 1)) = _
      norm_num
    have hpix : ∀ j, Synth.spectrum (synthInput (cubeRows ends holed) Errors.threeOpts) 0 j = some 1 := fun j => by
      change SynthSpec.pol (StokesI.divNaN (holed.q (ends j) 0) _) (StokesI.divNaN (holed.u (ends j) 0) _) = _
      fin_cases j <;> simp [holed, ends, StokesI.divNaN, SynthSpec.pol] <;> rfl
    have hF : SynthSpec.fdf (SynthSpec.effWeight (synthInput (cubeRows ends holed) Errors.threeOpts).weight)
        (Synth.spectrum (synthInput (cubeRows ends holed) Errors.threeOpts) 0) (synthInput (cubeRows ends holed) Errors.threeOpts).lamSq
        (Synth.refLamSq (synthInput (cubeRows ends holed) Errors.threeOpts)) 0 = 1 := by
      have hw : ∀ j, SynthSpec.effWeight (synthInput (cubeRows ends holed) Errors.threeOpts).weight j = 1 := fun j => rfl
      unfold SynthSpec.fdf SynthSpec.weightSum
      simp [hpix, hw]
    have hcor := (Synth.rmsynth_correct (1 / 2) (1 / 2) (by norm_num) (synthInput (cubeRows ends holed) Errors.threeOpts) rfl 0).1
      ⟨⟨1, by rw [show Axis.nChanRM (1 / 2) (1 / 2) = 3 from hax]; norm_num⟩, by
        dsimp only
        rw [hphi]
        exact fun h0 => one_ne_zero (hF.symm.trans h0)⟩
    have hv := hcor.2 ⟨1, by rw [show Axis.nChanRM (1 / 2) (1 / 2) = 3 from hax]; norm_num⟩
    dsimp only at hv
    rw [hphi] at hv
    replace hv := hv.trans (congrArg some hF)
    unfold fdfCube
    rw [if_pos (planes_regular ends holed Errors.threeOpts rfl rfl h2 holed_regular), hsc]
    change some ((Synth.fdf (synthInput (cubeRows ends holed) Errors.threeOpts) ⟨1, _⟩ 0).map fun z => z * ((1 : ℝ) : ℂ)) = _
    rw [show Synth.fdf (synthInput (cubeRows ends holed) Errors.threeOpts) ⟨1, _⟩ 0 = some 1 from hv]
    simp

end Verif.Order
