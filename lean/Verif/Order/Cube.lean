import Verif.Order.Run
import Verif.Pipe3D.Model
import Verif.Rmsf.Props

/-!
# RM synthesis of cubes and the order of the channels (C274)

Source: `/repo/RMtools_3D/do_RMsynth_3D.py` 57-268.
-/

namespace Verif.Order

open Verif.NumPy Verif.Pipe3D

variable {n m : ℕ}

/-- The cubes with the planes in another order. -/
def cube (e : Equiv.Perm (Fin n)) (x : In n m) : In n m where
  q := fun j => x.q (e j)
  u := fun j => x.u (e j)
  i := x.i.map fun i j => i (e j)
  freq := x.freq ∘ e
  rms := x.rms.map (· ∘ e)

/-! ## Helper lemmas -/

theorem cube_weight (e : Equiv.Perm (Fin n)) (x : In n m) (o : Pipe1D.Opts) (j : Fin n) : Pipe3D.weight (cube e x) o j = Pipe3D.weight x o (e j) := by
  unfold Pipe3D.weight cube
  cases x.rms <;> rfl

theorem cube_divided (e : Equiv.Perm (Fin n)) (x : In n m) (d : Fin n → Fin m → Option ℝ) (j : Fin n) (p : Fin m) :
    divided (cube e x) (fun j => d (e j)) j p = divided x d (e j) p := by
  unfold divided cube
  cases x.i <;> rfl

/-- The call of `do_rmsynth_planes` on a given depth axis. -/
noncomputable def synthAt (x : In n m) (o : Pipe1D.Opts) (a : ℝ × ℝ) : Synth.Input n m (Axis.nChanRM a.2 a.1) where
  dataQ := divided x x.q
  dataU := divided x x.u
  lamSq := Pipe1D.lamSq x.freq
  phi := Axis.phiAxis a.2 a.1
  weight := some (Pipe3D.weight x o)
  lam0 := if o.superRes then some 0 else none

theorem synthAt_perm (e : Equiv.Perm (Fin n)) (x : In n m) (o : Pipe1D.Opts) (a : ℝ × ℝ) :
    synthAt (cube e x) o a = Synth.selectChannels e (synthAt x o a) := by
  unfold synthAt Synth.selectChannels
  congr 1
  · funext j p
    exact cube_divided e x x.q j p
  · funext j p
    exact cube_divided e x x.u j p
  · exact congrArg some (funext fun j => cube_weight e x o j)

/-- The call of `get_rmsf_planes` on a given depth axis. -/
noncomputable def rmsfAt {k : ℕ} (x : In n m) (o : Pipe1D.Opts) (phi2 : Fin k → ℝ) (l : ℝ) : Rmsf.Input n m k where
  lamSq := Pipe1D.lamSq x.freq
  phi2 := phi2
  weight := some (Pipe3D.weight x o)
  msk := fun j p => (x.q j p).isNone
  lam0 := some l

theorem rmsfAt_perm {k : ℕ} (e : Equiv.Perm (Fin n)) (x : In n m) (o : Pipe1D.Opts) (phi2 : Fin k → ℝ) (l : ℝ) :
    rmsfAt (cube e x) o phi2 l = Rmsf.selectChannels e (rmsfAt x o phi2 l) := by
  unfold rmsfAt Rmsf.selectChannels
  congr 1
  exact congrArg some (funext fun j => cube_weight e x o j)

theorem cube_axis [NeZero n] (e : Equiv.Perm (Fin n)) (x : In n m) (o : Pipe1D.Opts) (h : o.phiMax.isSome ∨ maxStep (x.freq ∘ e) = maxStep x.freq) :
    Pipe3D.axisParams (cube e x) o = Pipe3D.axisParams x o := axis_perm e x.freq o h

theorem cube_regular [NeZero n] (e : Equiv.Perm (Fin n)) (x : In n m) (o : Pipe1D.Opts)
    (h : o.phiMax.isSome ∨ maxStep (x.freq ∘ e) = maxStep x.freq) : Pipe3D.Regular (cube e x) o ↔ Pipe3D.Regular x o := by
  unfold Pipe3D.Regular
  rw [cube_axis e x o h]
  refine and_congr (e.surjective.forall (p := fun j => 0 < x.freq j)).symm (and_congr ?_ (and_congr_right fun _ => ?_))
  · rw [e.surjective.exists (p := fun j => ∃ j', x.freq j ≠ x.freq j')]
    exact exists_congr fun j => (e.surjective.exists (p := fun j' => x.freq (e j) ≠ x.freq j')).symm
  · have key : ∀ r : Fin n → Option ℝ, Pipe1D.finiteWeights o.variance (r ∘ e) ↔ Pipe1D.finiteWeights o.variance r := fun r => by
      unfold Pipe1D.finiteWeights
      exact forall_congr' fun _ => (e.surjective.forall (p := fun j => r j ≠ some 0)).symm
    cases hr : x.rms with
    | none => simp [cube, hr]
    | some r => simp [cube, hr, key]

/-! ## C274 -/

/-- **C274, the part that holds.** The planes of the cubes in any other order, with the range of depths given or the largest step in wavelength squared
between neighbours unchanged: the depth axis, the reference wavelength, the spectra before the multiplication by Stokes I and the RMSF cube are the
same, and without Stokes I the FDF cube is. -/
theorem cube_order_partial [NeZero n] (e : Equiv.Perm (Fin n)) (x : In n m) (o : Pipe1D.Opts)
    (h : o.phiMax.isSome ∨ maxStep (x.freq ∘ e) = maxStep x.freq) :
    ∃ hN : nPhi (cube e x) o = nPhi x o,
      (∀ l, (synthInput (cube e x) o).phi l = (synthInput x o).phi (l.cast hN)) ∧
      Synth.lam0Sq (synthInput (cube e x) o) = Synth.lam0Sq (synthInput x o) ∧
      (∀ l p, Synth.fdf (synthInput (cube e x) o) l p = Synth.fdf (synthInput x o) (l.cast hN) p) ∧
      (∃ hM : Axis.nPhi2 (nPhi (cube e x) o) = Axis.nPhi2 (nPhi x o), rmsfCube (cube e x) o = (rmsfCube x o).map fun g l => g (l.cast hM)) ∧
      (x.i = none → ∀ l p, fdfCube (cube e x) o l p = fdfCube x o (l.cast hN) p) := by
  have key : ∀ a b : ℝ × ℝ, a = b → ∃ hN : Axis.nChanRM a.2 a.1 = Axis.nChanRM b.2 b.1,
      (∀ l, (synthAt (cube e x) o a).phi l = (synthAt x o b).phi (l.cast hN)) ∧
      Synth.lam0Sq (synthAt (cube e x) o a) = Synth.lam0Sq (synthAt x o b) ∧
      (∀ l p, Synth.fdf (synthAt (cube e x) o a) l p = Synth.fdf (synthAt x o b) (l.cast hN) p) ∧
      ∃ hM : Axis.nPhi2 (Axis.nChanRM a.2 a.1) = Axis.nPhi2 (Axis.nChanRM b.2 b.1),
        ((Axis.phi2 (synthAt (cube e x) o a).phi).map fun g => Rmsf.rmsf (rmsfAt (cube e x) o g (Synth.lam0Sq (synthAt (cube e x) o a)))) =
          ((Axis.phi2 (synthAt x o b).phi).map fun g => Rmsf.rmsf (rmsfAt x o g (Synth.lam0Sq (synthAt x o b)))).map fun g l => g (l.cast hM) := by
    rintro a _ rfl
    have hs := Synth.permute_channels e (synthAt x o a)
    rw [← synthAt_perm] at hs
    have h2 : Synth.lam0Sq (synthAt (cube e x) o a) = Synth.lam0Sq (synthAt x o a) := congrArg Prod.snd hs
    refine ⟨rfl, fun l => rfl, h2, fun l p => congrFun (congrFun (congrArg Prod.fst hs) l) p, rfl, ?_⟩
    rw [h2, Option.map_map]
    show _ = Option.map _ (Axis.phi2 (synthAt x o a).phi)
    have : ∀ (k : ℕ) (g : Fin k → ℝ) (l : ℝ), Rmsf.rmsf (rmsfAt (cube e x) o g l) = Rmsf.rmsf (rmsfAt x o g l) := fun k g l => by
      rw [rmsfAt_perm, (Rmsf.rmsf_permute e _).1]
    simp only [this]
    rfl
  obtain ⟨hN, h1, h2, h3, hM, h4⟩ := key _ _ (cube_axis e x o h)
  refine ⟨hN, h1, h2, h3, ⟨hM, ?_⟩, fun hi l p => ?_⟩
  · unfold rmsfCube
    by_cases hr : Pipe3D.Regular x o
    · rw [if_pos hr, if_pos ((cube_regular e x o h).mpr hr)]
      exact h4
    · rw [if_neg hr, if_neg fun h' => hr ((cube_regular e x o h).mp h')]
      rfl
  · unfold fdfCube
    by_cases hr : Pipe3D.Regular x o
    · rw [if_pos hr, if_pos ((cube_regular e x o h).mpr hr)]
      have hs : ∀ y : In n m, y.i = none → scale y o p = some (some 1) := fun y hy => by
        unfold scale
        rw [hy]
      rw [hs x hi, hs (cube e x) (by simp [cube, hi]), show Synth.fdf (synthInput (cube e x) o) l p = _ from h3 l p]
      rfl
    · rw [if_neg hr, if_neg fun h' => hr ((cube_regular e x o h).mp h')]

/-- **C274 for the reverse order**, with default options: the same, up to the multiplication by Stokes I. -/
theorem cube_reverse_partial [NeZero n] (x : In n m) (o : Pipe1D.Opts) :
    ∃ hN : nPhi (cube Fin.revPerm x) o = nPhi x o,
      (∀ l p, Synth.fdf (synthInput (cube Fin.revPerm x) o) l p = Synth.fdf (synthInput x o) (l.cast hN) p) ∧
      (x.i = none → ∀ l p, fdfCube (cube Fin.revPerm x) o l p = fdfCube x o (l.cast hN) p) := by
  obtain ⟨hN, -, -, h3, -, h5⟩ := cube_order_partial Fin.revPerm x o (Or.inr (step_reverse x.freq))
  exact ⟨hN, h3, h5⟩

/-! ## The order matters -/

/-- Half the sum of two values, NaN if one of them is. -/
noncomputable def mean2 (a b : Option ℝ) : Option ℝ := a.bind fun a => b.map fun b => (1 / 2) * a + (1 / 2) * b

/-- The strictly nearest channel is found in every order. -/
theorem nearest_perm [NeZero n] (e : Equiv.Perm (Fin n)) (freq : Fin n → ℝ) (f0 : ℝ) (i : Fin n) (h : ∀ j, j ≠ i → |freq i - f0| < |freq j - f0|) :
    npArgmax (fun j => -|(freq ∘ e) j - f0|) = e.symm i := by
  have key : ∀ j, j ≠ e.symm i → -|(freq ∘ e) j - f0| < -|(freq ∘ e) (e.symm i) - f0| := fun j hj => by
    have := h (e j) fun h' => hj (by rw [← h', e.symm_apply_apply])
    simp only [Function.comp_apply, e.apply_symm_apply]
    linarith
  rw [npArgmax_eq_iff]
  refine ⟨fun j => ?_, fun j hj => key j hj.ne⟩
  by_cases hj : j = e.symm i
  · rw [hj]
  · exact (key j hj).le

theorem nearest_strict (freq : Fin n → ℝ) (hasc : StrictMono freq) (f0 : ℝ) (i : Fin n) (hi : (i : ℕ) + 1 < n) (h1 : freq i < f0)
    (h2 : f0 < (freq i + freq ⟨i + 1, hi⟩) / 2) (j : Fin n) (hj : j ≠ i) : |freq i - f0| < |freq j - f0| := by
  rw [abs_of_neg (by linarith)]
  rcases lt_or_gt_of_ne hj with h | h
  · have := hasc h
    rw [abs_of_neg (by linarith)]
    linarith
  · have := hasc.monotone (show (⟨i + 1, hi⟩ : Fin n) ≤ j from h)
    rw [abs_of_pos (by linarith)]
    linarith

/-- The reference frequency, for any order. -/
theorem freq0_perm [NeZero n] (e : Equiv.Perm (Fin n)) (x : In n m) (o : Pipe1D.Opts) (h : o.phiMax.isSome ∨ maxStep (x.freq ∘ e) = maxStep x.freq) :
    freq0 (cube e x).freq (Synth.lam0Sq (synthInput (cube e x) o)) = freq0 x.freq (Synth.lam0Sq (synthInput x o)) := by
  obtain ⟨-, -, h2, -⟩ := cube_order_partial e x o h
  rw [h2]
  unfold freq0
  rw [show ∑ j, (cube e x).freq j = ∑ j, x.freq j from Equiv.sum_comp e x.freq]

theorem ifreq_below [NeZero n] (freq : Fin n → ℝ) (v : Fin n → Option ℝ) (f0 : ℝ) (k : Fin n) (hk : npArgmax (fun j => -|freq j - f0|) = k)
    (hlt : freq k < f0) : Pipe3D.ifreq0 freq v f0 = if h : (k : ℕ) + 1 < n then some (mean2 (v k) (v ⟨k + 1, h⟩)) else none := by
  subst hk
  unfold Pipe3D.ifreq0
  dsimp only
  rw [if_pos hlt]
  rfl

/-- **C274, the part that fails.** Ascending channels and their reverse, with a Stokes I model, and the reference frequency above a channel and nearer to
it than to the next one. In ascending order the spectra are multiplied by the mean of the two planes around the reference frequency; in descending
order by the mean of the plane below it and the next one further below, and if there is none the run raises. -/
theorem cube_reverse_scale [NeZero n] (x : In n m) (o : Pipe1D.Opts) (I : Fin n → Fin m → Option ℝ) (hI : x.i = some I) (hasc : StrictMono x.freq)
    (i : Fin n) (hi : (i : ℕ) + 1 < n) (h1 : x.freq i < freq0 x.freq (Synth.lam0Sq (synthInput x o)))
    (h2 : freq0 x.freq (Synth.lam0Sq (synthInput x o)) < (x.freq i + x.freq ⟨i + 1, hi⟩) / 2) (p : Fin m) :
    scale x o p = some (mean2 (I i p) (I ⟨i + 1, hi⟩ p)) ∧
    scale (cube Fin.revPerm x) o p = if h : 0 < (i : ℕ) then some (mean2 (I i p) (I ⟨i - 1, by omega⟩ p)) else none := by
  have hst := nearest_strict x.freq hasc _ i hi h1 h2
  have hk := nearest_perm 1 x.freq _ i hst
  have hk' := nearest_perm Fin.revPerm x.freq _ i hst
  have hf := freq0_perm Fin.revPerm x o (Or.inr (step_reverse x.freq))
  have hs : scale x o p = Pipe3D.ifreq0 x.freq (fun j => I j p) (freq0 x.freq (Synth.lam0Sq (synthInput x o))) := by
    unfold scale
    rw [hI]
  have hs' : scale (cube Fin.revPerm x) o p =
      Pipe3D.ifreq0 (x.freq ∘ Fin.revPerm) (fun j => I (Fin.revPerm j) p) (freq0 x.freq (Synth.lam0Sq (synthInput x o))) := by
    unfold scale
    rw [hf, show (cube Fin.revPerm x).i = some fun j => I (Fin.revPerm j) by simp [cube, hI]]
    rfl
  constructor
  · rw [hs, ifreq_below x.freq _ _ i hk h1, dif_pos hi]
  · have hr : ((Fin.revPerm.symm i : Fin n) : ℕ) = n - (i + 1) := Fin.val_rev i
    rw [hs', ifreq_below _ _ _ _ hk' (by simpa using h1)]
    by_cases h : 0 < (i : ℕ)
    · rw [dif_pos h, dif_pos (by omega)]
      have e2 : (Fin.revPerm ⟨(Fin.revPerm.symm i : Fin n) + 1, by omega⟩ : Fin n) = ⟨i - 1, by omega⟩ := by
        apply Fin.ext
        simp only [Fin.revPerm_apply, Fin.val_rev, hr]
        omega
      rw [Equiv.apply_symm_apply, e2]
    · rw [dif_neg h, dif_neg (by omega)]

/-- A case, for all frequencies and all values: two channels without flags or variance weights. In ascending order a result, in descending order an
exception at the end of the axis. -/
theorem two_channels_raise (f1 f2 : ℝ) (h0 : 0 < f1) (h12 : f1 < f2) (Q U I : Fin 2 → ℝ) (hI : ∀ j, I j ≠ 0) (o : Pipe1D.Opts) (hs : o.superRes = false)
    (hd : o.dPhi = some 1) :
    let x : In 2 1 := ⟨fun j _ => some (Q j), fun j _ => some (U j), some fun j _ => some (I j), ![f1, f2], none⟩
    Pipe3D.Regular x o ∧ Pipe3D.Regular (cube Fin.revPerm x) o ∧ scale x o 0 = some (some ((1 / 2) * I 0 + (1 / 2) * I 1)) ∧
      (∀ l, ∃ v, fdfCube x o l 0 = some v) ∧ ∀ l, fdfCube (cube Fin.revPerm x) o l 0 = none := by
  intro x
  have hasc : StrictMono x.freq := by
    intro a b hab
    have : a = 0 ∧ b = 1 := by omega
    rw [this.1, this.2]
    exact h12
  have hreg : Pipe3D.Regular x o := by
    refine ⟨fun j => ?_, ⟨0, 1, h12.ne⟩, ?_, fun r hr => by cases hr⟩
    · fin_cases j
      · exact h0
      · exact h0.trans h12
    · show (Pipe1D.axisParams x.freq o).1 ≠ 0
      unfold Pipe1D.axisParams
      rw [hd]
      exact one_ne_zero
  have hreg' := (cube_regular Fin.revPerm x o (Or.inr (step_reverse x.freq))).mpr hreg
  have hw : ∀ j, Synth.weight1 (synthInput x o) j = 1 := fun j => by
    rw [Synth.weight1_eq, if_pos ⟨0, by
      show (SynthSpec.pol (StokesI.divNaN (some (Q j)) (some (I j))) (StokesI.divNaN (some (U j)) (some (I j)))).isSome = true
      simp [StokesI.divNaN, SynthSpec.pol, hI j]⟩]
    rfl
  have hl : Synth.lam0Sq (synthInput x o) = ((Pipe1D.c / f1) ^ 2 + (Pipe1D.c / f2) ^ 2) / 2 := by
    unfold Synth.lam0Sq
    rw [show (synthInput x o).lam0 = none by simp [synthInput, hs]]
    simp only [hw, Fin.sum_univ_two]
    rw [if_neg (by norm_num)]
    show 1 / (1 + 1) * (1 * Pipe1D.lamSq ![f1, f2] 0 + 1 * Pipe1D.lamSq ![f1, f2] 1) = _
    unfold Pipe1D.lamSq
    simp only [Matrix.cons_val_zero, Matrix.cons_val_one]
    ring
  have hc : 0 < Pipe1D.c := by
    unfold Pipe1D.c
    norm_num
  have h2 : 0 < f2 := h0.trans h12
  set f0 := freq0 x.freq (Synth.lam0Sq (synthInput x o)) with hf0
  have hpos : 0 < Synth.lam0Sq (synthInput x o) := by
    rw [hl]
    positivity
  have hfp : 0 < f0 := by
    rw [hf0]
    unfold freq0
    rw [if_pos hpos]
    positivity
  have hsq : f0 ^ 2 * (f1 ^ 2 + f2 ^ 2) = 2 * f1 ^ 2 * f2 ^ 2 := by
    rw [hf0]
    unfold freq0
    rw [if_pos hpos, div_pow, Real.sq_sqrt hpos.le, hl]
    field_simp
    ring
  have a1 : f1 < f0 := by
    by_contra h
    push Not at h
    have : f0 ^ 2 ≤ f1 ^ 2 := by nlinarith
    have : f0 ^ 2 * (f1 ^ 2 + f2 ^ 2) ≤ f1 ^ 2 * (f1 ^ 2 + f2 ^ 2) := by nlinarith [sq_nonneg f1, sq_nonneg f2]
    have : f1 ^ 2 < f2 ^ 2 := by nlinarith
    nlinarith [mul_pos (pow_pos h0 2) (sub_pos.mpr this)]
  have a2 : f0 < (f1 + f2) / 2 := by
    by_contra h
    push Not at h
    have b1 : ((f1 + f2) / 2) ^ 2 ≤ f0 ^ 2 := by nlinarith
    have b2 : f1 * f2 < ((f1 + f2) / 2) ^ 2 := by nlinarith [mul_pos (sub_pos.mpr h12) (sub_pos.mpr h12)]
    have b3 : f1 * f2 * (2 * (f1 * f2)) ≤ f1 * f2 * (f1 ^ 2 + f2 ^ 2) :=
      mul_le_mul_of_nonneg_left (by nlinarith [sq_nonneg (f1 - f2)]) (mul_pos h0 h2).le
    have b4 : f1 * f2 * (f1 ^ 2 + f2 ^ 2) < f0 ^ 2 * (f1 ^ 2 + f2 ^ 2) := mul_lt_mul_of_pos_right (b2.trans_le b1) (by positivity)
    nlinarith
  have e2 : x.freq ⟨((0 : Fin 2) : ℕ) + 1, one_lt_two⟩ = f2 := rfl
  have a3 : f0 < (x.freq 0 + x.freq ⟨((0 : Fin 2) : ℕ) + 1, one_lt_two⟩) / 2 := by
    rw [e2]
    exact a2
  obtain ⟨r1, r2⟩ := cube_reverse_scale x o (fun j _ => some (I j)) rfl hasc 0 one_lt_two a1 a3 0
  rw [dif_neg (by simp)] at r2
  refine ⟨hreg, hreg', r1, fun l => ?_, fun l => ?_⟩
  · unfold fdfCube
    rw [if_pos hreg, r1]
    exact ⟨_, rfl⟩
  · unfold fdfCube
    rw [if_pos hreg', r2]
    rfl

end Verif.Order
