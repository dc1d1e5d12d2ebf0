import Verif.Order.FlaggedCase
import Verif.Order.FlaggedClean
import Verif.StokesFit.NoI

/-!
# More channels (C298)

Source: `/repo/RMtools_1D/do_RMsynth_1D.py` 147-177 (columns), 253-263 (width), 291-297 (weights), 365-369 (noise); `/repo/RMutils/util_RM.py` 980-1110
(`measure_FDF_parms`).

A user who adds channels to a spectrum expects that the errors do not become larger. The spectra have no Stokes I columns.
-/

namespace Verif.Order

open Verif.NumPy Verif.Pipe1D Verif.StokesI Verif.StokesFit Verif.Mpfit Verif.Errors

variable {n k N : ℕ}

/-! ## Helper lemmas -/

/-- The noise with inverse-variance weights. -/
theorem noise_inverse (d : Fin n → Option ℝ) (h : ∀ j, d j ≠ some 0) (hs : ∑ j, (weight true (d j)).getD 0 ≠ 0) :
    noiseTheory (fun j => weight true (d j)) d = some (Real.sqrt (1 / ∑ j, (weight true (d j)).getD 0)) := by
  unfold noiseTheory
  dsimp only
  rw [if_neg hs]
  have : ∀ j, (weight true (d j)).getD 0 ^ 2 * ((d j).getD 0) ^ 2 = (weight true (d j)).getD 0 := fun j => by
    cases hd : d j with
    | none => simp [weight]
    | some s =>
      have : s ≠ 0 := fun h0 => h j (by rw [hd, h0])
      simp only [weight, if_true, Option.map_some, Option.getD_some]
      field_simp
  rw [Finset.sum_congr rfl fun j _ => this j]
  congr 2
  field_simp

/-- The parts of a run that depend on the noise. -/
theorem tail_parts (freq : Fin n → ℝ) [NeZero n] (o : Opts) (fw : ℝ) (inp : Synth.Input n 1 N) (w d q : Fin n → Option ℝ)
    (hinp : inp.weight = some w) (hw : ∀ j, 0 ≤ (w j).getD 0) (f : ℝ → ℝ) (out : Out)
    (h : runTail freq o fw inp w d q (fun l => some (f l, some 1)) = some out) :
    ∃ t, noiseTheory w d = some t ∧ out.dFDFth = some t ∧ out.meas.dAmp = some t ∧
      out.nChannels = (Finset.univ.filter fun j => (w j).getD 0 ≠ 0 ∧ (q j).isSome).card ∧
      (out.meas.dPhi = out.meas.amp.bind fun a => Peak.fdiv ((if o.superRes then fw else 3.8 / extent freq) * t) (2 * a)) ∧
      (out.meas.dPolAngle = out.meas.amp.bind fun a => (Peak.fdiv t (2 * a)).map Peak.degrees) ∧
      ∀ a, out.meas.amp = some a → out.meas.snr = Peak.fdiv a t := by
  unfold runTail at h
  dsimp only at h
  rw [Option.bind_some, Option.bind_some, Option.dite_none_right_eq_some] at h
  obtain ⟨hF, h⟩ := h
  obtain ⟨m, hm, rfl⟩ := Option.map_eq_some_iff.mp h
  have hN : 3 ≤ N := by
    by_contra h0
    unfold measureN at hm
    rw [dif_neg h0] at hm
    cases hm
  obtain ⟨t, ht, -⟩ := noise_some inp w d (by omega) hinp hw hF
  unfold measureN at hm
  rw [dif_pos hN, ht] at hm
  have hm := Option.some.inj hm
  subst hm
  refine ⟨t, ht, ?_, ?_, rfl, ?_, ?_, ?_⟩
  · dsimp only
    rw [ht]
    simp
  · simp [Peak.measure]
  · simp [Peak.measure, extent]
  · simp [Peak.measure]
  · intro a ha
    dsimp only [Peak.measure] at ha ⊢
    obtain ⟨r, hr, hra⟩ := Option.map_eq_some_iff.mp ha
    obtain ⟨v, hv, hvr⟩ := Option.bind_eq_some_iff.mp hr
    rw [hv]
    split_ifs at hvr
    have := Option.some.inj hvr
    subst this
    rw [← hra]
    simp

theorem given_parts [NeZero n] (freq : Fin n → ℝ) (q u dQ dU : Fin n → Option ℝ) (o : Opts) (fw ref : ℝ) (out : Out)
    (h : asGiven freq q u dQ dU o fw ref = some out) :
    (∃ j j', freq j ≠ freq j') ∧ finiteWeights o.variance (fun j => dqu (dQ j) (dU j)) ∧
    ∃ t, noiseTheory (fun j => weight o.variance (dqu (dQ j) (dU j))) (fun j => dqu (dQ j) (dU j)) = some t ∧ out.dFDFth = some t ∧
      out.meas.dAmp = some t ∧
      out.nChannels = (Finset.univ.filter fun j => (weight o.variance (dqu (dQ j) (dU j))).getD 0 ≠ 0 ∧ (q j).isSome).card ∧
      (out.meas.dPhi = out.meas.amp.bind fun a => Peak.fdiv ((if o.superRes then fw else 3.8 / extent freq) * t) (2 * a)) ∧
      (out.meas.dPolAngle = out.meas.amp.bind fun a => (Peak.fdiv t (2 * a)).map Peak.degrees) ∧
      ∀ a, out.meas.amp = some a → out.meas.snr = Peak.fdiv a t := by
  unfold asGiven at h
  dsimp only at h
  rw [Option.ite_none_right_eq_some] at h
  obtain ⟨⟨-, h2, -, h4⟩, h⟩ := h
  exact ⟨h2, h4, tail_parts freq o fw _ _ _ q rfl (fun j => weight_nonneg _ _) (fun l => if l = 0 then ref else c / Real.sqrt l) out h⟩

/-- A sum over some of the terms. -/
theorem sum_rows_le (e : Fin k → Fin n) (he : Function.Injective e) (f : Fin n → ℝ) (h : ∀ j, 0 ≤ f j) : ∑ i, f (e i) ≤ ∑ j, f j := by
  refine (Finset.sum_map Finset.univ ⟨e, he⟩ f).symm.le.trans ?_
  exact Finset.sum_le_sum_of_subset_of_nonneg (Finset.subset_univ _) fun j _ _ => h j

/-! ## The property -/

/-- **C298 (partial).** Two tables without Stokes I, of which the second has some of the rows of the first in any order, with the same options and
inverse-variance weights: the theoretical noise and the error of the amplitude from the longer table are not larger, and its number of channels is not
smaller. Where both report the same amplitude, the errors of the depth and of the angle are not larger, and the ratio of signal to noise is not smaller
(the error of the depth without super-resolution). Missing: uniform weights, see `more_channels_noisier`. -/
theorem more_channels_partial [NeZero n] [NeZero k] (e : Fin k → Fin n) (he : Function.Injective e) (freq : Fin n → ℝ) (hf : ∀ j, 0 < freq j)
    (q u dQ dU : Fin n → Option ℝ) (polyOrd : ℤ) (fn : FitFun) (hord : FitsOrder k polyOrd) (c' : Cfg) (hc : c'.Ok) (o : Opts)
    (ho : o.variance = true) (fw fw' : ℝ) (w : Raw n) (w' : Raw k) (hw : readData freq [q, u, dQ, dU] false polyOrd fn none = some w)
    (hw' : readData (freq ∘ e) [q ∘ e, u ∘ e, dQ ∘ e, dU ∘ e] false polyOrd fn none = some w') (out out' : Out)
    (hrun : w.run c' o fw = some (some out)) (hrun' : w'.run c' o fw' = some (some out')) :
    ∃ t t', out.dFDFth = some t ∧ out'.dFDFth = some t' ∧ out.meas.dAmp = some t ∧ out'.meas.dAmp = some t' ∧ 0 < t ∧ t ≤ t' ∧
      out'.nChannels ≤ out.nChannels ∧
      ∀ A, 0 < A → out.meas.amp = some A → out'.meas.amp = some A →
        (∃ a a', out.meas.dPolAngle = some a ∧ out'.meas.dPolAngle = some a' ∧ a ≤ a') ∧
        (∃ s s', out.meas.snr = some s ∧ out'.meas.snr = some s' ∧ s' ≤ s) ∧
        (o.superRes = false → ∃ b b', out.meas.dPhi = some b ∧ out'.meas.dPhi = some b' ∧ b ≤ b') := by
  have hkn : k ≤ n := by simpa using Fintype.card_le_of_injective e he
  have hord' : FitsOrder n polyOrd := hord.imp id fun ⟨a, h1, h2, h3⟩ => ⟨a, h1, h2, by omega⟩
  obtain ⟨⟨v, -, hv, -, hvr, -⟩, -⟩ := without_I_partial freq (fun _ => none) (fun _ => none) q u dQ dU hf polyOrd fn hord' o fw c' hc
  obtain ⟨⟨v', -, hv', -, hvr', -⟩, -⟩ := without_I_partial (freq ∘ e) (fun _ => none) (fun _ => none) (q ∘ e) (u ∘ e) (dQ ∘ e) (dU ∘ e)
    (fun i => hf (e i)) polyOrd fn hord o fw' c' hc
  obtain rfl : v = w := Option.some.inj (hv.symm.trans hw)
  obtain rfl : v' = w' := Option.some.inj (hv'.symm.trans hw')
  rw [hvr] at hrun
  rw [hvr'] at hrun'
  obtain ⟨-, hz, t, ht, g1, g2, g3, g4, g5, g6⟩ := given_parts _ _ _ _ _ _ _ _ _ (Option.some.inj hrun)
  obtain ⟨h2, hz', t', ht', g1', g2', g3', g4', g5', g6'⟩ := given_parts _ _ _ _ _ _ _ _ _ (Option.some.inj hrun')
  rw [ho] at ht ht' g3 g3'
  have nn : ∀ j, 0 ≤ (weight true (dqu (dQ j) (dU j))).getD 0 := fun j => weight_nonneg _ _
  have hle := sum_rows_le e he (fun j => (weight true (dqu (dQ j) (dU j))).getD 0) nn
  have hS' : ∑ i, (weight true (dqu ((dQ ∘ e) i) ((dU ∘ e) i))).getD 0 ≠ 0 := by
    intro h0
    unfold noiseTheory at ht'
    dsimp only at ht'
    rw [if_pos h0] at ht'
    cases ht'
  have hp' : 0 < ∑ i, (weight true (dqu (dQ (e i)) (dU (e i)))).getD 0 := lt_of_le_of_ne (Finset.sum_nonneg fun i _ => nn (e i)) (Ne.symm hS')
  have hp : 0 < ∑ j, (weight true (dqu (dQ j) (dU j))).getD 0 := lt_of_lt_of_le hp' hle
  rw [noise_inverse (fun j => dqu (dQ j) (dU j)) (hz ho) hp.ne'] at ht
  rw [noise_inverse (fun i => dqu ((dQ ∘ e) i) ((dU ∘ e) i)) (hz' ho) hS'] at ht'
  have ht := Option.some.inj ht
  have ht' := Option.some.inj ht'
  have tp : 0 < t := by rw [← ht]; exact Real.sqrt_pos.mpr (by positivity)
  have tt : t ≤ t' := by
    rw [← ht, ← ht']
    exact Real.sqrt_le_sqrt (one_div_le_one_div_of_le hp' hle)
  refine ⟨t, t', g1, g1', g2, g2', tp, tt, ?_, fun A hA hA1 hA2 => ⟨?_, ?_, fun hs => ?_⟩⟩
  · rw [g3, g3']
    refine Finset.card_le_card_of_injOn e (fun i hi => ?_) he.injOn
    simpa using hi
  · rw [g5, g5', hA1, hA2]
    have h2A : 2 * A ≠ 0 := by positivity
    refine ⟨_, _, by simp only [Option.bind_some, Peak.fdiv, if_neg h2A, Option.map_some]; rfl,
      by simp only [Option.bind_some, Peak.fdiv, if_neg h2A, Option.map_some]; rfl, ?_⟩
    unfold Peak.degrees
    have : t / (2 * A) ≤ t' / (2 * A) := by gcongr
    have := Real.pi_pos
    gcongr
  · rw [g6 A hA1, g6' A hA2]
    refine ⟨_, _, if_neg tp.ne', if_neg (tp.trans_le tt).ne', ?_⟩
    gcongr
  · obtain ⟨W, W', -, -, W0, WW, rW, rW'⟩ := width_planes e freq hf h2
    rw [g4, g4', hA1, hA2, hs]
    have h2A : 2 * A ≠ 0 := by positivity
    have r1 : 3.8 / extent freq = W := rW.symm
    have r2 : 3.8 / extent (freq ∘ e) = W' := rW'.symm
    rw [r1, r2]
    refine ⟨_, _, by simp only [Option.bind_some, Peak.fdiv, if_neg h2A, Bool.false_eq_true, if_false]; rfl,
      by simp only [Option.bind_some, Peak.fdiv, if_neg h2A, Bool.false_eq_true, if_false]; rfl, ?_⟩
    have := mul_le_mul WW tt tp.le (W0.trans_le WW).le
    exact div_le_div_of_nonneg_right this (by positivity)

/-! ## Cases -/

/-- A source of depth zero in a table of given errors. -/
noncomputable def flatSource (freq : Fin k → ℝ) (E : Fin k → ℝ) : Raw k where
  freq := freq
  i := fun _ => some 1
  q := fun _ => some (1 / 2)
  u := fun _ => some 0
  dI := fun _ => some 0
  dQ := fun j => some (E j)
  dU := fun j => some (E j)
  polyOrd := 0
  fn := .linear
  modI := none

/-- `threeOpts` with either weighting. -/
noncomputable def optsOf (v : Bool) : Opts := { threeOpts with variance := v }

theorem flatSource_run [NeZero k] (freq E : Fin k → ℝ) (hE : ∀ j, 0 < E j) (hf : ∀ j, 0 < freq j) (a b : Fin k) (ha : lamSq freq a = 1) (hb : lamSq freq b = 2)
    (v : Bool) : ∃ out, (flatSource freq E).run mpDefault (optsOf v) 1 = some (some out) ∧ out.meas.amp = some (1 / 2) ∧
      out.dFDFth = noiseTheory (fun j => weight v (dqu (some (E j)) (some (E j)))) (fun j => dqu (some (E j)) (some (E j))) := by
  have hN : Axis.nChanRM (axisParams freq (optsOf v)).2 (axisParams freq (optsOf v)).1 = 3 := three_axis
  have hphi : Axis.phiAxis (axisParams freq (optsOf v)).2 (axisParams freq (optsOf v)).1 ⟨1, by rw [hN]; norm_num⟩ = 0 := by
    obtain ⟨cc, h1, h2, -, -⟩ := Axis.phiAxis_spec (1 / 2) (1 / 2) (by norm_num)
    have h3 : Axis.nChanRM (1 / 2) (1 / 2) = 3 := hN
    have hcc : cc = 1 := by omega
    change Axis.phiAxis (1 / 2) (1 / 2) ⟨1, _⟩ = 0
    rw [h2, hcc]
    simp
  have hk : 0 < k := NeZero.pos k
  obtain ⟨out, h1, -, h3, h4, -⟩ := run_flat_source (flatSource freq E) mpDefault mpDefault_ok 1 one_pos
    (Or.inr fun j x _ h => (Option.some.inj h).symm) (fun j x hx _ => (Option.some.inj hx).symm)
    (Or.inl ⟨0, rfl, by norm_num, Finset.card_pos.mpr ⟨a, by simp [flatSource]⟩⟩) rfl hf (optsOf v) rfl 1 (1 / 2) 0
    ⟨1, by
      change 1 < Axis.nChanRM (axisParams freq (optsOf v)).2 (axisParams freq (optsOf v)).1
      rw [hN]; norm_num⟩ Nat.one_pos
    (by
      change 1 + 1 < Axis.nChanRM (axisParams freq (optsOf v)).2 (axisParams freq (optsOf v)).1
      rw [hN]; norm_num) (by norm_num)
    (by change (0 : ℝ) < 1 / 2; norm_num)
    (fun j => by
      have h0 : Axis.phiAxis (axisParams (flatSource freq E).freq (optsOf v)).2 (axisParams (flatSource freq E).freq (optsOf v)).1
        ⟨1, by change 1 < Axis.nChanRM (axisParams freq (optsOf v)).2 (axisParams freq (optsOf v)).1; rw [hN]; norm_num⟩ = 0 := hphi
      right; right
      dsimp only
      rw [h0]
      simp [flatSource, Raw.frac])
    (fun _ j x y hx hy => by
      have := hE j
      rw [← Option.some.inj hx, ← Option.some.inj hy]
      linarith) a b (by simp [Usable, flatSource, Raw.frac])
    (by simp [Usable, flatSource, Raw.frac])
    (by
      change lamSq freq a ≠ lamSq freq b
      rw [ha, hb]
      norm_num)
    (by
      change ((Axis.nChanRM (axisParams freq (optsOf v)).2 (axisParams freq (optsOf v)).1 - 1 : ℕ) : ℝ) * (1 / 2) *
        |lamSq freq a - lamSq freq b| < Real.pi
      rw [hN, ha, hb]
      norm_num
      linarith [Real.pi_gt_three])
  refine ⟨out, h1, by rw [h3]; norm_num, ?_⟩
  have hu := unit_run (flatSource freq E) mpDefault mpDefault_ok (fun _ => rfl) (fun _ => by simp [flatSource])
    (Or.inr fun j x _ h => (Option.some.inj h).symm) rfl (Or.inr ⟨0, rfl, by norm_num, hk⟩) hf (optsOf v) 1
  rw [hu] at h1
  obtain ⟨-, -, t, ht, g1, -⟩ := given_parts _ _ _ _ _ _ _ _ _ (Option.some.inj h1)
  rw [g1, ← ht]
  rfl

theorem dqu_same (x : ℝ) (hx : 0 < x) : dqu (some x) (some x) = some x := by
  simp only [dqu, Option.bind_some, Option.map_some]
  rw [abs_of_pos (by linarith)]
  congr 1
  ring

/-- Errors of one in two channels and of ten in a third. -/
noncomputable def oneTen : Fin 3 → ℝ := ![1, 1, 10]

theorem three_pos (j : Fin 3) : 0 < threeFreq j := by
  have hc : (0 : ℝ) < Pipe1D.c := by unfold Pipe1D.c; norm_num
  exact div_pos hc (Real.sqrt_pos.mpr (by positivity))

theorem oneTen_pos (j : Fin 3) : 0 < oneTen j := by fin_cases j <;> simp [oneTen]

/-- **C298, refuted for uniform weights.** A source of amplitude one half in three channels with errors 1, 1 and 10, and the same without the third
channel: the amplitudes are the same, and the noise reported with the third channel is more than four times that reported without it. -/
theorem more_channels_noisier : ∃ (w : Raw 3) (w' : Raw 2) (out out' : Out) (t t' : ℝ), w' = rawRows firstTwo w ∧
    readData threeFreq [fun _ => some (1 / 2), fun _ => some 0, fun j => some (oneTen j), fun j => some (oneTen j)] false 0 .linear none = some w ∧
    w.run mpDefault (optsOf false) 1 = some (some out) ∧ w'.run mpDefault (optsOf false) 1 = some (some out') ∧
    out.meas.amp = some (1 / 2) ∧ out'.meas.amp = some (1 / 2) ∧ out.dFDFth = some t ∧ out'.dFDFth = some t' ∧ 0 < t' ∧ 4 * t' < t := by
  obtain ⟨out, h1, h2, h3⟩ := flatSource_run threeFreq oneTen oneTen_pos three_pos 0 1 (by rw [threeFreq_lamSq]; norm_num)
    (by rw [threeFreq_lamSq]; norm_num) false
  obtain ⟨out', h1', h2', h3'⟩ := flatSource_run (threeFreq ∘ firstTwo) (oneTen ∘ firstTwo) (fun j => oneTen_pos _) (fun j => three_pos _) 0 1
    (by change lamSq threeFreq (firstTwo 0) = 1; rw [threeFreq_lamSq]; norm_num [firstTwo])
    (by change lamSq threeFreq (firstTwo 1) = 2; rw [threeFreq_lamSq]; norm_num [firstTwo]) false
  have k1 : out.dFDFth = some (Real.sqrt (102 / 9)) := by
    rw [h3]
    simp only [dqu_same _ (oneTen_pos _)]
    have e0 : oneTen 0 = 1 := rfl
    have e1 : oneTen 1 = 1 := rfl
    have e2 : oneTen 2 = 10 := rfl
    unfold noiseTheory
    simp only [weight, Fin.sum_univ_three, e0, e1, e2, Bool.false_eq_true, if_false, Option.getD_some]
    rw [if_neg (by norm_num)]
    congr 2
    norm_num
  have k2 : out'.dFDFth = some (Real.sqrt (1 / 2)) := by
    rw [h3']
    simp only [dqu_same _ (oneTen_pos _), Function.comp_apply]
    unfold noiseTheory
    simp only [weight, Fin.sum_univ_two, oneTen, firstTwo]
    norm_num
  refine ⟨flatSource threeFreq oneTen, _, out, out', _, _, rfl, rfl, h1, h1', h2, h2', k1, k2, Real.sqrt_pos.mpr (by norm_num), ?_⟩
  rw [show (4 : ℝ) = Real.sqrt 16 by rw [show (16 : ℝ) = 4 ^ 2 by norm_num]; exact (Real.sqrt_sq (by norm_num)).symm, ← Real.sqrt_mul (by norm_num)]
  exact Real.sqrt_lt_sqrt (by norm_num) (by norm_num)

/-- The hypotheses of `more_channels_partial` for the same two tables with inverse-variance weights. -/
example : ∃ (w : Raw 3) (w' : Raw 2) (out out' : Out) (t t' : ℝ), w.run mpDefault (optsOf true) 1 = some (some out) ∧
    w'.run mpDefault (optsOf true) 1 = some (some out') ∧ out.dFDFth = some t ∧ out'.dFDFth = some t' ∧ 0 < t ∧ t ≤ t' := by
  obtain ⟨out, h1, h2, h3⟩ := flatSource_run threeFreq oneTen oneTen_pos three_pos 0 1 (by rw [threeFreq_lamSq]; norm_num)
    (by rw [threeFreq_lamSq]; norm_num) true
  obtain ⟨out', h1', h2', h3'⟩ := flatSource_run (threeFreq ∘ firstTwo) (oneTen ∘ firstTwo) (fun j => oneTen_pos _) (fun j => three_pos _) 0 1
    (by change lamSq threeFreq (firstTwo 0) = 1; rw [threeFreq_lamSq]; norm_num [firstTwo])
    (by change lamSq threeFreq (firstTwo 1) = 2; rw [threeFreq_lamSq]; norm_num [firstTwo]) true
  obtain ⟨t, t', g1, g2, -, -, g3, g4, -⟩ := more_channels_partial firstTwo (Fin.castSucc_injective 2) threeFreq three_pos (fun _ => some (1 / 2))
    (fun _ => some 0) (fun j => some (oneTen j)) (fun j => some (oneTen j)) 0 .linear (Or.inr ⟨0, rfl, by norm_num, by norm_num⟩) mpDefault mpDefault_ok
    (optsOf true) rfl 1 1 _ _ rfl rfl out out' h1 h1'
  exact ⟨_, _, out, out', t, t', h1, h1', g1, g2, g3, g4⟩

end Verif.Order
