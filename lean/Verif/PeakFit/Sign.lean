import Verif.PeakFit.Props
import Verif.Stats.Props
import Verif.Peak.Props

/-!
# The sign of amplitudes and errors (C267)

Source: `/repo/RMutils/util_RM.py` 980-1110 (`measure_FDF_parms`), `/repo/RMtools_1D/do_RMsynth_1D.py` 357-415
(`run_rmsynth`), `/repo/RMtools_3D/RMpeakfit_3D.py` 59-147 (`pixelwise_peak_fitting`). The models are those of
`Peak/Model`, `Pipe1D/Model` and `PeakFit/Model`.
-/

namespace Verif.PeakSign

open Verif.Peak Verif.PeakFit

/-- A reported value, if it is a number, is not negative. -/
def NonNeg (o : Option ℝ) : Prop := ∀ v, o = some v → 0 ≤ v

/-- The values of a measurement that cannot be negative: the amplitude, before and after the correction, the ratio of
signal to noise, and the errors. -/
def GoodSigns (m : Meas) : Prop :=
  NonNeg m.amp ∧ NonNeg m.ampEff ∧ NonNeg m.snr ∧ NonNeg m.dFDFcorMAD ∧ NonNeg m.dAmp ∧ NonNeg m.dPhi ∧
    NonNeg m.dPolAngle ∧ NonNeg m.dPolAngle0

theorem nonNeg_none : NonNeg none := fun _ h => by cases h

theorem nonNeg_some {a : ℝ} (h : 0 ≤ a) : NonNeg (some a) := fun _ e => Option.some.inj e ▸ h

theorem nonNeg_bind {α : Type*} {o : Option α} {f : α → Option ℝ} (h : ∀ a, o = some a → NonNeg (f a)) :
    NonNeg (o.bind f) := by
  cases o with
  | none => exact nonNeg_none
  | some a => exact h a rfl

theorem nonNeg_map {α : Type*} {o : Option α} {f : α → ℝ} (h : ∀ a, o = some a → 0 ≤ f a) : NonNeg (o.map f) := by
  cases o with
  | none => exact nonNeg_none
  | some a => exact nonNeg_some (h a rfl)

theorem nonNeg_fdiv {a b : ℝ} (ha : 0 ≤ a) (hb : 0 ≤ b) : NonNeg (fdiv a b) := by
  unfold fdiv
  by_cases h : b = 0
  · rw [if_pos h]; exact nonNeg_none
  · rw [if_neg h]; exact nonNeg_some (div_nonneg ha hb)

theorem nonNeg_fsqrt (a : ℝ) : NonNeg (fsqrt a) := by
  unfold fsqrt
  by_cases h : a < 0
  · rw [if_pos h]; exact nonNeg_none
  · rw [if_neg h]; exact nonNeg_some (Real.sqrt_nonneg a)

theorem degrees_nonneg {a : ℝ} (h : 0 ≤ a) : 0 ≤ degrees a := by
  unfold degrees
  have := Real.pi_pos
  positivity

theorem degrees_neg {a : ℝ} (h : a < 0) : degrees a < 0 := by
  unfold degrees
  have := Real.pi_pos
  exact div_neg_of_neg_of_pos (mul_neg_of_neg_of_pos h (by norm_num)) this

theorem nonNeg_mad {M : ℕ} (F : Fin (M + 3) → ℂ) (phi : Fin (M + 3) → ℝ) (fwhm : ℝ) : NonNeg (noiseMAD F phi fwhm) := by
  unfold noiseMAD
  dsimp only
  intro v hv
  split at hv
  · exact (Stats.mad_nonneg _).1 v hv
  · exact (Stats.mad_nonneg _).1 v hv

theorem nonNeg_or {a b : Option ℝ} (ha : NonNeg a) (hb : NonNeg b) : NonNeg (a.or b) := by
  cases a with
  | none => exact hb
  | some a => exact ha

variable {M n : ℕ}

/-- The vertex that `measure` uses. -/
noncomputable def top (F : Fin (M + 3) → ℂ) (phi : Fin (M + 3) → ℝ) : Option (ℝ × ℝ) :=
  vertex (phi (before (interiorPeak F))) ‖F (before (interiorPeak F))‖ (phi (centre (interiorPeak F)))
    ‖F (centre (interiorPeak F))‖ (phi (after (interiorPeak F))) ‖F (after (interiorPeak F))‖

/-- With a vertex that is not below zero, a noise and a width that are not negative, nothing negative is reported. -/
theorem signs (F : Fin (M + 3) → ℂ) (phi : Fin (M + 3) → ℝ) (fwhm : ℝ) (dFDF : Option ℝ) (lamSq : Fin n → ℝ) (lam0 thr : ℝ)
    (hfw : 0 ≤ fwhm) (hd : NonNeg dFDF) (hv : ∀ r, top F phi = some r → 0 ≤ r.2) :
    GoodSigns (measure F phi fwhm dFDF lamSq lam0 thr) := by
  have hdd : NonNeg (dFDF.or (noiseMAD F phi fwhm)) := nonNeg_or hd (nonNeg_mad F phi fwhm)
  unfold GoodSigns Peak.measure
  dsimp only
  change ∀ r, vertex _ _ _ _ _ _ = some r → 0 ≤ r.2 at hv
  revert hv hdd
  generalize vertex _ _ _ _ _ _ = V
  generalize dFDF.or (noiseMAD F phi fwhm) = D
  intro hdd hv
  have ha : NonNeg (((V.bind fun r => if maxAbs phi < |r.1| then none else some r)).map Prod.snd) := by
    refine nonNeg_map fun r hr => ?_
    cases V with
    | none => cases hr
    | some r' =>
      rw [Option.bind_some] at hr
      split at hr
      · cases hr
      · exact Option.some.inj hr ▸ hv r' rfl
  revert ha
  generalize ((V.bind fun r => if maxAbs phi < |r.1| then none else some r)).map Prod.snd = A
  intro ha
  refine ⟨ha, ?_, ?_, nonNeg_mad F phi fwhm, hdd, ?_, ?_, ?_⟩
  · refine nonNeg_bind fun a hA => ?_
    cases D with
    | none => exact nonNeg_some (ha a hA)
    | some d =>
      dsimp only
      split
      · exact nonNeg_fsqrt _
      · exact nonNeg_some (ha a hA)
  · exact nonNeg_bind fun r hr => nonNeg_bind fun d hD => nonNeg_fdiv (hv r hr) (hdd d hD)
  · exact nonNeg_bind fun d hD => nonNeg_bind fun a hA => nonNeg_fdiv (mul_nonneg hfw (hdd d hD)) (by have := ha a hA; linarith)
  · refine nonNeg_bind fun d hD => nonNeg_bind fun a hA => nonNeg_map fun x hx => degrees_nonneg ?_
    exact nonNeg_fdiv (hdd d hD) (by have := ha a hA; linarith) x hx
  · refine nonNeg_bind fun d hD => nonNeg_bind fun a hA => ?_
    unfold dAngle0
    exact nonNeg_bind fun _ _ => nonNeg_bind fun _ _ => nonNeg_bind fun _ _ => nonNeg_map fun x hx =>
      degrees_nonneg (nonNeg_fsqrt _ x hx)

/-- The reported amplitude is that of the vertex. -/
theorem top_of_amp (F : Fin (M + 3) → ℂ) (phi : Fin (M + 3) → ℝ) (fwhm : ℝ) (dFDF : Option ℝ) (lamSq : Fin n → ℝ) (lam0 thr A : ℝ)
    (h : (Peak.measure F phi fwhm dFDF lamSq lam0 thr).amp = some A) : ∃ y, top F phi = some (y, A) := by
  change ((top F phi).bind fun r => if maxAbs phi < |r.1| then none else some r).map Prod.snd = some A at h
  cases ht : top F phi with
  | none => rw [ht] at h; cases h
  | some r =>
    rw [ht, Option.bind_some] at h
    split at h
    · cases h
    · exact ⟨r.1, congrArg some (Prod.ext rfl (Option.some.inj h))⟩

/-- On a uniform axis, with no end above the interior samples, the vertex is not below zero. -/
theorem top_nonneg (F : Fin (M + 3) → ℂ) (phi : Fin (M + 3) → ℝ) (a d : ℝ) (hd : 0 < d)
    (hphi : ∀ i, phi i = a + (i : ℕ) * d) (h0 : ‖F 0‖ ≤ ‖F (peakIdx F)‖) (h1 : ‖F (Fin.last _)‖ ≤ ‖F (peakIdx F)‖) :
    ∀ r, top F phi = some r → 0 ≤ r.2 := by
  intro r hr
  have hall : ∀ i, ‖F i‖ ≤ ‖F (peakIdx F)‖ := by
    intro i
    rcases sample_cases i with rfl | rfl | ⟨j, rfl⟩
    · exact h0
    · exact h1
    · exact le_peak F j
  set k := interiorPeak F with hk
  have e1 : phi (before k) = phi (centre k) - d := by
    rw [hphi, hphi, val_before, val_centre]; push_cast; ring
  have e2 : phi (after k) = phi (centre k) + d := by
    rw [hphi, hphi, val_after, val_centre]; push_cast; ring
  unfold top at hr
  rw [← hk, e1, e2] at hr
  have g1 : ‖F (before k)‖ ≤ ‖F (centre k)‖ := hall _
  have g2 : ‖F (after k)‖ ≤ ‖F (centre k)‖ := hall _
  by_cases hflat : ‖F (before k)‖ ≠ ‖F (centre k)‖ ∨ ‖F (after k)‖ ≠ ‖F (centre k)‖
  · have hpos : 0 < ‖F (centre k)‖ := by
      rcases hflat with h | h
      · exact lt_of_le_of_lt (norm_nonneg _) (lt_of_le_of_ne g1 h)
      · exact lt_of_le_of_lt (norm_nonneg _) (lt_of_le_of_ne g2 h)
    obtain ⟨x, A, hv, -, hA⟩ := vertex_near_peak (phi (centre k)) d _ _ _ hd.ne' hpos g1 g2 hflat
    rw [hv] at hr
    rw [← Option.some.inj hr]
    exact (norm_nonneg _).trans hA
  · push Not at hflat
    rw [vertex_line _ _ _ _ _ (by rw [hflat.1, hflat.2]; ring)] at hr
    cases hr

/-- **C267, the part that holds for a spectrum**: on a uniform axis, if neither end is above all interior samples, and
the width and the noise that are given are not negative, then the amplitude, its corrected value, the ratio of signal
to noise, the measured noise and the errors of amplitude, depth and both angles are not negative. -/
theorem measure_signs_partial (F : Fin (M + 3) → ℂ) (phi : Fin (M + 3) → ℝ) (fwhm a d : ℝ) (dFDF : Option ℝ)
    (lamSq : Fin n → ℝ) (lam0 thr : ℝ) (hd : 0 < d) (hphi : ∀ i, phi i = a + (i : ℕ) * d)
    (h0 : ‖F 0‖ ≤ ‖F (peakIdx F)‖) (h1 : ‖F (Fin.last _)‖ ≤ ‖F (peakIdx F)‖) (hfw : 0 ≤ fwhm) (hn : NonNeg dFDF) :
    GoodSigns (measure F phi fwhm dFDF lamSq lam0 thr) :=
  signs F phi fwhm dFDF lamSq lam0 thr hfw hn (top_nonneg F phi a d hd hphi h0 h1)

/-- **C267 is false for a spectrum that rises towards an end**: moduli 20, 2, 1 at depths -1, 0, 1, whatever the width
and the noise are. The reported depth is 19/34, between the samples; the reported amplitude is negative, and so are
the ratio of signal to noise and the errors of the depth and the angle. -/
theorem measure_signs_wrong (fwhm d : ℝ) (hfw : 0 < fwhm) (hd : 0 < d) (lamSq : Fin n → ℝ) (lam0 thr : ℝ) :
    let F : Fin (0 + 3) → ℂ := ![20, 2, 1]
    let phi : Fin (0 + 3) → ℝ := ![-1, 0, 1]
    let m := measure F phi fwhm (some d) lamSq lam0 thr
    m.phi = some (19 / 34) ∧ m.amp = some (-(89 / 136)) ∧
    (∃ s, m.snr = some s ∧ s < 0) ∧ (∃ s, m.dPhi = some s ∧ s < 0) ∧ ∃ s, m.dPolAngle = some s ∧ s < 0 := by
  intro F phi m
  have hk : interiorPeak F = 0 := Fin.ext (by have := (interiorPeak F).isLt; simp)
  have hv : vertex (phi (before 0)) ‖F (before 0)‖ (phi (centre 0)) ‖F (centre 0)‖ (phi (after 0))
      ‖F (after 0)‖ = some (19 / 34, -(89 / 136)) := by
    have := vertex_equal 0 1 20 2 1 (by norm_num) (by norm_num) (by norm_num)
    have e1 : phi (before 0) = 0 - 1 := by simp [phi, before]
    have e2 : phi (centre 0) = 0 := by simp [phi, centre]
    have e3 : phi (after 0) = 0 + 1 := by simp [phi, after]
    have f1 : ‖F (before 0)‖ = 20 := by simp [F, before]
    have f2 : ‖F (centre 0)‖ = 2 := by simp [F, centre]
    have f3 : ‖F (after 0)‖ = 1 := by simp [F, after]
    rw [e1, e2, e3, f1, f2, f3, this]
    norm_num
  have hin : ¬ maxAbs phi < |(19 / 34 : ℝ)| := by
    rw [not_lt]
    have b2 : |phi (after 0)| ≤ maxAbs phi := NumPy.le_npMax (fun i => |phi i|) (after 0)
    have e3 : phi (after 0) = 1 := by simp [phi, after]
    rw [e3] at b2
    norm_num [abs_of_pos] at b2 ⊢
    linarith
  have hf : ((some ((19 / 34 : ℝ), (-(89 / 136) : ℝ))).bind fun r => if maxAbs phi < |r.1| then none else some r) =
      some ((19 / 34 : ℝ), (-(89 / 136) : ℝ)) := by
    rw [Option.bind_some, if_neg hin]
  refine ⟨?_, ?_, ?_, ?_, ?_⟩
  · simp only [m, Peak.measure]; rw [hk, hv, hf]; rfl
  · simp only [m, Peak.measure]; rw [hk, hv, hf]; rfl
  · refine ⟨-(89 / 136) / d, ?_, div_neg_of_neg_of_pos (by norm_num) hd⟩
    simp only [m, Peak.measure]; rw [hk, hv]
    simp only [Option.some_or, Option.bind_some, fdiv, if_neg hd.ne']
  · refine ⟨fwhm * d / (2 * -(89 / 136)), ?_, div_neg_of_pos_of_neg (mul_pos hfw hd) (by norm_num)⟩
    simp only [m, Peak.measure]; rw [hk, hv, hf]
    simp only [Option.some_or, Option.bind_some, Option.map_some, fdiv]
    rw [if_neg (by norm_num)]
  · refine ⟨degrees (d / (2 * -(89 / 136))), ?_, degrees_neg (div_neg_of_pos_of_neg hd (by norm_num))⟩
    simp only [m, Peak.measure]; rw [hk, hv, hf]
    simp only [Option.some_or, Option.bind_some, Option.map_some, fdiv]
    rw [if_neg (by norm_num)]
    rfl

/-! ## The program for one spectrum -/

theorem noiseTheory_nonneg (w d : Fin n → Option ℝ) : NonNeg (Pipe1D.noiseTheory w d) := by
  unfold Pipe1D.noiseTheory
  dsimp only
  split
  · exact nonNeg_none
  · exact nonNeg_some (Real.sqrt_nonneg _)

theorem arrMin_le_arrMax [NeZero n] (f : Fin n → ℝ) : Pipe1D.arrMin f ≤ Pipe1D.arrMax f := by
  have h1 : f 0 ≤ Pipe1D.arrMax f := NumPy.le_npMax f 0
  have h2 : -f 0 ≤ NumPy.npMax fun i => -f i := NumPy.le_npMax (fun i => -f i) 0
  unfold Pipe1D.arrMin
  linarith

/-- **C267, `rmsynth1d`**: the theoretical noise and the error of the amplitude are never negative, whatever the sign
of Stokes I; with an amplitude that is not negative (and the analytical width), neither are the others. -/
theorem run_signs [NeZero n] (x : StokesI.FracIn n) (fit : Option StokesI.FitResult) (o : Pipe1D.Opts) (fw : ℝ)
    (out : Pipe1D.Out) (h : Pipe1D.run x fit o fw = some out) :
    NonNeg out.dFDFth ∧ NonNeg out.meas.dAmp ∧ NonNeg out.meas.dPolAngle0 ∧
    (o.superRes = false → (∃ A, out.meas.amp = some A ∧ 0 ≤ A) → GoodSigns out.meas) := by
  replace h := (Pipe1D.regular_of_run h).2
  unfold Pipe1D.runRegular at h
  dsimp only at h
  obtain ⟨⟨f0, i0'⟩, -, h⟩ := Option.bind_eq_some_iff.1 h
  obtain ⟨i0, -, h⟩ := Option.bind_eq_some_iff.1 h
  split at h
  · rename_i hs
    obtain ⟨m, hm, hout⟩ := Option.map_eq_some_iff.1 h
    have hth : NonNeg ((Pipe1D.noiseTheory (Pipe1D.stage x fit o).weight (Pipe1D.stage x fit o).dqu).map fun v => |i0| * v) :=
      nonNeg_map fun v hv => mul_nonneg (abs_nonneg _) (noiseTheory_nonneg _ _ v hv)
    unfold Pipe1D.measureN at hm
    split at hm
    · have hm' := (Option.some.inj hm).symm
      subst hout
      subst hm'
      refine ⟨hth, nonNeg_or hth (nonNeg_mad _ _ _), ?_, ?_⟩
      swap
      · rintro hsr ⟨A, hA, hA0⟩
        obtain ⟨y, hy⟩ := top_of_amp _ _ _ _ _ _ _ A hA
        refine signs _ _ _ _ _ _ _ ?_ hth fun r hr => ?_
        · rw [hsr, if_neg (by simp)]
          have h1 := arrMin_le_arrMax (Pipe1D.lamSq x.freq)
          exact div_nonneg (by norm_num) (by linarith)
        · rw [hy] at hr
          rw [← Option.some.inj hr]
          exact hA0
      unfold Peak.measure
      dsimp only
      refine nonNeg_bind fun d hD => nonNeg_bind fun a hA => ?_
      unfold dAngle0
      exact nonNeg_bind fun _ _ => nonNeg_bind fun _ _ => nonNeg_bind fun _ _ => nonNeg_map fun x hx =>
        degrees_nonneg (nonNeg_fsqrt _ x hx)
    · cases hm
  · cases h

/-! ## The maps of the peak fit -/

variable {N : ℕ}

/-- The maps of amplitudes, of the ratio of signal to noise, and of errors. -/
def signed : List String :=
  ["ampPeakPIfit", "ampPeakPIfitEff", "snrPIfit", "dFDFcorMAD", "dAmpPeakPIfit", "dPhiPeakPIfit_rm2", "dPolAngleFit_deg",
   "dPolAngle0Fit_deg", "dFDFth"]

theorem noiseFactor_nonneg (variance : Bool) (d : Fin n → Option ℝ) : NonNeg (noiseFactor variance d) := by
  unfold noiseFactor
  split
  · exact noiseTheory_nonneg _ _
  · exact nonNeg_none

/-- **C267, cubes, the part that holds**: where Stokes I is not negative, the spectrum is not highest at an end, and the
width is not negative, no map of an amplitude, a ratio of signal to noise or an error is negative. -/
theorem maps_signs_partial [NeZero n] (x : In n N) (s0 s1 : ℕ) (hx : Fits x s0 s1) (hN : 3 ≤ N) (b0 d : ℝ) (hd : 0 < d)
    (hphi : ∀ i, x.phi i = b0 + (i : ℕ) * d) :
    ∃ maps, fit x allProducts = some (maps, [s0, s1]) ∧
      ∀ a b, a < s0 → b < s1 → ∀ F : Fin N → ℂ, (∀ k : Fin N, x.fdf.get [k, a, b] = some (F k)) →
        (∃ k : Fin N, 0 < (k : ℕ) ∧ (k : ℕ) + 1 < N ∧ ∀ l, ‖F l‖ ≤ ‖F k‖) → 0 ≤ x.fwhm.get [a, b] →
        (∀ v, stokesAt x (a, b) = some v → 0 ≤ v) → ∀ name ∈ signed, NonNeg (maps name (a, b)) := by
  obtain ⟨maps, hm, hp⟩ := maps_spec x s0 s1 hx hN allProducts fun _ h => h
  refine ⟨maps, hm, fun a b ha hb F hF hpk hfw hst name hname => ?_⟩
  obtain ⟨v, m, hv, hme, hval⟩ := (hp a b ha hb).2 F hF
  have hv0 := hst v hv
  have hnoise : NonNeg (noiseAt x v) := by
    unfold noiseAt
    exact nonNeg_bind fun dd _ => nonNeg_map fun f hf => mul_nonneg hv0 (noiseFactor_nonneg _ _ f hf)
  have hgood : GoodSigns m := by
    unfold Pipe1D.measureN at hme
    rw [dif_pos hN] at hme
    rw [← Option.some.inj hme]
    obtain ⟨k, hk0, hk1, hk⟩ := hpk
    set G : Fin (N - 3 + 3) → ℂ := fun i => F (i.cast (by omega)) with hG
    have hpeak : ∀ i, ‖G i‖ ≤ ‖G (peakIdx G)‖ := by
      intro i
      have h1 := le_peak G ⟨k - 1, by omega⟩
      have h2 : G (centre ⟨(k : ℕ) - 1, by omega⟩) = F k := by
        rw [hG]
        refine congrArg F (Fin.ext ?_)
        simp only [Fin.val_cast, val_centre]
        omega
      rw [h2] at h1
      exact (hk _).trans h1
    exact measure_signs_partial G _ _ b0 d _ _ _ _ hd (fun i => by rw [hphi]; rfl) (hpeak 0) (hpeak _) hfw hnoise
  obtain ⟨g1, g2, g3, g4, g5, g6, g7, g8⟩ := hgood
  have hall : ∀ name ∈ signed, name ∈ allProducts := by decide
  rw [hval name (hall name hname)]
  simp only [signed, List.mem_cons, List.not_mem_nil, or_false] at hname
  rcases hname with rfl | rfl | rfl | rfl | rfl | rfl | rfl | rfl | rfl
  · exact g1
  · exact g2
  · exact g3
  · exact g4
  · exact g5
  · exact g6
  · exact g7
  · exact g8
  · exact hnoise

/-- **C267 is false for cubes with negative Stokes I**: with a noise file, in every pixel where Stokes I at the
reference frequency is negative (and the width, the noise of the channels and the amplitude `A` positive), the
theoretical noise, the error of the amplitude, the ratio of signal to noise and the errors of depth and angle are all
negative, and the amplitude is not corrected for bias, however bright the peak is. -/
theorem maps_signs_wrong [NeZero n] (x : In n N) (s0 s1 : ℕ) (hx : Fits x s0 s1) (hN : 3 ≤ N)
    (ns : Fin n → Option ℝ) (hns : x.noise = some ns) (f : ℝ) (hf : noiseFactor x.variance ns = some f) (hf0 : 0 < f) :
    ∃ maps, fit x allProducts = some (maps, [s0, s1]) ∧
      ∀ a b, a < s0 → b < s1 → ∀ F : Fin N → ℂ, (∀ k : Fin N, x.fdf.get [k, a, b] = some (F k)) →
        0 < x.fwhm.get [a, b] → ∀ v, stokesAt x (a, b) = some v → v < 0 →
        ∀ A, maps "ampPeakPIfit" (a, b) = some A → 0 < A →
          (∀ name ∈ ["dFDFth", "dAmpPeakPIfit", "snrPIfit", "dPhiPeakPIfit_rm2", "dPolAngleFit_deg"],
            ∃ s, maps name (a, b) = some s ∧ s < 0) ∧
          maps "ampPeakPIfitEff" (a, b) = some A := by
  obtain ⟨maps, hm, hp⟩ := maps_spec x s0 s1 hx hN allProducts fun _ h => h
  refine ⟨maps, hm, fun a b ha hb F hF hfw v hv hvn A hA hA0 => ?_⟩
  obtain ⟨v', m, hv', hme, hval⟩ := (hp a b ha hb).2 F hF
  obtain rfl : v' = v := by rw [hv] at hv'; exact (Option.some.inj hv').symm
  have hnoise : noiseAt x v' = some (v' * f) := by
    unfold noiseAt
    rw [hns, Option.bind_some, hf, Option.map_some]
  have hneg : v' * f < 0 := mul_neg_of_neg_of_pos hvn hf0
  rw [hval _ (by decide)] at hA
  change m.amp = some A at hA
  rw [hnoise] at hme hval
  unfold Pipe1D.measureN at hme
  rw [dif_pos hN] at hme
  have hme := Option.some.inj hme
  have key : m.dAmp = some (v' * f) ∧ m.snr = some (A / (v' * f)) ∧ m.dPhi = some (x.fwhm.get [a, b] * (v' * f) / (2 * A)) ∧
      m.dPolAngle = some (degrees (v' * f / (2 * A))) ∧ m.ampEff = some A := by
    subst hme
    unfold Peak.measure at hA ⊢
    dsimp only at hA ⊢
    revert hA
    generalize vertex _ _ _ _ _ _ = V
    cases V with
    | none => intro h; cases h
    | some r =>
      intro hA
      simp only [Option.bind_some] at hA ⊢
      by_cases hin : maxAbs (fun i : Fin (N - 3 + 3) => x.phi (i.cast (by omega))) < |r.1|
      · rw [if_pos hin] at hA; cases hA
      · rw [if_neg hin] at hA ⊢
        have hr : r.2 = A := Option.some.inj hA
        have h2 : (2 : ℝ) * A ≠ 0 := by positivity
        have hsnr : ¬ snrReaches A (v' * f) 5 := by
          unfold snrReaches
          rw [if_neg hneg.ne]
          have := div_neg_of_pos_of_neg hA0 hneg
          linarith
        simp only [Option.some_or, Option.bind_some, Option.map_some, hr, fdiv, if_neg hneg.ne, if_neg h2, if_neg hsnr, and_self]
  obtain ⟨k1, k2, k3, k4, k5⟩ := key
  constructor
  · intro name hname
    have hmem : name ∈ allProducts := by
      revert hname
      revert name
      decide
    rw [hval name hmem]
    simp only [List.mem_cons, List.not_mem_nil, or_false] at hname
    rcases hname with rfl | rfl | rfl | rfl | rfl
    · exact ⟨_, rfl, hneg⟩
    · exact ⟨_, k1, hneg⟩
    · exact ⟨_, k2, div_neg_of_pos_of_neg hA0 hneg⟩
    · exact ⟨_, k3, div_neg_of_neg_of_pos (mul_neg_of_pos_of_neg hfw hneg) (by positivity)⟩
    · exact ⟨_, k4, degrees_neg (div_neg_of_neg_of_pos hneg (by positivity))⟩
  · rw [hval _ (by decide)]
    exact k5

/-! ## Cases -/

/-- One pixel, the moduli 1, 2, 1 at three depths, two channels of noise 1, Stokes I of `i`. -/
noncomputable def signIn (i : ℝ) : In 2 3 where
  fdf := { shape := [3, 1, 1], get := fun idx => if idx.headD 0 = 1 then some 2 else some 1 }
  phi := fun k => (k : ℕ)
  fwhm := { shape := [1, 1], get := fun _ => 1 }
  lamSq := fun j => (j : ℕ) + 1
  lam0 := 0
  noise := some fun _ => some 1
  i := some { shape := [2, 1, 1], get := fun _ => i }
  variance := false

theorem signIn_fits (i : ℝ) : Fits (signIn i) 1 1 := by
  refine ⟨rfl, rfl, ?_, ?_⟩
  · intro c hc
    have : ({ shape := [2, 1, 1], get := fun _ => i } : NumPy.NdArr ℝ) = c := Option.some.inj hc
    subst this
    refine ⟨rfl, fun i => ?_⟩
    unfold ifreq0Pix freq0
    simp [signIn]
  · intro d hd
    have : (fun _ => some 1) = d := Option.some.inj hd
    subst this
    unfold noiseFactor Pipe1D.finiteWeights Pipe1D.noiseTheory
    simp [signIn]

theorem signIn_noise (i : ℝ) : ∃ f, noiseFactor (signIn i).variance (fun _ : Fin 2 => some 1) = some f ∧ 0 < f := by
  refine ⟨Real.sqrt (1 / 2), ?_, Real.sqrt_pos.2 (by norm_num)⟩
  unfold noiseFactor Pipe1D.finiteWeights Pipe1D.noiseTheory
  norm_num [signIn]

theorem signIn_stokes (i : ℝ) : stokesAt (signIn i) (0, 0) = some i := by
  unfold stokesAt ifreq0Pix freq0
  simp [signIn]
  ring

/-- The spectrum of the pixel. -/
noncomputable def signF : Fin 3 → ℂ := fun k => if (k : ℕ) = 1 then 2 else 1

theorem signF_eq (i : ℝ) (k : Fin 3) : (signIn i).fdf.get [k, 0, 0] = some (signF k) := by
  fin_cases k <;> rfl

/-- The hypotheses of the two theorems on cubes hold for this cube, with Stokes I of 3 and of -3: in the first case
nothing is negative, in the second the ratio of signal to noise is. -/
theorem maps_signs_case :
    (∃ maps, fit (signIn 3) allProducts = some (maps, [1, 1]) ∧ ∀ name ∈ signed, NonNeg (maps name (0, 0))) ∧
    ∃ maps, fit (signIn (-3)) allProducts = some (maps, [1, 1]) ∧ ∃ s, maps "snrPIfit" (0, 0) = some s ∧ s < 0 := by
  have hnorm : ∀ l : Fin 3, ‖signF l‖ ≤ ‖signF 1‖ := by
    intro l
    fin_cases l <;> simp [signF]
  constructor
  · obtain ⟨maps, hm, h⟩ := maps_signs_partial (signIn 3) 1 1 (signIn_fits 3) le_rfl 0 1 one_pos (fun i => by simp [signIn])
    exact ⟨maps, hm, h 0 0 one_pos one_pos signF (signF_eq 3) ⟨1, by decide, by decide, hnorm⟩ zero_le_one
      fun v hv => by rw [signIn_stokes] at hv; rw [← Option.some.inj hv]; norm_num⟩
  · obtain ⟨f, hf, hf0⟩ := signIn_noise (-3)
    obtain ⟨maps, hm, h⟩ := maps_signs_wrong (signIn (-3)) 1 1 (signIn_fits _) le_rfl _ rfl f hf hf0
    refine ⟨maps, hm, ?_⟩
    have hA : ∃ A, maps "ampPeakPIfit" (0, 0) = some A ∧ 0 < A := by
      obtain ⟨maps', hm', h'⟩ := maps_spec (signIn (-3)) 1 1 (signIn_fits _) le_rfl allProducts fun _ h => h
      obtain rfl : maps = maps' := (Prod.ext_iff.1 (Option.some.inj (hm.symm.trans hm'))).1
      obtain ⟨v, m, -, hme, hval⟩ := (h' 0 0 one_pos one_pos).2 signF (signF_eq _)
      have hpk : peakIdx (M := 0) signF = 1 := by
        unfold peakIdx
        have : interiorPeak (M := 0) signF = 0 := Fin.ext (by have := (interiorPeak (M := 0) signF).isLt; omega)
        rw [this]; rfl
      obtain ⟨A, x, hA, -, hall, -⟩ := amp_ge_samples_partial (M := 0) signF (signIn (-3)).phi 1 0 1
        (noiseAt (signIn (-3)) v) (signIn (-3)).lamSq (signIn (-3)).lam0 5 one_pos (fun i => by simp [signIn])
        (by rw [hpk]; exact hnorm _) (by rw [hpk]; exact hnorm _) (Or.inl (by
          rw [hpk]
          have : interiorPeak (M := 0) signF = 0 := Fin.ext (by have := (interiorPeak (M := 0) signF).isLt; omega)
          rw [this]
          simp [signF, before]))
      refine ⟨A, ?_, lt_of_lt_of_le (by simp [signF]) (hall 1)⟩
      rw [hval _ (by decide)]
      unfold Pipe1D.measureN at hme
      rw [dif_pos le_rfl] at hme
      rw [← Option.some.inj hme]
      exact hA
    obtain ⟨A, hA, hA0⟩ := hA
    exact (h 0 0 one_pos one_pos signF (signF_eq _) one_pos (-3) (signIn_stokes _) (by norm_num) A hA hA0).1 _ (by decide)

end Verif.PeakSign
