import Verif.Clean1D.Model
import Verif.Clean.HogbomProps
import Verif.Clean.Bridge
import Verif.Peak.Thin
import Verif.Stats.Props
import Mathlib.Algebra.Order.Chebyshev

/-!
# One-dimensional RM-CLEAN (C126 - C130)
-/

set_option linter.unusedSectionVars false

namespace Verif.Clean1D

open Verif.NumPy Complex

variable {n M N2 : ℕ} [NeZero N2]

/-- The parameters of the only pixel. -/
noncomputable def In.params (x : In n M N2) : Clean.Params (M + 3) N2 := x.cube.params 0

/-! ### Helper lemmas -/

theorem stage2_below {N : ℕ} [NeZero N] (P : Clean.Params N N2) (dirty : Fin N → ℂ)
    (h : npMax (fun i => ‖dirty i‖) < P.cutoff) : Clean.stage2 P dirty = Clean.start dirty := by
  have h1 : Clean.stage1 P dirty = Clean.start dirty := by
    unfold Clean.stage1
    cases P.maxIter with
    | zero => rfl
    | succ f =>
      unfold Clean.loop1
      rw [if_neg (show ¬ P.cutoff ≤ npMax fun i => ‖(Clean.start dirty).resid i‖ from not_le.2 h)]
  unfold Clean.stage2
  rw [h1]
  dsimp only
  cases P.maxIter - (Clean.start dirty).iter with
  | zero => rfl
  | succ f =>
    unfold Clean.loop2
    rw [if_neg]
    unfold Clean.cond2
    cases P.window with
    | none => exact id
    | some w =>
      rintro ⟨⟨i, hi⟩, -⟩
      rcases hi with hi | ⟨k, hk, -⟩
      · exact hi rfl
      · exact hk rfl

theorem hogbom_one (x : In n M N2) (hpad : Clean.PadOk (M + 3) N2) :
    ∃ r, Clean.hogbom x.cube = some r ∧
      (∀ i, r.clean i 0 = some ((Clean.stage2 x.params x.dirty).clean i + (Clean.stage2 x.params x.dirty).resid i)) ∧
      (∀ i, r.cc i 0 = (Clean.stage2 x.params x.dirty).cc i) ∧
      (∀ i, r.resid i 0 = some ((Clean.stage2 x.params x.dirty).resid i)) ∧
      r.iterCount 0 = (Clean.stage2 x.params x.dirty).iter := by
  have hpix : x.cube.runPixel 0 = some ⟨fun i => some ((Clean.stage2 x.params x.dirty).clean i),
      fun i => some ((Clean.stage2 x.params x.dirty).resid i), (Clean.stage2 x.params x.dirty).cc,
      (Clean.stage2 x.params x.dirty).iter⟩ := by
    unfold Clean.Cube.runPixel
    rw [if_neg (by rintro ⟨i, hi⟩; simp [In.cube] at hi)]
    have : Clean.cleanLoop (x.cube.params 0) (fun i => (x.cube.dirty i 0).getD 0) =
        some (Clean.stage2 x.params x.dirty) := by
      unfold Clean.cleanLoop
      rw [if_neg (by omega), if_neg (by tauto)]
      rfl
    rw [this]
    rfl
  have hsome : ∃ r, Clean.hogbom x.cube = some r := by
    unfold Clean.hogbom
    have : ∀ l : List (Fin 1), ∀ obj, ∃ q, x.cube.runTasks l obj = some q := by
      intro l
      induction l with
      | nil => intro obj; exact ⟨_, rfl⟩
      | cons p ps ih =>
        intro obj
        have hp : p = 0 := Subsingleton.elim _ _
        subst hp
        unfold Clean.Cube.runTasks Clean.Cube.runTask
        rw [hpix]
        simp only [Option.map_some, Option.bind_eq_bind, Option.bind_some]
        obtain ⟨q, hq⟩ := ih (if (Clean.stage2 x.params x.dirty).iter = 0 then obj
          else Function.update obj 0 (Clean.stage2 x.params x.dirty).iter)
        rw [hq]
        exact ⟨_, rfl⟩
    obtain ⟨q, hq⟩ := this x.cube.tasks (fun _ => 0)
    rw [hq]
    exact ⟨_, rfl⟩
  obtain ⟨r, hr⟩ := hsome
  refine ⟨r, hr, ?_⟩
  by_cases hs : x.cube.selected 0
  · obtain ⟨o, ho, h1, h2, h3, h4⟩ := (Clean.hogbom_pixel x.cube r hr 0).1 hs
    rw [hpix] at ho
    have := Option.some.inj ho
    subst this
    exact ⟨fun i => by rw [h1]; rfl, h2, h3, h4⟩
  · obtain ⟨h1, h2, h3, h4⟩ := (Clean.hogbom_pixel x.cube r hr 0).2 hs
    have e : Clean.stage2 x.params x.dirty = Clean.start x.dirty := by
      apply stage2_below
      unfold Clean.Cube.selected at hs
      rw [not_le] at hs
      exact hs
    rw [e]
    refine ⟨fun i => ?_, fun i => ?_, fun i => ?_, h4⟩
    · rw [h1]; simp [Clean.start, In.cube]
    · rw [h2]; rfl
    · rw [h3]; rfl

/-- What `run` returns. -/
theorem run_eq (x : In n M N2) (hpad : Clean.PadOk (M + 3) N2) (hn : x.noise ≠ 0) :
    run x = some (x.report
      (fun i => (Clean.stage2 x.params x.dirty).clean i + (Clean.stage2 x.params x.dirty).resid i)
      (Clean.stage2 x.params x.dirty).cc (Clean.stage2 x.params x.dirty).resid
      (Clean.stage2 x.params x.dirty).iter) := by
  obtain ⟨r, hr, h1, h2, h3, h4⟩ := hogbom_one x hpad
  unfold run
  rw [hr, Option.bind_some, if_neg hn]
  congr 2
  · funext i; rw [h1]; rfl
  · funext i; rw [h2]
  · funext i; rw [h3]; rfl

/-! ### C126 -/

/-- C126. For a threshold of `c` sigma (given as `-c`) everything returned is that of the absolute threshold
`c * noise`, likewise for the window, and with iterations left the residual is everywhere below `c` times the noise. -/
theorem sigma_cutoff (x : In n M N2) (c : ℝ) (hc : 0 < c) (hn : 0 < x.noise) :
    run { x with cutoff := -c } = run { x with cutoff := c * x.noise } ∧
    (∀ w, 0 < w → run { x with window := some (-w) } = run { x with window := some (w * x.noise) }) ∧
    ∀ o, run { x with cutoff := -c } = some o → o.cutoff = c * x.noise ∧
      (x.window = none → o.nIter < x.maxIter → ∀ i, ‖o.resid i‖ < c * x.noise) := by
  have habs : ∀ c : ℝ, 0 < c → absolute x.noise (-c) = absolute x.noise (c * x.noise) := by
    intro c hc
    unfold absolute
    rw [if_pos (by linarith), if_neg (by rw [not_lt]; positivity)]
    ring
  have habs2 : absolute x.noise (-c) = c * x.noise := by
    unfold absolute; rw [if_pos (by linarith)]; ring
  refine ⟨?_, ?_, ?_⟩
  · unfold run In.cube In.report
    simp only [habs c hc]
  · intro w hw
    unfold run In.cube In.report
    simp only [Option.map_some, habs w hw]
  · intro o ho
    have hpadcase : Clean.PadOk (M + 3) N2 ∨ ¬ Clean.PadOk (M + 3) N2 := em _
    rcases hpadcase with hpad | hpad
    · rw [run_eq { x with cutoff := -c } hpad hn.ne'] at ho
      have := Option.some.inj ho
      subst this
      refine ⟨habs2, ?_⟩
      intro hw hlt i
      set P := In.params { x with cutoff := -c } with hP
      obtain ⟨-, -, h3, -, h5⟩ := Clean.clean_stops P x.dirty
      have hw' : P.window = none := by
        show (x.window.map _) = none
        rw [hw]; rfl
      have e := h5 hw'
      have hlt' : (Clean.stage2 P x.dirty).iter < P.maxIter := hlt
      rw [e] at hlt'
      have := h3 hlt' i
      have hcut : P.cutoff = c * x.noise := habs2
      show ‖(Clean.stage2 P x.dirty).resid i‖ < _
      rw [e, ← hcut]
      exact this
    · -- CLEAN raises when entered; otherwise nothing was cleaned
      unfold run at ho
      rw [Option.bind_eq_some_iff] at ho
      obtain ⟨r, hr, ho⟩ := ho
      rw [if_neg hn.ne'] at ho
      have := Option.some.inj ho
      subst this
      refine ⟨habs2, ?_⟩
      intro hw hlt i
      obtain ⟨hA, hB⟩ := Clean.hogbom_pixel _ r hr 0
      by_cases hs : (In.cube { x with cutoff := -c }).selected 0
      · exfalso
        obtain ⟨o, ho, -, -, -, h4⟩ := hA hs
        unfold Clean.Cube.runPixel at ho
        rw [if_neg (by rintro ⟨i, hi⟩; simp [In.cube] at hi)] at ho
        unfold Clean.cleanLoop at ho
        rw [if_neg (by omega), if_pos ⟨⟨hs, lt_of_le_of_lt (Nat.zero_le _) hlt⟩, hpad⟩] at ho
        simp at ho
      · obtain ⟨-, -, h3, -⟩ := hB hs
        show ‖(r.resid i 0).getD 0‖ < _
        rw [h3]
        unfold Clean.Cube.selected at hs
        rw [not_le] at hs
        have h1 : ‖x.dirty i‖ ≤ npMax fun i => ‖x.dirty i‖ := le_npArgmax (fun i => ‖x.dirty i‖) i
        have h2 : npMax (fun i => ‖x.dirty i‖) < absolute x.noise (-c) := hs
        rw [habs2] at h2
        exact lt_of_le_of_lt h1 h2

/-! ### C127 -/

/-- C127. In another unit of flux (`g` per old unit), with the thresholds in sigma left as they are and absolute ones
converted, the depths, angles and their uncertainties, the signal to noise, the number of iterations and the second
moment are the same, and fluxes are converted. -/
theorem clean1D_units (x : In n M N2) (g : ℝ) (hg : 0 < g) (hpad : Clean.PadOk (M + 3) N2) (hn : 0 < x.noise)
    (c' : ℝ) (hcut : c' = if x.cutoff < 0 then x.cutoff else g * x.cutoff)
    (w' : Option ℝ) (hwin : w' = x.window.map fun w => if w < 0 then w else g * w) :
    ∃ o o', run x = some o ∧
      run { x with dirty := fun i => (g : ℂ) * x.dirty i, noise := g * x.noise, cutoff := c', window := w' } = some o' ∧
      o'.nIter = o.nIter ∧ o'.mom2CC = o.mom2CC ∧ o'.cutoff = g * o.cutoff ∧
      o'.dPhiObs = o.dPhiObs ∧ o'.dPolAngleObs = o.dPolAngleObs ∧ o'.dPolAngle0Obs = o.dPolAngle0Obs ∧
      o'.dAmpObs = o.dAmpObs.map (g * ·) ∧
      o'.meas.phi = o.meas.phi ∧ o'.meas.dPhi = o.meas.dPhi ∧ o'.meas.snr = o.meas.snr ∧
      o'.meas.polAngle = o.meas.polAngle ∧ o'.meas.polAngle0 = o.meas.polAngle0 ∧
      o'.meas.amp = o.meas.amp.map (g * ·) ∧ o'.meas.ampEff = o.meas.ampEff.map (g * ·) ∧
      (∀ i, o'.clean i = g * o.clean i) ∧ (∀ i, o'.cc i = g * o.cc i) ∧ ∀ i, o'.resid i = g * o.resid i := by
  set x' : In n M N2 :=
    { x with dirty := fun i => (g : ℂ) * x.dirty i, noise := g * x.noise, cutoff := c', window := w' } with hx'
  have hn' : x'.noise ≠ 0 := (mul_pos hg hn).ne'
  refine ⟨_, _, run_eq x hpad hn.ne', run_eq x' hpad hn', ?_⟩
  have hgz : (g : ℂ) ≠ 0 := by exact_mod_cast hg.ne'
  have hnorm : ‖(g : ℂ)‖ = g := by rw [Complex.norm_real, Real.norm_of_nonneg hg.le]
  have habs : ∀ c : ℝ, absolute (g * x.noise) (if c < 0 then c else g * c) = g * absolute x.noise c := by
    intro c
    unfold absolute
    by_cases h : c < 0
    · simp only [if_pos h]; ring
    · simp only [if_neg h]
      rw [if_neg (by rw [not_lt] at h ⊢; positivity)]
  have hcut' : absolute x'.noise x'.cutoff = g * absolute x.noise x.cutoff := by
    show absolute (g * x.noise) c' = _
    rw [hcut, habs]
  have hP : x'.params = ({ x.params with
      cutoff := ‖(g : ℂ)‖ * x.params.cutoff
      window := x.params.window.map (‖(g : ℂ)‖ * ·) } : Clean.Params (M + 3) N2) := by
    unfold In.params Clean.Cube.params
    simp only [Clean.Params.mk.injEq]
    refine ⟨rfl, rfl, rfl, rfl, rfl, ?_, ?_⟩
    · rw [hnorm]; exact hcut'
    · rw [hnorm]
      show w'.map (absolute (g * x.noise)) = (x.window.map (absolute x.noise)).map _
      rw [hwin, Option.map_map, Option.map_map]
      congr 1
      funext c
      exact habs c
  have hst : Clean.stage2 x'.params x'.dirty = Clean.scale g (Clean.stage2 x.params x.dirty) := by
    rw [hP]
    exact Clean.clean_equivariant x.params g hgz x.dirty
  rw [hst]
  set s := Clean.stage2 x.params x.dirty with hs
  have hclean : (fun i => (Clean.scale (g : ℂ) s).clean i + (Clean.scale (g : ℂ) s).resid i) =
      fun i => (g : ℂ) * (s.clean i + s.resid i) := by
    funext i; simp only [Clean.scale]; ring
  rw [hclean]
  obtain ⟨m1, m2, m3, m4, m5, m6, m7, m8, m9, m10, m11, m12, -, -⟩ :=
    Peak.measure_units (fun i => s.clean i + s.resid i) x.phi x.fwhm (some x.noise) (Pipe1D.lamSq x.freq) x.lam0 5 g hg
  have hobs : ∀ e e' mad mad' : Option ℝ, e' = e → mad' = mad.map (g * ·) →
      observed e' mad' (g * x.noise) = observed e mad x.noise := by
    rintro e e' mad mad' rfl rfl
    unfold observed
    cases e' with
    | none => rfl
    | some a =>
      cases mad with
      | none => rfl
      | some m =>
        simp only [Option.map_some, Option.bind_some]
        congr 1
        have := hn.ne'
        field_simp
  refine ⟨rfl, ?_, hcut', hobs _ _ _ _ m2 m12, hobs _ _ _ _ m6 m12, hobs _ _ _ _ m8 m12, m12, m1, m2, m3, m5, m7, m9,
    m10, fun i => rfl, fun i => rfl, fun i => rfl⟩
  exact (Stats.mom2_invariant s.cc x.phi 0 g hgz).2

/-! ### C128 -/

theorem varLamSq_nonneg (lam : Fin n → ℝ) (v : ℝ) (h : Peak.varLamSq lam = some v) : 0 ≤ v := by
  unfold Peak.varLamSq Peak.fdiv at h
  by_cases h0 : (n : ℝ) = 0
  · rw [if_pos h0] at h; simp at h
  · rw [if_neg h0, Option.bind_some] at h
    by_cases h1 : (n : ℝ) - 1 = 0
    · rw [if_pos h1] at h; simp at h
    rw [if_neg h1] at h
    have := Option.some.inj h
    rw [← this]
    have hn : n ≠ 0 := by intro e; apply h0; rw [e]; simp
    have hpos : (0 : ℝ) < n := by positivity
    have hn1 : (0 : ℝ) ≤ (n : ℝ) - 1 := by
      have : (1 : ℝ) ≤ n := by exact_mod_cast Nat.one_le_iff_ne_zero.2 hn
      linarith
    apply div_nonneg _ hn1
    rw [sub_nonneg, div_le_iff₀ hpos]
    have := sq_sum_le_card_mul_sum_sq (s := (Finset.univ : Finset (Fin n))) (f := lam)
    rw [Finset.card_univ, Fintype.card_fin] at this
    linarith

theorem dAngle0_scale (lam : Fin n → ℝ) (d a L k : ℝ) (hk : 0 ≤ k) :
    Peak.dAngle0 lam (k * d) a L = (Peak.dAngle0 lam d a L).map (k * ·) := by
  unfold Peak.dAngle0
  cases hv : Peak.varLamSq lam with
  | none => rfl
  | some v =>
    simp only [Option.bind_some]
    cases hr : Peak.fdiv (L ^ 2) v with
    | none => rfl
    | some r =>
      simp only [Option.bind_some]
      have e : Peak.fdiv ((k * d) ^ 2 * n) (4 * ((n : ℝ) - 2) * a ^ 2) =
          (Peak.fdiv (d ^ 2 * n) (4 * ((n : ℝ) - 2) * a ^ 2)).map (k ^ 2 * ·) := by
        unfold Peak.fdiv
        split_ifs
        · rfl
        · simp only [Option.map_some]; congr 1; ring
      rw [e]
      cases hf : Peak.fdiv (d ^ 2 * n) (4 * ((n : ℝ) - 2) * a ^ 2) with
      | none => rfl
      | some f =>
        simp only [Option.map_some, Option.bind_some]
        unfold Peak.fsqrt
        set t := f * (((n : ℝ) - 1) / n + r) with ht
        have e2 : k ^ 2 * f * (((n : ℝ) - 1) / n + r) = k ^ 2 * t := by rw [ht]; ring
        rw [e2]
        have h : 0 ≤ t := by
          have hv0 := varLamSq_nonneg lam v hv
          have hr0 : 0 ≤ r := by
            unfold Peak.fdiv at hr
            split_ifs at hr
            rw [← Option.some.inj hr]; positivity
          have hn3 : 3 ≤ n := by
            by_contra hcon
            have : n = 0 ∨ n = 1 ∨ n = 2 := by omega
            unfold Peak.varLamSq Peak.fdiv at hv
            unfold Peak.fdiv at hf
            rcases this with e | e | e
            · subst e; simp at hv
            · subst e; simp at hv
            · subst e; simp at hf
          have hn3' : (3 : ℝ) ≤ n := by exact_mod_cast hn3
          have hf0 : 0 ≤ f := by
            unfold Peak.fdiv at hf
            split_ifs at hf
            rw [← Option.some.inj hf]
            have : (0 : ℝ) ≤ (n : ℝ) - 2 := by linarith
            positivity
          have : (0 : ℝ) ≤ (n : ℝ) - 1 := by linarith
          rw [ht]
          positivity
        rw [if_neg (by rw [not_lt]; positivity), if_neg (not_lt.2 h)]
        simp only [Option.map_some]
        rw [Real.sqrt_mul (by positivity), Real.sqrt_sq hk]
        unfold Peak.degrees
        congr 1; ring

/-- C128. The "observed" uncertainties are those which the measurement reports for the same cleaned spectrum when the
noise is not given but measured from the spectrum. -/
theorem observed_errors (x : In n M N2) (o : Out M) (hnn : 0 ≤ x.noise) (h : run x = some o) :
    let m := Peak.measure o.clean x.phi x.fwhm none (Pipe1D.lamSq x.freq) x.lam0
    o.dPhiObs = m.dPhi ∧ o.dAmpObs = m.dAmp ∧ o.dPolAngleObs = m.dPolAngle ∧ o.dPolAngle0Obs = m.dPolAngle0 := by
  unfold run at h
  rw [Option.bind_eq_some_iff] at h
  obtain ⟨r, -, h⟩ := h
  split_ifs at h with hn
  have := Option.some.inj h
  subst this
  set F : Fin (M + 3) → ℂ := fun i => (r.clean i 0).getD 0 with hF
  set lam := Pipe1D.lamSq x.freq with hlam
  have hmadnn : ∀ v, Peak.noiseMAD F x.phi x.fwhm = some v → 0 ≤ v := by
    intro v hv
    unfold Peak.noiseMAD at hv
    dsimp only at hv
    split_ifs at hv
    · exact (Stats.mad_nonneg _).1 v hv
    · exact (Stats.mad_nonneg _).1 v hv
  simp only [In.report, Peak.measure, Option.none_or, Option.some_or, Option.bind_some]
  generalize hA : Option.map Prod.snd _ = A
  clear hA
  cases hm : Peak.noiseMAD F x.phi x.fwhm with
  | none =>
    refine ⟨?_, trivial, ?_, ?_⟩ <;> (unfold observed; simp)
  | some v =>
    have hv := hmadnn v hm
    simp only [Option.bind_some]
    cases A with
    | none => exact ⟨rfl, trivial, rfl, rfl⟩
    | some a =>
      simp only [Option.bind_some]
      refine ⟨?_, trivial, ?_, ?_⟩
      · unfold observed Peak.fdiv
        split_ifs
        · rfl
        · simp only [Option.bind_some, Option.map_some]; congr 1; field_simp
      · unfold observed Peak.fdiv
        split_ifs
        · rfl
        · simp only [Option.bind_some, Option.map_some]; congr 1; unfold Peak.degrees; field_simp
      · have e := dAngle0_scale lam x.noise a x.lam0 (v / x.noise) (by positivity)
        rw [div_mul_cancel₀ v hn] at e
        rw [e]
        unfold observed
        cases Peak.dAngle0 lam x.noise a x.lam0 with
        | none => rfl
        | some t => simp only [Option.bind_some, Option.map_some]; congr 1; ring

/-! ### C129 -/

/-- C129. If no sample reaches the cutoff, the returned spectrum is the dirty one, there are no components and no
iterations, and the measurements are those of the dirty spectrum. -/
theorem below_cutoff_same (x : In n M N2) (o : Out M) (h : run x = some o)
    (hb : ∀ i, ‖x.dirty i‖ < absolute x.noise x.cutoff) :
    o.clean = x.dirty ∧ o.resid = x.dirty ∧ (∀ i, o.cc i = 0) ∧ o.nIter = 0 ∧ o.mom2CC = none ∧
      o.meas = Peak.measure x.dirty x.phi x.fwhm (some x.noise) (Pipe1D.lamSq x.freq) x.lam0 := by
  unfold run at h
  rw [Option.bind_eq_some_iff] at h
  obtain ⟨r, hr, h⟩ := h
  split_ifs at h with hn
  have := Option.some.inj h
  subst this
  obtain ⟨h1, h2, h3, h4⟩ := Clean.below_cutoff_untouched x.cube r hr 0 hb
  have e1 : (fun i => (r.clean i 0).getD 0) = x.dirty := by funext i; rw [h1]; rfl
  have e3 : (fun i => (r.resid i 0).getD 0) = x.dirty := by funext i; rw [h3]; rfl
  have e2 : (fun i => r.cc i 0) = fun _ => 0 := by funext i; rw [h2]
  rw [e1, e2, e3, h4]
  refine ⟨rfl, rfl, fun _ => rfl, rfl, ?_, rfl⟩
  show Stats.mom2 (fun _ => 0) x.phi = none
  rw [(Stats.mom2_stddev _ _).1]
  intro i; rfl

/-! ### C131 -/

/-- C131, the part that holds: with the doubled axis of RM synthesis and non-zero noise the run succeeds. -/
theorem runs_partial (x : In n M (Axis.nPhi2 (M + 3))) [NeZero (Axis.nPhi2 (M + 3))] (hn : x.noise ≠ 0) :
    (run x).isSome := by
  rw [run_eq x (Clean.doubled_axis_padOk (M + 3) (by omega)) hn]
  rfl

/-- C131 is false for the code when the theoretical noise is zero, ... -/
theorem zero_noise_wrong (x : In n M N2) (hn : x.noise = 0) : run x = none := by
  unfold run
  cases Clean.hogbom x.cube with
  | none => rfl
  | some r => rw [Option.bind_some, if_pos hn]

/-- ... which RM synthesis reports for spectra given without errors (all zero) and uniform weights. -/
theorem zero_noise_reported (d : Fin n → Option ℝ) (hn : n ≠ 0) (hd : ∀ j, d j = some 0) (i0 : ℝ) :
    ((Pipe1D.noiseTheory (fun j => Pipe1D.weight false (d j)) d).map fun v => |i0| * v) = some 0 := by
  unfold Pipe1D.noiseTheory Pipe1D.weight
  simp [hd, hn]

/-! ### C130 -/

/-- The state of CLEAN on a source at sample `k`: a fraction `u` of the source is left. -/
def Left {N : ℕ} (dirty : Fin N → ℂ) (k : Fin N) (s : Clean.State N) (u : ℝ) : Prop :=
  0 ≤ u ∧ u ≤ 1 ∧ (∀ i, s.resid i = (u : ℂ) * dirty i) ∧ ∀ i, s.cc i = if i = k then (1 - u : ℂ) * dirty k else 0

theorem left_step {N : ℕ} [NeZero N] (P : Clean.Params N N2) (dirty : Fin N → ℂ) (k idx : Fin N) (s : Clean.State N)
    (u : ℝ) (hd : ∀ i, dirty i = dirty k * Clean.shifted P k i) (hg0 : 0 ≤ P.gain) (hg1 : P.gain ≤ 1)
    (h : Left dirty k s u) (hidx : u ≠ 0 → idx = k) : ∃ u', Left dirty k (Clean.step P s idx) u' := by
  obtain ⟨h0, h1, hr, hc⟩ := h
  by_cases hu : u = 0
  · refine ⟨0, le_rfl, zero_le_one, ?_, ?_⟩
    · intro i
      simp only [Clean.step, hr, hu]
      simp
    · intro i
      simp only [Clean.step, hr, hc, hu]
      split_ifs <;> simp
  · have := hidx hu
    subst this
    refine ⟨u * (1 - P.gain), by have : 0 ≤ 1 - P.gain := by linarith
                                 positivity, by nlinarith, ?_, ?_⟩
    · intro i
      simp only [Clean.step, hr]
      rw [hd i]
      push_cast; ring
    · intro i
      simp only [Clean.step, hr, hc]
      split_ifs
      · push_cast; ring
      · rfl

theorem left_stage2 {N : ℕ} [NeZero N] (P : Clean.Params N N2) (dirty : Fin N → ℂ) (k : Fin N)
    (hd : ∀ i, dirty i = dirty k * Clean.shifted P k i) (hg0 : 0 ≤ P.gain) (hg1 : P.gain ≤ 1)
    (hlt : ∀ i, i ≠ k → ‖dirty i‖ < ‖dirty k‖) : ∃ u, Left dirty k (Clean.stage2 P dirty) u := by
  have hpk : ∀ (s : Clean.State N) u, Left dirty k s u → u ≠ 0 → ∀ i, i ≠ k → ‖s.resid i‖ < ‖s.resid k‖ := by
    intro s u h hu i hi
    obtain ⟨h0, -, hr, -⟩ := h
    have hpos : 0 < u := lt_of_le_of_ne h0 (Ne.symm hu)
    rw [hr, hr, norm_mul, norm_mul, Complex.norm_real, Real.norm_of_nonneg h0]
    exact mul_lt_mul_of_pos_left (hlt i hi) hpos
  have hl1 : ∀ fuel s u, Left dirty k s u → ∃ u', Left dirty k (Clean.loop1 P fuel s) u' := by
    intro fuel
    induction fuel with
    | zero => intro s u h; exact ⟨u, h⟩
    | succ f ih =>
      intro s u h
      unfold Clean.loop1
      split_ifs
      · obtain ⟨u', h'⟩ := left_step P dirty k (npArgmax fun i => ‖s.resid i‖) s u hd hg0 hg1 h (fun hu => by
          apply Peak.npArgmax_unique
          exact hpk s u h hu)
        exact ih _ u' h'
      · exact ⟨u, h⟩
  have hl2 : ∀ (Mk : Fin N → Prop), (Mk k ∨ ¬ ∃ i, Mk i) → ∀ fuel s u, Left dirty k s u →
      ∃ u', Left dirty k (Clean.loop2 P Mk fuel s) u' := by
    intro Mk hM fuel
    induction fuel with
    | zero => intro s u h; exact ⟨u, h⟩
    | succ f ih =>
      intro s u h
      unfold Clean.loop2
      split_ifs with hcond
      · have hMk : Mk k := by
          rcases hM with hM | hM
          · exact hM
          · exfalso
            unfold Clean.cond2 at hcond
            cases hw : P.window with
            | none => rw [hw] at hcond; exact hcond
            | some w => rw [hw] at hcond; exact hM hcond.1
        obtain ⟨u', h'⟩ := left_step P dirty k (npArgmax (Clean.maskedAbs Mk s.resid)) s u hd hg0 hg1 h (fun hu => by
          by_contra hne
          have h1 := le_npArgmax (Clean.maskedAbs Mk s.resid) k
          have h2 := hpk s u h hu _ hne
          generalize npArgmax (Clean.maskedAbs Mk s.resid) = j at h1 h2
          unfold Clean.maskedAbs at h1
          rw [if_pos hMk] at h1
          split_ifs at h1
          · rw [WithBot.coe_le_coe] at h1
            linarith
          · simp at h1)
        exact ih _ u' h'
      · exact ⟨u, h⟩
  have h0 : Left dirty k (Clean.start dirty) 1 := by
    refine ⟨zero_le_one, le_rfl, fun i => ?_, fun i => ?_⟩
    · simp [Clean.start]
    · simp [Clean.start]
  obtain ⟨u1, hu1⟩ := hl1 P.maxIter (Clean.start dirty) 1 h0
  unfold Clean.stage2
  apply hl2 _ _ _ _ u1 hu1
  by_cases hck : (Clean.stage1 P dirty).cc k = 0
  · right
    have hall : ∀ i, (Clean.stage1 P dirty).cc i = 0 := by
      intro i
      by_cases hi : i = k
      · rw [hi, hck]
      · have := hu1.2.2.2 i
        rw [if_neg hi] at this
        exact this
    rintro ⟨i, hi | ⟨j, hj, -⟩⟩
    · exact hi (hall i)
    · exact hj (hall j)
  · exact Or.inl (Or.inl hck)

theorem beam_lt (f t : ℝ) (hf : f ≠ 0) (ht : t ≠ 0) : 0 ≤ Clean.beam f t ∧ Clean.beam f t < 1 := by
  have hl : 0 < Real.log 2 := Real.log_pos (by norm_num)
  unfold Clean.beam
  refine ⟨(Real.exp_pos _).le, ?_⟩
  rw [Real.exp_lt_one_iff]
  have : 0 < (t / f) ^ 2 := by positivity
  nlinarith

theorem rmsf_congr (w : Fin n → ℝ) (good good' : Fin n → Prop) [DecidablePred good] [DecidablePred good']
    (h : ∀ j, good j ↔ good' j) (lam : Fin n → ℝ) (L t : ℝ) :
    SynthSpec.rmsf w good lam L t = SynthSpec.rmsf w good' lam L t := by
  have : good = good' := funext fun j => propext (h j)
  subst this
  congr

/-- C130. A noise-free Faraday-thin source of amplitude `p` and angle `psi` at an interior sample of the depth axis,
put through RM synthesis and one-dimensional RM-CLEAN (any thresholds, any window, any number of iterations, gain in
`[0, 1]`): the measurement of the cleaned spectrum gives its depth, amplitude and intrinsic angle, all components are
at its depth, and if there is any component the second moment is zero. -/
theorem cleaned_thin_source [NeZero (Axis.nPhi2 (M + 3))] (z : Synth.Input n 1 (M + 3))
    (y : Rmsf.Input n 1 (Axis.nPhi2 (M + 3))) (x : In n M (Axis.nPhi2 (M + 3))) (L p psi a d : ℝ) (k : Fin (M + 1))
    (hS : Clean.Setting y x.phi 0 L x.params) (hzl : z.lamSq = y.lamSq) (hzw : z.weight = y.weight)
    (hzp : z.phi = x.phi) (hzL : Synth.refLamSq z = L) (hxL : x.lam0 = L)
    (hzm : ∀ j, y.msk j 0 = true ↔ Synth.spectrum z 0 j = none)
    (hz : ∀ l, (Synth.doRmsynthPlanes z).1 l 0 = some (x.dirty l))
    (hthin : ∀ j, (Synth.spectrum z 0 j).isSome →
      Synth.spectrum z 0 j = some (SynthSpec.thin p psi (x.phi (Peak.centre k)) (z.lamSq j)))
    (hp : 0 < p) (hd : 0 < d) (hphi : ∀ i, x.phi i = a + (i : ℕ) * d) (hf : x.fwhm ≠ 0) (hn : x.noise ≠ 0)
    (hg0 : 0 ≤ x.gain) (hg1 : x.gain ≤ 1) :
    ∃ o, run x = some o ∧ o.meas.phi = some (x.phi (Peak.centre k)) ∧ o.meas.amp = some p ∧
      (∃ ang, o.meas.polAngle0 = some ang ∧ Peak.IsPolAngle ang (exp (2 * I * psi))) ∧
      (∀ i, i ≠ Peak.centre k → o.cc i = 0) ∧ (o.cc (Peak.centre k) ≠ 0 → o.mom2CC = some 0) := by
  set w := SynthSpec.effWeight z.weight with hw
  let good : Fin n → Prop := fun j => (Synth.spectrum z 0 j).isSome = true
  have hgood : ∀ j, y.msk j 0 = false ↔ good j := by
    intro j
    have := hzm j
    show _ ↔ (Synth.spectrum z 0 j).isSome = true
    rw [Option.isSome_iff_ne_none, ne_eq, ← not_iff_not.mpr this]
    cases y.msk j 0 <;> simp
  let R : ℝ → ℂ := SynthSpec.rmsf w good z.lamSq L
  obtain ⟨c, d', hN, hc, hd', hphi', j, j', hj, hj', hwj, hwj', hne, hpi⟩ := hS.axis
  have hdd : d' = d := by
    have e0 := hphi' ⟨0, by omega⟩
    have e1 := hphi' ⟨1, by omega⟩
    rw [hphi] at e0 e1
    push_cast at e0 e1
    linarith
  subst hdd
  have hwnn : ∀ j, 0 ≤ w j := by rw [hw, hzw]; exact hS.weights
  have hsym : SynthSpec.SymGrid z.phi := by
    intro l
    rw [hzp, hphi', hphi']
    have : ((Fin.rev l : Fin (M + 3)) : ℕ) = M + 3 - 1 - l := by simp [Fin.rev]
    have hNc : ((M + 3 : ℕ) : ℝ) = 2 * c + 1 := by rw [hN]; push_cast; ring
    rw [this, Nat.cast_sub (by omega), Nat.cast_sub (by omega), hNc]
    push_cast; ring
  have hW : SynthSpec.weightSum w good ≠ 0 := by
    unfold SynthSpec.weightSum
    refine (Finset.sum_pos' (fun i _ => hwnn i) ⟨j, by simp [(hgood j).1 hj], ?_⟩).ne'
    rw [hw, hzw]; exact hwj
  set Z := SynthSpec.thin p psi (x.phi (Peak.centre k)) L with hZdef
  have hnZ : ‖Z‖ = p := by rw [hZdef, SynthSpec.norm_thin, abs_of_pos hp]
  have hZ : Z ≠ 0 := by intro h; rw [h, norm_zero] at hnZ; exact hp.ne hnZ
  have hval : ∀ l, Synth.value z l 0 = Z * R (x.phi l - x.phi (Peak.centre k)) := by
    intro l
    have := (Synth.thin_source z hsym 0 p psi _ hwnn hthin hW l).1
    rw [hzL, hzp] at this
    exact this
  have hR0 : R 0 = 1 := SynthSpec.rmsf_zero w good z.lamSq L hW
  have hsome : ∀ l, (Synth.doRmsynthPlanes z).1 l 0 = some (Synth.value z l 0) := by
    apply (Synth.fdf_blank_iff z 0).2
    refine ⟨Peak.centre k, ?_⟩
    rw [hval, sub_self, hR0, mul_one]
    exact hZ
  have hdirty : ∀ l, x.dirty l = Z * R (x.phi l - x.phi (Peak.centre k)) := by
    intro l
    rw [← hval]
    have := hz l
    rw [hsome] at this
    exact (Option.some.inj this).symm
  have hconj : ∀ t, R (-t) = (starRingEnd ℂ) (R t) := fun t => SynthSpec.rmsf_conj w good z.lamSq L t
  have hlt : ∀ i, i ≠ Peak.centre k → ‖R (x.phi i - x.phi (Peak.centre k))‖ < 1 := by
    intro i hi
    have hsub : x.phi i - x.phi (Peak.centre k) = (((i : ℕ) : ℝ) - ((Peak.centre k : ℕ) : ℝ)) * d' := by
      rw [hphi, hphi]; ring
    have hne0 : ((i : ℕ) : ℝ) - ((Peak.centre k : ℕ) : ℝ) ≠ 0 := by
      intro h
      apply hi
      have : ((i : ℕ) : ℝ) = ((Peak.centre k : ℕ) : ℝ) := by linarith
      exact Fin.ext (by exact_mod_cast this)
    refine Peak.norm_rmsf_lt w good z.lamSq L _ (fun j _ => hwnn j) j j' ((hgood j).1 hj) ((hgood j').1 hj')
      (by rw [hw, hzw]; exact hwj) (by rw [hw, hzw]; exact hwj') ?_ (by rw [hzl]; exact hne) ?_
    · rw [hsub]; exact mul_ne_zero hne0 hd.ne'
    · rw [hzl]
      refine lt_of_le_of_lt ?_ hpi
      apply mul_le_mul_of_nonneg_right _ (abs_nonneg _)
      rw [hsub, abs_mul]
      apply mul_le_mul_of_nonneg_right _ (abs_nonneg _)
      have h1 : ((i : ℕ) : ℝ) ≤ ((M + 3 : ℕ) : ℝ) := by exact_mod_cast i.isLt.le
      have h2 : ((Peak.centre k : ℕ) : ℝ) ≤ ((M + 3 : ℕ) : ℝ) := by exact_mod_cast (Peak.centre k).isLt.le
      have h3 : (0 : ℝ) ≤ ((i : ℕ) : ℝ) := Nat.cast_nonneg _
      have h4 : (0 : ℝ) ≤ ((Peak.centre k : ℕ) : ℝ) := Nat.cast_nonneg _
      rw [abs_le]
      constructor <;> linarith
  have hdk : x.dirty (Peak.centre k) = Z := by rw [hdirty, sub_self, hR0, mul_one]
  have hshift : ∀ i, x.dirty i = x.dirty (Peak.centre k) * Clean.shifted x.params (Peak.centre k) i := by
    intro i
    rw [hdk, Clean.shifted_is_defining_sum y x.phi 0 L x.params hS, hdirty]
    congr 1
    rw [← hzw, ← hzl]
    exact rmsf_congr w good _ (fun j => (hgood j).symm) z.lamSq L _
  obtain ⟨u, hu0, hu1, hr, hcc⟩ := left_stage2 x.params x.dirty (Peak.centre k) hshift hg0 hg1 (by
    intro i hi
    rw [hdk, hdirty, norm_mul]
    calc ‖Z‖ * ‖R (x.phi i - x.phi (Peak.centre k))‖ < ‖Z‖ * 1 :=
          mul_lt_mul_of_pos_left (hlt i hi) (norm_pos_iff.2 hZ)
      _ = ‖Z‖ := mul_one _)
  refine ⟨_, run_eq x (Clean.doubled_axis_padOk (M + 3) (by omega)) hn, ?_⟩
  set s := Clean.stage2 x.params x.dirty with hsdef
  let R' : ℝ → ℂ := fun t => (u : ℂ) * R t + (1 - u : ℂ) * (Clean.beam x.fwhm t : ℂ)
  have hF : ∀ i, s.clean i + s.resid i = Z * R' (x.phi i - x.phi (Peak.centre k)) := by
    intro i
    rw [Clean.clean_restores x.params x.dirty i, ← hsdef, hr, hdirty]
    have : ∑ l, s.cc l * (Clean.beam x.params.fwhm (x.params.phi i - x.params.phi l) : ℂ) =
        (1 - u : ℂ) * Z * (Clean.beam x.fwhm (x.phi i - x.phi (Peak.centre k)) : ℂ) := by
      simp only [hcc, ite_mul, zero_mul, Finset.sum_ite_eq', Finset.mem_univ, if_true, hdk]
      rfl
    rw [this]
    simp only [R']
    ring
  have hR0' : R' 0 = 1 := by
    simp only [R', hR0, Clean.beam_zero]
    push_cast; ring
  have hbe : ∀ t, Clean.beam x.fwhm (-t) = Clean.beam x.fwhm t := by
    intro t; unfold Clean.beam; rw [neg_div, neg_sq]
  have hherm : ∀ t, ‖R' (-t)‖ = ‖R' t‖ := by
    intro t
    have : R' (-t) = (starRingEnd ℂ) (R' t) := by
      simp only [R', hconj, hbe, map_add, map_mul, map_sub, map_one, Complex.conj_ofReal]
    rw [this, RCLike.norm_conj]
  have hlt' : ∀ i, i ≠ Peak.centre k → ‖R' (x.phi i - x.phi (Peak.centre k))‖ < 1 := by
    intro i hi
    have hne0 : x.phi i - x.phi (Peak.centre k) ≠ 0 := by
      intro h
      have := hlt i hi
      rw [h, hR0, norm_one] at this
      exact lt_irrefl _ this
    obtain ⟨b0, b1⟩ := beam_lt x.fwhm _ hf hne0
    have h1 := hlt i hi
    generalize x.phi i - x.phi (Peak.centre k) = t at *
    have h1u : 0 ≤ 1 - u := by linarith
    have e1 : ‖(u : ℂ) * R t‖ = u * ‖R t‖ := by rw [norm_mul, Complex.norm_real, Real.norm_of_nonneg hu0]
    have e2 : ‖(1 - u : ℂ) * (Clean.beam x.fwhm t : ℂ)‖ = (1 - u) * Clean.beam x.fwhm t := by
      rw [norm_mul, ← Complex.ofReal_one, ← Complex.ofReal_sub, Complex.norm_real, Complex.norm_real,
        Real.norm_of_nonneg h1u, Real.norm_of_nonneg b0]
    calc ‖R' t‖ ≤ ‖(u : ℂ) * R t‖ + ‖(1 - u : ℂ) * (Clean.beam x.fwhm t : ℂ)‖ := norm_add_le _ _
      _ = u * ‖R t‖ + (1 - u) * Clean.beam x.fwhm t := by rw [e1, e2]
      _ < 1 := by
        rcases hu0.eq_or_lt with h0 | h0
        · rw [← h0]; linarith
        · nlinarith
  obtain ⟨h1, h2, h3, h4⟩ := Peak.measure_thin (fun i => s.clean i + s.resid i) x.phi x.fwhm a d' (some x.noise)
    (Pipe1D.lamSq x.freq) x.lam0 5 hd hphi k Z hZ R' hF hR0' hherm hlt'
  refine ⟨h1, by rw [← hnZ]; exact h2, ?_, ?_, ?_⟩
  · rcases Peak.angles (fun i => s.clean i + s.resid i) x.phi x.fwhm (some x.noise) (Pipe1D.lamSq x.freq) x.lam0 5 with
      ⟨h5, -⟩ | ⟨x', re, im, b, b0, e1, e2, e3, e4, e5, -, e7⟩
    · rw [h1] at h5; simp at h5
    · refine ⟨b0, e5, ?_⟩
      rw [h1] at e1
      rw [h3] at e2
      rw [h4] at e3
      injection e1 with e1
      injection e2 with e2
      injection e3 with e3
      have hz' : (⟨re, im⟩ : ℂ) = Z := by rw [← e2, ← e3]
      rw [hz', ← e1, hxL] at e7
      obtain ⟨g1, g2, g3⟩ := e7
      have hZe : Z * exp (-2 * I * ((x.phi (Peak.centre k) * L : ℝ) : ℂ)) = p * exp (2 * I * psi) := by
        rw [hZdef]
        unfold SynthSpec.thin
        rw [mul_assoc, ← Complex.exp_add]
        congr 2
        push_cast; ring
      rw [hZe] at g3
      have hn1 : ‖exp (2 * I * (psi : ℂ))‖ = 1 := by
        rw [show 2 * I * (psi : ℂ) = ((2 * psi : ℝ) : ℂ) * I by push_cast; ring]
        exact norm_exp_ofReal_mul_I _
      rw [norm_mul, hn1, mul_one, Complex.norm_real, Real.norm_of_nonneg hp.le] at g3
      refine ⟨g1, g2, ?_⟩
      rw [hn1]
      have hp' : (p : ℂ) ≠ 0 := by exact_mod_cast hp.ne'
      rw [mul_left_cancel₀ hp' g3]
      simp
  · intro i hi
    show s.cc i = 0
    rw [hcc, if_neg hi]
  · intro hne
    refine (Stats.mom2_zero_iff s.cc x.phi ⟨_, hne⟩).2 ⟨x.phi (Peak.centre k), fun i hi => ?_⟩
    by_contra hcon
    apply hi
    rw [hcc, if_neg]
    rintro rfl
    exact hcon rfl

/-- Concrete case of `cleaned_thin_source` (and of the hypotheses of C126 - C129 and C131): channels at `λ² = 0.1` and
`0.2`, depths -1, 0, 1, a source at depth 0, a window and a cutoff in sigma. -/
example [NeZero (Axis.nPhi2 (0 + 3))] : ∃ (x : In 2 0 (Axis.nPhi2 (0 + 3))) (o : Out 0), run x = some o ∧
    x.window = some (-2) ∧ x.cutoff = -5 ∧ x.maxIter = 10 ∧ o.meas.phi = some 0 ∧ o.meas.amp = some 1 := by
  obtain ⟨g, hg, -, -, -, -, hs⟩ :=
    Axis.phi2_spec (by norm_num : 2 ≤ 0 + 3) (fun i : Fin (0 + 3) => ((i : ℝ) - (1 : ℕ)) * 1)
  let y : Rmsf.Input 2 1 (Axis.nPhi2 (0 + 3)) :=
    { lamSq := ![0.1, 0.2]
      phi2 := g
      weight := none
      msk := fun _ _ => false
      lam0 := some 0.15 }
  have hsym : SynthSpec.SymGrid fun i : Fin (0 + 3) => ((i : ℝ) - (1 : ℕ)) * 1 := by
    intro l
    have : ((Fin.rev l : Fin (0 + 3)) : ℕ) = 2 - l := by simp [Fin.rev]
    simp only [this]
    rw [Nat.cast_sub (by omega)]
    push_cast; ring
  have hw : Rmsf.pixelWeight y 0 ≠ 0 := by
    unfold Rmsf.pixelWeight SynthSpec.weightSum
    simp [y, SynthSpec.effWeight]
  let z : Synth.Input 2 1 (0 + 3) :=
    { dataQ := fun j _ => some (SynthSpec.thin 1 0 0 (y.lamSq j)).re
      dataU := fun j _ => some (SynthSpec.thin 1 0 0 (y.lamSq j)).im
      lamSq := y.lamSq
      phi := fun i => ((i : ℝ) - (1 : ℕ)) * 1
      weight := none
      lam0 := some 0.15 }
  let x : In 2 0 (Axis.nPhi2 (0 + 3)) :=
    { dirty := fun l => Synth.value z l 0
      phi := fun i => ((i : ℝ) - (1 : ℕ)) * 1
      rmsf := fun l => SynthSpec.rmsf (SynthSpec.effWeight y.weight) (fun j => y.msk j 0 = false) y.lamSq 0.15 (y.phi2 l)
      freq := fun _ => 1
      fwhm := 1
      noise := 0.1
      lam0 := 0.15
      cutoff := -5
      maxIter := 10
      gain := 0.1
      window := some (-2) }
  have hspec : ∀ j, Synth.spectrum z 0 j = some (SynthSpec.thin 1 0 (x.phi (Peak.centre 0)) (z.lamSq j)) := by
    intro j; simp [Synth.spectrum, SynthSpec.pol, z, x, Peak.centre]
  have hset : Clean.Setting y x.phi 0 0.15 x.params := by
    refine ⟨⟨1, 1, by norm_num, by norm_num, by norm_num, fun i => rfl, 0, 1, rfl, rfl,
      by simp [y, SynthSpec.effWeight], by simp [y, SynthSpec.effWeight], by simp [y]; norm_num, ?_⟩, hg, rfl, ?_, ?_⟩
    · simp only [y, Matrix.cons_val]
      norm_num [abs_of_neg]
      have := Real.pi_gt_three
      linarith
    · intro j; simp [y, SynthSpec.effWeight]
    · intro l
      exact Rmsf.rmsf_sym y (hs hsym) 0.15 rfl l 0 hw
  have hcen : x.phi (Peak.centre 0) = 0 := by simp [x, Peak.centre]
  have hval : Synth.value z (Peak.centre 0) 0 ≠ 0 := by
    have := (Synth.thin_source z hsym 0 1 0 (x.phi (Peak.centre 0)) (by intro j; simp [z, SynthSpec.effWeight])
      (fun j _ => hspec j) (by
        unfold SynthSpec.weightSum
        have : (Finset.univ.filter fun j => (Synth.spectrum z 0 j).isSome = true) = Finset.univ := by
          ext j; simp [hspec j]
        rw [this]
        simp [z, SynthSpec.effWeight]) (Peak.centre 0)).2.2 rfl
    intro h0
    have h1 := this.2
    rw [h0, norm_zero] at h1
    norm_num at h1
  obtain ⟨o, ho, h1, h2, -⟩ := cleaned_thin_source z y x 0.15 1 0 (-1) 1 0 hset rfl rfl rfl rfl rfl
    (by intro j; simp [y, hspec]) (fun l => (Synth.fdf_blank_iff z 0).2 ⟨_, hval⟩ l) (fun j _ => hspec j) one_pos one_pos
    (by intro i; simp only [x]; push_cast; ring) (by simp [x]) (by simp [x]; norm_num) (by simp [x]; norm_num)
    (by simp [x]; norm_num)
  exact ⟨x, o, ho, rfl, rfl, rfl, by rw [h1, hcen], h2⟩

/-- Concrete case of C126, C127 and C128: noise 0.1, cutoff of five sigma. -/
example (x : In n M N2) (hpad : Clean.PadOk (M + 3) N2) (hn : x.noise = 0.1) :
    ∃ o, run { x with cutoff := -5 } = some o ∧ o.cutoff = 0.5 := by
  have h : ({ x with cutoff := -5 } : In n M N2).noise ≠ 0 := by simp [hn]; norm_num
  refine ⟨_, run_eq { x with cutoff := -5 } hpad h, ?_⟩
  have := ((sigma_cutoff x 5 (by norm_num) (by rw [hn]; norm_num)).2.2 _ (run_eq { x with cutoff := -5 } hpad h)).1
  rw [this, hn]; norm_num

end Verif.Clean1D
