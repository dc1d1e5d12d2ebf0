import Verif.Pipe3D.Model
import Verif.Rmsf.Props
import Verif.Axis.Props

/-!
# The RMSF that goes with a spectrum (C117)

The RMSF returned with a Faraday depth spectrum is used as the response of that spectrum to a thin source: by
RM-CLEAN, and for the width of the main lobe.
-/

open Complex

namespace Verif.Pipe3D

open Verif.SynthSpec Verif.NumPy

variable {n m k k' : ℕ}

/-- The response property, for one call of RM synthesis and one of the RMSF computation: same channels, weights
and reference wavelength, and the same flags. -/
theorem response_core (y : Synth.Input n m k) (x : Rmsf.Input n m k') (hs : SymGrid y.phi)
    (hs2 : SymGrid x.phi2) (hl : x.lamSq = y.lamSq) (hw : x.weight = y.weight)
    (hr : x.lam0 = some (Synth.refLamSq y)) (p : Fin m)
    (hf : ∀ j, x.msk j p = false ↔ (Synth.spectrum y p j).isSome = true) (f psi phi0 : ℝ)
    (hwn : ∀ j, 0 ≤ effWeight y.weight j)
    (hP : ∀ j, (Synth.spectrum y p j).isSome → Synth.spectrum y p j = some (thin f psi phi0 (y.lamSq j)))
    (hsum : weightSum (effWeight y.weight) (fun j => (Synth.spectrum y p j).isSome = true) ≠ 0)
    (l : Fin k) (l' : Fin k') (hll : x.phi2 l' = y.phi l - phi0) :
    ∃ z, Rmsf.rmsf x l' p = some z ∧ Synth.value y l p = thin f psi phi0 (Synth.refLamSq y) * z := by
  have hsets : Finset.univ.filter (fun j => x.msk j p = false) =
      Finset.univ.filter (fun j => (Synth.spectrum y p j).isSome = true) := by
    ext j; simp [hf j]
  have hL : Rmsf.lam0Sq x = some (Synth.refLamSq y) := by unfold Rmsf.lam0Sq; rw [hr]
  have hpw : Rmsf.pixelWeight x p ≠ 0 := by
    unfold Rmsf.pixelWeight weightSum
    rw [hsets, hw]
    exact hsum
  refine ⟨_, Rmsf.rmsf_sym x hs2 _ hL l' p hpw, ?_⟩
  rw [(Synth.thin_source y hs p f psi phi0 hwn hP hsum l).1]
  congr 1
  unfold SynthSpec.rmsf weightSum
  rw [hsets, hw, hl, hll]

/-- On the axes of the programs every difference of two depths is on the doubled axis. -/
theorem shift_on_axis (phiMax dPhi : ℝ) (hd : 0 < dPhi) (h2 : 2 ≤ Axis.nChanRM phiMax dPhi) :
    ∃ g, Axis.phi2 (Axis.phiAxis phiMax dPhi) = some g ∧ SymGrid g ∧
      ∀ l l0, ∃ l', g l' = Axis.phiAxis phiMax dPhi l - Axis.phiAxis phiMax dPhi l0 := by
  obtain ⟨c, hc, hphi, hsym, -⟩ := Axis.phiAxis_spec phiMax dPhi hd
  obtain ⟨g, hg, hlen, -, -, hlin, hs2⟩ := Axis.phi2_spec h2 (Axis.phiAxis phiMax dPhi)
  refine ⟨g, hg, hs2 hsym, ?_⟩
  intro l l0
  have hlt : (l : ℕ) + (c + (Axis.nChanRM phiMax dPhi + 1) / 2) - l0 < Axis.nPhi2 (Axis.nChanRM phiMax dPhi) := by
    have := l.isLt
    have := l0.isLt
    omega
  refine ⟨⟨_, hlt⟩, ?_⟩
  rw [hlin (-(c : ℝ) * dPhi) dPhi (fun i => by rw [hphi]; ring), hphi, hphi]
  have hle : (l0 : ℕ) ≤ (l : ℕ) + (c + (Axis.nChanRM phiMax dPhi + 1) / 2) := by
    have := l0.isLt
    omega
  simp only [Nat.cast_sub hle]
  push_cast
  ring

/-! ## Cubes -/

/-- The user's view of the Stokes I model in a voxel: one if there is no model. -/
def intensity (x : In n m) (j : Fin n) (p : Fin m) : Option ℝ :=
  match x.i with
  | some i => i j p
  | none => some 1

/-- A voxel can be used: Q and U are there, and the Stokes I model is there and not zero. -/
def Usable (x : In n m) (j : Fin n) (p : Fin m) : Prop :=
  ∃ q u s, x.q j p = some q ∧ x.u j p = some u ∧ intensity x j p = some s ∧ s ≠ 0

/-- The usable channels of pixel `p` hold a Faraday-thin source of fraction `f`, angle `psi`, depth `phi0`. -/
def IsThin (x : In n m) (p : Fin m) (f psi phi0 : ℝ) : Prop :=
  ∀ j q u s, x.q j p = some q → x.u j p = some u → intensity x j p = some s → s ≠ 0 →
    q = s * (thin f psi phi0 (Pipe1D.lamSq x.freq j)).re ∧
      u = s * (thin f psi phi0 (Pipe1D.lamSq x.freq j)).im

theorem divided_eq (x : In n m) (d : Fin n → Fin m → Option ℝ) (j : Fin n) (p : Fin m) :
    divided x d j p = StokesI.divNaN (d j p) (intensity x j p) := by
  unfold divided intensity
  cases x.i with
  | some i => rfl
  | none => simp [StokesI.divNaN]

theorem spectrum_isSome [NeZero n] (x : In n m) (o : Pipe1D.Opts) (j : Fin n) (p : Fin m) :
    (Synth.spectrum (synthInput x o) p j).isSome = true ↔ Usable x j p := by
  unfold Synth.spectrum synthInput Usable
  dsimp only
  rw [divided_eq, divided_eq]
  cases x.q j p with
  | none => simp [StokesI.divNaN, pol]
  | some q =>
    cases x.u j p with
    | none =>
      cases intensity x j p with
      | none => simp [StokesI.divNaN, pol]
      | some s => by_cases hs : s = 0 <;> simp [StokesI.divNaN, pol, hs]
    | some u =>
      cases intensity x j p with
      | none => simp [StokesI.divNaN, pol]
      | some s => by_cases hs : s = 0 <;> simp [StokesI.divNaN, pol, hs]

theorem spectrum_thin [NeZero n] (x : In n m) (o : Pipe1D.Opts) (p : Fin m) (f psi phi0 : ℝ)
    (hx : IsThin x p f psi phi0) (j : Fin n)
    (h : (Synth.spectrum (synthInput x o) p j).isSome = true) :
    Synth.spectrum (synthInput x o) p j = some (thin f psi phi0 ((synthInput x o).lamSq j)) := by
  obtain ⟨q, u, s, hq, hu, hi, hs⟩ := (spectrum_isSome x o j p).mp h
  obtain ⟨e1, e2⟩ := hx j q u s hq hu hi hs
  unfold Synth.spectrum synthInput
  dsimp only
  rw [divided_eq, divided_eq, hq, hu, hi]
  simp only [StokesI.divNaN, Option.bind_some, if_neg hs, pol, Option.map_some]
  congr 1
  apply Complex.ext
  · dsimp only; rw [e1]; field_simp
  · dsimp only; rw [e2]; field_simp

theorem weight_nonneg (x : In n m) (o : Pipe1D.Opts) (j : Fin n) :
    0 ≤ effWeight (some (weight x o)) j := by
  unfold effWeight weight
  cases x.rms with
  | none => simp
  | some r =>
    simp only [Option.elim, Pipe1D.weight]
    split_ifs
    · cases r j with
      | none => simp
      | some v => simp only [Option.map_some, Option.getD_some]; positivity
    · simp

/-- What C117 promises for a thin source of fraction `f` and angle `psi` at depth number `l0` in pixel `p`, with
Stokes I `S` at the reference: at every depth, the spectrum is the source's polarisation at the reference
wavelength, times the RMSF at the difference of the two depths (which is on the axis of the RMSF), times `S`. -/
def IsResponse [NeZero n] (x : In n m) (o : Pipe1D.Opts) (p : Fin m) (f psi : ℝ) (l0 : Fin (nPhi x o)) (S : ℝ) :
    Prop :=
  ∃ g R, Axis.phi2 (synthInput x o).phi = some g ∧ rmsfCube x o = some R ∧
    ∀ l, (∃ l', g l' = (synthInput x o).phi l - (synthInput x o).phi l0) ∧
      ∀ l', g l' = (synthInput x o).phi l - (synthInput x o).phi l0 → ∃ z, R l' p = some z ∧
        fdfCube x o l p = some (some
          (thin f psi ((synthInput x o).phi l0) (Synth.refLamSq (synthInput x o)) * z * S))

/-- C117, the part that holds. If in every voxel of the pixel where Q is there, U and a non-zero Stokes I model
are there too, then the RMSF of the pixel is the response of its spectrum. Any flags, weights, and options. -/
theorem response_partial [NeZero n] (x : In n m) (o : Pipe1D.Opts) (p : Fin m)
    (hflags : ∀ j, (x.q j p).isSome → Usable x j p)
    (hd : 0 < (axisParams x o).1) (h2 : 2 ≤ nPhi x o) (l0 : Fin (nPhi x o)) (f psi : ℝ) (hf : f ≠ 0)
    (hthin : IsThin x p f psi ((synthInput x o).phi l0))
    (hfin : Regular x o) (hgood : ∃ j, Usable x j p ∧ effWeight (some (weight x o)) j ≠ 0)
    (S : ℝ) (hS : scale x o p = some (some S)) : IsResponse x o p f psi l0 S := by
  obtain ⟨g, hg, hgs, hshift⟩ := shift_on_axis (axisParams x o).2 (axisParams x o).1 hd h2
  obtain ⟨c, hc, hphi, hsym, -⟩ := Axis.phiAxis_spec (axisParams x o).2 (axisParams x o).1 hd
  refine ⟨g, Rmsf.rmsf (rmsfInput x o g), hg, ?_, ?_⟩
  · unfold rmsfCube
    have hg' : Axis.phi2 (synthInput x o).phi = some g := hg
    rw [if_pos hfin, hg']
    rfl
  have hsum : weightSum (effWeight (synthInput x o).weight)
      (fun j => (Synth.spectrum (synthInput x o) p j).isSome = true) ≠ 0 := by
    obtain ⟨j, hj, hw⟩ := hgood
    apply ne_of_gt
    unfold weightSum
    refine Finset.sum_pos' (fun i _ => weight_nonneg x o i) ⟨j, ?_, ?_⟩
    · simp only [Finset.mem_filter, Finset.mem_univ, true_and]
      exact (spectrum_isSome x o j p).mpr hj
    · exact lt_of_le_of_ne (weight_nonneg x o j) (Ne.symm hw)
  have hfl : ∀ j, (rmsfInput x o g).msk j p = false ↔
      (Synth.spectrum (synthInput x o) p j).isSome = true := by
    intro j
    rw [spectrum_isSome]
    show (x.q j p).isNone = false ↔ _
    constructor
    · intro h
      exact hflags j (by simpa using h)
    · rintro ⟨q, u, s, hq, -⟩
      rw [hq]; rfl
  have key := fun l l' hll => response_core (synthInput x o) (rmsfInput x o g) hsym hgs rfl rfl rfl p hfl f psi
    ((synthInput x o).phi l0) (weight_nonneg x o) (spectrum_thin x o p f psi _ hthin) hsum l l' hll
  have hne : ∃ l, Synth.value (synthInput x o) l p ≠ 0 := by
    refine ⟨l0, ?_⟩
    have h := ((Synth.thin_source (synthInput x o) hsym p f psi ((synthInput x o).phi l0) (weight_nonneg x o)
      (spectrum_thin x o p f psi _ hthin) hsum l0).2.2 rfl).2
    intro h0
    rw [h0, norm_zero] at h
    exact hf (abs_eq_zero.mp h.symm)
  intro l
  refine ⟨hshift l l0, ?_⟩
  intro l' hl'
  obtain ⟨z, hz, hv⟩ := key l l' hl'
  refine ⟨z, hz, ?_⟩
  unfold fdfCube
  rw [if_pos hfin, hS]
  have hfdf : Synth.fdf (synthInput x o) l p = some (Synth.value (synthInput x o) l p) :=
    (Synth.fdf_blank_iff (synthInput x o) p).2 hne l
  simp only [Option.map_some, Option.bind_some, hfdf, hv]

/-! ## Where it fails -/

/-- Two channels at `λ²` 1 and 2, the second one flagged in the spectrum but not in the mask of the RMSF: at
depth `π/2` the spectrum of a constant source is one, the RMSF zero. -/
theorem mismatch_core (y : Synth.Input 2 1 k) (x : Rmsf.Input 2 1 k') (hs : SymGrid y.phi)
    (hs2 : SymGrid x.phi2) (hy0 : y.lamSq 0 = 1) (hl : x.lamSq = y.lamSq) (hy1 : y.lamSq 1 = 2)
    (hwy : y.weight = some fun _ => some 1) (hw : x.weight = y.weight) (hr : x.lam0 = some (Synth.lam0Sq y))
    (hm : ∀ j, x.msk j 0 = false) (hy : y.lam0 = none) (h0 : Synth.spectrum y 0 0 = some 1)
    (h1 : Synth.spectrum y 0 1 = none) (l : Fin k) (l' : Fin k') (hll : x.phi2 l' = Real.pi / 2) :
    Synth.lam0Sq y = 1 ∧ Synth.value y l 0 = 1 ∧ Rmsf.rmsf x l' 0 = some 0 := by
  have hw1 : ∀ j, effWeight y.weight j = 1 := by intro j; rw [hwy]; rfl
  have hset : Finset.univ.filter (fun j => (Synth.spectrum y 0 j).isSome = true) = {0} := by
    ext j
    fin_cases j
    · simp [h0]
    · simp [h1]
  have hlam : Synth.lam0Sq y = 1 := by
    have h := Synth.refLamSq_mean y hy (by
      have : ∀ j, ((∃ p, (Synth.spectrum y p j).isSome = true) ↔ j = 0) := by
        intro j
        fin_cases j
        · simp [h0]
        · simp [h1]
      simp [weightSum, this, hw1])
    have e : ∀ j, ((∃ p, (Synth.spectrum y p j).isSome = true) ↔ j = 0) := by
      intro j
      fin_cases j
      · simp [h0]
      · simp [h1]
    simp only [meanLamSq, weightSum, e, hw1] at h
    simp only [Finset.filter_eq', Finset.mem_univ, if_true, Finset.sum_singleton, one_mul, div_one, hy0] at h
    exact h
  refine ⟨hlam, ?_, ?_⟩
  · rw [Synth.value_sym y hs]
    unfold SynthSpec.fdf weightSum
    have hr' : Synth.refLamSq y = 1 := hlam
    rw [hset, Finset.sum_singleton, Finset.sum_singleton, hw1, h0, hr', hy0]
    simp
  · have hL : Rmsf.lam0Sq x = some 1 := by unfold Rmsf.lam0Sq; rw [hr, hlam]
    have hf2 : Finset.univ.filter (fun j : Fin 2 => x.msk j 0 = false) = Finset.univ := by
      ext j; simp [hm j]
    have hpw : Rmsf.pixelWeight x 0 ≠ 0 := by
      unfold Rmsf.pixelWeight weightSum
      rw [hf2, hw]
      simp [hw1]
    rw [Rmsf.rmsf_sym x hs2 1 hL l' 0 hpw]
    unfold SynthSpec.rmsf weightSum
    rw [hf2, hw, hl, hll, Fin.sum_univ_two, Fin.sum_univ_two, hw1, hw1, hy0, hy1]
    have e : Complex.exp (-2 * I * ((Real.pi / 2 : ℝ) : ℂ) * (((2 : ℝ) : ℂ) - ((1 : ℝ) : ℂ))) = -1 := by
      rw [← Complex.exp_neg_pi_mul_I]
      congr 1
      push_cast
      ring
    rw [e]
    simp

/-- The options of the witnesses: depths `-π/2, 0, π/2`, uniform weights. -/
noncomputable def wOpts : Pipe1D.Opts where
  variance := false
  superRes := false
  dPhi := some (Real.pi / 2)
  phiMax := some (Real.pi / 2)
  nSamples := 10

/-- Frequencies with `λ²` 1 and 2. -/
noncomputable def wFreq (j : Fin 2) : ℝ := if j = 0 then Pipe1D.c else Pipe1D.c / Real.sqrt 2

theorem wFreq_pos (j : Fin 2) : 0 < wFreq j := by
  have hc : 0 < Pipe1D.c := by unfold Pipe1D.c; norm_num
  unfold wFreq
  split_ifs <;> positivity

theorem wFreq_lamSq : Pipe1D.lamSq wFreq 0 = 1 ∧ Pipe1D.lamSq wFreq 1 = 2 := by
  have hc : Pipe1D.c ≠ 0 := by unfold Pipe1D.c; norm_num
  have h2 : Real.sqrt 2 ≠ 0 := by positivity
  constructor
  · simp [Pipe1D.lamSq, wFreq, hc]
  · have : Pipe1D.c / (Pipe1D.c / Real.sqrt 2) = Real.sqrt 2 := by field_simp
    simp [Pipe1D.lamSq, wFreq, this]

theorem wFreq_ne : wFreq 0 ≠ wFreq 1 := by
  intro h
  have h1 := wFreq_lamSq.1
  have h2 := wFreq_lamSq.2
  unfold Pipe1D.lamSq at h1 h2
  rw [h, h2] at h1
  norm_num at h1

theorem wOpts_nChan : Axis.nChanRM (Real.pi / 2) (Real.pi / 2) = 3 := by
  obtain ⟨c, hc, -, -, h⟩ := Axis.phiAxis_spec (Real.pi / 2) (Real.pi / 2) (by positivity)
  have hpi : (0 : ℝ) < Real.pi / 2 := by positivity
  rw [abs_of_pos hpi] at h
  have h' : |((c : ℝ) - 1)| ≤ 1 / 2 := by
    have e : (c : ℝ) * (Real.pi / 2) - Real.pi / 2 = ((c : ℝ) - 1) * (Real.pi / 2) := by ring
    rw [e, abs_mul, abs_of_pos hpi] at h
    by_contra hh
    push Not at hh
    nlinarith
  rw [abs_le] at h'
  have h1 : c = 1 := by
    have a1 : (c : ℝ) < 2 := by linarith
    have a2 : (0 : ℝ) < c := by linarith
    have b1 : c < 2 := by exact_mod_cast a1
    have b2 : 0 < c := by exact_mod_cast a2
    omega
  rw [hc, h1]

/-- On the axis of the witnesses, `π/2` is the third depth. -/
theorem wAxis (l : Fin (Axis.nChanRM (Real.pi / 2) (Real.pi / 2))) (hl : (l : ℕ) = 2) :
    Axis.phiAxis (Real.pi / 2) (Real.pi / 2) l = Real.pi / 2 := by
  obtain ⟨c, hc, hphi, -, -⟩ := Axis.phiAxis_spec (Real.pi / 2) (Real.pi / 2) (by positivity)
  rw [wOpts_nChan] at hc
  have : c = 1 := by omega
  rw [hphi, hl, this]
  push_cast
  ring

/-- A cube of one pixel and two channels, with the given second channel. -/
noncomputable def wCube (u1 : Option ℝ) (i : Option (Fin 2 → Fin 1 → Option ℝ)) : In 2 1 where
  q := fun _ _ => some 1
  u := fun j _ => if j = 0 then some 0 else u1
  i := i
  freq := wFreq
  rms := none

theorem wCube_axis (u1 : Option ℝ) (i : Option (Fin 2 → Fin 1 → Option ℝ)) :
    axisParams (wCube u1 i) wOpts = (Real.pi / 2, Real.pi / 2) := rfl

theorem wCube_regular (u1 : Option ℝ) (i : Option (Fin 2 → Fin 1 → Option ℝ)) : Regular (wCube u1 i) wOpts :=
  ⟨wFreq_pos, ⟨0, 1, wFreq_ne⟩, by rw [wCube_axis]; exact (by positivity : (0 : ℝ) < Real.pi / 2).ne', fun r h => by simp [wCube] at h⟩

theorem wCube_nPhi (u1 : Option ℝ) (i : Option (Fin 2 → Fin 1 → Option ℝ)) : nPhi (wCube u1 i) wOpts = 3 :=
  wOpts_nChan

/-- The middle depth, zero. -/
theorem wCube_phi0 (u1 : Option ℝ) (i : Option (Fin 2 → Fin 1 → Option ℝ)) (l : Fin (nPhi (wCube u1 i) wOpts))
    (hl : (l : ℕ) = 1) : (synthInput (wCube u1 i) wOpts).phi l = 0 := by
  obtain ⟨c, hc, hphi, -, -⟩ := Axis.phiAxis_spec (Real.pi / 2) (Real.pi / 2) (by positivity)
  rw [wOpts_nChan] at hc
  have h1 : c = 1 := by omega
  have := hphi l
  rw [hl, h1] at this
  rw [show (synthInput (wCube u1 i) wOpts).phi l = Axis.phiAxis (Real.pi / 2) (Real.pi / 2) l from rfl, this]
  simp

theorem wCube_mismatch (u1 : Option ℝ) (i : Option (Fin 2 → Fin 1 → Option ℝ))
    (h0 : Synth.spectrum (synthInput (wCube u1 i) wOpts) 0 0 = some 1)
    (h1 : Synth.spectrum (synthInput (wCube u1 i) wOpts) 0 1 = none)
    (hS : scale (wCube u1 i) wOpts 0 = some (some 1))
    (l0 : Fin (nPhi (wCube u1 i) wOpts)) (hl0 : (l0 : ℕ) = 1) : ¬ IsResponse (wCube u1 i) wOpts 0 1 0 l0 1 := by
  rintro ⟨g, R, hg, hR, h⟩
  have hn : nPhi (wCube u1 i) wOpts = 3 := wCube_nPhi u1 i
  obtain ⟨g', hg', hgs, -⟩ := shift_on_axis (Real.pi / 2) (Real.pi / 2) (by positivity) (by rw [wOpts_nChan]; omega)
  obtain ⟨-, -, -, hsym, -⟩ := Axis.phiAxis_spec (Real.pi / 2) (Real.pi / 2) (by positivity)
  have hgg : g = g' := by
    have : Axis.phi2 (synthInput (wCube u1 i) wOpts).phi = some g' := hg'
    rw [hg] at this
    exact Option.some.inj this
  have hp2 : (synthInput (wCube u1 i) wOpts).phi ⟨2, by omega⟩ = Real.pi / 2 := wAxis _ rfl
  have hp0 := wCube_phi0 u1 i l0 hl0
  obtain ⟨⟨l', hl'⟩, hz⟩ := h ⟨2, by omega⟩
  rw [hp2, hp0, sub_zero] at hl'
  obtain ⟨z, hRz, hF⟩ := hz l' (by rw [hl', hp2, hp0, sub_zero])
  have hRR : R = Rmsf.rmsf (rmsfInput (wCube u1 i) wOpts g) := by
    unfold rmsfCube at hR
    rw [if_pos (wCube_regular u1 i), hg] at hR
    exact (Option.some.inj hR).symm
  obtain ⟨hlam, hv, hr⟩ := mismatch_core (synthInput (wCube u1 i) wOpts) (rmsfInput (wCube u1 i) wOpts g) hsym
    (hgg ▸ hgs) wFreq_lamSq.1 rfl wFreq_lamSq.2 rfl rfl rfl (fun _ => rfl) rfl h0 h1 ⟨2, by omega⟩ l' hl'
  have hz0 : z = 0 := by
    rw [hRR, hr] at hRz
    exact (Option.some.inj hRz).symm
  have hfdf : Synth.fdf (synthInput (wCube u1 i) wOpts) ⟨2, by omega⟩ 0 = some 1 := by
    have := (Synth.fdf_blank_iff (synthInput (wCube u1 i) wOpts) 0).2 ⟨⟨2, by omega⟩, by rw [hv]; exact one_ne_zero⟩
      ⟨2, by omega⟩
    rw [hv] at this
    exact this
  unfold fdfCube at hF
  rw [if_pos (wCube_regular u1 i), hS, hfdf, hz0] at hF
  simp at hF

/-- C117 is false for the code: in a channel where only Stokes U is missing, the RMSF counts the channel and the
spectrum does not. -/
theorem response_missing_U (l0 : Fin (nPhi (wCube none none) wOpts)) (hl0 : (l0 : ℕ) = 1) :
    IsThin (wCube none none) 0 1 0 ((synthInput (wCube none none) wOpts).phi l0) ∧
    Usable (wCube none none) 0 0 ∧ scale (wCube none none) wOpts 0 = some (some 1) ∧
    ¬ IsResponse (wCube none none) wOpts 0 1 0 l0 1 := by
  refine ⟨?_, ⟨1, 0, 1, rfl, rfl, rfl, one_ne_zero⟩, rfl, ?_⟩
  · rw [wCube_phi0 none none l0 hl0]
    intro j q u s hq hu hi hs
    fin_cases j
    · simp [wCube] at hq hu
      simp [intensity, wCube] at hi
      subst hq hu hi
      simp [thin]
    · simp [wCube] at hu
  · apply wCube_mismatch none none ?_ ?_ rfl l0 hl0
    · simp [Synth.spectrum, synthInput, divided, wCube, pol]
      rfl
    · simp [Synth.spectrum, synthInput, divided, wCube, pol]

/-- The Stokes I model of the second witness: one, and zero in the second channel. -/
noncomputable def wI (j : Fin 2) (_ : Fin 1) : Option ℝ := some (if j = 0 then 1 else 0)

/-- C117 is false for the code also where the Stokes I model is zero (or missing). -/
theorem response_zero_I (l0 : Fin (nPhi (wCube (some 0) (some wI)) wOpts)) (hl0 : (l0 : ℕ) = 1) :
    IsThin (wCube (some 0) (some wI)) 0 1 0 ((synthInput (wCube (some 0) (some wI)) wOpts).phi l0) ∧
    Usable (wCube (some 0) (some wI)) 0 0 ∧ scale (wCube (some 0) (some wI)) wOpts 0 = some (some 1) ∧
    ¬ IsResponse (wCube (some 0) (some wI)) wOpts 0 1 0 l0 1 := by
  have h0 : Synth.spectrum (synthInput (wCube (some 0) (some wI)) wOpts) 0 0 = some 1 := by
    simp [Synth.spectrum, synthInput, divided, wCube, pol, wI, StokesI.divNaN]
    rfl
  have h1 : Synth.spectrum (synthInput (wCube (some 0) (some wI)) wOpts) 0 1 = none := by
    simp [Synth.spectrum, synthInput, divided, wCube, pol, wI, StokesI.divNaN]
  have hS : scale (wCube (some 0) (some wI)) wOpts 0 = some (some 1) := by
    obtain ⟨g', hg', hgs, hsh⟩ := shift_on_axis (Real.pi / 2) (Real.pi / 2) (by positivity)
      (by rw [wOpts_nChan]; omega)
    obtain ⟨-, -, -, hsym, -⟩ := Axis.phiAxis_spec (Real.pi / 2) (Real.pi / 2) (by positivity)
    have hn := wCube_nPhi (some 0) (some wI)
    obtain ⟨l', hl'⟩ := hsh ⟨2, by rw [wOpts_nChan]; omega⟩ ⟨1, by rw [wOpts_nChan]; omega⟩
    have e0 := wCube_phi0 (some 0) (some wI) ⟨1, by rw [hn]; omega⟩ rfl
    have e0' : Axis.phiAxis (Real.pi / 2) (Real.pi / 2) ⟨1, by rw [wOpts_nChan]; omega⟩ = 0 := e0
    rw [wAxis _ rfl, e0', sub_zero] at hl'
    obtain ⟨hlam, -, -⟩ := mismatch_core (synthInput (wCube (some 0) (some wI)) wOpts)
      (rmsfInput (wCube (some 0) (some wI)) wOpts g') hsym hgs wFreq_lamSq.1 rfl wFreq_lamSq.2 rfl rfl rfl
      (fun _ => rfl) rfl h0 h1 ⟨2, by rw [hn]; omega⟩ l' hl'
    have hf0 : freq0 wFreq 1 = wFreq 0 := by simp [freq0, wFreq]
    have hlt : wFreq 1 < wFreq 0 := by
      have h1 : (1 : ℝ) < Real.sqrt 2 := by
        rw [Real.lt_sqrt (by norm_num)]; norm_num
      have hc : 0 < Pipe1D.c := by unfold Pipe1D.c; norm_num
      simp only [wFreq, one_ne_zero, if_false, if_true]
      rw [div_lt_iff₀ (by linarith)]
      nlinarith
    have hidx : npArgmax (fun j => -|wFreq j - wFreq 0|) = 0 := by
      rw [npArgmax_eq_iff]
      constructor
      · intro j; simp
      · intro j hj; exact absurd hj (by simp)
    have hfr : (wCube (some 0) (some wI)).freq = wFreq := rfl
    unfold scale
    rw [show (wCube (some 0) (some wI)).i = some wI from rfl]
    dsimp only
    rw [hlam, hfr, hf0]
    unfold ifreq0
    simp only [hidx, lt_irrefl, if_false, wI, if_true]
  refine ⟨?_, ⟨1, 0, 1, rfl, rfl, rfl, one_ne_zero⟩, hS, wCube_mismatch _ _ h0 h1 hS l0 hl0⟩
  rw [wCube_phi0 (some 0) (some wI) l0 hl0]
  intro j q u s hq hu hi hs
  fin_cases j
  · simp [wCube] at hq hu
    simp [intensity, wCube, wI] at hi
    subst hq hu hi
    simp [thin]
  · simp [intensity, wCube, wI] at hi
    exact absurd hi.symm hs

/-- Instance of the hypotheses of `response_partial`: the cube of the witnesses with both channels good. -/
example : ∀ l0 : Fin (nPhi (wCube (some 0) none) wOpts), (l0 : ℕ) = 1 →
    IsResponse (wCube (some 0) none) wOpts 0 1 0 l0 1 := by
  intro l0 hl0
  apply response_partial
  · intro j _
    refine ⟨1, 0, 1, rfl, ?_, rfl, one_ne_zero⟩
    simp [wCube]
  · rw [wCube_axis]; positivity
  · rw [wCube_nPhi]; omega
  · exact one_ne_zero
  · rw [wCube_phi0 (some 0) none l0 hl0]
    intro j q u s hq hu hi hs
    simp [wCube] at hq hu
    simp [intensity, wCube] at hi
    subst hq hu hi
    simp [thin]
  · exact wCube_regular _ _
  · refine ⟨0, ⟨1, 0, 1, rfl, rfl, rfl, one_ne_zero⟩, ?_⟩
    simp [effWeight, weight, wCube]
  · rfl

end Verif.Pipe3D
