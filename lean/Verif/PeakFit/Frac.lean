import Verif.PeakFit.Props
import Verif.Peak.Thin

/-!
# Fractional polarisation, units and bias in the maps of the peak fit (C121, C122, C123)
-/

namespace Verif.PeakFit

open Verif.NumPy

variable {n N : ℕ}

/-! ## Helpers -/

theorem freq_lamSq (f : Fin n → ℝ) (hf : ∀ j, 0 < f j) : freq (Pipe1D.lamSq f) = f := by
  funext j
  unfold freq Pipe1D.lamSq
  have hc : (0 : ℝ) < Pipe1D.c := by unfold Pipe1D.c; norm_num
  have hj := hf j
  rw [Real.sqrt_sq (by positivity)]
  field_simp

theorem ifreq0_some [NeZero n] (f : Fin n → ℝ) (i : Fin n → Option ℝ) (i' : Fin n → ℝ) (h : ∀ j, i j = some (i' j))
    (f0 : ℝ) : Pipe3D.ifreq0 f i f0 = (StokesI.ifreq0 f i' f0).map some := by
  have : i = fun j => some (i' j) := funext h
  subst this
  unfold Pipe3D.ifreq0 StokesI.ifreq0
  dsimp only
  split_ifs <;> rfl

/-- Scaling a spectrum and its noise. -/
theorem measureN_units (F : Fin N → ℂ) (phi : Fin N → ℝ) (fw : ℝ) (d : Option ℝ) (lamSq : Fin n → ℝ) (lam0 k : ℝ)
    (hk : 0 < k) (m m' : Peak.Meas) (hm : Pipe1D.measureN F phi fw d lamSq lam0 = some m)
    (hm' : Pipe1D.measureN (fun i => (k : ℂ) * F i) phi fw (d.map fun v => k * v) lamSq lam0 = some m') :
    m'.phi = m.phi ∧ m'.dPhi = m.dPhi ∧ m'.snr = m.snr ∧ m'.indx = m.indx ∧
      m'.polAngle = m.polAngle ∧ m'.dPolAngle = m.dPolAngle ∧ m'.polAngle0 = m.polAngle0 ∧
      m'.dPolAngle0 = m.dPolAngle0 ∧
      m'.amp = m.amp.map (k * ·) ∧ m'.ampEff = m.ampEff.map (k * ·) ∧ m'.dAmp = m.dAmp.map (k * ·) ∧
      m'.dFDFcorMAD = m.dFDFcorMAD.map (k * ·) ∧ m'.re = m.re.map (k * ·) ∧ m'.im = m.im.map (k * ·) := by
  unfold Pipe1D.measureN at hm hm'
  split_ifs at hm hm' with h
  have := Option.some.inj hm; subst this
  have := Option.some.inj hm'; subst this
  exact Peak.measure_units _ _ fw d lamSq lam0 5 k hk

theorem fdiv_mul_left (k a : ℝ) (hk : k ≠ 0) : Peak.fdiv (k * a) k = some a := by
  unfold Peak.fdiv
  rw [if_neg hk]
  congr 1
  field_simp

/-! ## C121 -/

/-- The peak fit `x` is run, at pixel `(a, b)`, on what RM synthesis of cubes gave for pixel `p` of `y`: the cube in
flux units, the channels, the reference wavelength, and the same Stokes I model. -/
structure Follows [NeZero n] {m : ℕ} (y : Pipe3D.In n m) (o : Pipe1D.Opts) (p : Fin m)
    (x : In n (Pipe3D.nPhi y o)) (a b : ℕ) : Prop where
  lamSq : x.lamSq = Pipe1D.lamSq y.freq
  lam0 : x.lam0 = Synth.lam0Sq (Pipe3D.synthInput y o)
  fdf : ∀ k : Fin (Pipe3D.nPhi y o), Pipe3D.fdfCube y o k p = some (x.fdf.get [k, a, b])
  i : ∃ I c, y.i = some I ∧ x.i = some c ∧ ∀ j : Fin n, I j p = some (c.get [j, a, b])

/-- The factor of RM synthesis is the one of the peak fit if the reference wavelength is positive. -/
theorem scale_eq_stokesAt [NeZero n] {m : ℕ} (y : Pipe3D.In n m) (o : Pipe1D.Opts) (p : Fin m)
    (x : In n (Pipe3D.nPhi y o)) (a b : ℕ) (h : Follows y o p x a b) (hf : ∀ j, 0 < y.freq j) (h0 : 0 < x.lam0) :
    Pipe3D.scale y o p = (stokesAt x (a, b)).map some := by
  obtain ⟨I, c, hI, hc, hIc⟩ := h.i
  unfold Pipe3D.scale stokesAt
  rw [hI, hc]
  dsimp only
  rw [ifreq0_some y.freq _ (fun j => c.get [j, a, b]) hIc]
  unfold ifreq0Pix freq0
  rw [if_neg h0.ne', h.lamSq, freq_lamSq y.freq hf]
  unfold Pipe3D.freq0
  rw [← h.lam0, if_pos h0]

/-- C121, the part that holds: for a positive reference wavelength (no super-resolution) and a positive Stokes I, the
map of fractional polarisation has the peak of the spectrum of the fractional polarisation (before it was scaled
to flux units), and the signal to noise ratio is that of this spectrum with the noise given. -/
theorem fracPol_partial [NeZero n] {m : ℕ} (y : Pipe3D.In n m) (o : Pipe1D.Opts) (p : Fin m)
    (x : In n (Pipe3D.nPhi y o)) (s0 s1 a b : ℕ) (hx : Fits x s0 s1) (ha : a < s0) (hb : b < s1)
    (h : Follows y o p x a b) (hN : 3 ≤ Pipe3D.nPhi y o) (hf : ∀ j, 0 < y.freq j) (h0 : 0 < x.lam0)
    (S : ℝ) (hS : 0 < S) (hs : Pipe3D.scale y o p = some (some S))
    (f : Fin (Pipe3D.nPhi y o) → ℂ) (hfrac : ∀ k, Synth.fdf (Pipe3D.synthInput y o) k p = some (f k))
    (prods : List String) (hprods : ∀ k ∈ prods, k ∈ allProducts) :
    ∃ maps r, fit x prods = some (maps, [s0, s1]) ∧
      Pipe1D.measureN f x.phi (x.fwhm.get [a, b]) (x.noise.bind (noiseFactor x.variance)) x.lamSq x.lam0 = some r ∧
      ("fracPol" ∈ prods → maps "fracPol" (a, b) = r.amp) ∧
      ("snrPIfit" ∈ prods → maps "snrPIfit" (a, b) = r.snr) ∧
      ("Ifreq0" ∈ prods → maps "Ifreq0" (a, b) = some S) := by
  obtain ⟨maps, hm, hpix⟩ := maps_spec x s0 s1 hx hN prods hprods
  have hst : stokesAt x (a, b) = some S := by
    rw [scale_eq_stokesAt y o p x a b h hf h0] at hs
    cases hc : stokesAt x (a, b) with
    | none => rw [hc] at hs; simp at hs
    | some w => rw [hc] at hs; simpa using hs
  have hF : ∀ k : Fin (Pipe3D.nPhi y o), x.fdf.get [k, a, b] = some ((S : ℂ) * f k) := by
    intro k
    have := h.fdf k
    have hreg : Pipe3D.Regular y o := Pipe3D.regular_of_fdf this
    unfold Pipe3D.fdfCube at this
    rw [if_pos hreg, hs, hfrac k] at this
    simp only [Option.map_some, Option.bind_some, Option.some.injEq] at this
    rw [← this, mul_comm]
  obtain ⟨v, m', hv, hm', hval⟩ := (hpix a b ha hb).2 _ hF
  rw [hst] at hv
  have : S = v := Option.some.inj hv
  subst this
  obtain ⟨r, hr⟩ : ∃ r, Pipe1D.measureN f x.phi (x.fwhm.get [a, b]) (x.noise.bind (noiseFactor x.variance)) x.lamSq
      x.lam0 = some r := by
    unfold Pipe1D.measureN
    rw [dif_pos hN]
    exact ⟨_, rfl⟩
  have hno : noiseAt x S = (x.noise.bind (noiseFactor x.variance)).map fun v => S * v := by
    unfold noiseAt
    cases x.noise <;> rfl
  rw [hno] at hm'
  obtain ⟨-, -, hsnr, -, -, -, -, -, hamp, -⟩ := measureN_units f x.phi _ _ x.lamSq x.lam0 S hS r m' hr hm'
  refine ⟨maps, r, hm, hr, fun hk => ?_, fun hk => ?_, fun hk => ?_⟩
  · rw [hval _ hk]
    show (m'.amp.bind fun a => Peak.fdiv a S) = _
    rw [hamp]
    cases r.amp with
    | none => rfl
    | some w => exact fdiv_mul_left S w hS.ne'
  · rw [hval _ hk]
    exact hsnr
  · rw [hval _ hk]
    rfl

/-- C121 is false for super-resolution: with channels at `1, 2, 3` (in any unit `u`) and Stokes I `1, 3, 5`, RM
synthesis multiplies the spectrum by 3, the peak fit divides it by 2. -/
theorem fracPol_superres_wrong {m : ℕ} (y : Pipe3D.In 3 m) (o : Pipe1D.Opts) (ho : o.superRes = true) (p : Fin m)
    (x : In 3 (Pipe3D.nPhi y o)) (s0 s1 a b : ℕ) (hx : Fits x s0 s1) (ha : a < s0) (hb : b < s1)
    (h : Follows y o p x a b) (hN : 3 ≤ Pipe3D.nPhi y o) (u : ℝ) (hu : 0 < u) (hf : ∀ j, y.freq j = u * (j + 1))
    (hI : ∃ I, y.i = some I ∧ ∀ j, I j p = some (2 * ((j : ℕ) : ℝ) + 1))
    (f : Fin (Pipe3D.nPhi y o) → ℂ) (hfrac : ∀ k, Synth.fdf (Pipe3D.synthInput y o) k p = some (f k))
    (hnoise : x.noise = none) :
    ∃ maps r, fit x allProducts = some (maps, [s0, s1]) ∧
      Pipe1D.measureN f x.phi (x.fwhm.get [a, b]) none x.lamSq x.lam0 = some r ∧
      maps "fracPol" (a, b) = r.amp.map (3 / 2 * ·) := by
  have hlam : x.lam0 = 0 := by
    rw [h.lam0]
    unfold Synth.lam0Sq Pipe3D.synthInput
    simp [ho]
  obtain ⟨maps, hm, hpix⟩ := maps_spec x s0 s1 hx hN allProducts fun _ h => h
  obtain ⟨I, c, hI', hc, hIc⟩ := h.i
  obtain ⟨I2, hI2, hIv⟩ := hI
  have : I = I2 := Option.some.inj (hI'.symm.trans hI2)
  subst this
  have hcv : ∀ j : Fin 3, c.get [j, a, b] = 2 * ((j : ℕ) : ℝ) + 1 := fun j => by
    have := (hIc j).symm.trans (hIv j)
    simpa using this
  have hst : stokesAt x (a, b) = some 2 := by
    unfold stokesAt ifreq0Pix freq0
    rw [hc, if_pos hlam]
    dsimp only
    rw [dif_pos (by norm_num)]
    have e0 := hcv 0
    have e1 := hcv 1
    norm_num at e0 e1
    show some (1 / 2 * c.get [0, a, b] + 1 / 2 * c.get [1, a, b]) = _
    rw [e0, e1]
    norm_num
  have hs : Pipe3D.scale y o p = some (some 3) := by
    unfold Pipe3D.scale
    rw [hI']
    dsimp only
    rw [ifreq0_some y.freq _ (fun j : Fin 3 => c.get [j, a, b]) hIc]
    have hf0 : Pipe3D.freq0 y.freq (Synth.lam0Sq (Pipe3D.synthInput y o)) = u * 2 := by
      unfold Pipe3D.freq0
      rw [← h.lam0, hlam, if_neg (lt_irrefl _), Fin.sum_univ_three, hf, hf, hf]
      norm_num
      ring
    rw [hf0]
    have hidx : npArgmax (fun j => -|y.freq j - u * 2|) = 1 := by
      rw [npArgmax_eq_iff]
      constructor
      · intro j
        rw [hf, hf]
        have : u * ((((1 : Fin 3) : ℕ) : ℝ) + 1) - u * 2 = 0 := by norm_num
        rw [this, abs_zero, neg_zero]
        exact neg_nonpos.mpr (abs_nonneg _)
      · intro j hj
        have : j = 0 := by
          rcases j with ⟨j, hj3⟩
          have : j < 1 := hj
          ext; simp; omega
        subst this
        rw [hf, hf]
        have e : u * ((((1 : Fin 3) : ℕ) : ℝ) + 1) - u * 2 = 0 := by norm_num
        rw [e, abs_zero, neg_zero]
        have : u * ((((0 : Fin 3) : ℕ) : ℝ) + 1) - u * 2 = -u := by norm_num; ring
        rw [this, abs_neg, abs_of_pos hu]
        linarith
    unfold StokesI.ifreq0
    dsimp only
    rw [hidx]
    have e : y.freq 1 = u * 2 := by rw [hf]; norm_num
    have e1 := hcv 1
    norm_num at e1
    rw [e, if_neg (lt_irrefl _), if_neg (lt_irrefl _)]
    show (some (c.get [1, a, b])).map some = _
    rw [e1]
    rfl
  have hF : ∀ k : Fin (Pipe3D.nPhi y o), x.fdf.get [k, a, b] = some (((3 : ℝ) : ℂ) * f k) := by
    intro k
    have := h.fdf k
    have hreg : Pipe3D.Regular y o := Pipe3D.regular_of_fdf this
    unfold Pipe3D.fdfCube at this
    rw [if_pos hreg, hs, hfrac k] at this
    simp only [Option.map_some, Option.bind_some, Option.some.injEq] at this
    rw [← this, mul_comm]
  obtain ⟨v, m', hv, hm', hval⟩ := (hpix a b ha hb).2 _ hF
  rw [hst] at hv
  have : 2 = v := Option.some.inj hv
  subst this
  have hno : noiseAt x 2 = none := by unfold noiseAt; rw [hnoise]; rfl
  rw [hno] at hm' hval
  obtain ⟨r, hr⟩ : ∃ r, Pipe1D.measureN f x.phi (x.fwhm.get [a, b]) none x.lamSq x.lam0 = some r := by
    unfold Pipe1D.measureN
    rw [dif_pos hN]
    exact ⟨_, rfl⟩
  obtain ⟨-, -, -, -, -, -, -, -, hamp, -⟩ :=
    measureN_units f x.phi _ none x.lamSq x.lam0 3 (by norm_num) r m' hr hm'
  refine ⟨maps, r, hm, hr, ?_⟩
  rw [hval _ (by decide)]
  show (m'.amp.bind fun a => Peak.fdiv a 2) = _
  rw [hamp]
  cases r.amp with
  | none => rfl
  | some w =>
    simp only [Option.map_some, Option.bind_some]
    unfold Peak.fdiv
    rw [if_neg (by norm_num)]
    congr 1
    ring

/-! ## C122 -/

/-- `x'` is `x` in another unit of flux, `k` times as small: cube, noise and Stokes I are multiplied by `k`. -/
structure Rescaled (k : ℝ) (x x' : In n N) : Prop where
  fdf : x'.fdf = { x.fdf with get := fun idx => (x.fdf.get idx).map ((k : ℂ) * ·) }
  phi : x'.phi = x.phi
  fwhm : x'.fwhm = x.fwhm
  lamSq : x'.lamSq = x.lamSq
  lam0 : x'.lam0 = x.lam0
  noise : x'.noise = x.noise.map fun d j => (d j).map (k * ·)
  i : x'.i = x.i.map fun c => { c with get := fun idx => k * c.get idx }
  variance : x'.variance = x.variance

theorem noiseFactor_scale (variance : Bool) (d : Fin n → Option ℝ) (k : ℝ) (hk : 0 < k)
    (hd : ∀ j s, d j = some s → s ≠ 0) :
    noiseFactor variance (fun j => (d j).map (k * ·)) = (noiseFactor variance d).map (k * ·) := by
  unfold noiseFactor
  have h1 : Pipe1D.finiteWeights variance d := fun _ j h => hd j 0 h rfl
  have h2 : Pipe1D.finiteWeights variance fun j => (d j).map (k * ·) := by
    intro _ j h
    obtain ⟨s, hs, h0⟩ := Option.map_eq_some_iff.1 h
    exact mul_ne_zero hk.ne' (hd j s hs) h0
  rw [if_pos h1, if_pos h2]
  unfold Pipe1D.noiseTheory
  dsimp only
  set K : ℝ := if variance then (k ^ 2)⁻¹ else 1 with hK
  have hKpos : 0 < K := by rw [hK]; split_ifs <;> positivity
  have hw : ∀ j, (((d j).map (k * ·)).map fun s => if variance then 1 / s ^ 2 else (1 : ℝ)).getD 0 =
      K * (((d j).map fun s => if variance then 1 / s ^ 2 else (1 : ℝ)).getD 0) := by
    intro j
    cases hdj : d j with
    | none => simp
    | some s =>
      have := hd j s hdj
      simp only [Option.map_some, Option.getD_some, hK]
      split_ifs
      · field_simp
      · ring
  have hv : ∀ j, ((d j).map (k * ·)).getD 0 = k * (d j).getD 0 := by
    intro j; cases d j <;> simp
  simp only [hw, hv]
  have hsum : ∑ j, K * (((d j).map fun s => if variance then 1 / s ^ 2 else (1 : ℝ)).getD 0) =
      K * ∑ j, (((d j).map fun s => if variance then 1 / s ^ 2 else (1 : ℝ)).getD 0) := (Finset.mul_sum _ _ _).symm
  rw [hsum]
  set W := ∑ j, (((d j).map fun s => if variance then 1 / s ^ 2 else (1 : ℝ)).getD 0)
  by_cases hW : W = 0
  · rw [if_pos (by rw [hW, mul_zero]), if_pos hW]; rfl
  · rw [if_neg (mul_ne_zero hKpos.ne' hW), if_neg hW, Option.map_some]
    congr 1
    have : (∑ j, (K * (((d j).map fun s => if variance then 1 / s ^ 2 else (1 : ℝ)).getD 0)) ^ 2 *
        (k * (d j).getD 0) ^ 2) = (K * k) ^ 2 *
        ∑ j, (((d j).map fun s => if variance then 1 / s ^ 2 else (1 : ℝ)).getD 0) ^ 2 * ((d j).getD 0) ^ 2 := by
      rw [Finset.mul_sum]
      exact Finset.sum_congr rfl fun j _ => by ring
    rw [this]
    have e : (K * k) ^ 2 * (∑ j, (((d j).map fun s => if variance then 1 / s ^ 2 else (1 : ℝ)).getD 0) ^ 2 *
        ((d j).getD 0) ^ 2) / (K * W) ^ 2 = k ^ 2 * ((∑ j, (((d j).map fun s => if variance then 1 / s ^ 2 else
          (1 : ℝ)).getD 0) ^ 2 * ((d j).getD 0) ^ 2) / W ^ 2) := by
      field_simp
    rw [e, Real.sqrt_mul (by positivity), Real.sqrt_sq hk.le]

theorem fits_rescaled [NeZero n] (k : ℝ) (hk : 0 < k) (x x' : In n N) (s0 s1 : ℕ) (h : Rescaled k x x')
    (hd : ∀ d j s, x.noise = some d → d j = some s → s ≠ 0) (hx : Fits x s0 s1) : Fits x' s0 s1 := by
  obtain ⟨h1, h2, h3, h4⟩ := hx
  refine ⟨by rw [h.fdf]; exact h1, by rw [h.fwhm]; exact h2, ?_, ?_⟩
  · intro c' hc'
    rw [h.i] at hc'
    cases hc : x.i with
    | none => rw [hc] at hc'; simp at hc'
    | some c =>
      rw [hc, Option.map_some] at hc'
      have := Option.some.inj hc'
      subst this
      refine ⟨(h3 c hc).1, fun i => ?_⟩
      rw [h.lamSq, h.lam0]
      exact (h3 c hc).2 i
  · intro d' hd'
    rw [h.noise] at hd'
    cases hc : x.noise with
    | none => rw [hc] at hd'; simp at hd'
    | some d =>
      rw [hc, Option.map_some] at hd'
      have := Option.some.inj hd'
      subst this
      rw [h.variance, noiseFactor_scale x.variance d k hk (fun j s => hd d j s hc), Option.isSome_map]
      exact h4 d hc

/-- What a change of the unit of flux by `k` should do to a map. -/
def unitOf (name : String) (k : ℝ) : ℝ :=
  if name ∈ ["ampPeakPIfit", "ampPeakPIfitEff", "dAmpPeakPIfit", "dFDFcorMAD", "peakFDFimagFit", "peakFDFrealFit",
    "Ifreq0", "dFDFth"] then k else 1

/-- C122, the part that holds: without a Stokes I model, the maps of intensities scale with the unit of flux and the
others (depth, angle, signal to noise and their errors) do not depend on it. (`Ifreq0` is one and `fracPol` is the
intensity then, so these are excluded.) -/
theorem units_partial [NeZero n] (k : ℝ) (hk : 0 < k) (x x' : In n N) (s0 s1 : ℕ) (h : Rescaled k x x')
    (hd : ∀ d j s, x.noise = some d → d j = some s → s ≠ 0) (hx : Fits x s0 s1) (hN : 3 ≤ N) (hi : x.i = none) :
    ∃ maps maps', fit x allProducts = some (maps, [s0, s1]) ∧ fit x' allProducts = some (maps', [s0, s1]) ∧
      ∀ a b, a < s0 → b < s1 → ∀ name ∈ allProducts, name ≠ "Ifreq0" → name ≠ "fracPol" →
        maps' name (a, b) = (maps name (a, b)).map (unitOf name k * ·) := by
  obtain ⟨maps, hm, hp⟩ := maps_spec x s0 s1 hx hN allProducts fun _ h => h
  obtain ⟨maps', hm', hp'⟩ := maps_spec x' s0 s1 (fits_rescaled k hk x x' s0 s1 h hd hx) hN allProducts fun _ h => h
  refine ⟨maps, maps', hm, hm', fun a b ha hb name hname hne1 hne2 => ?_⟩
  have hget : ∀ idx, x'.fdf.get idx = (x.fdf.get idx).map ((k : ℂ) * ·) := fun idx => by rw [h.fdf]
  by_cases hbl : ∃ l : Fin N, x.fdf.get [l, a, b] = none
  · rw [(hp a b ha hb).1 hbl name hname]
    obtain ⟨l, hl⟩ := hbl
    rw [(hp' a b ha hb).1 ⟨l, by rw [hget, hl]; rfl⟩ name hname]
    rfl
  · push Not at hbl
    have hF : ∀ l : Fin N, ∃ z, x.fdf.get [l, a, b] = some z := fun l => Option.ne_none_iff_exists'.mp (hbl l)
    choose F hF using hF
    obtain ⟨v, m, hv, hme, hval⟩ := (hp a b ha hb).2 F hF
    obtain ⟨v', m', hv', hme', hval'⟩ := (hp' a b ha hb).2 (fun l => (k : ℂ) * F l)
      (fun l => by rw [hget, hF l]; rfl)
    have e1 : v = 1 := by
      unfold stokesAt at hv; rw [hi] at hv; exact (Option.some.inj hv).symm
    have e2 : v' = 1 := by
      unfold stokesAt at hv'; rw [h.i, hi] at hv'; exact (Option.some.inj hv').symm
    subst e1 e2
    have hno : noiseAt x' 1 = (noiseAt x 1).map fun v => k * v := by
      unfold noiseAt
      rw [h.noise, h.variance]
      cases hn : x.noise with
      | none => rfl
      | some d =>
        simp only [Option.map_some, Option.bind_some]
        rw [noiseFactor_scale x.variance d k hk (fun j s => hd d j s hn)]
        cases noiseFactor x.variance d <;> simp
    rw [h.phi, h.fwhm, h.lamSq, h.lam0, hno] at hme'
    obtain ⟨u1, u2, u3, u4, u5, u6, u7, u8, u9, u10, u11, u12, u13, u14⟩ :=
      measureN_units F x.phi _ _ x.lamSq x.lam0 k hk m m' hme hme'
    rw [hval name hname, hval' name hname, h.fwhm, h.lamSq, h.lam0, hno]
    have one : ∀ o : Option ℝ, o = o.map ((1 : ℝ) * ·) := fun o => by cases o <;> simp
    have unit1 : ∀ s : String, s ∉ ["ampPeakPIfit", "ampPeakPIfitEff", "dAmpPeakPIfit", "dFDFcorMAD",
        "peakFDFimagFit", "peakFDFrealFit", "Ifreq0", "dFDFth"] → unitOf s k = 1 := fun s hs => if_neg hs
    have unitk : ∀ s : String, s ∈ ["ampPeakPIfit", "ampPeakPIfitEff", "dAmpPeakPIfit", "dFDFcorMAD",
        "peakFDFimagFit", "peakFDFrealFit", "Ifreq0", "dFDFth"] → unitOf s k = k := fun s hs => if_pos hs
    simp only [allProducts, List.mem_cons, List.not_mem_nil, or_false] at hname
    rcases hname with rfl | rfl | rfl | rfl | rfl | rfl | rfl | rfl | rfl | rfl | rfl | rfl | rfl | rfl | rfl | rfl |
      rfl | rfl | rfl | rfl | rfl | rfl | rfl | rfl
    · rw [unitk _ (by decide)]; exact u12
    · rw [unit1 _ (by decide), ← one]; exact u1
    · rw [unit1 _ (by decide), ← one]; exact u2
    · rw [unitk _ (by decide)]; exact u9
    · rw [unitk _ (by decide)]; exact u10
    · rw [unitk _ (by decide)]; exact u11
    · rw [unit1 _ (by decide), ← one]; exact u3
    · rw [unit1 _ (by decide), ← one]; exact u4
    · rw [unitk _ (by decide)]; exact u14
    · rw [unitk _ (by decide)]; exact u13
    · rw [unit1 _ (by decide), ← one]; exact u5
    · rw [unit1 _ (by decide), ← one]; exact u6
    · rw [unit1 _ (by decide), ← one]; exact u7
    · rw [unit1 _ (by decide), ← one]; exact u8
    · exact absurd rfl hne1
    · rw [unitk _ (by decide)]; rfl
    · rw [unit1 _ (by decide), ← one]; rfl
    · rw [unit1 _ (by decide), ← one]; rfl
    · rw [unit1 _ (by decide), ← one]; rfl
    · rw [unit1 _ (by decide), ← one]; rfl
    · rw [unit1 _ (by decide), ← one]; rfl
    · rw [unit1 _ (by decide), ← one]; rfl
    · rw [unit1 _ (by decide), ← one]; rfl
    · exact absurd rfl hne2

theorem ifreq0Pix_scale [NeZero n] (lamSq : Fin n → ℝ) (lam0 k : ℝ) (i : Fin n → ℝ) :
    ifreq0Pix lamSq lam0 (fun j => k * i j) = (ifreq0Pix lamSq lam0 i).map (k * ·) := by
  unfold ifreq0Pix
  cases freq0 lam0 with
  | none =>
    dsimp only
    split_ifs
    · simp only [Option.map_some, Option.some.injEq]; ring
    · rfl
  | some f0 =>
    dsimp only
    unfold StokesI.ifreq0
    dsimp only
    split_ifs
    · simp only [Option.map_some, Option.some.injEq]; ring
    · rfl
    · simp only [Option.map_some, Option.some.injEq]; ring
    · simp only [Option.map_some, Option.some.injEq]; ring
    · rfl

theorem measureN_snr_noise (F : Fin N → ℂ) (phi : Fin N → ℝ) (fw d k : ℝ) (lamSq : Fin n → ℝ) (lam0 : ℝ)
    (hk : 0 < k) (m m' : Peak.Meas) (hm : Pipe1D.measureN F phi fw (some d) lamSq lam0 = some m)
    (hm' : Pipe1D.measureN F phi fw (some (k * d)) lamSq lam0 = some m') :
    m'.snr = m.snr.map (· / k) := by
  unfold Pipe1D.measureN at hm hm'
  split_ifs at hm hm' with h
  have := Option.some.inj hm; subst this
  have := Option.some.inj hm'; subst this
  unfold Peak.measure
  simp only [Option.some_or]
  generalize Peak.vertex _ _ _ _ _ _ = V
  rcases V with _ | ⟨vx, vy⟩
  · rfl
  · simp only [Option.bind_some]
    unfold Peak.fdiv
    by_cases hd : d = 0
    · simp [hd]
    · rw [if_neg hd, if_neg (mul_ne_zero hk.ne' hd)]
      simp only [Option.map_some, Option.some.injEq]
      field_simp

/-- C122 is false with a Stokes I model and noise: in a unit `k` times as small the signal to noise ratio is `k` times
as small, as the noise of the channels, already a flux, is multiplied by Stokes I again. -/
theorem units_stokesI_wrong [NeZero n] (k : ℝ) (hk : 0 < k) (x x' : In n N) (s0 s1 : ℕ) (h : Rescaled k x x')
    (hd : ∀ d j s, x.noise = some d → d j = some s → s ≠ 0) (hx : Fits x s0 s1) (hN : 3 ≤ N)
    (hi : x.i.isSome) (hn : x.noise.isSome) :
    ∃ maps maps', fit x allProducts = some (maps, [s0, s1]) ∧ fit x' allProducts = some (maps', [s0, s1]) ∧
      ∀ a b, a < s0 → b < s1 → maps' "snrPIfit" (a, b) = (maps "snrPIfit" (a, b)).map (· / k) := by
  obtain ⟨maps, hm, hp⟩ := maps_spec x s0 s1 hx hN allProducts fun _ h => h
  obtain ⟨maps', hm', hp'⟩ := maps_spec x' s0 s1 (fits_rescaled k hk x x' s0 s1 h hd hx) hN allProducts fun _ h => h
  refine ⟨maps, maps', hm, hm', fun a b ha hb => ?_⟩
  have hname : "snrPIfit" ∈ allProducts := by decide
  have hget : ∀ idx, x'.fdf.get idx = (x.fdf.get idx).map ((k : ℂ) * ·) := fun idx => by rw [h.fdf]
  obtain ⟨c, hc⟩ := Option.isSome_iff_exists.mp hi
  obtain ⟨d, hdn⟩ := Option.isSome_iff_exists.mp hn
  obtain ⟨f, hf⟩ := Option.isSome_iff_exists.mp (hx.2.2.2 d hdn)
  by_cases hbl : ∃ l : Fin N, x.fdf.get [l, a, b] = none
  · rw [(hp a b ha hb).1 hbl _ hname]
    obtain ⟨l, hl⟩ := hbl
    rw [(hp' a b ha hb).1 ⟨l, by rw [hget, hl]; rfl⟩ _ hname]
    rfl
  · push Not at hbl
    have hF : ∀ l : Fin N, ∃ z, x.fdf.get [l, a, b] = some z := fun l => Option.ne_none_iff_exists'.mp (hbl l)
    choose F hF using hF
    obtain ⟨v, m, hv, hme, hval⟩ := (hp a b ha hb).2 F hF
    obtain ⟨v', m', hv', hme', hval'⟩ := (hp' a b ha hb).2 (fun l => (k : ℂ) * F l)
      (fun l => by rw [hget, hF l]; rfl)
    have hvv : v' = k * v := by
      unfold stokesAt at hv hv'
      rw [h.i, hc, h.lamSq, h.lam0] at hv'
      rw [hc] at hv
      dsimp only [Option.map_some] at hv hv'
      rw [ifreq0Pix_scale, hv] at hv'
      exact (Option.some.inj hv').symm
    subst hvv
    have hno : noiseAt x v = some (v * f) := by
      unfold noiseAt; rw [hdn, Option.bind_some, hf]; rfl
    have hno' : noiseAt x' (k * v) = (some (k * (v * f))).map fun w => k * w := by
      unfold noiseAt
      rw [h.noise, h.variance, hdn]
      simp only [Option.map_some, Option.bind_some]
      rw [noiseFactor_scale x.variance d k hk (fun j s => hd d j s hdn), hf]
      simp only [Option.map_some, Option.some.injEq]
      ring
    rw [h.phi, h.fwhm, h.lamSq, h.lam0, hno'] at hme'
    rw [hno] at hme
    obtain ⟨r, hr⟩ : ∃ r, Pipe1D.measureN F x.phi (x.fwhm.get [a, b]) (some (k * (v * f))) x.lamSq x.lam0 = some r := by
      unfold Pipe1D.measureN
      rw [dif_pos hN]
      exact ⟨_, rfl⟩
    obtain ⟨-, -, u3, -⟩ := measureN_units F x.phi _ _ x.lamSq x.lam0 k hk r m' hr hme'
    rw [hval _ hname, hval' _ hname]
    show m'.snr = m.snr.map (· / k)
    rw [u3]
    exact measureN_snr_noise F x.phi _ _ k x.lamSq x.lam0 hk m r hme hr

/-! ## C123 -/

/-- C123, the part that holds: below the threshold of the correction, the map of fractional polarisation is the
fractional polarisation of the one-dimensional program (the corrected peak over Stokes I, `Pipe1D.run`). -/
theorem fracPol_bias_partial [NeZero n] (x : In n N) (s0 s1 : ℕ) (hx : Fits x s0 s1) (hN : 3 ≤ N)
    (a b : ℕ) (ha : a < s0) (hb : b < s1) (F : Fin N → ℂ) (hF : ∀ k : Fin N, x.fdf.get [k, a, b] = some (F k)) :
    ∃ maps v m, fit x allProducts = some (maps, [s0, s1]) ∧ stokesAt x (a, b) = some v ∧
      Pipe1D.measureN F x.phi (x.fwhm.get [a, b]) (noiseAt x v) x.lamSq x.lam0 = some m ∧
      ∀ s d, m.snr = some s → m.dAmp = some d → 0 < d →
        (s < 5 → maps "fracPol" (a, b) = m.ampEff.bind fun e => Peak.fdiv e v) ∧
        ∀ A, m.amp = some A → v ≠ 0 → 5 ≤ s → maps "fracPol" (a, b) ≠ m.ampEff.bind fun e => Peak.fdiv e v := by
  obtain ⟨maps, hm, hp⟩ := maps_spec x s0 s1 hx hN allProducts fun _ h => h
  obtain ⟨v, m, hv, hme, hval⟩ := (hp a b ha hb).2 F hF
  refine ⟨maps, v, m, hm, hv, hme, fun s d hs hd hd0 => ?_⟩
  have hmap : maps "fracPol" (a, b) = m.amp.bind fun e => Peak.fdiv e v := hval "fracPol" (by decide)
  rw [hmap]
  have key : ∀ A, m.amp = some A → s = A / d ∧
      m.ampEff = if 5 ≤ s then Peak.fsqrt (A ^ 2 - 2.3 * d ^ 2) else some A := by
    intro A hA
    unfold Pipe1D.measureN at hme
    rw [dif_pos hN] at hme
    have := Option.some.inj hme
    subst this
    unfold Peak.measure at hs hd hA ⊢
    dsimp only at hs hd hA ⊢
    rw [hd] at hs ⊢
    revert hs hA
    generalize Peak.vertex _ _ _ _ _ _ = V
    rcases V with _ | ⟨vx, vy⟩
    · intro _ h; simp at h
    · intro hs hA
      simp only [Option.bind_some] at hs hA ⊢
      by_cases hin : Peak.maxAbs (fun i : Fin (N - 3 + 3) => x.phi (i.cast (by omega))) < |vx|
      · rw [if_pos hin] at hA; simp at hA
      · rw [if_neg hin] at hA ⊢
        simp only [Option.map_some, Option.some.injEq] at hA
        subst hA
        unfold Peak.fdiv at hs
        rw [if_neg hd0.ne'] at hs
        have hs' : vy / d = s := Option.some.inj hs
        refine ⟨hs'.symm, ?_⟩
        simp only [Option.map_some, Option.bind_some]
        have : Peak.snrReaches vy d 5 ↔ 5 ≤ s := by
          rw [← hs']
          unfold Peak.snrReaches
          simp [hd0.ne']
        by_cases h5 : 5 ≤ s
        · rw [if_pos h5, if_pos (this.mpr h5)]
        · rw [if_neg h5, if_neg (fun hh => h5 (this.mp hh))]
  constructor
  · intro h5
    cases hA : m.amp with
    | some A =>
      rw [(key A hA).2, if_neg (not_le.mpr h5)]
    | none =>
      have : m.ampEff = none := by
        unfold Pipe1D.measureN at hme
        rw [dif_pos hN] at hme
        have := Option.some.inj hme
        subst this
        unfold Peak.measure at hA ⊢
        dsimp only at hA ⊢
        rw [hA]; rfl
      rw [this]
  · intro A hA hv0 h5
    obtain ⟨hsA, heff⟩ := key A hA
    rw [hA, heff, if_pos h5]
    simp only [Option.bind_some]
    unfold Peak.fdiv Peak.fsqrt
    rw [if_neg hv0]
    split_ifs with hneg
    · simp
    · simp only [Option.bind_some]
      intro hh
      have hh' : A / v = Real.sqrt (A ^ 2 - 2.3 * d ^ 2) / v := Option.some.inj hh
      have h1 : A = Real.sqrt (A ^ 2 - 2.3 * d ^ 2) := by
        field_simp at hh'
        exact hh'
      have h2 : A ^ 2 = A ^ 2 - 2.3 * d ^ 2 := by
        conv_lhs => rw [h1]
        exact Real.sq_sqrt (not_lt.mp hneg)
      have : 0 < d ^ 2 := by positivity
      linarith

end Verif.PeakFit
