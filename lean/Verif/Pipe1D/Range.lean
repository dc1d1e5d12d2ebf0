import Verif.Pipe1D.Units
import Verif.Peak.Symmetry

/-!
# C280: the range of Faraday depths

Source: `/repo/RMtools_1D/do_RMsynth_1D.py` 253-412 (option `phiMax_radm2`), `/repo/RMutils/util_RM.py` 97-225, 980-1110. The models are those of
`Pipe1D/Model`, `Synth/Model` and `Peak/Model`; here is nothing new of the code.
-/

namespace Verif.Peak

open Verif.NumPy

variable {M M' n : ℕ}

/-- The measurements which say something about the source. -/
def SameSource (a b : Meas) : Prop :=
  b.phi = a.phi ∧ b.dPhi = a.dPhi ∧ b.amp = a.amp ∧ b.ampEff = a.ampEff ∧ b.dAmp = a.dAmp ∧ b.snr = a.snr ∧ b.re = a.re ∧ b.im = a.im ∧
    b.polAngle = a.polAngle ∧ b.dPolAngle = a.dPolAngle ∧ b.polAngle0 = a.polAngle0 ∧ b.dPolAngle0 = a.dPolAngle0

/-- A spectrum `F`, and a longer one `F'` which contains it, starting at sample `e`. If the only largest sample of the longer one is inside the shorter
one, the measurements agree, the index up to `e`. -/
theorem measure_window (F : Fin (M + 3) → ℂ) (phi : Fin (M + 3) → ℝ) (F' : Fin (M' + 3) → ℂ) (phi' : Fin (M' + 3) → ℝ) (e : ℕ) (he : M + e ≤ M')
    (hF : ∀ (i : Fin (M + 3)) (j : Fin (M' + 3)), (j : ℕ) = i + e → F' j = F i ∧ phi' j = phi i) (a d : ℝ) (hd : 0 < d)
    (hphi : ∀ i, phi' i = a + (i : ℕ) * d) (k : Fin (M + 1)) (l0 : Fin (M' + 3)) (hl : (l0 : ℕ) = k + 1 + e)
    (hmax : ∀ i, i ≠ l0 → ‖F' i‖ < ‖F' l0‖) (fwhm s : ℝ) (lamSq : Fin n → ℝ) (lam0 thr : ℝ) :
    let r := measure F phi fwhm (some s) lamSq lam0 thr
    let r' := measure F' phi' fwhm (some s) lamSq lam0 thr
    SameSource r' r ∧ ∃ v, r.indx = some v ∧ r'.indx = some (v + e) := by
  have hk := k.isLt
  let k' : Fin (M' + 1) := ⟨k + e, by omega⟩
  have hk' : (k' : ℕ) = k + e := rfl
  have hlc : l0 = centre k' := Fin.ext (by rw [val_centre, hk', hl]; omega)
  rw [hlc] at hmax hl
  obtain ⟨b1, b2⟩ := hF (before k) (before k') (by rw [val_before, val_before, hk'])
  obtain ⟨c1, c2⟩ := hF (centre k) (centre k') (by rw [val_centre, val_centre, hk']; omega)
  obtain ⟨a1, a2⟩ := hF (after k) (after k') (by rw [val_after, val_after, hk']; omega)
  have hphi0 : ∀ i : Fin (M + 3), phi i = (a + e * d) + (i : ℕ) * d := by
    intro i
    have hi := i.isLt
    rw [← (hF i ⟨i + e, by omega⟩ rfl).2, hphi]
    push_cast
    ring
  have hmax0 : ∀ i, i ≠ centre k → ‖F i‖ < ‖F (centre k)‖ := by
    intro i hi
    have hi' := i.isLt
    rw [← c1, ← (hF i ⟨i + e, by omega⟩ rfl).1]
    refine hmax _ fun h => hi (Fin.ext ?_)
    have := congrArg Fin.val h
    rw [hl] at this
    rw [val_centre]
    change (i : ℕ) + e = _ at this
    omega
  intro r r'
  obtain ⟨δ, A, hδ, hA, hn, -, h1, h2, h3, h4, h5, h6, h7, h8, h9, h10⟩ := measure_local F phi fwhm _ d s lamSq lam0 thr hd hphi0 k hmax0
  obtain ⟨δ', A', hδ', hA', hn', -, g1, g2, g3, g4, g5, g6, g7, g8, g9, g10⟩ := measure_local F' phi' fwhm a d s lamSq lam0 thr hd hphi k' hmax
  rw [b1, c1, a1] at hδ' hA' g3 g4
  obtain rfl : δ' = δ := hδ'.trans hδ.symm
  obtain rfl : A' = A := hA'.trans hA.symm
  rw [c2] at g1
  have e1 : r.phi = r'.phi := h1.trans g1.symm
  have e3 : r.re = r'.re := h3.trans g3.symm
  have e4 : r.im = r'.im := h4.trans g4.symm
  have e11 : r.polAngle = r'.polAngle := by
    change r.im.bind (fun y => r.re.map fun x => pyMod (0.5 * degrees (arctan2 y x)) 180) =
      r'.im.bind (fun y => r'.re.map fun x => pyMod (0.5 * degrees (arctan2 y x)) 180)
    rw [e3, e4]
  have e12 : r.polAngle0 = r'.polAngle0 := by
    change r.polAngle.bind (fun a => r.phi.map fun x => pyMod (degrees (radians a - x * lam0)) 180) =
      r'.polAngle.bind (fun a => r'.phi.map fun x => pyMod (degrees (radians a - x * lam0)) 180)
    rw [e11, e1]
  refine ⟨⟨e1, h8.trans g8.symm, h2.trans g2.symm, h7.trans g7.symm, h5.trans g5.symm, h6.trans g6.symm, e3, e4, e11, h9.trans g9.symm, e12,
    h10.trans g10.symm⟩, ?_⟩
  have hx : |phi (centre k) + δ' - phi (centre k)| < d := by rw [add_sub_cancel_left]; linarith
  have i1 : r.indx = r.phi.map fun x => npInterp (M + 2) (at0 phi) (at0 fun i => ((i : ℕ) : ℝ)) x := rfl
  have i2 : r'.indx = r'.phi.map fun x => npInterp (M' + 2) (at0 phi') (at0 fun i => ((i : ℕ) : ℝ)) x := rfl
  rw [i1, i2, ← e1, show r.phi = _ from h1]
  refine ⟨_, rfl, ?_⟩
  rw [Option.map_some]
  dsimp only
  rw [interp_local phi _ d _ hd hphi0 k hx, interp_local phi' _ d _ hd hphi k' (by rw [c2]; exact hx), c2]
  congr 1
  rw [val_before, val_centre, val_after, val_before, val_centre, val_after, hk']
  unfold tri
  split_ifs <;> push_cast <;> ring

end Verif.Peak

namespace Verif.Pipe1D

open Verif.NumPy Verif.SynthSpec

variable {n : ℕ}

/-- What two runs agree in: everything about the source, the reference and the theoretical noise. Left out are the noise measured in the spectrum and the
index of the peak. -/
def SameResults (a b : Out) : Prop :=
  Peak.SameSource a.meas b.meas ∧ b.lam0Sq = a.lam0Sq ∧ b.freq0 = a.freq0 ∧ b.ifreq0 = a.ifreq0 ∧ b.dFDFth = a.dFDFth ∧ b.fracPol = a.fracPol ∧
    b.nChannels = a.nChannels

theorem tail_range [NeZero n] {N N' : ℕ} (freq : Fin n → ℝ) (o o' : Opts) (ho : o'.superRes = o.superRes) (fw : ℝ) (Q U : Fin n → Fin 1 → Option ℝ)
    (lam : Fin n → ℝ) (w d q : Fin n → Option ℝ) (hw : ∀ j, 0 ≤ (w j).getD 0) (L : Option ℝ) (phi : Fin N → ℝ) (phi' : Fin N' → ℝ) (c c' : ℕ)
    (hN : N = 2 * c + 1) (hN' : N' = 2 * c' + 1) (hc : c ≤ c') (δ : ℝ) (hδ : 0 < δ) (hphi : ∀ i, phi i = ((i : ℝ) - c) * δ)
    (hphi' : ∀ i, phi' i = ((i : ℝ) - c') * δ) (ref : ℝ → Option (ℝ × Option ℝ)) (l0 : Fin N') (hin : |phi' l0| < c * δ)
    (hmax : ∀ l, l ≠ l0 → ‖Synth.value ⟨Q, U, lam, phi', some w, L⟩ l 0‖ < ‖Synth.value ⟨Q, U, lam, phi', some w, L⟩ l0 0‖)
    (out' : Out) (hrun : runTail freq o' fw ⟨Q, U, lam, phi', some w, L⟩ w d q ref = some out') (hI : out'.ifreq0 ≠ 0) :
    ∃ out, runTail freq o fw ⟨Q, U, lam, phi, some w, L⟩ w d q ref = some out ∧ SameResults out' out ∧
      ∃ v, out.meas.indx = some v ∧ out'.meas.indx = some (v + ((c' - c : ℕ) : ℝ)) := by
  set inp : Synth.Input n 1 N := ⟨Q, U, lam, phi, some w, L⟩ with hinp
  set inp' : Synth.Input n 1 N' := ⟨Q, U, lam, phi', some w, L⟩ with hinp'
  have hl0 := l0.isLt
  have hin' : c' < (l0 : ℕ) + c ∧ (l0 : ℕ) < c' + c := by
    rw [hphi', abs_mul, abs_of_pos hδ] at hin
    have := lt_of_mul_lt_mul_right hin hδ.le
    rw [abs_lt] at this
    constructor
    · have h1 : (c' : ℝ) < (l0 : ℝ) + c := by linarith
      exact_mod_cast h1
    · have h1 : (l0 : ℝ) < c' + c := by linarith
      exact_mod_cast h1
  have hs : SymGrid inp.phi := by
    intro l
    have hl := l.isLt
    change phi (Fin.rev l) = - phi l
    rw [hphi, hphi]
    have : ((Fin.rev l : Fin _) : ℕ) + (l : ℕ) = 2 * c := by rw [Fin.val_rev]; omega
    have h' : ((Fin.rev l : Fin _) : ℝ) = 2 * (c : ℝ) - (l : ℝ) := by rw [eq_sub_iff_add_eq]; exact_mod_cast this
    rw [h']; ring
  have hs' : SymGrid inp'.phi := by
    intro l
    have hl := l.isLt
    change phi' (Fin.rev l) = - phi' l
    rw [hphi', hphi']
    have : ((Fin.rev l : Fin _) : ℕ) + (l : ℕ) = 2 * c' := by rw [Fin.val_rev]; omega
    have h' : ((Fin.rev l : Fin _) : ℝ) = 2 * (c' : ℝ) - (l : ℝ) := by rw [eq_sub_iff_add_eq]; exact_mod_cast this
    rw [h']; ring
  have href : Synth.refLamSq inp' = Synth.refLamSq inp := rfl
  have hph : ∀ (i : Fin N) (j : Fin N'), (j : ℕ) = i + (c' - c) → phi' j = phi i := by
    intro i j h
    rw [hphi, hphi', h]
    push_cast [Nat.cast_sub hc]
    ring
  have hval : ∀ (i : Fin N) (j : Fin N'), (j : ℕ) = i + (c' - c) → Synth.value inp' j 0 = Synth.value inp i 0 := by
    intro i j h
    rw [Synth.value_sym inp hs, Synth.value_sym inp' hs', href]
    change SynthSpec.fdf _ _ _ _ (phi' j) = SynthSpec.fdf _ _ _ _ (phi i)
    rw [hph i j h]
    rfl
  have hN3 : 3 ≤ N := by omega
  have hN3' : 3 ≤ N' := by omega
  -- the narrow spectrum is not blank
  have hpos : 0 < ‖Synth.value inp' l0 0‖ := by
    have hne : ∃ l : Fin N', l ≠ l0 := by
      by_cases h : (l0 : ℕ) = 0
      · exact ⟨⟨1, by omega⟩, fun e => by have := congrArg Fin.val e; simp only at this; omega⟩
      · exact ⟨⟨0, by omega⟩, fun e => by have := congrArg Fin.val e; simp only at this; omega⟩
    obtain ⟨l, hl⟩ := hne
    exact lt_of_le_of_lt (norm_nonneg _) (hmax l hl)
  let i0 : Fin N := ⟨l0 - (c' - c), by omega⟩
  have hi0 : (l0 : ℕ) = i0 + (c' - c) := by change _ = (l0 : ℕ) - (c' - c) + (c' - c); omega
  have hv0 : Synth.value inp i0 0 ≠ 0 := by
    rw [← hval i0 l0 hi0]
    exact norm_pos_iff.1 hpos
  have hsome : ∀ l, ((Synth.doRmsynthPlanes inp).1 l 0).isSome := by
    intro l
    change (Synth.fdf inp l 0).isSome
    unfold Synth.fdf
    rw [if_neg]
    · rfl
    · intro h
      exact hv0 ((Synth.value_eq_raw inp i0 0).trans (h i0))
  -- the noise is known
  have hth : ∃ t, noiseTheory w d = some t := by
    unfold noiseTheory
    dsimp only
    by_cases h : ∑ j, (w j).getD 0 = 0
    · exfalso
      have h0 : ∀ j, (w j).getD 0 = 0 := fun j => (Finset.sum_eq_zero_iff_of_nonneg fun j _ => hw j).1 h j (Finset.mem_univ _)
      apply hv0
      rw [Synth.value_sym inp hs]
      unfold SynthSpec.fdf
      have : ∀ j, effWeight inp.weight j = 0 := h0
      simp [this]
    · rw [if_neg h]
      exact ⟨_, rfl⟩
  obtain ⟨t, ht⟩ := hth
  unfold runTail at hrun ⊢
  dsimp only at hrun ⊢
  rw [ho] at hrun
  generalize (if o.superRes = true then fw else 3.8 / (arrMax (lamSq freq) - arrMin (lamSq freq))) = W at hrun ⊢
  rw [show (Synth.doRmsynthPlanes inp').2 = (Synth.doRmsynthPlanes inp).2 from href] at hrun
  obtain ⟨⟨f0, J⟩, hr, h2⟩ := Option.bind_eq_some_iff.mp hrun
  obtain ⟨J, rfl, h3⟩ := Option.bind_eq_some_iff.mp h2
  split_ifs at h3 with hF
  obtain ⟨m, hm, rfl⟩ := Option.map_eq_some_iff.mp h3
  rw [hr]
  simp only [Option.bind_some]
  rw [dif_pos hsome]
  dsimp only at hI
  rw [ht, Option.map_some] at hm ⊢
  unfold measureN at hm ⊢
  rw [dif_pos hN3'] at hm
  rw [dif_pos hN3]
  have hm := Option.some.inj hm
  subst hm
  have hget : ∀ l, ((Synth.doRmsynthPlanes inp).1 l 0).get (hsome l) = Synth.value inp l 0 := fun l => by
    unfold Synth.value
    exact (Option.get_eq_getD _)
  have hget' : ∀ l, ((Synth.doRmsynthPlanes inp').1 l 0).get (hF l) = Synth.value inp' l 0 := fun l => by
    unfold Synth.value
    exact (Option.get_eq_getD _)
  have key := Peak.measure_window (M := N - 3) (M' := N' - 3) (n := n) (fun i => ((Synth.doRmsynthPlanes inp).1 (i.cast (by omega)) 0).get (hsome _) * (J : ℂ))
    (fun i => inp.phi (i.cast (by omega))) (fun i => ((Synth.doRmsynthPlanes inp').1 (i.cast (by omega)) 0).get (hF _) * (J : ℂ))
    (fun i => inp'.phi (i.cast (by omega))) (c' - c) (by omega)
    (by
      intro i j h
      constructor
      · rw [hget, hget', hval (i.cast (by omega)) (j.cast (by omega)) h]
      · exact hph _ _ h)
    (-(c' : ℝ) * δ) δ hδ
    (by
      intro i
      change phi' _ = _
      rw [hphi']
      change (((i : ℕ) : ℝ) - _) * _ = _
      ring)
    ⟨i0 - 1, by have : (i0 : ℕ) = l0 - (c' - c) := rfl; omega⟩ (l0.cast (by omega))
    (by
      have : (i0 : ℕ) = l0 - (c' - c) := rfl
      change (l0 : ℕ) = (i0 : ℕ) - 1 + 1 + (c' - c)
      omega)
    (by
      intro i hi
      rw [hget', hget', norm_mul, norm_mul]
      refine mul_lt_mul_of_pos_right (hmax _ fun h => hi ?_) (norm_pos_iff.2 (Complex.ofReal_ne_zero.2 hI))
      have := congrArg Fin.val h
      exact Fin.ext this)
    W (|J| * t) (lamSq freq)
    (Synth.doRmsynthPlanes inp).2 5
  refine ⟨_, rfl, ⟨key.1, rfl, rfl, rfl, rfl, ?_, rfl⟩, key.2⟩
  dsimp only
  rw [key.1.2.2.2.1]

/-- **C280**. One-dimensional RM synthesis of the same spectrum with the same sampling, in a wider and in a narrower range of depths. If the spectrum in the wider
range has a single highest sample and this is inside the narrower range, the program also succeeds there and reports the same: depth, amplitudes, angles, fraction
and all their errors, and the signal-to-noise ratio. The index of the peak counts from another start. -/
theorem range_irrelevant [NeZero n] (x : StokesI.FracIn n) (fit : Option StokesI.FitResult) (o : Opts) (pm : Option ℝ) (fw : ℝ) (out' : Out)
    (hrun : run x fit { o with phiMax := pm } fw = some out') (hI : out'.ifreq0 ≠ 0) (hd : 0 < (stage x fit o).dPhi)
    (hle : Axis.nChanRM (stage x fit o).phiMax (stage x fit o).dPhi ≤
      Axis.nChanRM (stage x fit { o with phiMax := pm }).phiMax (stage x fit { o with phiMax := pm }).dPhi)
    (l0) (hin : |(synthInput x fit { o with phiMax := pm }).phi l0| <
      ((Axis.nChanRM (stage x fit o).phiMax (stage x fit o).dPhi : ℝ) - 1) / 2 * (stage x fit o).dPhi)
    (hmax : ∀ l, l ≠ l0 → ‖Synth.value (synthInput x fit { o with phiMax := pm }) l 0‖ < ‖Synth.value (synthInput x fit { o with phiMax := pm }) l0 0‖) :
    ∃ out, run x fit o fw = some out ∧ SameResults out' out ∧
      ∃ v, out.meas.indx = some v ∧ out'.meas.indx = some (v +
        ((Axis.nChanRM (stage x fit { o with phiMax := pm }).phiMax (stage x fit { o with phiMax := pm }).dPhi : ℝ) -
          Axis.nChanRM (stage x fit o).phiMax (stage x fit o).dPhi) / 2) := by
  obtain ⟨hreg, hrun⟩ := regular_of_run hrun
  have hreg0 : Regular x fit o := hreg
  rw [run_regular hreg0, run_tail]
  rw [run_tail] at hrun
  have hd' : (stage x fit { o with phiMax := pm }).dPhi = (stage x fit o).dPhi := rfl
  obtain ⟨c, hN, hphi, -, -⟩ := Axis.phiAxis_spec (stage x fit o).phiMax (stage x fit o).dPhi hd
  obtain ⟨c', hN', hphi', -, -⟩ := Axis.phiAxis_spec (stage x fit { o with phiMax := pm }).phiMax (stage x fit { o with phiMax := pm }).dPhi (by rw [hd']; exact hd)
  have hw : ∀ j, 0 ≤ ((stage x fit o).weight j).getD 0 := fun j => effWeight_stage_nonneg o.variance (stage x fit o).dqu j
  have hcc : ((Axis.nChanRM (stage x fit o).phiMax (stage x fit o).dPhi : ℝ) - 1) / 2 = c := by rw [hN]; push_cast; ring
  rw [hcc] at hin
  obtain ⟨out, h1, h2, v, h3, h4⟩ := tail_range x.freq o { o with phiMax := pm } rfl fw (synthInput x fit o).dataQ (synthInput x fit o).dataU
    (lamSq x.freq) (stage x fit o).weight (stage x fit o).dqu (stage x fit o).frac.q hw (synthInput x fit o).lam0
    (Axis.phiAxis (stage x fit o).phiMax (stage x fit o).dPhi) (synthInput x fit { o with phiMax := pm }).phi c c' hN hN' (by omega)
    (stage x fit o).dPhi hd hphi hphi' (ifreq0 x.freq (stage x fit o).frac.fit x.modI) l0 hin hmax out' hrun hI
  refine ⟨out, h1, h2, v, h3, ?_⟩
  rw [h4, hN, hN']
  congr 2
  rw [Nat.cast_sub (by omega)]
  push_cast
  ring

end Verif.Pipe1D
