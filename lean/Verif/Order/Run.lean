import Verif.Order.Fit
import Verif.Similar.Props
import Verif.Complexity.Model
import Verif.PeakFit.Model
import Verif.Stats.Props

/-!
# RM synthesis of a spectrum and the order of the channels (C271)

Source: `/repo/RMtools_1D/do_RMsynth_1D.py` 180-420.
-/

namespace Verif.Order

open Verif.NumPy Verif.StokesI Verif.Mpfit Verif.StokesFit Verif.Pipe1D

variable {n N N' : ℕ}

/-- The arguments of `create_frac_spectra` with the channels in another order. -/
def frac (e : Equiv.Perm (Fin n)) (x : FracIn n) : FracIn n where
  freq := x.freq ∘ e
  q := x.q ∘ e
  u := x.u ∘ e
  dI := x.dI ∘ e
  dQ := x.dQ ∘ e
  dU := x.dU ∘ e
  polyOrd := x.polyOrd
  fn := x.fn
  modI := x.modI.map (· ∘ e)

/-- The largest step in wavelength squared from a channel to the next one in the list. -/
noncomputable def maxStep [NeZero n] (freq : Fin n → ℝ) : ℝ :=
  npMax fun i : Fin n => if h : (i : ℕ) + 1 < n then |lamSq freq ⟨i + 1, h⟩ - lamSq freq i| else 0

/-! ## Helper lemmas -/

theorem npMax_perm [NeZero n] (e : Equiv.Perm (Fin n)) (f : Fin n → ℝ) : npMax (f ∘ e) = npMax f := by
  refine le_antisymm (le_npMax f _) ?_
  have := le_npMax (f ∘ e) (e.symm (npArgmax f))
  simpa [npMax] using this

theorem lamSq_perm (e : Equiv.Perm (Fin n)) (freq : Fin n → ℝ) : lamSq (freq ∘ e) = lamSq freq ∘ e := rfl

theorem arrMax_perm [NeZero n] (e : Equiv.Perm (Fin n)) (f : Fin n → ℝ) : arrMax (f ∘ e) = arrMax f := npMax_perm e f

theorem arrMin_perm [NeZero n] (e : Equiv.Perm (Fin n)) (f : Fin n → ℝ) : arrMin (f ∘ e) = arrMin f :=
  congrArg (- ·) (npMax_perm e fun i => -f i)

theorem axis_perm [NeZero n] (e : Equiv.Perm (Fin n)) (freq : Fin n → ℝ) (o : Opts)
    (h : o.phiMax.isSome ∨ maxStep (freq ∘ e) = maxStep freq) : axisParams (freq ∘ e) o = axisParams freq o := by
  have e1 : ∀ f : Fin n → ℝ, axisParams f o = (o.dPhi.getD (defaultDPhi (fwhmTheory o.superRes (arrMin (lamSq f)) (arrMax (lamSq f))) o.nSamples),
      o.phiMax.getD (defaultPhiMax (fwhmTheory o.superRes (arrMin (lamSq f)) (arrMax (lamSq f))) (maxStep f))) := fun f => rfl
  rw [e1, e1, lamSq_perm, arrMin_perm, arrMax_perm]
  rcases h with h | h
  · obtain ⟨v, hv⟩ := Option.isSome_iff_exists.mp h
    rw [hv]
    rfl
  · rw [h]

theorem flag_perm (e : Equiv.Perm (Fin n)) (m : Fin n → ℝ) (d : Fin n → Option ℝ) (s : ℕ) : flagStatus (m ∘ e) (d ∘ e) s = flagStatus m d s := by
  unfold flagStatus
  have h1 : (∃ j, (m ∘ e) j < 0) ↔ ∃ j, m j < 0 :=
    (e.surjective.exists (p := fun j => m j < 0)).symm
  have h2 : (∃ j, ∃ v, (d ∘ e) j = some v ∧ (m ∘ e) j < v) ↔ ∃ j, ∃ v, d j = some v ∧ m j < v :=
    (e.surjective.exists (p := fun j => ∃ v, d j = some v ∧ m j < v)).symm
  simp only [h1, h2]

/-- The fractional spectra in the other order. -/
theorem create_perm (e : Equiv.Perm (Fin n)) (x : FracIn n) (fit : Option FitResult) :
    createFrac (frac e x) fit =
      { model := (createFrac x fit).model ∘ e, q := (createFrac x fit).q ∘ e, u := (createFrac x fit).u ∘ e,
        dq := (createFrac x fit).dq ∘ e, du := (createFrac x fit).du ∘ e, fit := (createFrac x fit).fit } := by
  obtain ⟨freq, q, u, dI, dQ, dU, p, fn, modI⟩ := x
  cases modI with
  | some m => rfl
  | none =>
    cases fit with
    | none => rfl
    | some r =>
      have := flag_perm e (fun j => calcModel r (freq j)) dI r.fitStatus
      unfold createFrac frac
      dsimp only [Option.map_none]
      rw [show (flagStatus (fun j => calcModel r ((freq ∘ e) j)) (dI ∘ e) r.fitStatus) = _ from this]
      rfl

theorem interp_perm (e : Equiv.Perm (Fin n)) (freq : Fin n → ℝ) (hf : Function.Injective freq) (y : Fin n → Option ℝ) (x : ℝ) :
    interp1d (freq ∘ e) (y ∘ e) x = interp1d freq y x := by
  have hA : (∃ a, (freq ∘ e) a ≤ x ∧ ∀ a', (freq ∘ e) a' ≤ x → (freq ∘ e) a' ≤ (freq ∘ e) a) ↔
      ∃ a, freq a ≤ x ∧ ∀ a', freq a' ≤ x → freq a' ≤ freq a := by
    rw [e.surjective.exists (p := fun a => freq a ≤ x ∧ ∀ a', freq a' ≤ x → freq a' ≤ freq a)]
    exact exists_congr fun a => and_congr_right fun _ => (e.surjective.forall (p := fun a' => freq a' ≤ x → freq a' ≤ freq (e a))).symm
  have hB : (∃ b, x ≤ (freq ∘ e) b ∧ ∀ b', x ≤ (freq ∘ e) b' → (freq ∘ e) b ≤ (freq ∘ e) b') ↔
      ∃ b, x ≤ freq b ∧ ∀ b', x ≤ freq b' → freq b ≤ freq b' := by
    rw [e.surjective.exists (p := fun b => x ≤ freq b ∧ ∀ b', x ≤ freq b' → freq b ≤ freq b')]
    exact exists_congr fun a => and_congr_right fun _ => (e.surjective.forall (p := fun b' => x ≤ freq b' → freq (e a) ≤ freq b')).symm
  unfold interp1d
  by_cases h : (∃ a, freq a ≤ x ∧ ∀ a', freq a' ≤ x → freq a' ≤ freq a) ∧ ∃ b, x ≤ freq b ∧ ∀ b', x ≤ freq b' → freq b ≤ freq b'
  · have h' := And.intro (hA.mpr h.1) (hB.mpr h.2)
    rw [dif_pos h, dif_pos h']
    obtain ⟨a1, a2⟩ := h.1.choose_spec
    obtain ⟨b1, b2⟩ := h.2.choose_spec
    obtain ⟨a1', a2'⟩ := h'.1.choose_spec
    obtain ⟨b1', b2'⟩ := h'.2.choose_spec
    have ea : e h'.1.choose = h.1.choose := hf (le_antisymm (a2 _ a1') (by
      have := a2' (e.symm h.1.choose) (by simpa using a1)
      simpa using this))
    have eb : e h'.2.choose = h.2.choose := hf (le_antisymm (by
      have := b2' (e.symm h.2.choose) (by simpa using b1)
      simpa using this) (b2 _ b1'))
    simp only [Function.comp_apply, ea, eb]
  · rw [dif_neg h, dif_neg fun h' => h ⟨hA.mp h'.1, hB.mp h'.2⟩]

theorem noise_perm (e : Equiv.Perm (Fin n)) (w d : Fin n → Option ℝ) : noiseTheory (w ∘ e) (d ∘ e) = noiseTheory w d := by
  unfold noiseTheory
  have h1 : ∑ j, ((w ∘ e) j).getD 0 = ∑ j, (w j).getD 0 := Equiv.sum_comp e fun j => (w j).getD 0
  have h2 : ∑ j, ((w ∘ e) j).getD 0 ^ 2 * (((d ∘ e) j).getD 0) ^ 2 = ∑ j, (w j).getD 0 ^ 2 * ((d j).getD 0) ^ 2 :=
    Equiv.sum_comp e fun j => (w j).getD 0 ^ 2 * ((d j).getD 0) ^ 2
  dsimp only
  rw [h1, h2]

theorem dAngle_perm (e : Equiv.Perm (Fin n)) (l : Fin n → ℝ) (d a l0 : ℝ) : Peak.dAngle0 (l ∘ e) d a l0 = Peak.dAngle0 l d a l0 := by
  unfold Peak.dAngle0 Peak.varLamSq
  rw [show ∑ j, (l ∘ e) j = ∑ j, l j from Equiv.sum_comp e l,
    show ∑ j, (l ∘ e) j ^ 2 = ∑ j, l j ^ 2 from Equiv.sum_comp e fun j => l j ^ 2]

theorem measureN_perm (e : Equiv.Perm (Fin n)) (F : Fin N → ℂ) (phi : Fin N → ℝ) (fw : ℝ) (d : Option ℝ) (l : Fin n → ℝ) (l0 : ℝ) :
    measureN F phi fw d (l ∘ e) l0 = measureN F phi fw d l l0 := by
  unfold measureN Peak.measure
  simp only [dAngle_perm]

/-- Two calls of RM synthesis with the channels in two orders. -/
structure Rel (e : Equiv.Perm (Fin n)) (x : Synth.Input n 1 N) (y : Synth.Input n 1 N') : Prop where
  size : N' = N
  q : y.dataQ = fun j => x.dataQ (e j)
  u : y.dataU = fun j => x.dataU (e j)
  lamSq : y.lamSq = fun j => x.lamSq (e j)
  weight : y.weight = x.weight.map fun w j => w (e j)
  lam0 : y.lam0 = x.lam0
  phi : ∀ l, y.phi l = x.phi (l.cast size)

theorem Rel.eq {e : Equiv.Perm (Fin n)} {x y : Synth.Input n 1 N} (h : Rel e x y) : y = Synth.selectChannels e x := by
  cases y
  cases x
  obtain ⟨_, h1, h2, h3, h4, h5, hp⟩ := h
  dsimp only at h1 h2 h3 h4 h5 hp
  subst h1 h2 h3 h4 h5
  unfold Synth.selectChannels
  congr 1
  exact funext hp

theorem Rel.lam0Sq {e : Equiv.Perm (Fin n)} {x : Synth.Input n 1 N} {y : Synth.Input n 1 N'} (h : Rel e x y) :
    (Synth.doRmsynthPlanes y).2 = (Synth.doRmsynthPlanes x).2 := by
  obtain rfl := h.size
  rw [h.eq, Synth.permute_channels]

theorem tail_perm [NeZero n] (e : Equiv.Perm (Fin n)) (freq : Fin n → ℝ) (o : Opts) (fw : ℝ) (inp : Synth.Input n 1 N) (inp' : Synth.Input n 1 N')
    (h : Rel e inp inp') (w d q : Fin n → Option ℝ) (ref ref' : ℝ → Option (ℝ × Option ℝ)) (hI : ∀ l, ref' l = ref l) :
    runTail (freq ∘ e) o fw inp' (w ∘ e) (d ∘ e) (q ∘ e) ref' = runTail freq o fw inp w d q ref := by
  obtain rfl := h.size
  obtain rfl := h.eq
  obtain rfl : ref' = ref := funext hI
  have hc : (Finset.univ.filter fun j => ((w ∘ e) j).getD 0 ≠ 0 ∧ ((q ∘ e) j).isSome).card =
      (Finset.univ.filter fun j => (w j).getD 0 ≠ 0 ∧ (q j).isSome).card := by
    refine Finset.card_bij' (fun j _ => e j) (fun j _ => e.symm j) ?_ ?_ ?_ ?_ <;> intro j hj <;> simp_all
  unfold runTail
  rw [Synth.permute_channels, lamSq_perm, arrMin_perm, arrMax_perm, noise_perm, hc]
  simp only [measureN_perm]
  rfl

/-- The calls of RM synthesis. -/
theorem input_perm [NeZero n] (e : Equiv.Perm (Fin n)) (x : FracIn n) (fit : Option FitResult) (o : Opts)
    (h : o.phiMax.isSome ∨ maxStep (x.freq ∘ e) = maxStep x.freq) :
    (stage (frac e x) fit o).dqu = (stage x fit o).dqu ∘ e ∧ (stage (frac e x) fit o).weight = (stage x fit o).weight ∘ e ∧
    (stage (frac e x) fit o).dPhi = (stage x fit o).dPhi ∧ (stage (frac e x) fit o).phiMax = (stage x fit o).phiMax ∧
    Rel e (synthInput x fit o) (synthInput (frac e x) fit o) := by
  have hcr := create_perm e x fit
  have hd : (stage (frac e x) fit o).dqu = (stage x fit o).dqu ∘ e := by
    funext j
    show dqu ((createFrac (frac e x) fit).dq j) ((createFrac (frac e x) fit).du j) = _
    rw [hcr]
    rfl
  have hw : (stage (frac e x) fit o).weight = (stage x fit o).weight ∘ e := by
    funext j
    show weight o.variance ((stage (frac e x) fit o).dqu j) = _
    rw [hd]
    rfl
  have ha := axis_perm e x.freq o h
  have h1 : (stage (frac e x) fit o).dPhi = (stage x fit o).dPhi := congrArg Prod.fst ha
  have h2 : (stage (frac e x) fit o).phiMax = (stage x fit o).phiMax := congrArg Prod.snd ha
  have key : ∀ pm dp : ℝ, pm = (stage x fit o).phiMax → dp = (stage x fit o).dPhi →
      ∃ h : Axis.nChanRM pm dp = Axis.nChanRM (stage x fit o).phiMax (stage x fit o).dPhi,
        ∀ l, Axis.phiAxis pm dp l = Axis.phiAxis (stage x fit o).phiMax (stage x fit o).dPhi (l.cast h) := by
    rintro _ _ rfl rfl
    exact ⟨rfl, fun _ => rfl⟩
  obtain ⟨hN, hphi⟩ := key _ _ h2 h1
  refine ⟨hd, hw, h1, h2, hN, ?_, ?_, rfl, congrArg some hw, rfl, hphi⟩
  · show (fun j _ => (createFrac (frac e x) fit).q j) = fun j _ => (createFrac x fit).q (e j)
    rw [hcr]
    rfl
  · show (fun j _ => (createFrac (frac e x) fit).u j) = fun j _ => (createFrac x fit).u (e j)
    rw [hcr]
    rfl

theorem ifreq_perm (e : Equiv.Perm (Fin n)) (x : FracIn n) (hf : x.modI.isSome → Function.Injective x.freq) (f : FitResult) (l : ℝ) :
    ifreq0 (frac e x).freq f (frac e x).modI l = ifreq0 x.freq f x.modI l := by
  obtain ⟨freq, q, u, dI, dQ, dU, p, fn, modI⟩ := x
  cases modI with
  | none => rfl
  | some m =>
    unfold Pipe1D.ifreq0 frac
    dsimp only [Option.map_some]
    rw [interp_perm e freq (hf rfl)]

/-- `run_rmsynth` for a given outcome of the Stokes I fit. -/
theorem pipe_perm [NeZero n] (e : Equiv.Perm (Fin n)) (x : FracIn n) (fit : Option FitResult) (o : Opts) (fw : ℝ)
    (h : o.phiMax.isSome ∨ maxStep (x.freq ∘ e) = maxStep x.freq) : Pipe1D.run (frac e x) fit o fw = Pipe1D.run x fit o fw := by
  obtain ⟨hd, hw, h1, h2, hrel⟩ := input_perm e x fit o h
  have hreg : Regular (frac e x) fit o ↔ Regular x fit o := by
    have r1 : (∀ j, 0 < (frac e x).freq j) ↔ ∀ j, 0 < x.freq j := (e.surjective.forall (p := fun j => 0 < x.freq j)).symm
    have r2 : (∃ j j', (frac e x).freq j ≠ (frac e x).freq j') ↔ ∃ j j', x.freq j ≠ x.freq j' := by
      rw [e.surjective.exists (p := fun j => ∃ j', x.freq j ≠ x.freq j')]
      exact exists_congr fun j => (e.surjective.exists (p := fun j' => x.freq (e j) ≠ x.freq j')).symm
    have r3 : ((frac e x).modI.isSome → Function.Injective (frac e x).freq) ↔ (x.modI.isSome → Function.Injective x.freq) := by
      have : (frac e x).modI.isSome = x.modI.isSome := Option.isSome_map
      rw [this]
      exact forall_congr' fun _ => e.injective_comp x.freq
    have r4 : finiteWeights o.variance (stage (frac e x) fit o).dqu ↔ finiteWeights o.variance (stage x fit o).dqu := by
      rw [hd]
      unfold finiteWeights
      exact forall_congr' fun _ => (e.surjective.forall (p := fun j => (stage x fit o).dqu j ≠ some 0)).symm
    unfold Regular
    rw [r1, r2, r3, r4, h1]
  by_cases hR : Regular x fit o
  · rw [run_regular hR, run_regular (hreg.mpr hR), run_tail, run_tail, hd, hw]
    have hq : (stage (frac e x) fit o).frac.q = (stage x fit o).frac.q ∘ e := by
      show (createFrac (frac e x) fit).q = _
      rw [create_perm]
      rfl
    have hfit : (stage (frac e x) fit o).frac.fit = (stage x fit o).frac.fit := by
      show (createFrac (frac e x) fit).fit = _
      rw [create_perm]
      rfl
    rw [hq, hfit]
    exact tail_perm e x.freq o fw _ _ hrel _ _ _ _ _ fun l => ifreq_perm e x hR.2.2.1 _ l
  · unfold Pipe1D.run
    rw [if_neg hR, if_neg fun h => hR (hreg.mp h)]

/-! ## The complexity measures -/

theorem extreme_perm {l l' : List ℝ} (h : l.Perm l') : l.max? = l'.max? ∧ l.min? = l'.min? := by
  constructor
  · cases hl : l.max? with
    | none =>
      rw [List.max?_eq_none_iff] at hl
      subst hl
      obtain rfl := h.nil_eq
      rfl
    | some a =>
      symm
      rw [List.max?_eq_some_iff] at hl ⊢
      exact ⟨h.mem_iff.mp hl.1, fun b hb => hl.2 b (h.mem_iff.mpr hb)⟩
  · cases hl : l.min? with
    | none =>
      rw [List.min?_eq_none_iff] at hl
      subst hl
      obtain rfl := h.nil_eq
      rfl
    | some a =>
      symm
      rw [List.min?_eq_some_iff] at hl ⊢
      exact ⟨h.mem_iff.mp hl.1, fun b hb => hl.2 b (h.mem_iff.mpr hb)⟩

theorem finRange_perm (e : Equiv.Perm (Fin n)) : ((List.finRange n).map e).Perm (List.finRange n) := by
  refine (List.perm_ext_iff_of_nodup ((List.nodup_finRange n).map e.injective) (List.nodup_finRange n)).mpr fun j => ?_
  simp only [List.mem_map, List.mem_finRange, true_and, iff_true]
  exact ⟨e.symm j, e.apply_symm_apply j⟩

theorem sigma_perm (e : Equiv.Perm (Fin n)) (y dy : Fin n → Option ℝ) (m : ℝ) (k : ℕ) [NeZero k] :
    Stats.sigmaAdd (y ∘ e) (dy ∘ e) m k = Stats.sigmaAdd y dy m k := by
  have hf : ∀ g : Option ℝ → Option ℝ → Option ℝ, ((List.finRange n).filterMap fun i => g ((y ∘ e) i) ((dy ∘ e) i)).Perm
      ((List.finRange n).filterMap fun i => g (y i) (dy i)) := fun g => by
    have := (finRange_perm e).filterMap fun i => g (y i) (dy i)
    rw [List.filterMap_map] at this
    exact this
  have hr : Stats.yRange (y ∘ e) (dy ∘ e) = Stats.yRange y dy := by
    unfold Stats.yRange
    rw [(extreme_perm (hf Stats.addNaN)).1, (extreme_perm (hf Stats.subNaN)).2]
  have hs : ∀ rng, Stats.sigmaAddCore (y ∘ e) (dy ∘ e) m rng k = Stats.sigmaAddCore y dy m rng k := fun rng => by
    have h1 : ∀ s : ℝ, ∑ j, ((((dy ∘ e) j).map fun d => d ^ 2 + s ^ 2).map fun v => Real.log (Real.sqrt v)).getD 0 =
        ∑ j, (((dy j).map fun d => d ^ 2 + s ^ 2).map fun v => Real.log (Real.sqrt v)).getD 0 := fun s =>
      Equiv.sum_comp e fun j => (((dy j).map fun d => d ^ 2 + s ^ 2).map fun v => Real.log (Real.sqrt v)).getD 0
    have h2 : ∀ s : ℝ, ∑ j, ((((dy ∘ e) j).map fun d => d ^ 2 + s ^ 2).bind fun v => ((y ∘ e) j).map fun a => (a - m) ^ 2 / v).getD 0 =
        ∑ j, (((dy j).map fun d => d ^ 2 + s ^ 2).bind fun v => (y j).map fun a => (a - m) ^ 2 / v).getD 0 := fun s =>
      Equiv.sum_comp e fun j => (((dy j).map fun d => d ^ 2 + s ^ 2).bind fun v => (y j).map fun a => (a - m) ^ 2 / v).getD 0
    unfold Stats.sigmaAddCore
    simp only [h1, h2]
  unfold Stats.sigmaAdd
  rw [hr]
  simp only [hs]

/-- The same permutation of the two halves. -/
def both (e : Equiv.Perm (Fin n)) : Equiv.Perm (Fin (n + n)) := finSumFinEquiv.symm.trans ((Equiv.sumCongr e e).trans finSumFinEquiv)

theorem append_perm {α : Type*} (e : Equiv.Perm (Fin n)) (a b : Fin n → α) : Fin.append (a ∘ e) (b ∘ e) = Fin.append a b ∘ both e := by
  funext j
  refine Fin.addCases (fun i => ?_) (fun i => ?_) j
  · have : both e (Fin.castAdd n i) = Fin.castAdd n (e i) := by
      unfold both
      rw [Equiv.trans_apply, Equiv.trans_apply, finSumFinEquiv_symm_apply_castAdd]
      rfl
    rw [Function.comp_apply, this, Fin.append_left, Fin.append_left, Function.comp_apply]
  · have : both e (Fin.natAdd n i) = Fin.natAdd n (e i) := by
      unfold both
      rw [Equiv.trans_apply, Equiv.trans_apply, finSumFinEquiv_symm_apply_natAdd]
      rfl
    rw [Function.comp_apply, this, Fin.append_right, Fin.append_right, Function.comp_apply]

theorem complex_perm (e : Equiv.Perm (Fin n)) (freq : Fin n → ℝ) (q u dq du : Fin n → Option ℝ) (f p r : Option ℝ) :
    Complexity.measure (freq ∘ e) (q ∘ e) (u ∘ e) (dq ∘ e) (du ∘ e) f p r = Complexity.measure freq q u dq du f p r := by
  have hm : ∀ j, Complexity.thinModel (freq ∘ e) f p r j = Complexity.thinModel freq f p r (e j) := fun j => by
    unfold Complexity.thinModel
    cases f <;> cases p <;> cases r <;> rfl
  unfold Complexity.measure
  simp only [hm]
  congr 1
  · exact sigma_perm e (fun j => Complexity.quot (Stats.subNaN (q j) ((Complexity.thinModel freq f p r j).map Prod.fst)) (dq j))
      (fun j => Complexity.quot (dq j) (dq j)) 0 1000
  · exact sigma_perm e (fun j => Complexity.quot (Stats.subNaN (u j) ((Complexity.thinModel freq f p r j).map Prod.snd)) (du j))
      (fun j => Complexity.quot (du j) (du j)) 0 1000
  · have := sigma_perm (both e)
      (Fin.append (fun j => Complexity.quot (Stats.subNaN (q j) ((Complexity.thinModel freq f p r j).map Prod.fst)) (dq j))
        fun j => Complexity.quot (Stats.subNaN (u j) ((Complexity.thinModel freq f p r j).map Prod.snd)) (du j))
      (Fin.append (fun j => Complexity.quot (dq j) (dq j)) fun j => Complexity.quot (du j) (du j)) 0 1000
    rw [← append_perm, ← append_perm] at this
    exact this

/-! ## C271 -/

/-- **C271, the part that holds.** `run_rmsynth` from the raw spectra, with the channels in any other order: the same result, if the range of depths
is given, or if the largest step in wavelength squared between neighbours is the same in both orders. -/
theorem run_order_partial [NeZero n] (e : Equiv.Perm (Fin n)) (w : Raw n) (c : Cfg) (hc : c.Ok) (o : Opts) (fw : ℝ)
    (h : o.phiMax.isSome ∨ maxStep (w.freq ∘ e) = maxStep w.freq) : (raw e w).run c o fw = w.run c o fw := by
  have key : ∀ fit, Pipe1D.run (raw e w).frac fit o fw = Pipe1D.run w.frac fit o fw := fun fit => pipe_perm e w.frac fit o fw h
  have hl : ∀ fit, (Synth.doRmsynthPlanes (synthInput (raw e w).frac fit o)).2 = (Synth.doRmsynthPlanes (synthInput w.frac fit o)).2 :=
    fun fit => (input_perm e w.frac fit o h).2.2.2.2.lam0Sq
  unfold Raw.run
  rw [fitStokes_order e w c hc]
  simp only [key, hl]
  rw [show (raw e w).modI = w.modI.map (· ∘ e) from rfl]
  cases w.modI <;> rfl

/-- The same with the complexity measures, for each outcome of the Stokes I fit. -/
theorem complexity_order_partial [NeZero n] (e : Equiv.Perm (Fin n)) (x : FracIn n) (fit : Option FitResult) (o : Opts) (fw : ℝ)
    (h : o.phiMax.isSome ∨ maxStep (x.freq ∘ e) = maxStep x.freq) : Complexity.run (frac e x) fit o fw = Complexity.run x fit o fw := by
  unfold Complexity.run
  rw [pipe_perm e x fit o fw h]
  dsimp only
  congr 1
  funext out
  have hcr := create_perm e x fit
  rw [show (stage (frac e x) fit o).frac = createFrac (frac e x) fit from rfl, hcr]
  dsimp only
  rw [show (frac e x).freq = x.freq ∘ e from rfl, complex_perm]
  rfl

/-- The reverse order has the same steps. -/
theorem step_reverse [NeZero n] (freq : Fin n → ℝ) : maxStep (freq ∘ Fin.revPerm) = maxStep freq := by
  have key : ∀ g : Fin n → ℝ, maxStep g ≤ maxStep (g ∘ Fin.revPerm) := by
    intro g
    unfold maxStep
    set f : Fin n → ℝ := fun i => if h : (i : ℕ) + 1 < n then |lamSq g ⟨i + 1, h⟩ - lamSq g i| else 0
    set f' : Fin n → ℝ := fun i => if h : (i : ℕ) + 1 < n then
      |lamSq (g ∘ Fin.revPerm) ⟨i + 1, h⟩ - lamSq (g ∘ Fin.revPerm) i| else 0
    change f (npArgmax f) ≤ _
    by_cases h : (npArgmax f : ℕ) + 1 < n
    · have hk : n - 2 - (npArgmax f : ℕ) < n := by omega
      have hk1 : n - 2 - (npArgmax f : ℕ) + 1 < n := by omega
      refine le_trans (le_of_eq ?_) (le_npMax f' ⟨n - 2 - (npArgmax f : ℕ), hk⟩)
      have e1 : (Fin.revPerm ⟨n - 2 - (npArgmax f : ℕ) + 1, hk1⟩ : Fin n) = npArgmax f := by
        apply Fin.ext
        simp only [Fin.revPerm_apply, Fin.val_rev]
        omega
      have e2 : (Fin.revPerm ⟨n - 2 - (npArgmax f : ℕ), hk⟩ : Fin n) = ⟨npArgmax f + 1, h⟩ := by
        apply Fin.ext
        simp only [Fin.revPerm_apply, Fin.val_rev]
        omega
      have a1 : f (npArgmax f) = |lamSq g ⟨npArgmax f + 1, h⟩ - lamSq g (npArgmax f)| := dif_pos h
      have a2 : f' ⟨n - 2 - (npArgmax f : ℕ), hk⟩ = |lamSq (g ∘ Fin.revPerm) ⟨n - 2 - (npArgmax f : ℕ) + 1, hk1⟩
          - lamSq (g ∘ Fin.revPerm) ⟨n - 2 - (npArgmax f : ℕ), hk⟩| := dif_pos hk1
      rw [a1, a2, lamSq_perm, Function.comp_apply, Function.comp_apply, e1, e2, abs_sub_comm]
    · have a1 : f (npArgmax f) = 0 := dif_neg h
      rw [a1]
      refine le_trans ?_ (le_npMax f' 0)
      dsimp only [f']
      split_ifs
      · exact abs_nonneg _
      · exact le_rfl
  refine le_antisymm ?_ (key freq)
  have := key (freq ∘ Fin.revPerm)
  rwa [show (freq ∘ Fin.revPerm) ∘ Fin.revPerm = freq by funext j; simp] at this

/-- **C271 for ascending and descending lists**: the channels in the reverse order give the same result, with default options too. -/
theorem run_reverse [NeZero n] (w : Raw n) (c : Cfg) (hc : c.Ok) (o : Opts) (fw : ℝ) : (raw Fin.revPerm w).run c o fw = w.run c o fw :=
  run_order_partial Fin.revPerm w c hc o fw (Or.inr (step_reverse w.freq))

/-- Channels in order of wavelength have the smallest largest step. -/
theorem step_sorted [NeZero n] (e : Equiv.Perm (Fin n)) (freq : Fin n → ℝ) (hs : Monotone (lamSq freq)) :
    maxStep freq ≤ maxStep (freq ∘ e) := by
  unfold maxStep
  set f : Fin n → ℝ := fun i => if h : (i : ℕ) + 1 < n then |lamSq freq ⟨i + 1, h⟩ - lamSq freq i| else 0
  set f' : Fin n → ℝ := fun i => if h : (i : ℕ) + 1 < n then |lamSq (freq ∘ e) ⟨i + 1, h⟩ - lamSq (freq ∘ e) i| else 0
  change f (npArgmax f) ≤ _
  by_cases h : (npArgmax f : ℕ) + 1 < n
  swap
  · have a1 : f (npArgmax f) = 0 := dif_neg h
    rw [a1]
    refine le_trans ?_ (le_npMax f' 0)
    dsimp only [f']
    split_ifs
    · exact abs_nonneg _
    · exact le_rfl
  set i := npArgmax f
  have a1 : f i = |lamSq freq ⟨i + 1, h⟩ - lamSq freq i| := dif_pos h
  -- a neighbouring pair of the other order on two sides of the gap
  have hx : ∃ k : Fin n, ∃ hk : (k : ℕ) + 1 < n, ¬(e k ≤ i ↔ e ⟨k + 1, hk⟩ ≤ i) := by
    by_contra hne
    push Not at hne
    have hall : ∀ k (hk : k < n), e ⟨k, hk⟩ ≤ i ↔ e 0 ≤ i := by
      intro k
      induction k with
      | zero => exact fun _ => Iff.rfl
      | succ k ih => exact fun hk => ((hne ⟨k, by omega⟩ hk).symm).trans (ih (by omega))
    have b1 : e 0 ≤ i := (hall _ (e.symm i).isLt).mp (by simp)
    have b2 := (hall _ (e.symm ⟨i + 1, h⟩).isLt).mpr b1
    simp only [Fin.eta, Equiv.apply_symm_apply] at b2
    have := Fin.le_def.mp b2
    simp at this
  obtain ⟨k, hk, hside⟩ := hx
  refine le_trans ?_ (le_npMax f' k)
  have a2 : f' k = |lamSq freq (e ⟨k + 1, hk⟩) - lamSq freq (e k)| := dif_pos hk
  have up : ∀ j : Fin n, ¬j ≤ i → lamSq freq ⟨i + 1, h⟩ ≤ lamSq freq j := fun j hj => hs (Fin.le_def.mpr (by
    have : i < j := not_le.mp hj
    have := Fin.lt_def.mp this
    show (i : ℕ) + 1 ≤ j
    omega))
  have hgap : lamSq freq i ≤ lamSq freq ⟨i + 1, h⟩ := hs (Fin.le_def.mpr (by show (i : ℕ) ≤ i + 1; omega))
  rw [a1, a2, abs_of_nonneg (by linarith)]
  by_cases hc : e k ≤ i
  · have hc' : ¬e ⟨k + 1, hk⟩ ≤ i := fun h' => hside ⟨fun _ => h', fun _ => hc⟩
    have := up _ hc'
    have := hs hc
    exact le_trans (by linarith) (le_abs_self _)
  · have hc' : e ⟨k + 1, hk⟩ ≤ i := by
      by_contra h'
      exact hside ⟨fun q => absurd q hc, fun q => absurd q h'⟩
    have := up _ hc
    have := hs hc'
    rw [abs_sub_comm]
    exact le_trans (by linarith) (le_abs_self _)

/-- By default the range of depths of channels out of order is never larger than that of the ordered list. -/
theorem range_shrinks [NeZero n] (e : Equiv.Perm (Fin n)) (freq : Fin n → ℝ) (o : Opts) (hs : Monotone (lamSq freq)) (h0 : 0 < maxStep freq) :
    (axisParams (freq ∘ e) o).2 ≤ (axisParams freq o).2 ∧ (axisParams (freq ∘ e) o).1 = (axisParams freq o).1 := by
  have e1 : ∀ f : Fin n → ℝ, axisParams f o = (o.dPhi.getD (defaultDPhi (fwhmTheory o.superRes (arrMin (lamSq f)) (arrMax (lamSq f))) o.nSamples),
      o.phiMax.getD (defaultPhiMax (fwhmTheory o.superRes (arrMin (lamSq f)) (arrMax (lamSq f))) (maxStep f))) := fun f => rfl
  rw [e1, e1, lamSq_perm, arrMin_perm, arrMax_perm]
  refine ⟨?_, rfl⟩
  cases o.phiMax with
  | some v => exact le_rfl
  | none => exact max_le_max (div_le_div_of_nonneg_left (Real.sqrt_nonneg _) h0 (step_sorted e freq hs)) le_rfl

end Verif.Order
