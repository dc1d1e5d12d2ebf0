import Verif.Sim.Cube

/-!
# Blank channels of the Stokes I cube (C220)

Source: `/repo/RMtools_3D/do_RMsynth_3D.py` 236-254 (model `Pipe3D.scale`, `Pipe3D.fdfCube`).
-/

namespace Verif.Sim

open Complex Verif.QU Verif.NumPy Verif.SynthSpec

variable {n m : ℕ}

/-- The pixel is blank: no sample of its spectrum is a number. (With `IndexError` there is no spectrum.) -/
def BlankSpectrum [NeZero n] (X : Pipe3D.In n m) (o : Pipe1D.Opts) (k : Fin m) : Prop :=
  ∀ l z, Pipe3D.fdfCube X o l k ≠ some (some z)

/-- Channel `j` is one of those nearest to frequency `F`. -/
def Nearest (f : Fin n → ℝ) (F : ℝ) (j : Fin n) : Prop := ∀ i, |f j - F| ≤ |f i - F|

/-- **C220**, the part that fails: a pixel in which the Stokes I cube is blank in the channels nearest to the reference frequency has no
spectrum, whatever the other channels hold. -/
theorem blank_reference_wrong [NeZero n] (X : Pipe3D.In n m) (o : Pipe1D.Opts) (k : Fin m) (i : Fin n → Fin m → Option ℝ) (hi : X.i = some i)
    (L0 : ℝ) (hL : L0 = Synth.refLamSq (Pipe3D.synthInput X o)) (hpos : 0 < L0)
    (hb : ∀ j, Nearest X.freq (299792458 / Real.sqrt L0) j → i j k = none) : BlankSpectrum X o k := by
  intro l z h
  have hs : Pipe3D.scale X o k = none ∨ Pipe3D.scale X o k = some none := by
    unfold Pipe3D.scale
    rw [hi]
    dsimp only
    have hf0 : Pipe3D.freq0 X.freq (Synth.lam0Sq (Pipe3D.synthInput X o)) = 299792458 / Real.sqrt L0 := by
      unfold Pipe3D.freq0
      rw [show Synth.lam0Sq (Pipe3D.synthInput X o) = L0 from hL.symm, if_pos hpos]
      rfl
    rw [hf0]
    unfold Pipe3D.ifreq0
    dsimp only
    have hn : i (npArgmax fun j => -|X.freq j - 299792458 / Real.sqrt L0|) k = none := by
      apply hb
      intro t
      have := le_npArgmax (fun j => -|X.freq j - 299792458 / Real.sqrt L0|) t
      linarith
    rw [hn]
    split_ifs
    · right; rfl
    · left; rfl
    · right
      cases i ⟨_, _⟩ k <;> rfl
    · right
      cases i ⟨_, _⟩ k <;> rfl
    · right; rfl
  unfold Pipe3D.fdfCube at h
  rcases hs with hs | hs <;> rw [hs] at h <;> simp at h

/-- **C220**, the part that holds: when the Stokes I at the reference is a number, the spectrum is blank only if that of the divided data is
zero. -/
theorem blank_only_partial [NeZero n] (X : Pipe3D.In n m) (o : Pipe1D.Opts) (hreg : Pipe3D.Regular X o) (k : Fin m) (S : ℝ) (hS : Pipe3D.scale X o k = some (some S))
    (hne : ∃ l, Synth.value (Pipe3D.synthInput X o) l k ≠ 0) :
    ∀ l, Pipe3D.fdfCube X o l k = some (some (Synth.value (Pipe3D.synthInput X o) l k * S)) := by
  intro l
  unfold Pipe3D.fdfCube
  rw [if_pos hreg, hS]
  have hv : Synth.fdf (Pipe3D.synthInput X o) l k = some (Synth.value (Pipe3D.synthInput X o) l k) :=
    (Synth.fdf_blank_iff _ k).2 hne l
  simp only [Option.map_some, Option.bind_some, hv]

/-- **C220**: the Stokes I at the reference is a number, between the smallest and the largest of the pixel, if no voxel of the pixel is blank
and the reference is not above the last of ascending frequencies. -/
theorem scale_number [NeZero n] (X : Pipe3D.In n m) (o : Pipe1D.Opts) (k : Fin m) (i : Fin n → Fin m → Option ℝ) (hi : X.i = some i)
    (lo hi' : ℝ) (hno : ∀ j, ∃ v, i j k = some v ∧ lo ≤ v ∧ v ≤ hi') (hm : StrictMono X.freq) (t : Fin n)
    (ht : Pipe3D.freq0 X.freq (Synth.refLamSq (Pipe3D.synthInput X o)) ≤ X.freq t) :
    ∃ S, Pipe3D.scale X o k = some (some S) ∧ lo ≤ S ∧ S ≤ hi' := by
  choose g hg h1 h2 using hno
  have half : ∀ a b, lo ≤ (1 / 2) * g a + (1 / 2) * g b ∧ (1 / 2) * g a + (1 / 2) * g b ≤ hi' := by
    intro a b
    have := h1 a
    have := h1 b
    have := h2 a
    have := h2 b
    constructor <;> linarith
  unfold Pipe3D.scale
  rw [hi]
  dsimp only
  set F := Pipe3D.freq0 X.freq (Synth.lam0Sq (Pipe3D.synthInput X o)) with hF
  unfold Pipe3D.ifreq0
  dsimp only
  set a := npArgmax fun j => -|X.freq j - F| with ha
  have htF : F ≤ X.freq t := ht
  simp only [hg]
  by_cases c1 : X.freq a < F
  · rw [if_pos c1]
    have hat : a < t := hm.lt_iff_lt.1 (lt_of_lt_of_le c1 htF)
    have c2 : (a : ℕ) + 1 < n := by
      have := t.isLt
      have h3 : (a : ℕ) < t := hat
      omega
    rw [dif_pos c2]
    exact ⟨_, rfl, half _ _⟩
  · rw [if_neg c1]
    by_cases c2 : F < X.freq a
    · rw [if_pos c2]
      exact ⟨_, rfl, half _ _⟩
    · rw [if_neg c2]
      exact ⟨_, rfl, h1 _, h2 _⟩

/-- **C220** for simulated cubes: if the channels nearest to the reference frequency are flagged, every pixel of the Faraday depth cube is
blank, whatever the catalogue. -/
theorem simulated_blank_wrong [NeZero n] (f : Fin n → ℝ) (ranges : List (ℝ × ℝ)) (curve : Fin n → Option ℝ)
    (f0 : ℝ) (h0 : 0 < f0) (d : CubeDraws n) (nx ny : ℕ) (xc yc bmin bmaj bpa pix : ℝ) (hpix : 0 < pix) (hmin : 0 < bmin)
    (hmaj : 0 < bmaj) (ss : List Src) (hne : ss ≠ [])
    (hok : ∀ t ∈ ss, t.Ok) (v : Fin n → ℕ → ℕ → IQU)
    (hv : simulateCube (fun j => flagged ranges (f j)) curve f0 d nx ny xc yc bmin bmaj bpa pix (ss.map Src.row) = .ok v)
    (X : Pipe3D.In n m) (px py : Fin m → ℕ) (hX : ∀ k, Given X k v f (px k) (py k)) (o : Pipe1D.Opts)
    (L0 : ℝ) (hL : L0 = Synth.refLamSq (Pipe3D.synthInput X o)) (hpos : 0 < L0)
    (hb : ∀ j, Nearest f (299792458 / Real.sqrt L0) j → ∃ g ∈ ranges, g.1 ≤ f j ∧ f j ≤ g.2) (k : Fin m) : BlankSpectrum X o k := by
  obtain ⟨i, hi, hi2⟩ := (hX k).i
  refine blank_reference_wrong X o k i hi L0 hL hpos fun j hj => ?_
  rw [(hX k).freq] at hj
  rw [hi2]
  have hfl : flagged ranges (f j) = none := by
    rcases C106_flagged ranges (f j) with h | h
    · obtain ⟨g, hg, h'⟩ := hb j hj
      exact absurd h' (h.2 g hg)
    · exact h.1
  obtain ⟨v', hv', hvn, -⟩ := simulateCube_voxel (fun j => flagged ranges (f j)) curve f0 h0 d nx ny xc yc bmin bmaj bpa pix hpix hmin hmaj
    ss hok
  rw [hv'] at hv
  obtain rfl := Except.ok.inj hv
  rw [hvn hne j _ _ hfl]

/-! ### A case: the middle one of three channels is flagged -/

/-- Channels at wavelengths squared 4, 5/2 and 1. -/
noncomputable def threeFreq : Fin 3 → ℝ := ![149896229, 299792458 / Real.sqrt (5 / 2), 299792458]

/-- A source of flux 1 in the middle of the field, fraction 1/2. -/
noncomputable def threeSrc : Src := ⟨(0, 0), (0, 0, 0), 1, 0, [⟨1 / 2, 0, 0, 0⟩]⟩

/-- The voxels, without noise. -/
noncomputable def threeCube (v : Fin 3 → ℕ → ℕ → IQU) : Pipe3D.In 3 1 where
  q := fun j _ => (v j 0 0).q
  u := fun j _ => (v j 0 0).u
  i := some fun j _ => (v j 0 0).i
  freq := threeFreq
  rms := none

theorem three_order : threeFreq 0 < threeFreq 1 ∧ threeFreq 1 < threeFreq 2 := by
  have h1 : Real.sqrt (5 / 2) < 2 := (Real.sqrt_lt' (by norm_num)).2 (by norm_num)
  have h2 : 1 < Real.sqrt (5 / 2) := (Real.lt_sqrt (by norm_num)).2 (by norm_num)
  constructor
  · show (149896229 : ℝ) < 299792458 / Real.sqrt (5 / 2)
    rw [lt_div_iff₀ (by linarith)]
    linarith
  · show 299792458 / Real.sqrt (5 / 2) < (299792458 : ℝ)
    rw [div_lt_iff₀ (by linarith)]
    linarith

/-- **C220**, a case: with the middle channel flagged the only pixel is blank, although the two other channels hold the source, at full flux. -/
theorem three_blank (o : Pipe1D.Opts) (ho : o.superRes = false) :
    ∃ v, simulateCube (fun j => flagged [(threeFreq 1, threeFreq 1)] (threeFreq j)) (fun _ => some 1) 1000000000 ⟨fun _ _ _ => 0, fun _ _ _ => 0, fun _ _ _ => 0⟩
        1 1 0 0 1 1 0 1 [threeSrc.row] = .ok v ∧
      (v 0 0 0).q = some (1 / 2) ∧ (v 2 0 0).q = some (1 / 2) ∧ BlankSpectrum (threeCube v) o 0 := by
  classical
  have hfl0 : ∀ j, j ≠ 1 → flagged [(threeFreq 1, threeFreq 1)] (threeFreq j) = some (threeFreq j) := by
    intro j hj
    rcases C106_flagged [(threeFreq 1, threeFreq 1)] (threeFreq j) with h | ⟨-, g, hg, h1, h2⟩
    · exact h.1
    · exfalso
      rw [List.mem_singleton] at hg
      subst hg
      have e := le_antisymm h1 h2
      have := three_order
      fin_cases j
      · exact absurd e this.1.ne'
      · exact hj rfl
      · exact absurd e this.2.ne
  have hfl1 : flagged [(threeFreq 1, threeFreq 1)] (threeFreq 1) = none := by
    rcases C106_flagged [(threeFreq 1, threeFreq 1)] (threeFreq 1) with h | h
    · exact absurd ⟨le_rfl, le_rfl⟩ (h.2 _ (List.mem_singleton.2 rfl))
    · exact h.1
  have hok : ∀ t ∈ [threeSrc], t.Ok := by
    intro t ht
    rw [List.mem_singleton] at ht
    subst ht
    exact ⟨by simp [threeSrc], by simp [threeSrc]⟩
  obtain ⟨v, hv, hvn, hvs⟩ := simulateCube_voxel (fun j => flagged [(threeFreq 1, threeFreq 1)] (threeFreq j)) (fun _ => some 1) 1000000000 (by norm_num)
    ⟨fun _ _ _ => 0, fun _ _ _ => 0, fun _ _ _ => 0⟩ 1 1 0 0 1 1 0 1 one_pos one_pos one_pos [threeSrc] hok
  have hpos : ∀ j, 0 < threeFreq j := by
    intro j
    have h0 : 0 < threeFreq 0 := by show (0 : ℝ) < 149896229; norm_num
    have := three_order
    fin_cases j
    · exact h0
    · exact lt_trans h0 this.1
    · exact lt_trans (lt_trans h0 this.1) this.2
  have hseen : ∀ j, threeSrc.seen (simpleHeader 1 1 0 0 1 1 0 1) 1000000000 (threeFreq j) 0 0 = 1 := by
    intro j
    unfold Src.seen
    have := (beamResponse_spec 1 1 0 one_pos one_pos).1
    simp only [simpleHeader, skyOf, threeSrc]
    norm_num
    exact this
  have hfrac : ∀ j, threeSrc.frac (threeFreq j) = 1 / 2 := by
    intro j
    unfold Src.frac threeSrc
    simp only [List.map_cons, List.map_nil, List.sum_cons, List.sum_nil, add_zero]
    rw [screen_eq _ _ _ _ _ le_rfl]
    unfold rot radians
    simp
  have hq : ∀ j, j ≠ 1 → v j 0 0 = ⟨some 1, some (1 / 2), some 0⟩ := by
    intro j hj
    obtain ⟨e1, e2, e3⟩ := hvs j _ 1 (hfl0 j hj) (hpos j) rfl 0 0
    have h1 : ∀ w : IQU, w = ⟨w.i, w.q, w.u⟩ := fun w => rfl
    rw [h1 (v j 0 0), e1, e2, e3]
    simp [hseen, hfrac]
  refine ⟨v, hv, by rw [hq 0 (by decide)], by rw [hq 2 (by decide)], ?_⟩
  -- the reference is at the middle channel
  have hus : ∀ j, (Synth.spectrum (Pipe3D.synthInput (threeCube v) o) 0 j).isSome = true ↔ j ≠ 1 := by
    intro j
    rw [Pipe3D.spectrum_isSome]
    constructor
    · rintro ⟨a, b, c, e1, -⟩ rfl
      have e1 : (v 1 0 0).q = some a := e1
      rw [hvn (by simp) 1 0 0 hfl1] at e1
      exact absurd e1 (by simp)
    · intro hj
      have := hq j hj
      refine ⟨1 / 2, 0, 1, ?_, ?_, ?_, one_ne_zero⟩
      · show (v j 0 0).q = _
        rw [this]
      · show (v j 0 0).u = _
        rw [this]
      · show (v j 0 0).i = _
        rw [this]
  have hwt : ∀ j, effWeight (Pipe3D.synthInput (threeCube v) o).weight j = 1 := by
    intro j
    show effWeight (some (Pipe3D.weight (threeCube v) o)) j = 1
    rw [Robust.cubeWeight_eq]
    unfold Robust.cubeWeight threeCube
    cases o.variance <;> rfl
  have hfilt : Finset.univ.filter (fun j => ∃ p, (Synth.spectrum (Pipe3D.synthInput (threeCube v) o) p j).isSome = true) = {0, 2} := by
    ext j
    simp only [Finset.mem_filter, Finset.mem_univ, true_and, Finset.mem_insert, Finset.mem_singleton]
    constructor
    · rintro ⟨p, hp⟩
      rw [Fin.fin_one_eq_zero p, hus] at hp
      fin_cases j
      · left; rfl
      · exact absurd rfl hp
      · right; rfl
    · rintro (rfl | rfl)
      · exact ⟨0, (hus 0).2 (by decide)⟩
      · exact ⟨0, (hus 2).2 (by decide)⟩
  have hL : (5 / 2 : ℝ) = Synth.refLamSq (Pipe3D.synthInput (threeCube v) o) := by
    rw [Synth.refLamSq_mean _ (by simp [Pipe3D.synthInput, ho]) (by
      unfold weightSum
      rw [hfilt]
      simp [hwt])]
    unfold meanLamSq weightSum
    rw [hfilt]
    have e0 : (Pipe3D.synthInput (threeCube v) o).lamSq 0 = 4 := by
      show (299792458 / 149896229 : ℝ) ^ 2 = 4
      norm_num
    have e2 : (Pipe3D.synthInput (threeCube v) o).lamSq 2 = 1 := by
      show (299792458 / 299792458 : ℝ) ^ 2 = 1
      norm_num
    rw [Finset.sum_pair (by decide), Finset.sum_pair (by decide)]
    simp only [hwt, e0, e2]
    norm_num
  refine simulated_blank_wrong threeFreq [(threeFreq 1, threeFreq 1)] (fun _ => some 1) 1000000000 (by norm_num) _ 1 1 0 0 1 1 0 1 one_pos one_pos one_pos
    [threeSrc] (by simp) hok v hv (threeCube v) (fun _ => 0) (fun _ => 0)
    (fun k => ⟨fun _ => rfl, fun _ => rfl, ⟨_, rfl, fun _ => rfl⟩, rfl⟩) o (5 / 2) hL (by norm_num) ?_ 0
  intro j hj
  have h1 := hj 1
  rw [show threeFreq 1 - 299792458 / Real.sqrt (5 / 2) = 0 from sub_self _, abs_zero] at h1
  have h2 : threeFreq j = threeFreq 1 := sub_eq_zero.1 (abs_eq_zero.1 (le_antisymm h1 (abs_nonneg _)))
  exact ⟨_, List.mem_singleton.2 rfl, h2.ge, h2.le⟩

/-! ### A case for C219: one source, two channels -/

/-- Channels at wavelengths squared 4 and 1. -/
noncomputable def twoFreq : Fin 2 → ℝ := ![149896229, 299792458]

/-- A source of flux 1, fraction 1/2, depth 1/10. -/
noncomputable def twoSrc : Src := ⟨(0, 0), (0, 0, 0), 1, 0, [⟨1 / 2, 30, 1 / 10, 0⟩]⟩

noncomputable def twoCube (v : Fin 2 → ℕ → ℕ → IQU) : Pipe3D.In 2 1 where
  q := fun j _ => (v j 0 0).q
  u := fun j _ => (v j 0 0).u
  i := some fun j _ => (v j 0 0).i
  freq := twoFreq
  rms := none

/-- **C219**, a case: the source of depth 1/10 is found within 1/4 in the simulated cube, with its intensity. -/
theorem two_found (ph : ℕ → ℝ) :
    ∃ v, simulateCube (fun j => flagged [] (twoFreq j)) (fun _ => some 1) 1000000000 ⟨fun _ _ _ => 0, fun _ _ _ => 0, fun _ _ _ => 0⟩
        1 1 0 0 1 1 0 1 [twoSrc.row] = .ok v ∧
      ((∀ l : Fin (Pipe3D.nPhi (twoCube v) Robust.demoOpts), ph l = Axis.phiAxis (Pipe3D.axisParams (twoCube v) Robust.demoOpts).2
        (Pipe3D.axisParams (twoCube v) Robust.demoOpts).1 l) →
      ∃ F : Fin (Pipe3D.nPhi (twoCube v) Robust.demoOpts) → ℂ, (∀ l, Pipe3D.fdfCube (twoCube v) Robust.demoOpts l 0 = some (some (F l))) ∧
        ∃ A w, Cube.peakOf ph ((List.ofFn F).map some) = some (some A, some w) ∧ |w - 1 / 10| ≤ 1 / 4 ∧ 23 / 50 ≤ A ∧ A ≤ 1 / 2) := by
  classical
  have hok : ∀ t ∈ [] ++ twoSrc :: [], t.Ok := by
    intro t ht
    rw [List.nil_append, List.mem_singleton] at ht
    subst ht
    exact ⟨by simp [twoSrc], by simp [twoSrc]⟩
  obtain ⟨v, hv, -, hvs⟩ := simulateCube_voxel (fun j => flagged [] (twoFreq j)) (fun _ => some 1) 1000000000 (by norm_num)
    ⟨fun _ _ _ => 0, fun _ _ _ => 0, fun _ _ _ => 0⟩ 1 1 0 0 1 1 0 1 one_pos one_pos one_pos ([] ++ twoSrc :: []) hok
  refine ⟨v, hv, fun hph => ?_⟩
  have hpos : ∀ j, 0 < twoFreq j := by
    intro j
    fin_cases j
    · show (0 : ℝ) < 149896229
      norm_num
    · show (0 : ℝ) < 299792458
      norm_num
  have hseen : ∀ j, twoSrc.seen (simpleHeader 1 1 0 0 1 1 0 1) 1000000000 (twoFreq j) 0 0 = 1 := by
    intro j
    unfold Src.seen
    have := (beamResponse_spec 1 1 0 one_pos one_pos).1
    simp only [simpleHeader, skyOf, twoSrc]
    norm_num
    exact this
  have hi : ∀ j, (v j 0 0).i = some 1 := by
    intro j
    obtain ⟨e1, -⟩ := hvs j _ 1 rfl (hpos j) rfl 0 0
    rw [e1]
    simp [hseen]
  have hus : ∀ j, Pipe3D.Usable (twoCube v) j 0 := by
    intro j
    obtain ⟨-, e2, e3⟩ := hvs j _ 1 rfl (hpos j) rfl 0 0
    exact ⟨_, _, 1, e2, e3, hi j, one_ne_zero⟩
  have l0 : (299792458 / twoFreq 0) ^ 2 = 4 := by
    show (299792458 / 149896229 : ℝ) ^ 2 = 4
    norm_num
  have l1 : (299792458 / twoFreq 1) ^ 2 = 1 := by
    show (299792458 / 299792458 : ℝ) ^ 2 = 1
    norm_num
  have hresp : ∀ t, Robust.pixelResponse (twoCube v) true 0 t = |Real.cos (3 * t)| := by
    intro t
    rw [← Robust.demo_response]
    unfold Robust.pixelResponse
    have hf : Finset.univ.filter (fun j => Pipe3D.Usable (twoCube v) j 0) = Finset.univ := by
      ext j; simp [hus]
    have hf' : Finset.univ.filter (fun j => Pipe3D.Usable Robust.demoCube j 0) = Finset.univ := by
      ext j; simp [Robust.demo_usable]
    have hw : ∀ j, Robust.cubeWeight (twoCube v) true j = 1 := fun j => rfl
    have hw' : ∀ j, Robust.cubeWeight Robust.demoCube true j = 1 := fun j => rfl
    rw [hf, hf', Fin.sum_univ_two, Fin.sum_univ_two, Fin.sum_univ_two, Fin.sum_univ_two, Robust.demo_lamSq.1, Robust.demo_lamSq.2]
    simp only [hw, hw', show (twoCube v).freq = twoFreq from rfl, l0, l1]
    rw [add_comm (((1 : ℝ) : ℂ) * exp (-2 * I * t * ((4 : ℝ) : ℂ)))]
  have hmono : StrictMono (twoCube v).freq := by
    intro a b hab
    fin_cases a <;> fin_cases b
    · exact absurd hab (lt_irrefl _)
    · show (149896229 : ℝ) < 299792458
      norm_num
    · exact absurd hab (by decide)
    · exact absurd hab (lt_irrefl _)
  have hwt : ∀ j, effWeight (Pipe3D.synthInput (twoCube v) Robust.demoOpts).weight j = 1 := by
    intro j
    show effWeight (some (Pipe3D.weight (twoCube v) Robust.demoOpts)) j = 1
    rw [Robust.cubeWeight_eq]
    rfl
  have hfilt : Finset.univ.filter (fun j => ∃ p, (Synth.spectrum (Pipe3D.synthInput (twoCube v) Robust.demoOpts) p j).isSome = true) = Finset.univ := by
    ext j
    simp only [Finset.mem_filter, Finset.mem_univ, true_and, iff_true]
    exact ⟨0, (Pipe3D.spectrum_isSome _ _ _ _).2 (hus j)⟩
  have hL : Synth.refLamSq (Pipe3D.synthInput (twoCube v) Robust.demoOpts) = 5 / 2 := by
    rw [Synth.refLamSq_mean _ rfl (by
      unfold weightSum
      rw [hfilt]
      simp [hwt])]
    unfold meanLamSq weightSum
    rw [hfilt, Fin.sum_univ_two, Fin.sum_univ_two]
    simp only [hwt, show (Pipe3D.synthInput (twoCube v) Robust.demoOpts).lamSq 0 = 4 from l0,
      show (Pipe3D.synthInput (twoCube v) Robust.demoOpts).lamSq 1 = 1 from l1]
    norm_num
  obtain ⟨S, hS, hS1, hS2⟩ := scale_number (twoCube v) Robust.demoOpts 0 _ rfl 1 1 (fun j => ⟨1, hi j, le_rfl, le_rfl⟩) hmono 1 (by
    rw [hL]
    unfold Pipe3D.freq0
    rw [if_pos (by norm_num)]
    show (299792458 : ℝ) / Real.sqrt (5 / 2) ≤ 299792458
    exact div_le_self (by norm_num) (Real.one_le_sqrt.2 (by norm_num)))
  have hSe : S = 1 := le_antisymm hS2 hS1
  subst hSe
  have ha1 : (Pipe3D.axisParams (twoCube v) Robust.demoOpts).1 = 1 / 4 := rfl
  obtain ⟨c, h1, h2, -, h4⟩ := Axis.phiAxis_spec (1 / 4) (1 / 4) (by norm_num)
  have hc : c = 1 := by
    rw [abs_of_pos (by norm_num : (0 : ℝ) < 1 / 4)] at h4
    obtain ⟨h5, h6⟩ := abs_le.1 h4
    have h7 : (c : ℝ) < 2 := by linarith
    have h8 : (0 : ℝ) < c := by linarith
    have h7' : c < 2 := by exact_mod_cast h7
    have h8' : 0 < c := by exact_mod_cast h8
    omega
  subst hc
  have hN : Pipe3D.nPhi (twoCube v) Robust.demoOpts = 3 := h1
  have hcos1 := Real.one_sub_sq_div_two_le_cos (x := 1 / 4 / 2 * 3)
  have hcos2 : Real.cos (3 / 4) ≤ 37 / 50 := by
    have := Real.cos_bound (x := 3 / 4) (by rw [abs_of_pos] <;> norm_num)
    rw [abs_of_pos (by norm_num : (0 : ℝ) < 3 / 4)] at this
    have := (abs_le.1 this).2
    norm_num at this ⊢
    linarith
  have hreg : Pipe3D.Regular (twoCube v) Robust.demoOpts :=
    ⟨hpos, ⟨0, 1, (hmono (by decide : (0 : Fin 2) < 1)).ne⟩, (by norm_num : (1 / 4 : ℝ) ≠ 0), fun r h => by simp [twoCube] at h⟩
  obtain ⟨F, hF, A, w, g1, g2, g3, g4⟩ := simulated_source_found twoFreq hpos [] (fun _ => some 1) 1000000000 (by norm_num)
    ⟨fun _ _ _ => 0, fun _ _ _ => 0, fun _ _ _ => 0⟩ 1 1 0 0 1 1 0 1 one_pos one_pos one_pos [] [] twoSrc (1 / 2) 30 (1 / 10) rfl (by norm_num) hok v hv
    (twoCube v) 0 0 0 ⟨fun _ => rfl, fun _ => rfl, ⟨_, rfl, fun _ => rfl⟩, rfl⟩ Robust.demoOpts hreg 1 (1 / 4) (37 / 50) 3 0 hS one_pos
    (by rw [ha1]; norm_num) (by norm_num) ⟨0, by simp, one_pos⟩
    (by
      intro j _
      refine ⟨1, rfl, ?_, ?_⟩
      · simp [hseen]
      · simp [confusion])
    (by
      intro i j
      fin_cases i <;> fin_cases j <;> simp only [Fin.zero_eta, Fin.mk_one, l0, l1] <;> norm_num)
    (by rw [ha1]; have := Real.pi_gt_three; linarith)
    ⟨⟨2, by
        show 2 < Axis.nChanRM (1 / 4) (1 / 4)
        rw [h1]; norm_num⟩, by
      refine le_trans ?_ (le_of_eq (h2 ⟨2, by rw [h1]; norm_num⟩).symm)
      rw [abs_of_pos] <;> norm_num⟩
    (by
      intro t t1 t2
      rw [hN, ha1] at t2
      rw [show Robust.demoOpts.variance = true from rfl, hresp, abs_le]
      norm_num at t2
      have e3 : Real.cos (3 * t) = Real.cos (3 * |t|) := by
        rw [← Real.cos_abs (3 * t), abs_mul, abs_of_pos (by norm_num : (0 : ℝ) < 3)]
      have hpi := Real.pi_gt_three
      have hpos : 0 ≤ Real.cos (3 * |t|) := Real.cos_nonneg_of_neg_pi_div_two_le_of_le (by linarith) (by linarith)
      have hle : Real.cos (3 * |t|) ≤ Real.cos (3 / 4) :=
        Real.cos_le_cos_of_nonneg_of_le_pi (by norm_num) (by linarith) (by linarith)
      rw [e3]
      constructor <;> linarith)
    (by rw [ha1]; norm_num at hcos1 ⊢; linarith) ph hph
  refine ⟨F, hF, A, w, g1, g2, ?_, by linarith⟩
  rw [ha1] at g3
  norm_num at hcos1 g3
  linarith

end Verif.Sim
