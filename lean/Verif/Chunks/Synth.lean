import Verif.Chunks.Props
import Verif.Pipe3D.Split

/-!
# RM synthesis of a cube in chunks (C221)

Source: `/repo/RMtools_3D/create_chunks.py` 28-120, `/repo/RMtools_3D/do_RMsynth_3D.py` 57-268 on each of the chunks,
`/repo/RMtools_3D/assemble_chunks.py` 22-160. The models are `Chunks.create`, `Pipe3D.fdfCube`, `Chunks.assemble`.
-/

namespace Verif.Chunks

open Complex Verif.NumPy Verif.SynthSpec

variable {n : ℕ} {α β : Type*}

/-! ## Programs that treat chunks differently -/

/-- As `chunk_round_trip`, for a program which does `g i` to the pixels of chunk `i`. -/
theorem chunk_round_trip_each (pre post : List Char) (naxis : ℕ) (hax : naxis = 2 ∨ naxis = 3 ∨ naxis = 4)
    {X Y : ℕ} (img : Fin X → Fin Y → α) (N : ℕ) (h0 : 0 < N) (h1 : N < X * Y) (g : ℕ → α → β) :
    ∃ files, create pre post naxis img N = some files ∧
      ∀ L : List (File β), L.Perm (files.mapIdx fun i f => File.map (g i) f) →
        ∃ im, assemble L = some im ∧ ∀ (x : Fin X) (y : Fin Y), im x y = some (g (((x : ℕ) * Y + y) / N) (img x y)) := by
  have hXY := index_pixel (lt_trans h0 h1)
  let d := img ⟨_, hXY.1⟩ ⟨_, hXY.2⟩
  set k := ceilDiv (X * Y) N with hk
  have hk2 : 2 ≤ k := two_le_ceilDiv (X * Y) N h0 h1
  refine ⟨_, create_eq pre post naxis img d N h0 h1, fun L hL => ?_⟩
  let F : ℕ → File β := fun i =>
    { name := chunkName pre post k i
      naxis := naxis
      oldX := X
      oldY := Y
      pix := (chunkIdx N (X * Y) k i).map fun t => g (t / N) (pixAt img d t) }
  have hLF : L.Perm ((List.range k).map F) := by
    refine hL.trans (List.Perm.of_eq ?_)
    apply List.ext_getElem
    · simp [hk]
    · intro i hi1 hi2
      have hik : i < k := by simpa using hi2
      simp only [List.getElem_mapIdx, List.getElem_map, List.getElem_range, File.map, F, List.map_map, ← hk]
      congr 1
      apply List.map_congr_left
      intro t ht
      have := ((mem_chunkIdx N (X * Y) k i t h0 hk hik).1 ht).2
      simp only [Function.comp, this]
  have hsort := sort_files pre post k F (fun _ => rfl) L hLF
  have hlen : (F 0).pix.length = N := by
    simp only [F, List.length_map, chunkIdx]
    rw [if_pos (by omega)]
    simp [fullIdx]
  obtain ⟨rest, hrest⟩ : ∃ rest, (List.range k).map F = F 0 :: rest := by
    obtain ⟨k', hk'⟩ : ∃ k', k = k' + 1 := ⟨k - 1, by omega⟩
    rw [hk', List.range_succ_eq_map, List.map_cons]
    exact ⟨_, rfl⟩
  obtain ⟨im, him, hval⟩ := assemble_fold N (X * Y) k Y h0 hk (fun t => g (t / N) (pixAt img d t)) F
    (fun i _ => rfl) (List.range k) (fun i hi => List.mem_range.1 hi) (fun _ _ => none)
  refine ⟨im, ?_, ?_⟩
  · unfold assemble
    rw [hsort, hrest]
    dsimp only
    rw [hlen, if_neg (by omega), if_neg (by simp only [F]; omega), ← hrest]
    have hX : (F 0).oldX = X := rfl
    have hY : (F 0).oldY = Y := rfl
    rw [hX, hY, ← hk, if_neg (by simp), if_neg (by omega)]
    exact him
  · intro x y
    rw [hval x y y.isLt, if_pos, pixAt_index]
    have hp := pixel_index x.isLt y.isLt
    refine ⟨((x : ℕ) * Y + y) / N, List.mem_range.2 ?_, hp.1, rfl⟩
    have := ceilDiv_spec (X * Y) N h0 (by rw [← hk]; omega)
    rw [← hk] at this
    rw [Nat.div_lt_iff_lt_mul h0]
    omega

/-! ## RM synthesis of a list of pixels -/

/-- The voxels of a pixel in the cubes of Stokes Q, U and I. -/
structure Column (n : ℕ) where
  q : Fin n → Option ℝ
  u : Fin n → Option ℝ
  i : Fin n → Option ℝ

/-- What is common to all pixels: the frequencies, the noise, and whether a Stokes I cube was given. -/
structure Setup (n : ℕ) where
  freq : Fin n → ℝ
  rms : Option (Fin n → Option ℝ)
  withI : Bool

/-- The arguments of `run_rmsynth` for a cube with these pixels, `do_RMsynth_3D.py` 57-74. -/
def cubeOf (s : Setup n) (L : List (Column n)) : Pipe3D.In n L.length where
  q := fun j p => (L.get p).q j
  u := fun j p => (L.get p).u j
  i := if s.withI then some fun j p => (L.get p).i j else none
  freq := s.freq
  rms := s.rms

/-- Number of Faraday depths; it does not depend on the pixels. -/
noncomputable def nDepth [NeZero n] (s : Setup n) (o : Pipe1D.Opts) : ℕ :=
  Axis.nChanRM (Pipe1D.axisParams s.freq o).2 (Pipe1D.axisParams s.freq o).1

/-- A Faraday depth spectrum; `none` is NaN. -/
abbrev Spectrum [NeZero n] (s : Setup n) (o : Pipe1D.Opts) := Fin (nDepth s o) → Option ℂ

/-- Positive frequencies, of which two are different, a step of the depth axis and no infinite weight. It does not depend on the pixels. -/
def RegularSetup [NeZero n] (s : Setup n) (o : Pipe1D.Opts) : Prop :=
  (∀ j, 0 < s.freq j) ∧ (∃ j j', s.freq j ≠ s.freq j') ∧ (Pipe1D.axisParams s.freq o).1 ≠ 0 ∧
    ∀ r, s.rms = some r → Pipe1D.finiteWeights o.variance r

theorem regular_cubeOf [NeZero n] (s : Setup n) (o : Pipe1D.Opts) (L : List (Column n)) : Pipe3D.Regular (cubeOf s L) o ↔ RegularSetup s o := Iff.rfl

/-- The run of `rmsynth3d` on the cube with these pixels: the Faraday depth cube, pixel by pixel. `none`: `IndexError`, or the input is not
regular and not modelled. -/
noncomputable def runCube [NeZero n] (s : Setup n) (o : Pipe1D.Opts) (L : List (Column n)) : Option (List (Spectrum s o)) :=
  open Classical in
  if Pipe3D.Regular (cubeOf s L) o ∧ ∀ p, (Pipe3D.scale (cubeOf s L) o p).isSome then
    some (List.ofFn fun p l => (Pipe3D.fdfCube (cubeOf s L) o l p).join)
  else none

/-- The run on a chunk file. The size keywords and the place of the file in the directory are kept. -/
noncomputable def runFile [NeZero n] (s : Setup n) (o : Pipe1D.Opts) (f : File (Column n)) : Option (File (Spectrum s o)) :=
  (runCube s o f.pix).map fun r => { name := f.name, naxis := f.naxis, oldX := f.oldX, oldY := f.oldY, pix := r }

/-- The reference wavelength squared of the run, written to the header as `LAMSQ0`. -/
noncomputable def reference [NeZero n] (s : Setup n) (o : Pipe1D.Opts) (L : List (Column n)) : ℝ :=
  Synth.refLamSq (Pipe3D.synthInput (cubeOf s L) o)

/-! ## One pixel with a given reference -/

/-- Stokes I of a pixel at the reference. -/
noncomputable def scaleAt [NeZero n] (s : Setup n) (ref : ℝ) (c : Column n) : Option (Option ℝ) :=
  if s.withI then Pipe3D.ifreq0 s.freq c.i (Pipe3D.freq0 s.freq ref) else some (some 1)

/-- RM synthesis of one pixel with a given reference. -/
noncomputable def inputAt [NeZero n] (s : Setup n) (o : Pipe1D.Opts) (ref : ℝ) (c : Column n) : Synth.Input n 1 (nDepth s o) where
  dataQ := Pipe3D.divided (cubeOf s [c]) (cubeOf s [c]).q
  dataU := Pipe3D.divided (cubeOf s [c]) (cubeOf s [c]).u
  lamSq := Pipe1D.lamSq s.freq
  phi := Axis.phiAxis (Pipe1D.axisParams s.freq o).2 (Pipe1D.axisParams s.freq o).1
  weight := some (Pipe3D.weight (cubeOf s [c]) o)
  lam0 := some ref

/-- The spectrum of one pixel with a given reference. -/
noncomputable def one [NeZero n] (s : Setup n) (o : Pipe1D.Opts) (ref : ℝ) (c : Column n) : Spectrum s o := fun l =>
  ((scaleAt s ref c).join).bind fun a => (Synth.fdf (inputAt s o ref c) l 0).map fun z => z * (a : ℂ)

theorem divided_get (s : Setup n) (L : List (Column n)) (j : Fin n) (p : Fin L.length) :
    Pipe3D.divided (cubeOf s L) (cubeOf s L).q j p = Pipe3D.divided (cubeOf s [L.get p]) (cubeOf s [L.get p]).q j 0 ∧
    Pipe3D.divided (cubeOf s L) (cubeOf s L).u j p = Pipe3D.divided (cubeOf s [L.get p]) (cubeOf s [L.get p]).u j 0 := by
  unfold Pipe3D.divided cubeOf
  cases s.withI <;> simp

theorem scale_get [NeZero n] (s : Setup n) (o : Pipe1D.Opts) (L : List (Column n)) (p : Fin L.length) :
    Pipe3D.scale (cubeOf s L) o p = scaleAt s (reference s o L) (L.get p) := by
  unfold Pipe3D.scale scaleAt reference
  cases h : s.withI <;> simp [cubeOf, h, Synth.refLamSq, Synth.doRmsynthPlanes]

theorem fdf_get [NeZero n] (s : Setup n) (o : Pipe1D.Opts) (L : List (Column n)) (p : Fin L.length) (l : Fin (nDepth s o)) :
    Synth.fdf (Pipe3D.synthInput (cubeOf s L) o) l p = Synth.fdf (inputAt s o (reference s o L) (L.get p)) l 0 := by
  have hraw : ∀ l : Fin (nDepth s o), Synth.fdfRaw (Pipe3D.synthInput (cubeOf s L) o) l p =
      Synth.fdfRaw (inputAt s o (reference s o L) (L.get p)) l 0 := by
    intro l
    refine (Synth.fdfRaw_eq (Pipe3D.synthInput (cubeOf s L) o) l p).trans ?_
    refine Eq.trans ?_ (Synth.fdfRaw_eq (inputAt s o (reference s o L) (L.get p)) l 0).symm
    have e1 : Synth.pixPol (Pipe3D.synthInput (cubeOf s L) o) p = Synth.pixPol (inputAt s o (reference s o L) (L.get p)) 0 := by
      funext j
      have := divided_get s L j p
      unfold Synth.pixPol Pipe3D.synthInput inputAt
      dsimp only
      rw [this.1, this.2]
    exact congrArg (fun P => SynthSpec.fdf (Synth.weight0 (inputAt s o (reference s o L) (L.get p))) P
      (inputAt s o (reference s o L) (L.get p)).lamSq (Synth.lam0Sq (inputAt s o (reference s o L) (L.get p)))
      (-(inputAt s o (reference s o L) (L.get p)).phi l.rev)) e1
  unfold Synth.fdf
  have hall : (∀ l' : Fin (Pipe3D.nPhi (cubeOf s L) o), Synth.fdfRaw (Pipe3D.synthInput (cubeOf s L) o) l' p = 0) ↔
      ∀ l' : Fin (nDepth s o), Synth.fdfRaw (inputAt s o (reference s o L) (L.get p)) l' 0 = 0 := by
    constructor
    · intro h l'; rw [← hraw]; exact h l'
    · intro h l'; exact (hraw l').trans (h l')
  by_cases h : ∀ l' : Fin (nDepth s o), Synth.fdfRaw (inputAt s o (reference s o L) (L.get p)) l' 0 = 0
  · rw [if_pos (hall.2 h), if_pos h]
  · rw [if_neg (fun h' => h (hall.1 h')), if_neg h]
    exact congrArg some (hraw l)

/-- A run gives every pixel its spectrum with the reference of the run. -/
theorem runCube_eq [NeZero n] (s : Setup n) (o : Pipe1D.Opts) (L : List (Column n)) (R : List (Spectrum s o)) :
    runCube s o L = some R ↔
      RegularSetup s o ∧ (∀ c ∈ L, (scaleAt s (reference s o L) c).isSome) ∧ R = L.map (one s o (reference s o L)) := by
  classical
  have h1 : (∀ p, (Pipe3D.scale (cubeOf s L) o p).isSome) ↔ ∀ c ∈ L, (scaleAt s (reference s o L) c).isSome := by
    constructor
    · intro h c hc
      obtain ⟨p, rfl⟩ := List.get_of_mem hc
      rw [← scale_get]; exact h p
    · intro h p
      rw [scale_get]; exact h _ (List.get_mem L p)
  have h2 : RegularSetup s o → (List.ofFn fun (p : Fin L.length) (l : Fin (nDepth s o)) => (Pipe3D.fdfCube (cubeOf s L) o l p).join) =
      L.map (one s o (reference s o L)) := by
    intro hreg
    apply List.ext_getElem
    · simp
    · intro i hi1 hi2
      have hi : i < L.length := by simpa using hi1
      simp only [List.getElem_ofFn, List.getElem_map]
      funext l
      have hs := scale_get s o L ⟨i, hi⟩
      have hf := fdf_get s o L ⟨i, hi⟩ l
      unfold Pipe3D.fdfCube one
      rw [if_pos ((regular_cubeOf s o L).2 hreg), hs]
      simp only [List.get_eq_getElem] at hf ⊢
      cases hsc : scaleAt s (reference s o L) L[i] with
      | none => rfl
      | some a =>
        cases a with
        | none => rfl
        | some a =>
          simp only [Option.map_some, Option.bind_some, Option.join_some]
          rw [← hf]
  unfold runCube
  by_cases h : Pipe3D.Regular (cubeOf s L) o ∧ ∀ p, (Pipe3D.scale (cubeOf s L) o p).isSome
  · rw [if_pos h]
    constructor
    · intro hR
      injection hR with hR
      exact ⟨h.1, h1.1 h.2, hR.symm.trans (h2 h.1)⟩
    · rintro ⟨-, -, rfl⟩
      exact congrArg some (h2 h.1)
  · rw [if_neg h]
    constructor
    · intro hR; cases hR
    · rintro ⟨hr, hh, -⟩
      exact absurd ⟨hr, h1.2 hh⟩ h

/-! ## The reference of a run -/

/-- The voxel of a pixel can be used: Q and U are there, and Stokes I is there and not zero if it was given. -/
def UsableVoxel (s : Setup n) (c : Column n) (j : Fin n) : Prop :=
  ∃ q u, c.q j = some q ∧ c.u j = some u ∧ (s.withI = true → ∃ v, c.i j = some v ∧ v ≠ 0)

/-- The weight of a channel: one, or one over the square of the noise if this was asked for; zero if it is not a number. -/
noncomputable def chanWeight (s : Setup n) (o : Pipe1D.Opts) (j : Fin n) : ℝ :=
  match s.rms with
  | none => 1
  | some r => if o.variance then ((r j).map fun v => 1 / v ^ 2).getD 0 else 1

theorem chanWeight_eq [NeZero n] (s : Setup n) (o : Pipe1D.Opts) (L : List (Column n)) (j : Fin n) :
    Synth.weight0 (Pipe3D.synthInput (cubeOf s L) o) j = chanWeight s o j := by
  rw [Synth.weight0_eq]
  unfold effWeight Pipe3D.synthInput chanWeight
  dsimp only [Option.elim]
  unfold Pipe3D.weight
  have hr : (cubeOf s L).rms = s.rms := rfl
  rw [hr]
  cases s.rms with
  | none => rfl
  | some r =>
    dsimp only
    unfold Pipe1D.weight
    cases o.variance <;> cases r j <;> simp

theorem usable_get (s : Setup n) (L : List (Column n)) (j : Fin n) (p : Fin L.length) :
    Pipe3D.Usable (cubeOf s L) j p ↔ UsableVoxel s (L.get p) j := by
  unfold Pipe3D.Usable UsableVoxel Pipe3D.intensity
  cases h : s.withI with
  | false =>
    have : (cubeOf s L).i = none := by unfold cubeOf; rw [h]; rfl
    rw [this]
    constructor
    · rintro ⟨q, u, v, h1, h2, -, -⟩
      exact ⟨q, u, h1, h2, by simp⟩
    · rintro ⟨q, u, h1, h2, -⟩
      exact ⟨q, u, 1, h1, h2, rfl, one_ne_zero⟩
  | true =>
    have : (cubeOf s L).i = some fun j p => (L.get p).i j := by unfold cubeOf; rw [h]; rfl
    rw [this]
    constructor
    · rintro ⟨q, u, v, h1, h2, h3, h4⟩
      exact ⟨q, u, h1, h2, fun _ => ⟨v, h3, h4⟩⟩
    · rintro ⟨q, u, h1, h2, h3⟩
      obtain ⟨v, h3, h4⟩ := h3 rfl
      exact ⟨q, u, v, h1, h2, h3, h4⟩

/-- Two cubes have the same reference if the same channels can be used somewhere. -/
theorem reference_eq [NeZero n] (s : Setup n) (o : Pipe1D.Opts) (L L' : List (Column n))
    (h : o.superRes = true ∨ ∀ j, chanWeight s o j ≠ 0 → ((∃ c ∈ L, UsableVoxel s c j) ↔ ∃ c ∈ L', UsableVoxel s c j)) :
    reference s o L = reference s o L' := by
  have hpl : ∀ (L : List (Column n)) (j : Fin n), Synth.planeCount (Pipe3D.synthInput (cubeOf s L) o) j = 0 ↔
      ¬∃ c ∈ L, UsableVoxel s c j := by
    intro L j
    rw [Synth.planeCount_eq_zero]
    constructor
    · rintro h ⟨c, hc, hu⟩
      obtain ⟨p, rfl⟩ := List.get_of_mem hc
      exact (Pipe3D.mskCube_iff (cubeOf s L) o j p).1 (h p) ((usable_get s L j p).2 hu)
    · intro h p
      rw [Pipe3D.mskCube_iff, usable_get]
      exact fun hu => h ⟨_, List.get_mem L p, hu⟩
  unfold reference Synth.refLamSq Synth.doRmsynthPlanes
  dsimp only
  rcases h with h | h
  · have : ∀ L, (Pipe3D.synthInput (cubeOf s L) o).lam0 = some 0 := by
      intro L; simp [Pipe3D.synthInput, h]
    unfold Synth.lam0Sq
    rw [this, this]
  · have hw : ∀ j, Synth.weight1 (Pipe3D.synthInput (cubeOf s L) o) j = Synth.weight1 (Pipe3D.synthInput (cubeOf s L') o) j := by
      intro j
      unfold Synth.weight1
      rw [chanWeight_eq, chanWeight_eq]
      by_cases h0 : chanWeight s o j = 0
      · rw [h0]; simp
      · have : (Synth.planeCount (Pipe3D.synthInput (cubeOf s L) o) j = 0) =
            (Synth.planeCount (Pipe3D.synthInput (cubeOf s L') o) j = 0) := by
          apply propext
          rw [hpl, hpl, h j h0]
        simp only [this]
    have hl : (Pipe3D.synthInput (cubeOf s L) o).lam0 = (Pipe3D.synthInput (cubeOf s L') o).lam0 := rfl
    have hlam : (Pipe3D.synthInput (cubeOf s L) o).lamSq = (Pipe3D.synthInput (cubeOf s L') o).lamSq := rfl
    unfold Synth.lam0Sq
    rw [hl]
    simp only [hw, hlam]

/-! ## C221 -/

/-- The pixels of an image in the order of their running number. -/
def pixels {X Y : ℕ} (img : Fin X → Fin Y → α) : List α :=
  List.ofFn fun t : Fin (X * Y) => img ⟨t / Y, (index_pixel t.isLt).1⟩ ⟨t % Y, (index_pixel t.isLt).2⟩

theorem pixels_get {X Y : ℕ} (img : Fin X → Fin Y → α) (x : Fin X) (y : Fin Y) :
    (pixels img)[(x : ℕ) * Y + y]? = some (img x y) := by
  obtain ⟨h1, h2, h3⟩ := pixel_index x.isLt y.isLt
  unfold pixels
  rw [List.getElem?_eq_getElem (by simpa using h1), List.getElem_ofFn]
  congr 2 <;> exact Fin.ext (by assumption)

theorem mem_pixels {X Y : ℕ} (img : Fin X → Fin Y → α) (c : α) : c ∈ pixels img ↔ ∃ x y, img x y = c := by
  constructor
  · intro h
    unfold pixels at h
    rw [List.mem_ofFn] at h
    obtain ⟨t, ht⟩ := h
    exact ⟨_, _, ht⟩
  · rintro ⟨x, y, rfl⟩
    exact List.mem_of_getElem? (pixels_get img x y)

/-- Running all chunks. -/
theorem runFiles_eq [NeZero n] (s : Setup n) (o : Pipe1D.Opts) (files : List (File (Column n))) (outs : List (File (Spectrum s o))) :
    files.mapM (runFile s o) = some outs ↔
      (∀ f ∈ files, RegularSetup s o ∧ ∀ c ∈ f.pix, (scaleAt s (reference s o f.pix) c).isSome) ∧
      outs = files.map fun f => File.map (one s o (reference s o f.pix)) f := by
  induction files generalizing outs with
  | nil =>
    constructor
    · intro h
      exact ⟨fun f hf => absurd hf List.not_mem_nil, (Option.some.inj h).symm⟩
    · rintro ⟨-, rfl⟩
      rfl
  | cons f rest ih =>
    have hf : ∀ r, runFile s o f = some r ↔ (RegularSetup s o ∧ ∀ c ∈ f.pix, (scaleAt s (reference s o f.pix) c).isSome) ∧
        r = File.map (one s o (reference s o f.pix)) f := by
      intro r
      unfold runFile
      rw [Option.map_eq_some_iff]
      constructor
      · rintro ⟨R, hR, rfl⟩
        obtain ⟨hreg, a, rfl⟩ := (runCube_eq s o f.pix R).1 hR
        exact ⟨⟨hreg, a⟩, rfl⟩
      · rintro ⟨a, rfl⟩
        exact ⟨_, (runCube_eq s o f.pix _).2 ⟨a.1, a.2, rfl⟩, rfl⟩
    rw [List.mapM_cons]
    simp only [Option.bind_eq_bind, Option.bind_eq_some_iff, Option.pure_def, Option.some.injEq, List.map_cons, List.forall_mem_cons]
    constructor
    · rintro ⟨r, hr, t, ht, rfl⟩
      obtain ⟨a, rfl⟩ := (hf r).1 hr
      obtain ⟨b, rfl⟩ := (ih t).1 ht
      exact ⟨⟨a, b⟩, rfl⟩
    · rintro ⟨⟨a, b⟩, rfl⟩
      exact ⟨_, (hf _).2 ⟨a, rfl⟩, _, (ih _).2 ⟨b, rfl⟩, rfl⟩

/-- Every pixel of the assembled cube is the spectrum of this pixel with the reference of its own chunk. -/
theorem chunked_each [NeZero n] (s : Setup n) (o : Pipe1D.Opts) (pre post : List Char) (naxis : ℕ)
    (hax : naxis = 2 ∨ naxis = 3 ∨ naxis = 4) {X Y : ℕ} (img : Fin X → Fin Y → Column n) (N : ℤ)
    (files : List (File (Column n))) (hfiles : create pre post naxis img N = some files)
    (outs : List (File (Spectrum s o))) (houts : files.mapM (runFile s o) = some outs)
    (L : List (File (Spectrum s o))) (hL : L.Perm outs) :
    ∃ im, assemble L = some im ∧ ∀ (x : Fin X) (y : Fin Y), ∃ f ∈ files, img x y ∈ f.pix ∧
      im x y = some (one s o (reference s o f.pix) (img x y)) := by
  obtain ⟨h0, h1⟩ := (create_isSome_iff pre post naxis img N).1 (by rw [hfiles]; rfl)
  obtain ⟨k, rfl⟩ := Int.eq_ofNat_of_zero_le h0.le
  have hk0 : 0 < k := by exact_mod_cast h0
  have hk1 : k < X * Y := by exact_mod_cast h1
  let g : ℕ → Column n → Spectrum s o := fun i => one s o (reference s o ((files[i]?).elim [] File.pix))
  obtain ⟨files', hf', hr⟩ := chunk_round_trip_each pre post naxis hax img k hk0 hk1 g
  have hff : files' = files := Option.some.inj (hf'.symm.trans hfiles)
  rw [hff] at hr
  obtain ⟨im, him, hval⟩ := hr L (by
    refine hL.trans (List.Perm.of_eq ?_)
    rw [((runFiles_eq s o files outs).1 houts).2]
    apply List.ext_getElem
    · simp
    · intro i hi1 hi2
      have hi : i < files.length := by simpa using hi1
      simp only [List.getElem_map, List.getElem_mapIdx, g, List.getElem?_eq_getElem hi, Option.elim_some])
  refine ⟨im, him, fun x y => ?_⟩
  obtain ⟨p1, p2, p3⟩ := pixel_index x.isLt y.isLt
  have hXY := index_pixel (lt_trans hk0 hk1)
  have hce := create_eq pre post naxis img (img ⟨_, hXY.1⟩ ⟨_, hXY.2⟩) k hk0 hk1
  have hfe := Option.some.inj (hfiles.symm.trans hce)
  have hiK : ((x : ℕ) * Y + y) / k < ceilDiv (X * Y) k := by
    have := two_le_ceilDiv (X * Y) k hk0 hk1
    have := ceilDiv_spec (X * Y) k hk0 (by omega)
    rw [Nat.div_lt_iff_lt_mul hk0]
    omega
  have hi : ((x : ℕ) * Y + y) / k < files.length := by rw [hfe]; simpa using hiK
  refine ⟨files[((x : ℕ) * Y + y) / k], List.getElem_mem hi, ?_, ?_⟩
  · rw [List.getElem_of_eq hfe hi, List.getElem_map, List.getElem_range]
    dsimp only
    rw [List.mem_map]
    exact ⟨(x : ℕ) * Y + y, (mem_chunkIdx k (X * Y) _ _ _ hk0 rfl hiK).2 ⟨p1, rfl⟩, pixAt_index img _ x y⟩
  · rw [hval x y]
    simp only [g, List.getElem?_eq_getElem hi, Option.elim_some]

/-- The pixels of the chunks are pixels of the image. -/
theorem mem_file (pre post : List Char) (naxis : ℕ) {X Y : ℕ} (img : Fin X → Fin Y → α) (N : ℤ)
    (files : List (File α)) (hfiles : create pre post naxis img N = some files) (f : File α) (hf : f ∈ files) (c : α) (hc : c ∈ f.pix) :
    c ∈ pixels img := by
  obtain ⟨h0, h1⟩ := (create_isSome_iff pre post naxis img N).1 (by rw [hfiles]; rfl)
  obtain ⟨k, rfl⟩ := Int.eq_ofNat_of_zero_le h0.le
  have hk0 : 0 < k := by exact_mod_cast h0
  have hk1 : k < X * Y := by exact_mod_cast h1
  have hXY := index_pixel (lt_trans hk0 hk1)
  have hfe := Option.some.inj (hfiles.symm.trans (create_eq pre post naxis img (img ⟨_, hXY.1⟩ ⟨_, hXY.2⟩) k hk0 hk1))
  rw [hfe, List.mem_map] at hf
  obtain ⟨i, hi, rfl⟩ := hf
  rw [List.mem_map] at hc
  obtain ⟨t, ht, rfl⟩ := hc
  have htl := ((mem_chunkIdx k (X * Y) _ i t hk0 rfl (List.mem_range.1 hi)).1 ht).1
  rw [mem_pixels]
  have := index_pixel htl
  exact ⟨⟨_, this.1⟩, ⟨_, this.2⟩, by unfold pixAt; rw [dif_pos this]⟩

/-- **C221 (partial)**. If every channel which can be used somewhere in the cube can be used somewhere in each chunk (or the reference is zero
because of super-resolution), then cutting the cube into chunks, running `rmsynth3d` on each and assembling the results, found in any order, gives
the cube which `rmsynth3d` gives for the whole. -/
theorem chunked_partial [NeZero n] (s : Setup n) (o : Pipe1D.Opts) (pre post : List Char) (naxis : ℕ)
    (hax : naxis = 2 ∨ naxis = 3 ∨ naxis = 4) {X Y : ℕ} (img : Fin X → Fin Y → Column n) (N : ℤ)
    (files : List (File (Column n))) (hfiles : create pre post naxis img N = some files)
    (R : List (Spectrum s o)) (hR : runCube s o (pixels img) = some R)
    (hp : o.superRes = true ∨ ∀ f ∈ files, ∀ j, chanWeight s o j ≠ 0 → (∃ x y, UsableVoxel s (img x y) j) →
      ∃ c ∈ f.pix, UsableVoxel s c j) :
    ∃ outs, files.mapM (runFile s o) = some outs ∧ ∀ L : List (File (Spectrum s o)), L.Perm outs →
      ∃ im, assemble L = some im ∧ ∀ (x : Fin X) (y : Fin Y), im x y = R[(x : ℕ) * Y + y]? := by
  have href : ∀ f ∈ files, reference s o f.pix = reference s o (pixels img) := by
    intro f hf
    apply reference_eq
    rcases hp with hp | hp
    · exact Or.inl hp
    · right
      intro j hj
      constructor
      · rintro ⟨c, hc, hu⟩
        exact ⟨c, mem_file pre post naxis img N files hfiles f hf c hc, hu⟩
      · rintro ⟨c, hc, hu⟩
        obtain ⟨x, y, rfl⟩ := (mem_pixels img c).1 hc
        exact hp f hf j hj ⟨x, y, hu⟩
  obtain ⟨hreg, hs, rfl⟩ := (runCube_eq s o _ R).1 hR
  have houts := (runFiles_eq s o files _).2 ⟨fun f hf => ⟨hreg, fun c hc => by
    rw [href f hf]; exact hs c (mem_file pre post naxis img N files hfiles f hf c hc)⟩, rfl⟩
  refine ⟨_, houts, fun L hL => ?_⟩
  obtain ⟨im, him, hval⟩ := chunked_each s o pre post naxis hax img N files hfiles _ houts L hL
  refine ⟨im, him, fun x y => ?_⟩
  obtain ⟨f, hf, -, h⟩ := hval x y
  rw [h, href f hf, List.getElem?_map, pixels_get]
  rfl

/-- Changing the reference of one pixel, no Stokes I. -/
theorem one_reference [NeZero n] (s : Setup n) (o : Pipe1D.Opts) (hI : s.withI = false) (a b : ℝ) (c : Column n)
    (hd : 0 < (Pipe1D.axisParams s.freq o).1) (l : Fin (nDepth s o)) :
    one s o b c l = (one s o a c l).map fun z =>
      exp (2 * I * (Axis.phiAxis (Pipe1D.axisParams s.freq o).2 (Pipe1D.axisParams s.freq o).1 l : ℝ) * (b - a)) * z := by
  obtain ⟨-, -, -, hsym, -⟩ := Axis.phiAxis_spec (Pipe1D.axisParams s.freq o).2 (Pipe1D.axisParams s.freq o).1 hd
  have hv : ∀ l, Synth.value (inputAt s o b c) l 0 =
      exp (2 * I * (Axis.phiAxis (Pipe1D.axisParams s.freq o).2 (Pipe1D.axisParams s.freq o).1 l : ℝ) * (b - a)) *
        Synth.value (inputAt s o a c) l 0 := by
    intro l
    rw [Synth.value_sym (inputAt s o b c) hsym, Synth.value_sym (inputAt s o a c) hsym]
    exact fdf_reference _ _ _ _ _ _
  have hsc : ∀ r, (scaleAt s r c).join = some 1 := by
    intro r; unfold scaleAt; rw [hI]; rfl
  unfold one
  rw [hsc, hsc]
  by_cases h0 : ∀ l, Synth.value (inputAt s o a c) l 0 = 0
  · have h1 : ∀ l, Synth.value (inputAt s o b c) l 0 = 0 := by
      intro l; rw [hv, h0, mul_zero]
    have e1 : Synth.fdf (inputAt s o b c) l 0 = none := (Synth.fdf_blank_iff (inputAt s o b c) 0).1 h1 l
    have e0 : Synth.fdf (inputAt s o a c) l 0 = none := (Synth.fdf_blank_iff (inputAt s o a c) 0).1 h0 l
    rw [e1, e0]
    rfl
  · push Not at h0
    have h1 : ∃ l, Synth.value (inputAt s o b c) l 0 ≠ 0 := by
      obtain ⟨l, hl⟩ := h0
      exact ⟨l, by rw [hv]; exact mul_ne_zero (exp_ne_zero _) hl⟩
    have e1 : Synth.fdf (inputAt s o b c) l 0 = some _ := (Synth.fdf_blank_iff (inputAt s o b c) 0).2 h1 l
    have e0 : Synth.fdf (inputAt s o a c) l 0 = some _ := (Synth.fdf_blank_iff (inputAt s o a c) 0).2 h0 l
    rw [e1, e0, hv]
    simp [mul_assoc]

/-- **C221 (partial)**, any flags, without Stokes I: the chunked cube has the polarised intensities and the blanks of the whole; the phases at
depth `φ` are turned by `2 φ (b - a)`, where `a` is the reference of the whole and `b` that of the chunk. -/
theorem chunked_intensity_partial [NeZero n] (s : Setup n) (o : Pipe1D.Opts) (pre post : List Char) (naxis : ℕ)
    (hax : naxis = 2 ∨ naxis = 3 ∨ naxis = 4) {X Y : ℕ} (img : Fin X → Fin Y → Column n) (N : ℤ)
    (files : List (File (Column n))) (hfiles : create pre post naxis img N = some files) (hI : s.withI = false)
    (hreg : RegularSetup s o) (hd : 0 < (Pipe1D.axisParams s.freq o).1) :
    ∃ R outs, runCube s o (pixels img) = some R ∧ files.mapM (runFile s o) = some outs ∧
      ∀ L : List (File (Spectrum s o)), L.Perm outs → ∃ im, assemble L = some im ∧ ∀ (x : Fin X) (y : Fin Y),
        ∃ r r', R[(x : ℕ) * Y + y]? = some r ∧ im x y = some r' ∧ (∀ l, (r' l).map norm = (r l).map norm) ∧
          ∃ f ∈ files, img x y ∈ f.pix ∧ ∀ l, r' l = (r l).map fun z =>
            exp (2 * I * (Axis.phiAxis (Pipe1D.axisParams s.freq o).2 (Pipe1D.axisParams s.freq o).1 l : ℝ) *
              (reference s o f.pix - reference s o (pixels img))) * z := by
  have hsc : ∀ r c, (scaleAt s r c).isSome := by
    intro r c; unfold scaleAt; rw [hI]; rfl
  have houts := (runFiles_eq s o files _).2 ⟨fun f _ => ⟨hreg, fun c _ => hsc _ c⟩, rfl⟩
  refine ⟨_, _, (runCube_eq s o _ _).2 ⟨hreg, fun c _ => hsc _ c, rfl⟩, houts, fun L hL => ?_⟩
  obtain ⟨im, him, hval⟩ := chunked_each s o pre post naxis hax img N files hfiles _ houts L hL
  refine ⟨im, him, fun x y => ?_⟩
  obtain ⟨f, hf, hc, h⟩ := hval x y
  have hone := one_reference s o hI (reference s o (pixels img)) (reference s o f.pix) (img x y) hd
  refine ⟨_, _, by rw [List.getElem?_map, pixels_get]; rfl, h, fun l => ?_, f, hf, hc, hone⟩
  rw [hone l]
  cases one s o (reference s o (pixels img)) (img x y) l with
  | none => rfl
  | some z =>
    simp only [Option.map_some, norm_mul]
    rw [show (2 * I * (Axis.phiAxis (Pipe1D.axisParams s.freq o).2 (Pipe1D.axisParams s.freq o).1 l : ℝ) *
        (reference s o f.pix - reference s o (pixels img)) : ℂ) =
        ((2 * Axis.phiAxis (Pipe1D.axisParams s.freq o).2 (Pipe1D.axisParams s.freq o).1 l *
          (reference s o f.pix - reference s o (pixels img)) : ℝ) : ℂ) * I by push_cast; ring, norm_exp_ofReal_mul_I, one_mul]

/-! ## C221 is false in general -/

/-- The reference is the weighted mean of `λ²` over the channels which can be used somewhere. -/
theorem reference_formula [NeZero n] (s : Setup n) (o : Pipe1D.Opts) (L : List (Column n)) (hs : o.superRes = false) (use : Fin n → Bool)
    (hu : ∀ j, use j = true ↔ ∃ c ∈ L, UsableVoxel s c j) :
    reference s o L = if ∑ j, (if use j then chanWeight s o j else 0) = 0 then 0 else
      (1 / ∑ j, (if use j then chanWeight s o j else 0)) * ∑ j, (if use j then chanWeight s o j else 0) * Pipe1D.lamSq s.freq j := by
  have hw : ∀ j, Synth.weight1 (Pipe3D.synthInput (cubeOf s L) o) j = if use j then chanWeight s o j else 0 := by
    intro j
    unfold Synth.weight1
    rw [chanWeight_eq]
    have hpl : Synth.planeCount (Pipe3D.synthInput (cubeOf s L) o) j = 0 ↔ use j = false := by
      rw [Synth.planeCount_eq_zero, ← Bool.not_eq_true, hu]
      constructor
      · rintro h ⟨c, hc, hu⟩
        obtain ⟨p, rfl⟩ := List.get_of_mem hc
        exact (Pipe3D.mskCube_iff (cubeOf s L) o j p).1 (h p) ((usable_get s L j p).2 hu)
      · intro h p
        rw [Pipe3D.mskCube_iff, usable_get]
        exact fun hu => h ⟨_, List.get_mem L p, hu⟩
    simp only [hpl]
    cases use j <;> simp
  have hl : (Pipe3D.synthInput (cubeOf s L) o).lam0 = none := by simp [Pipe3D.synthInput, hs]
  have hlam : (Pipe3D.synthInput (cubeOf s L) o).lamSq = Pipe1D.lamSq s.freq := rfl
  unfold reference Synth.refLamSq Synth.doRmsynthPlanes Synth.lam0Sq
  rw [hl]
  simp only [hw, hlam]

/-- Two channels with ascending frequencies, `λ²` 2 and 1. -/
noncomputable def aFreq (j : Fin 2) : ℝ := if j = 0 then Pipe1D.c / Real.sqrt 2 else Pipe1D.c

theorem aFreq_lamSq : Pipe1D.lamSq aFreq 0 = 2 ∧ Pipe1D.lamSq aFreq 1 = 1 := by
  have hc : Pipe1D.c ≠ 0 := by unfold Pipe1D.c; norm_num
  have h2 : Real.sqrt 2 ≠ 0 := by positivity
  constructor
  · have : Pipe1D.c / (Pipe1D.c / Real.sqrt 2) = Real.sqrt 2 := by field_simp
    simp [Pipe1D.lamSq, aFreq, this]
  · simp [Pipe1D.lamSq, aFreq, hc]

/-- With or without Stokes I; no noise given. -/
noncomputable def aSetup (b : Bool) : Setup 2 := ⟨aFreq, none, b⟩

theorem aRegular (b : Bool) : RegularSetup (aSetup b) Pipe3D.wOpts := by
  have hc : 0 < Pipe1D.c := by unfold Pipe1D.c; norm_num
  refine ⟨fun j => ?_, ⟨0, 1, fun h => ?_⟩, (by positivity : (0 : ℝ) < Real.pi / 2).ne', fun r h => by simp [aSetup] at h⟩
  · show 0 < aFreq j
    unfold aFreq
    split_ifs <;> positivity
  · have h' : aFreq 0 = aFreq 1 := h
    have h1 := aFreq_lamSq.1
    have h2 := aFreq_lamSq.2
    unfold Pipe1D.lamSq at h1 h2
    rw [h', h2] at h1
    norm_num at h1

/-- A pixel with `Q = 1`, `U = 0` in both channels, Stokes I 3 and 1; and one which is flagged in the first channel. -/
noncomputable def aFull : Column 2 := ⟨fun _ => some 1, fun _ => some 0, fun j => some (if j = 0 then 3 else 1)⟩
noncomputable def aFlag : Column 2 := ⟨fun j => if j = 0 then none else some 1, fun j => if j = 0 then none else some 0,
  fun j => some (if j = 0 then 3 else 1)⟩

/-- An image of two pixels. -/
noncomputable def aImage (x : Fin 2) (_ : Fin 1) : Column 2 := if x = 0 then aFull else aFlag

theorem aPixels : pixels aImage = [aFull, aFlag] := by
  unfold pixels
  rw [List.ofFn_eq_map]
  rfl

theorem aUsable (b : Bool) (j : Fin 2) : UsableVoxel (aSetup b) aFull j ∧ (UsableVoxel (aSetup b) aFlag j ↔ j = 1) := by
  constructor
  · exact ⟨1, 0, rfl, rfl, fun _ => ⟨_, rfl, by split <;> norm_num⟩⟩
  · constructor
    · rintro ⟨q, u, h, -⟩
      fin_cases j
      · simp [aFlag] at h
      · rfl
    · rintro rfl
      exact ⟨1, 0, rfl, rfl, fun _ => ⟨_, rfl, by norm_num⟩⟩

/-- The whole refers to `3/2`, the chunk with the flagged pixel to 1. -/
theorem aReference (b : Bool) : reference (aSetup b) Pipe3D.wOpts [aFull, aFlag] = 3 / 2 ∧ reference (aSetup b) Pipe3D.wOpts [aFlag] = 1 := by
  obtain ⟨h0, h1⟩ := aFreq_lamSq
  have e0 : Pipe1D.lamSq (aSetup b).freq 0 = 2 := h0
  have e1 : Pipe1D.lamSq (aSetup b).freq 1 = 1 := h1
  have hw : ∀ j, chanWeight (aSetup b) Pipe3D.wOpts j = 1 := fun _ => rfl
  constructor
  · rw [reference_formula (aSetup b) Pipe3D.wOpts [aFull, aFlag] rfl (fun _ => true)
      (fun j => ⟨fun _ => ⟨aFull, by simp, (aUsable b j).1⟩, fun _ => rfl⟩)]
    simp only [hw, if_true, Fin.sum_univ_two, e0, e1]
    norm_num
  · rw [reference_formula (aSetup b) Pipe3D.wOpts [aFlag] rfl (fun j => decide (j = 1)) (fun j => by
      rw [decide_eq_true_iff]
      constructor
      · intro h; exact ⟨aFlag, by simp, (aUsable b j).2.2 h⟩
      · rintro ⟨c, hc, hu⟩
        rw [List.mem_singleton] at hc
        rw [hc] at hu
        exact (aUsable b j).2.1 hu)]
    simp only [hw, Fin.sum_univ_two, e0, e1]
    simp

theorem aValue (b : Bool) (ref : ℝ) (l : Fin (nDepth (aSetup b) Pipe3D.wOpts)) :
    Synth.fdf (inputAt (aSetup b) Pipe3D.wOpts ref aFlag) l 0 =
      some (exp (-2 * I * (Axis.phiAxis (Real.pi / 2) (Real.pi / 2) l : ℝ) * (1 - ref))) := by
  obtain ⟨-, -, -, hsym, -⟩ := Axis.phiAxis_spec (Real.pi / 2) (Real.pi / 2) (by positivity)
  have hP : Synth.spectrum (inputAt (aSetup b) Pipe3D.wOpts ref aFlag) 0 = ![none, some 1] := by
    funext j
    cases b <;> fin_cases j <;>
      simp [Synth.spectrum, inputAt, Pipe3D.divided, cubeOf, aSetup, aFlag, pol, StokesI.divNaN] <;> rfl
  have hv : ∀ l, Synth.value (inputAt (aSetup b) Pipe3D.wOpts ref aFlag) l 0 =
      exp (-2 * I * (Axis.phiAxis (Real.pi / 2) (Real.pi / 2) l : ℝ) * (1 - ref)) := by
    intro l
    rw [Synth.value_sym (inputAt (aSetup b) Pipe3D.wOpts ref aFlag) hsym, hP]
    have hlam : (inputAt (aSetup b) Pipe3D.wOpts ref aFlag).lamSq 1 = 1 := aFreq_lamSq.2
    have hw : effWeight (inputAt (aSetup b) Pipe3D.wOpts ref aFlag).weight 1 = 1 := rfl
    have hr : Synth.refLamSq (inputAt (aSetup b) Pipe3D.wOpts ref aFlag) = ref := rfl
    unfold SynthSpec.fdf weightSum
    simp only [Finset.sum_filter, Fin.sum_univ_two, Matrix.cons_val_zero, Matrix.cons_val_one, Option.isSome_none, Option.isSome_some,
      Bool.false_eq_true, if_false, if_true, zero_add, hlam, hw, hr, Option.getD_some]
    simp
    rfl
  have := (Synth.fdf_blank_iff (inputAt (aSetup b) Pipe3D.wOpts ref aFlag) 0).2 ⟨l, by rw [hv]; exact exp_ne_zero _⟩ l
  rw [hv] at this
  exact this

/-- Stokes I of the flagged pixel: 2 at the reference of the whole, 1 at that of its chunk. -/
theorem aScale : scaleAt (aSetup true) (3 / 2) aFlag = some (some 2) ∧ scaleAt (aSetup true) 1 aFlag = some (some 1) ∧
    scaleAt (aSetup true) (3 / 2) aFull = some (some 2) := by
  have hc : 0 < Pipe1D.c := by unfold Pipe1D.c; norm_num
  have hlt : Real.sqrt (3 / 2) < Real.sqrt 2 := Real.sqrt_lt_sqrt (by norm_num) (by norm_num)
  have h1lt : 1 < Real.sqrt (3 / 2) := by
    rw [Real.lt_sqrt (by norm_num)]; norm_num
  have a1 : Pipe1D.c / Real.sqrt 2 < Pipe1D.c / Real.sqrt (3 / 2) :=
    div_lt_div_of_pos_left hc (by linarith) hlt
  have a2 : Pipe1D.c / Real.sqrt (3 / 2) < Pipe1D.c := by
    rw [div_lt_iff₀ (by linarith)]; nlinarith
  have hf : Pipe3D.freq0 aFreq (3 / 2) = Pipe1D.c / Real.sqrt (3 / 2) := by
    unfold Pipe3D.freq0; rw [if_pos (by norm_num)]
  have hf1 : Pipe3D.freq0 aFreq 1 = Pipe1D.c := by
    unfold Pipe3D.freq0; rw [if_pos one_pos, Real.sqrt_one, div_one]
  have key : Pipe3D.ifreq0 aFreq (fun j => some (if j = 0 then 3 else 1)) (Pipe3D.freq0 aFreq (3 / 2)) = some (some 2) := by
    rw [hf]
    unfold Pipe3D.ifreq0
    dsimp only
    have h01 : ∀ t : Fin 2, t = 0 ∨ t = 1 := by intro t; fin_cases t <;> simp
    rcases h01 (npArgmax fun j => -|aFreq j - Pipe1D.c / Real.sqrt (3 / 2)|) with h | h
    · simp only [h]
      rw [if_pos (by simpa [aFreq] using a1)]
      norm_num
    · simp only [h]
      rw [if_neg (by simpa [aFreq] using a2.le), if_pos (by simpa [aFreq] using a2)]
      norm_num
  refine ⟨key, ?_, key⟩
  change Pipe3D.ifreq0 aFreq (fun j => some (if j = 0 then 3 else 1)) (Pipe3D.freq0 aFreq 1) = some (some 1)
  rw [hf1]
  have hidx : npArgmax (fun j => -|aFreq j - Pipe1D.c|) = 1 := by
    have h01 : ∀ t : Fin 2, t = 0 ∨ t = 1 := by intro t; fin_cases t <;> simp
    rcases h01 (npArgmax fun j => -|aFreq j - Pipe1D.c|) with h | h
    · exfalso
      have := le_npArgmax (fun j => -|aFreq j - Pipe1D.c|) 1
      rw [h] at this
      have e1 : aFreq 1 = Pipe1D.c := rfl
      have e0 : aFreq 0 = Pipe1D.c / Real.sqrt 2 := rfl
      rw [e1, e0, sub_self, abs_zero, neg_zero] at this
      have hz : |Pipe1D.c / Real.sqrt 2 - Pipe1D.c| = 0 := le_antisymm (by linarith) (abs_nonneg _)
      rw [abs_eq_zero] at hz
      linarith
    · exact h
  have e1 : aFreq 1 = Pipe1D.c := rfl
  unfold Pipe3D.ifreq0
  dsimp only
  simp only [hidx, e1]
  rw [if_neg (lt_irrefl _), if_neg (lt_irrefl _)]
  rfl

/-- The two chunks of the image, one pixel each. -/
theorem aFiles (pre post : List Char) : ∃ f g, create pre post 3 aImage 1 = some [f, g] ∧ f.pix = [aFull] ∧ g.pix = [aFlag] := by
  have h := create_eq pre post 3 aImage aFull 1 one_pos (by norm_num)
  have hc : ceilDiv (2 * 1) 1 = 2 := rfl
  rw [hc] at h
  have hl : List.range 2 = [0, 1] := rfl
  rw [hl, List.map_cons, List.map_cons, List.map_nil] at h
  exact ⟨_, _, h, rfl, rfl⟩

/-- **C221 refuted**, intensities: two pixels, two channels, Stokes I falling from 3 to 1 between them; the second pixel is flagged in the first
channel. In the cube of the whole its polarised intensity at depth zero is 2; in the cube assembled from two chunks it is 1. -/
theorem chunked_wrong (pre post : List Char) :
    ∃ files outs R im, create pre post 3 aImage 1 = some files ∧ files.mapM (runFile (aSetup true) Pipe3D.wOpts) = some outs ∧
      runCube (aSetup true) Pipe3D.wOpts (pixels aImage) = some R ∧ assemble outs = some im ∧
      ∃ r r' l, R[1]? = some r ∧ im 1 0 = some r' ∧ Axis.phiAxis (Real.pi / 2) (Real.pi / 2) l = 0 ∧ r l = some 2 ∧ r' l = some 1 := by
  obtain ⟨f, g, hfiles, hf, hg⟩ := aFiles pre post
  obtain ⟨s1, s2, s3⟩ := aScale
  obtain ⟨r1, r2⟩ := aReference true
  have rf : reference (aSetup true) Pipe3D.wOpts [aFull] = 3 / 2 := by
    rw [← r1]
    apply reference_eq
    right
    intro j _
    exact ⟨fun _ => ⟨aFull, by simp, (aUsable true j).1⟩, fun _ => ⟨aFull, by simp, (aUsable true j).1⟩⟩
  have houts := (runFiles_eq (aSetup true) Pipe3D.wOpts [f, g] _).2 ⟨by
    intro h hh
    refine ⟨aRegular true, fun c hc => ?_⟩
    rcases List.mem_cons.1 hh with rfl | hh
    · rw [hf] at hc ⊢
      rw [List.mem_singleton.1 hc, rf, s3]; rfl
    · rw [List.mem_singleton.1 hh, hg] at hc ⊢
      rw [List.mem_singleton.1 hc, r2, s2]; rfl, rfl⟩
  obtain ⟨im, him, hval⟩ := chunked_each (aSetup true) Pipe3D.wOpts pre post 3 (by simp) aImage 1 _ hfiles _ houts _ (List.Perm.refl _)
  have hR := (runCube_eq (aSetup true) Pipe3D.wOpts (pixels aImage) _).2 ⟨aRegular true, by
    intro c hc
    rw [aPixels, r1]
    rw [aPixels] at hc
    rcases List.mem_cons.1 hc with rfl | hc
    · rw [s3]; rfl
    · rw [List.mem_singleton.1 hc, s1]; rfl, rfl⟩
  have hn : nDepth (aSetup true) Pipe3D.wOpts = 3 := Pipe3D.wOpts_nChan
  let l : Fin (nDepth (aSetup true) Pipe3D.wOpts) := ⟨1, by omega⟩
  have hl : Axis.phiAxis (Real.pi / 2) (Real.pi / 2) l = 0 := by
    obtain ⟨c, hc, hphi, -, -⟩ := Axis.phiAxis_spec (Real.pi / 2) (Real.pi / 2) (by positivity)
    rw [Pipe3D.wOpts_nChan] at hc
    have h1 : c = 1 := by omega
    rw [hphi l, h1]
    simp [l]
  have hne : aFlag ≠ aFull := by
    intro h
    have := congrArg (fun c => Column.q c 0) h
    simp [aFlag, aFull] at this
  obtain ⟨h, hh, hc, hval⟩ := hval 1 0
  have hflag : aImage 1 0 = aFlag := rfl
  rw [hflag] at hc hval
  have hhg : h.pix = [aFlag] := by
    rcases List.mem_cons.1 hh with rfl | hh
    · rw [hf, List.mem_singleton] at hc
      exact absurd hc hne
    · rw [List.mem_singleton.1 hh, hg]
  rw [hhg, r2] at hval
  refine ⟨_, _, _, im, hfiles, houts, hR, him, one (aSetup true) Pipe3D.wOpts (3 / 2) aFlag, _, l, ?_, hval, hl, ?_, ?_⟩
  · rw [aPixels, r1]; rfl
  · unfold one
    rw [s1, aValue, hl]
    simp
  · unfold one
    rw [s2, aValue, hl]
    simp

/-- **C221 refuted**, phases: the same two pixels without Stokes I. At depth `π/2` the spectrum of the flagged pixel is `i` in the cube of the
whole and 1 in the assembled cube: the polarisation angle differs by 45 degrees. -/
theorem chunked_phase_wrong (pre post : List Char) :
    ∃ files outs R im, create pre post 3 aImage 1 = some files ∧ files.mapM (runFile (aSetup false) Pipe3D.wOpts) = some outs ∧
      runCube (aSetup false) Pipe3D.wOpts (pixels aImage) = some R ∧ assemble outs = some im ∧
      ∃ r r' l, R[1]? = some r ∧ im 1 0 = some r' ∧ Axis.phiAxis (Real.pi / 2) (Real.pi / 2) l = Real.pi / 2 ∧ r l = some I ∧
        r' l = some 1 := by
  obtain ⟨f, g, hfiles, hf, hg⟩ := aFiles pre post
  obtain ⟨r1, r2⟩ := aReference false
  have hsc : ∀ r c, scaleAt (aSetup false) r c = some (some 1) := fun _ _ => rfl
  have houts := (runFiles_eq (aSetup false) Pipe3D.wOpts [f, g] _).2 ⟨fun _ _ => ⟨aRegular false, fun _ _ => by rw [hsc]; rfl⟩, rfl⟩
  obtain ⟨im, him, hval⟩ := chunked_each (aSetup false) Pipe3D.wOpts pre post 3 (by simp) aImage 1 _ hfiles _ houts _ (List.Perm.refl _)
  have hR := (runCube_eq (aSetup false) Pipe3D.wOpts (pixels aImage) _).2 ⟨aRegular false, fun _ _ => by rw [hsc]; rfl, rfl⟩
  have hn : nDepth (aSetup false) Pipe3D.wOpts = 3 := Pipe3D.wOpts_nChan
  let l : Fin (nDepth (aSetup false) Pipe3D.wOpts) := ⟨2, by omega⟩
  have hl : Axis.phiAxis (Real.pi / 2) (Real.pi / 2) l = Real.pi / 2 := Pipe3D.wAxis l rfl
  have hne : aFlag ≠ aFull := by
    intro h
    have := congrArg (fun c => Column.q c 0) h
    simp [aFlag, aFull] at this
  obtain ⟨h, hh, hc, hval⟩ := hval 1 0
  have hflag : aImage 1 0 = aFlag := rfl
  rw [hflag] at hc hval
  have hhg : h.pix = [aFlag] := by
    rcases List.mem_cons.1 hh with rfl | hh
    · rw [hf, List.mem_singleton] at hc
      exact absurd hc hne
    · rw [List.mem_singleton.1 hh, hg]
  rw [hhg, r2] at hval
  refine ⟨_, _, _, im, hfiles, houts, hR, him, one (aSetup false) Pipe3D.wOpts (3 / 2) aFlag, _, l, ?_, hval, hl, ?_, ?_⟩
  · rw [aPixels, r1]; rfl
  · unfold one
    rw [hsc, aValue, hl]
    have : (-2 * I * ((Real.pi / 2 : ℝ) : ℂ) * (1 - ((3 / 2 : ℝ) : ℂ)) : ℂ) = (Real.pi : ℂ) / 2 * I := by push_cast; ring
    simp only [Option.join_some, Option.bind_some, Option.map_some, this, Complex.exp_pi_div_two_mul_I, Complex.ofReal_one, mul_one]
  · unfold one
    rw [hsc, aValue, hl]
    simp

/-- C221, concrete case of `chunked_partial`: both pixels without flags. -/
example (pre post : List Char) : ∃ files R, create pre post 3 (fun (_ : Fin 2) (_ : Fin 1) => aFull) 1 = some files ∧
    runCube (aSetup true) Pipe3D.wOpts (pixels fun (_ : Fin 2) (_ : Fin 1) => aFull) = some R ∧
    ∀ f ∈ files, ∀ j, chanWeight (aSetup true) Pipe3D.wOpts j ≠ 0 →
      (∃ (x : Fin 2) (y : Fin 1), UsableVoxel (aSetup true) ((fun _ _ => aFull : Fin 2 → Fin 1 → Column 2) x y) j) →
      ∃ c ∈ f.pix, UsableVoxel (aSetup true) c j := by
  have h := create_eq pre post 3 (fun (_ : Fin 2) (_ : Fin 1) => aFull) aFull 1 one_pos (by norm_num)
  have hp : pixels (fun (_ : Fin 2) (_ : Fin 1) => aFull) = [aFull, aFull] := by
    unfold pixels
    rw [List.ofFn_eq_map]
    rfl
  have rf : reference (aSetup true) Pipe3D.wOpts [aFull, aFull] = 3 / 2 := by
    rw [← (aReference true).1]
    apply reference_eq
    right
    intro j _
    exact ⟨fun _ => ⟨aFull, by simp, (aUsable true j).1⟩, fun _ => ⟨aFull, by simp, (aUsable true j).1⟩⟩
  refine ⟨_, _, h, (runCube_eq _ _ _ _).2 ⟨aRegular true, fun c hc => ?_, rfl⟩, ?_⟩
  · rw [hp] at hc ⊢
    have : c = aFull := by simpa using hc
    rw [this, rf, aScale.2.2]; rfl
  · intro f hf j _ _
    have hc : ceilDiv (2 * 1) 1 = 2 := rfl
    rw [hc] at hf
    have hl : List.range 2 = [0, 1] := rfl
    rw [hl, List.map_cons, List.map_cons, List.map_nil] at hf
    rcases List.mem_cons.1 hf with rfl | hf
    · exact ⟨aFull, by exact List.mem_singleton.2 rfl, (aUsable true j).1⟩
    · rw [List.mem_singleton.1 hf]
      exact ⟨aFull, by exact List.mem_singleton.2 rfl, (aUsable true j).1⟩

end Verif.Chunks
