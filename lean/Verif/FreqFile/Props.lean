import Verif.FreqFile.Model

/-!
# What the frequency file keeps (C191, C192)
-/

namespace Verif.FreqFile

open Verif.Files1D Verif.FromFits

/-! ## Rounding -/

/-- A number in the normal range is changed by at most half a unit in the last place. -/
theorem round_error (F : Format) (d : ℝ) (hd : (2 : ℝ) ^ (F.qmin + F.bits - 1) ≤ |d|) :
    |F.round d - d| ≤ |d| * 2 ^ (-(F.bits : ℤ)) := by
  have hp : 0 < |d| := lt_of_lt_of_le (two_zpow_pos _) hd
  have hL : (2 : ℝ) ^ Int.log 2 |d| ≤ |d| := by
    have := Int.zpow_log_le_self (b := 2) (by norm_num) hp
    exact_mod_cast this
  have hq : F.qmin + F.bits - 1 ≤ Int.log 2 |d| := by
    rw [← Int.zpow_le_iff_le_log (b := 2) (by norm_num) hp]
    exact_mod_cast hd
  have he : F.exp d = Int.log 2 |d| - (F.bits - 1) := max_eq_left (by omega)
  have hu : (0 : ℝ) < 2 ^ F.exp d := two_zpow_pos _
  have hn := roundEven_near (d / 2 ^ F.exp d)
  have e : F.round d - d = -((d / 2 ^ F.exp d - roundEven (d / 2 ^ F.exp d)) * 2 ^ F.exp d) := by
    unfold Format.round
    rw [sub_mul, div_mul_cancel₀ _ hu.ne']
    ring
  rw [e, abs_neg, abs_mul, abs_of_pos hu]
  have h2 : (1 / 2 : ℝ) * 2 ^ F.exp d = 2 ^ Int.log 2 |d| * 2 ^ (-(F.bits : ℤ)) := by
    rw [he, ← zpow_add₀ (by norm_num), show (1 / 2 : ℝ) = 2 ^ (-1 : ℤ) by norm_num, ← zpow_add₀ (by norm_num)]
    congr 1
    ring
  calc |d / 2 ^ F.exp d - roundEven (d / 2 ^ F.exp d)| * 2 ^ F.exp d
      ≤ 1 / 2 * 2 ^ F.exp d := mul_le_mul_of_nonneg_right hn hu.le
    _ = 2 ^ Int.log 2 |d| * 2 ^ (-(F.bits : ℤ)) := h2
    _ ≤ |d| * 2 ^ (-(F.bits : ℤ)) := mul_le_mul_of_nonneg_right hL (two_zpow_pos _).le

/-! ## C191: from the header through the file to RM synthesis -/

theorem val_of_mem (x : ℝ) (h : f64.Mem x) : f64.Val (some x) := by
  intro y hy
  exact (Option.some.inj hy) ▸ h

theorem loadRows_column (f : List (Option ℝ)) (h : ∀ v ∈ f, f64.Val v) :
    loadRows f64 (saveColumn f) = some (f.map fun v => [v]) := by
  unfold saveColumn
  rw [loadRows_save f64 _ 1 one_pos]
  · congr 1
    rw [List.map_map]
    refine List.map_congr_left fun v hv => ?_
    simp only [Function.comp_apply, List.map_cons, List.map_nil, List.cons.injEq, and_true]
    exact map_round f64 v (h v hv)
  · intro r hr
    obtain ⟨v, -, rfl⟩ := List.mem_map.mp hr
    rfl
  · intro r hr v hv
    obtain ⟨w, hw, rfl⟩ := List.mem_map.mp hr
    rw [List.mem_singleton] at hv
    exact hv ▸ h w hw

theorem flatten_column {α : Type} (f : List α) : (f.map fun v => [v]).flatten = f := by
  induction f with
  | nil => rfl
  | cons a f ih => rw [List.map_cons, List.flatten_cons, ih]; rfl

theorem squeeze_column {α : Type} (f : List α) (h : 2 ≤ f.length) : squeeze (f.map fun v => [v]) = .vector f := by
  match f, h with
  | a :: b :: f, _ =>
    have e := flatten_column (a :: b :: f)
    exact congrArg Loaded.vector e

/-- C191. A column of at least two `float64` numbers that is saved is read back unchanged. -/
theorem read_column (f : List (Option ℝ)) (h : ∀ v ∈ f, f64.Val v) (hf : 2 ≤ f.length) :
    readFreqFile (saveColumn f) = some (.vector f) := by
  unfold readFreqFile
  rw [loadRows_column f h, Option.map_some, squeeze_column f hf]

/-- The frequency that a header with a linear axis gives to a channel, as a `float64` number. -/
noncomputable def chanFreq (a : HeaderAxis) (j : ℕ) : ℝ := f64.round (headerFreq a (j + 1))

theorem freqArray_spec (h : List HeaderAxis) (a : HeaderAxis) (ha : h.find? (fun b => b.isFreq) = some a) :
    freqArray h = some ((List.range a.naxis).map fun j => headerFreq a (j + 1)) := by
  unfold freqArray
  rw [ha, Option.map_some]
  congr 1
  refine List.map_congr_left fun i _ => ?_
  unfold headerFreq
  push_cast
  ring

/-- C191. For a cube whose header has a linear frequency axis `a` of at least two channels, `rmtools_freqfile` writes a
file from which RM synthesis and the peak fitting read one frequency per channel, the one of the header, in the order of
the channels and without loss. -/
theorem freq_file (h : List HeaderAxis) (a : HeaderAxis) (ha : h.find? (fun b => b.isFreq) = some a)
    (hn : 2 ≤ a.naxis) :
    ∃ s f, saveFreqFile h = some s ∧ readFreqFile s = some (.vector f) ∧ f.length = a.naxis ∧
      ∀ j (hj : j < f.length), f[j] = some (f64.round (headerFreq a (j + 1))) := by
  refine ⟨saveColumn ((List.range a.naxis).map fun j => some (chanFreq a j)),
    (List.range a.naxis).map fun j => some (chanFreq a j), ?_, ?_, by simp, ?_⟩
  · unfold saveFreqFile
    rw [freqArray_spec h a ha, Option.map_some, List.map_map]
    rfl
  · refine read_column _ ?_ (by simpa using hn)
    intro v hv
    obtain ⟨j, -, rfl⟩ := List.mem_map.mp hv
    exact val_of_mem _ (f64.mem_round (by simp [f64]) _)
  · intro j hj
    rw [List.getElem_map, List.getElem_range]
    rfl

/-- C191: the file differs from the header by less than one part in `10^15`. -/
theorem chanFreq_error (a : HeaderAxis) (j : ℕ) (h : 1 ≤ headerFreq a (j + 1)) :
    |chanFreq a j - headerFreq a (j + 1)| ≤ headerFreq a (j + 1) * 2 ^ (-53 : ℤ) := by
  have hp : 0 < headerFreq a (j + 1) := by linarith
  have := round_error f64 (headerFreq a (j + 1)) (by
    rw [abs_of_pos hp]
    refine le_trans ?_ h
    rw [← zpow_zero (2 : ℝ)]
    exact zpow_le_zpow_right₀ (by norm_num) (by simp [f64]))
  rw [abs_of_pos hp] at this
  exact this

/-- C191: a cube with one channel gives an array without axis, as `np.loadtxt` removes axes of length one. -/
theorem freq_file_one (h : List HeaderAxis) (a : HeaderAxis) (ha : h.find? (fun b => b.isFreq) = some a)
    (hn : a.naxis = 1) :
    ∃ s v, saveFreqFile h = some s ∧ readFreqFile s = some (.number v) := by
  refine ⟨saveColumn [some (chanFreq a 0)], some (chanFreq a 0), ?_, ?_⟩
  · unfold saveFreqFile
    rw [freqArray_spec h a ha, hn, Option.map_some]
    rfl
  · unfold readFreqFile
    rw [loadRows_column _ ?_]
    · rfl
    · intro v hv
      rw [List.mem_singleton] at hv
      subst hv
      exact val_of_mem _ (f64.mem_round (by simp [f64]) _)

/-! ## C192: the fit of a Stokes I cube -/

theorem getFrequencies_column (bitpix : ℤ) (F : Format) (emax : ℕ) (hd : dtype bitpix = some (F, emax))
    (f : List (Option ℝ)) (h : ∀ v ∈ f, f64.Val v) (hf : 2 ≤ f.length) :
    getFrequencies bitpix f.length (saveColumn f) = .ok (f.map (store F emax)) := by
  unfold getFrequencies
  rw [hd, read_column f h hf]
  simp

theorem dtype_double (bitpix : ℤ) (h : bitpix = 64 ∨ bitpix = -64) : dtype bitpix = some (f64, 1024) := by
  rcases h with h | h <;> subst h <;> rfl

theorem dtype_single (bitpix : ℤ) (h : bitpix = 32 ∨ bitpix = -32) : dtype bitpix = some (f32, 128) := by
  rcases h with h | h <;> subst h <;> rfl

/-- A list of frequencies, in Hz. -/
def Freqs (f : List ℝ) : Prop := 2 ≤ f.length ∧ ∀ x ∈ f, f64.Mem x ∧ 100000 ≤ x ∧ x ≤ 10 ^ 15

theorem Freqs.val {f : List ℝ} (h : Freqs f) : ∀ v ∈ f.map some, f64.Val v := by
  intro v hv
  obtain ⟨x, hx, rfl⟩ := List.mem_map.mp hv
  exact val_of_mem x (h.2 x hx).1

/-- C192, for cubes of double precision: the fit uses the frequencies in the file. -/
theorem fit_frequencies_double (bitpix : ℤ) (hb : bitpix = 64 ∨ bitpix = -64) (f : List ℝ) (h : Freqs f) :
    getFrequencies bitpix f.length (saveColumn (f.map some)) = .ok (f.map .fin) := by
  have := getFrequencies_column bitpix _ _ (dtype_double bitpix hb) (f.map some) h.val (by simpa using h.1)
  rw [List.length_map] at this
  rw [this, List.map_map]
  congr 1
  refine List.map_congr_left fun x hx => ?_
  obtain ⟨h1, h2, h3⟩ := h.2 x hx
  simp only [Function.comp_apply, store]
  rw [f64.round_mem x h1, if_neg]
  rw [not_le, abs_of_pos (by linarith)]
  refine lt_of_le_of_lt h3 (lt_of_lt_of_le (by norm_num : (10 : ℝ) ^ 15 < 2 ^ 50) ?_)
  exact pow_le_pow_right₀ (by norm_num) (by norm_num)

/-- C192, what holds for all cubes of at least 32 bits: one frequency per channel, with an error of less than one part
in `2^24`. -/
theorem fit_frequencies_partial (bitpix : ℤ) (hb : bitpix = 32 ∨ bitpix = -32 ∨ bitpix = 64 ∨ bitpix = -64)
    (f : List ℝ) (h : Freqs f) :
    ∃ g : List ℝ, getFrequencies bitpix f.length (saveColumn (f.map some)) = .ok (g.map .fin) ∧
      g.length = f.length ∧ ∀ j (hg : j < g.length) (hf : j < f.length), |g[j] - f[j]| ≤ f[j] * 2 ^ (-24 : ℤ) := by
  by_cases hd : bitpix = 64 ∨ bitpix = -64
  · refine ⟨f, fit_frequencies_double bitpix hd f h, rfl, fun j _ hj => ?_⟩
    rw [sub_self, abs_zero]
    have := (h.2 _ (List.getElem_mem hj)).2.1
    positivity
  · have hs : bitpix = 32 ∨ bitpix = -32 := by tauto
    have he : ∀ x ∈ f, |f32.round x - x| ≤ x * 2 ^ (-24 : ℤ) := by
      intro x hx
      obtain ⟨-, h2, -⟩ := h.2 x hx
      have hp : 0 < x := by linarith
      have := round_error f32 x (by
        rw [abs_of_pos hp]
        refine le_trans ?_ (by linarith : (1 : ℝ) ≤ x)
        rw [← zpow_zero (2 : ℝ)]
        exact zpow_le_zpow_right₀ (by norm_num) (by simp [f32]))
      rw [abs_of_pos hp] at this
      exact this
    refine ⟨f.map f32.round, ?_, by simp, ?_⟩
    · have := getFrequencies_column bitpix _ _ (dtype_single bitpix hs) (f.map some) h.val (by simpa using h.1)
      rw [List.length_map] at this
      rw [this, List.map_map, List.map_map]
      congr 1
      refine List.map_congr_left fun x hx => ?_
      obtain ⟨-, h2, h3⟩ := h.2 x hx
      simp only [Function.comp_apply, store]
      rw [if_neg]
      rw [not_le]
      have h4 := he x hx
      have h5 : |f32.round x| ≤ 2 * x := by
        have e1 : x * (2 : ℝ) ^ (-24 : ℤ) ≤ x := by
          refine mul_le_of_le_one_right (by linarith) ?_
          norm_num
        have := abs_sub_abs_le_abs_sub (f32.round x) x
        rw [abs_of_pos (by linarith : 0 < x)] at this
        linarith
      refine lt_of_le_of_lt (le_trans h5 (mul_le_mul_of_nonneg_left h3 (by norm_num))) ?_
      exact lt_of_lt_of_le (by norm_num : (2 : ℝ) * 10 ^ 15 < 2 ^ 60)
        (pow_le_pow_right₀ (by norm_num) (by norm_num))
    · intro j hg hf
      rw [List.getElem_map]
      exact he _ (List.getElem_mem hf)

/-- C192: a file with a different number of frequencies, shorter or longer, is refused. -/
theorem fit_frequencies_unequal (bitpix : ℤ) (hb : bitpix = 32 ∨ bitpix = -32 ∨ bitpix = 64 ∨ bitpix = -64) (nChan : ℕ)
    (f : List ℝ) (h : Freqs f) (hn : nChan ≠ f.length) : getFrequencies bitpix nChan (saveColumn (f.map some)) = .unequal := by
  have hd : ∃ F emax, dtype bitpix = some (F, emax) := by
    rcases hb with h | h | h | h <;> subst h <;> exact ⟨_, _, rfl⟩
  obtain ⟨F, emax, hd⟩ := hd
  unfold getFrequencies
  rw [hd, read_column _ h.val (by simpa using h.1)]
  simp [hn]

/-- C192: whatever is in the file, the fit has one frequency per channel. -/
theorem fit_frequencies_length (bitpix : ℤ) (nChan : ℕ) (s : List Char) (g : List Fl)
    (h : getFrequencies bitpix nChan s = .ok g) : g.length = nChan := by
  unfold getFrequencies at h
  cases hd : dtype bitpix with
  | none => rw [hd] at h; simp at h
  | some p =>
    rw [hd] at h
    dsimp only at h
    rcases hr : readFreqFile s with _ | v
    · rw [hr] at h; simp at h
    · rw [hr] at h
      cases v with
      | number x => simp at h
      | vector l =>
        by_cases e : nChan = l.length
        · simp [e] at h
          rw [← h, e]
          simp
        · simp [e] at h
      | table t =>
        by_cases e : nChan = t.length
        · simp [e] at h
        · simp [e] at h

/-- C192: a cube of 8-bit integers is refused when a frequency file is given, whatever is in the file. -/
theorem fit_frequencies_bytes (nChan : ℕ) (s : List Char) : getFrequencies 8 nChan s = .typeError := rfl

/-- C192: for a cube of 16-bit integers all frequencies from 65520 Hz on become infinite. -/
theorem fit_frequencies_short (f : List ℝ) (h : Freqs f) :
    getFrequencies 16 f.length (saveColumn (f.map some)) = .ok (f.map fun _ => .inf false) := by
  have := getFrequencies_column 16 f16 16 rfl (f.map some) h.val (by simpa using h.1)
  rw [List.length_map] at this
  rw [this, List.map_map]
  congr 1
  refine List.map_congr_left fun x hx => ?_
  obtain ⟨-, h2, -⟩ := h.2 x hx
  have hp : 0 < x := by linarith
  simp only [Function.comp_apply, store]
  rw [if_pos]
  · simp [hp.le]
  · have := round_error f16 x (by
      rw [abs_of_pos hp]
      refine le_trans ?_ (by linarith : (1 : ℝ) ≤ x)
      rw [← zpow_zero (2 : ℝ)]
      exact zpow_le_zpow_right₀ (by norm_num) (by simp [f16]))
    rw [abs_of_pos hp] at this
    have h3 : x * (2 : ℝ) ^ (-(f16.bits : ℤ)) = x / 2048 := by
      have : (2 : ℝ) ^ (-(f16.bits : ℤ)) = 1 / 2048 := by
        simp only [f16]
        norm_num
      rw [this]
      ring
    rw [h3] at this
    have h4 := abs_le.mp this
    refine le_trans ?_ (le_abs_self _)
    have h5 : (2 : ℝ) ^ 16 ≤ 100000 - 100000 / 2048 := by norm_num
    have h6 : 100000 - 100000 / 2048 ≤ x - x / 2048 := by linarith
    linarith [h4.1]

theorem round_1400 : f64.Mem 1400000000 ∧ f64.Mem 1400000001 ∧
    f32.round 1400000000 = 1400000000 ∧ f32.round 1400000000 = f32.round 1400000001 := by
  have h1 : f64.Mem 1400000000 := ⟨1400000000, 0, by simp only [f64]; norm_num, by simp [f64], by simp⟩
  have h2 : f64.Mem 1400000001 := ⟨1400000001, 0, by simp only [f64]; norm_num, by simp [f64], by simp⟩
  have h3 : f32.Mem 1400000000 := by
    refine ⟨10937500, 7, ?_, ?_, ?_⟩
    · simp only [f32]
      norm_num
    · simp only [f32]
      norm_num
    · norm_num
  refine ⟨h1, h2, f32.round_mem _ h3, ?_⟩
  rw [f32.round_mem _ h3]
  symm
  refine f32.round_near _ _ h3 (by norm_num) ?_
  simp only [f32]
  rw [abs_of_pos (by norm_num), abs_of_pos (by norm_num)]
  norm_num

/-- C192 is false of the code. A cube of single precision (`BITPIX` -32) with channels at 1400000000 Hz and
1400000001 Hz: without a frequency file the fit has these two frequencies, with the frequency file made from the same
header it has the same frequency twice. -/
theorem fit_frequencies_wrong (ra dec : HeaderAxis) (hra : ra.isFreq = false) (hdec : dec.isFreq = false) :
    ∃ (fr : HeaderAxis) (s : List Char), fr.isFreq = true ∧ saveFreqFile [ra, dec, fr] = some s ∧
      fitFrequencies (-32) fr.naxis [ra, dec, fr] none = some (.ok [.fin 1400000000, .fin 1400000001]) ∧
      fitFrequencies (-32) fr.naxis [ra, dec, fr] (some s) = some (.ok [.fin 1400000000, .fin 1400000000]) := by
  obtain ⟨h1, h2, h3⟩ := round_1400
  have hfind : [ra, dec, (⟨true, 2, 1400000000, 1, 1⟩ : HeaderAxis)].find? (fun b => b.isFreq) =
      some ⟨true, 2, 1400000000, 1, 1⟩ := by
    rw [List.find?_cons, hra, List.find?_cons, hdec, List.find?_cons]
  have hfa := freqArray_spec _ _ hfind
  have e : ((List.range 2).map fun j => headerFreq ⟨true, 2, 1400000000, 1, 1⟩ (j + 1)) =
      [1400000000, 1400000001] := by
    simp only [List.range, List.range.loop, List.map_cons, List.map_nil, headerFreq]
    norm_num
  rw [show (⟨true, 2, 1400000000, 1, 1⟩ : HeaderAxis).naxis = 2 from rfl, e] at hfa
  refine ⟨⟨true, 2, 1400000000, 1, 1⟩, saveColumn ([1400000000, 1400000001].map some), rfl, ?_, ?_, ?_⟩
  · unfold saveFreqFile
    rw [hfa]
    simp only [Option.map_some, List.map_cons, List.map_nil]
    rw [f64.round_mem _ h1, f64.round_mem _ h2]
  · unfold fitFrequencies
    rw [hfa]
    simp only [Option.map_some, List.map_cons, List.map_nil]
    rw [f64.round_mem _ h1, f64.round_mem _ h2]
  · have hF : Freqs [1400000000, 1400000001] := by
      refine ⟨le_refl 2, fun x hx => ?_⟩
      simp only [List.mem_cons, List.not_mem_nil, or_false] at hx
      rcases hx with rfl | rfl
      · exact ⟨h1, by norm_num, by norm_num⟩
      · exact ⟨h2, by norm_num, by norm_num⟩
    have := getFrequencies_column (-32) _ _ (dtype_single _ (Or.inr rfl)) _ hF.val (by simp)
    unfold fitFrequencies
    rw [List.length_map] at this
    simp only [Option.some.injEq]
    refine Eq.trans this ?_
    simp only [List.map_cons, List.map_nil, store]
    have hno : ¬ (2 : ℝ) ^ 128 ≤ |1400000000| := by
      rw [not_le, abs_of_pos (by norm_num)]
      exact lt_of_lt_of_le (by norm_num : (1400000000 : ℝ) < 2 ^ 60) (pow_le_pow_right₀ (by norm_num) (by norm_num))
    rw [← h3.2, h3.1, if_neg hno, if_neg hno]
/-- A case of `Freqs`: two channels of a cube at 1.4 GHz. -/
example : Freqs [1400000000, 1401000000] := by
  refine ⟨le_refl 2, fun x hx => ?_⟩
  simp only [List.mem_cons, List.not_mem_nil, or_false] at hx
  rcases hx with rfl | rfl
  · exact ⟨⟨1400000000, 0, by simp only [f64]; norm_num, by simp [f64], by simp⟩, by norm_num, by norm_num⟩
  · exact ⟨⟨1401000000, 0, by simp only [f64]; norm_num, by simp [f64], by simp⟩, by norm_num, by norm_num⟩

/-- A case of `freq_file`: three axes, the last one with 3 channels. -/
example : ∃ s f, saveFreqFile [⟨false, 5, 0, 1, 1⟩, ⟨false, 4, 0, 1, 1⟩, ⟨true, 3, 1000000000, 1, 1000000⟩] = some s ∧
    readFreqFile s = some (.vector f) ∧ f.length = 3 := by
  obtain ⟨s, f, h1, h2, h3, -⟩ := freq_file [⟨false, 5, 0, 1, 1⟩, ⟨false, 4, 0, 1, 1⟩, ⟨true, 3, 1000000000, 1, 1000000⟩]
    ⟨true, 3, 1000000000, 1, 1000000⟩ rfl (by norm_num)
  exact ⟨s, f, h1, h2, h3⟩

end Verif.FreqFile
