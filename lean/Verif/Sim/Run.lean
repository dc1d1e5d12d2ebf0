import Verif.Sim.Csv

/-!
# The files of a simulation (C212) and what rmsynth1d makes of its flagged channels (C213)

Source: `/repo/RMtools_1D/mk_test_ascii_data.py` 251-390 (`create_IQU_ascii_data`) and `/repo/RMtools_1D/do_RMsynth_1D.py` 250-270 and
401-407, `/repo/RMutils/util_RM.py` 180-190. The random numbers are inputs. The folder is not modelled.
-/

namespace Verif.Sim

open Verif.NumPy Verif.Files1D

variable {n : ℕ}

/-- The random numbers of one source: 370-372 (`np.random.normal(scale=rmsNoise)`) and 374, 376, 378 (around one). -/
structure Draws (n : ℕ) where
  i : Fin n → ℝ
  q : Fin n → ℝ
  u : Fin n → ℝ
  di : Fin n → ℝ
  dq : Fin n → ℝ
  du : Fin n → ℝ

/-- `a + r * noise`, 370-372, with NaN. -/
noncomputable def noisy (a : Option ℝ) (r : ℝ) (curve : Option ℝ) : Option ℝ := a.bind fun x => curve.map fun c => x + r * c

/-- `noise * rmsNoise * r`, 373-378. -/
noncomputable def errCol (rms r : ℝ) (curve : Option ℝ) : Option ℝ := curve.map fun c => c * rms * r

/-- `np.column_stack((freqArr_Hz, IArr, QArr, UArr, dIArr, dQArr, dUArr))`, 386: one row per channel. -/
noncomputable def simTable (freq curve : Fin n → Option ℝ) (rms : ℝ) (d : Draws n) (s : Fin n → IQU) : List (List (Option ℝ)) :=
  List.ofFn fun k => [freq k, noisy (s k).i (d.i k) (curve k), noisy (s k).q (d.q k) (curve k), noisy (s k).u (d.u k) (curve k),
    errCol rms (d.di k) (curve k), errCol rms (d.dq k) (curve k), errCol rms (d.du k) (curve k)]

/-- The name of a file, 381: `"Source%d.dat" % (i + 1)`. -/
def sourceName (i : ℕ) : String := "Source" ++ toString (i + 1) ++ ".dat"

/-- The loop over the catalogue, 327-388: the files written, as their names and tables. An exception ends the program. -/
noncomputable def simulate (freq curve : Fin n → Option ℝ) (f0 rms : ℝ) (draws : ℕ → Draws n) :
    ℕ → List (List ℝ) → Except Err (List (String × List (List (Option ℝ))))
  | _, [] => .ok []
  | i, e :: es =>
    match rowSpectrum freq f0 e with
    | .error x => .error x
    | .ok none => simulate freq curve f0 rms draws (i + 1) es
    | .ok (some s) =>
      match simulate freq curve f0 rms draws (i + 1) es with
      | .error x => .error x
      | .ok l => .ok ((sourceName i, simTable freq curve rms (draws i) s) :: l)

/-! ## C212 -/

theorem sourceName_inj {i j : ℕ} (h : sourceName i = sourceName j) : i = j := by
  unfold sourceName at h
  have h1 := congrArg String.toList h
  simp only [String.toList_append, List.append_cancel_left_eq, List.append_cancel_right_eq] at h1
  change (i + 1).repr.toList = (j + 1).repr.toList at h1
  rw [Nat.toList_repr, Nat.toList_repr] at h1
  have h2 := congrArg (fun l => Nat.ofDigitChars 10 l 0) h1
  simp only [Nat.ofDigitChars_ten_toDigits] at h2
  omega

theorem simulate_spec (freq curve : Fin n → Option ℝ) (f0 rms : ℝ) (draws : ℕ → Draws n) (es : List (List ℝ)) (i0 : ℕ)
    (files : List (String × List (List (Option ℝ)))) (h : simulate freq curve f0 rms draws i0 es = .ok files) :
    (∀ f, f ∈ files ↔ ∃ i s, ∃ hi : i < es.length, rowSpectrum freq f0 es[i] = .ok (some s) ∧ f = (sourceName (i0 + i), simTable freq curve rms
      (draws (i0 + i)) s)) ∧
    (files.map Prod.fst).Nodup := by
  induction es generalizing i0 files with
  | nil =>
    obtain rfl := Except.ok.inj h
    simp
  | cons e es ih =>
    unfold simulate at h
    have shift : ∀ (P : ℕ → Prop), (∃ i, P (i0 + 1 + i)) ↔ ∃ i, P (i0 + (i + 1)) := by
      intro P
      refine exists_congr fun i => ?_
      rw [show i0 + 1 + i = i0 + (i + 1) by omega]
    cases hr : rowSpectrum freq f0 e with
    | error x => rw [hr] at h; simp at h
    | ok o =>
      cases o with
      | none =>
        rw [hr] at h
        obtain ⟨h1, h2⟩ := ih (i0 + 1) files h
        refine ⟨fun f => (h1 f).trans ?_, h2⟩
        constructor
        · rintro ⟨i, s, hi, e1, e2⟩
          exact ⟨i + 1, s, by simpa using hi, by simpa using e1, by rw [e2, show i0 + (i + 1) = i0 + 1 + i by omega]⟩
        · rintro ⟨i, s, hi, e1, e2⟩
          cases i with
          | zero =>
            simp only [List.getElem_cons_zero] at e1
            rw [hr] at e1
            simp at e1
          | succ i =>
            exact ⟨i, s, by simpa using hi, by simpa using e1, by rw [e2, show i0 + (i + 1) = i0 + 1 + i by omega]⟩
      | some s0 =>
        rw [hr] at h
        dsimp only at h
        cases hs : simulate freq curve f0 rms draws (i0 + 1) es with
        | error x => rw [hs] at h; simp at h
        | ok l =>
          rw [hs] at h
          obtain rfl := Except.ok.inj h
          obtain ⟨h1, h2⟩ := ih (i0 + 1) l hs
          refine ⟨fun f => ?_, ?_⟩
          · rw [List.mem_cons, h1 f]
            constructor
            · rintro (rfl | ⟨i, s, hi, e1, e2⟩)
              · exact ⟨0, s0, by simp, by simpa using hr, rfl⟩
              · exact ⟨i + 1, s, by simpa using hi, by simpa using e1, by rw [e2, show i0 + (i + 1) = i0 + 1 + i by omega]⟩
            · rintro ⟨i, s, hi, e1, e2⟩
              cases i with
              | zero =>
                left
                simp only [List.getElem_cons_zero] at e1
                rw [hr] at e1
                obtain rfl := Option.some.inj (Except.ok.inj e1)
                exact e2
              | succ i =>
                right
                exact ⟨i, s, by simpa using hi, by simpa using e1, by rw [e2, show i0 + (i + 1) = i0 + 1 + i by omega]⟩
          · rw [List.map_cons, List.nodup_cons]
            refine ⟨?_, h2⟩
            intro hm
            obtain ⟨f, hf, e⟩ := List.mem_map.mp hm
            obtain ⟨i, s, hi, -, e2⟩ := (h1 f).mp hf
            rw [e2] at e
            have := sourceName_inj e
            omega

/-- **C212**. A simulation that ends without error writes one file for each entry of type 1 or 2 and no other: entry `i` (from one) is in
`Source<i>.dat`, no file is written twice, and rmsynth1d reads the file as the frequencies, the simulated Stokes I, Q, U with their noise, and
the errors, one row per channel. -/
theorem simulated_files (freq curve : Fin n → Option ℝ) (f0 rms : ℝ) (draws : ℕ → Draws n) (es : List (List ℝ))
    (files : List (String × List (List (Option ℝ)))) (h : simulate freq curve f0 rms draws 0 es = .ok files) (hn : 2 ≤ n) :
    (files.map Prod.fst).Nodup ∧
    (∀ i (hi : i < es.length) s, rowSpectrum freq f0 es[i] = .ok (some s) →
      ∃ t, ("Source" ++ toString (i + 1) ++ ".dat", t) ∈ files ∧
      ((∀ r ∈ t, ∀ v ∈ r, f64.Val v) → readFile f64 (saveTxt t) = some (.arrays
        [List.ofFn freq, List.ofFn fun k => (s k).i.bind fun x => (curve k).map fun c => x + (draws i).i k * c,
          List.ofFn fun k => (s k).q.bind fun x => (curve k).map fun c => x + (draws i).q k * c,
          List.ofFn fun k => (s k).u.bind fun x => (curve k).map fun c => x + (draws i).u k * c,
          List.ofFn fun k => (curve k).map fun c => c * rms * (draws i).di k, List.ofFn fun k => (curve k).map fun c => c * rms * (draws i).dq k,
          List.ofFn fun k => (curve k).map fun c => c * rms * (draws i).du k]))) ∧
    ∀ f ∈ files, ∃ i, ∃ hi : i < es.length, f.1 = "Source" ++ toString (i + 1) ++ ".dat" ∧
      ∃ t, es[i].head? = some t ∧ (pyInt t = 1 ∨ pyInt t = 2) := by
  obtain ⟨h1, h2⟩ := simulate_spec freq curve f0 rms draws es 0 files h
  refine ⟨h2, ?_, ?_⟩
  · intro i hi s hs
    refine ⟨simTable freq curve rms (draws i) s, (h1 _).mpr ⟨i, s, hi, hs, by simp [sourceName]⟩, fun hv => ?_⟩
    unfold readFile
    rw [load_save_exact f64 (Or.inr rfl) _ 7 (by norm_num) ?_ (by simpa [simTable] using hn) hv]
    · have e : ∀ j, column (simTable freq curve rms (draws i) s) j = List.ofFn fun k => ([freq k, noisy (s k).i ((draws i).i k) (curve k),
          noisy (s k).q ((draws i).q k) (curve k), noisy (s k).u ((draws i).u k) (curve k), errCol rms ((draws i).di k) (curve k),
          errCol rms ((draws i).dq k) (curve k), errCol rms ((draws i).du k) (curve k)] : List (Option ℝ)).getD j none := by
        intro j
        unfold column simTable
        rw [List.map_ofFn]
        rfl
      simp only [List.range, List.range.loop, List.map_cons, List.map_nil, e]
      rfl
    · intro r hr
      simp only [simTable, List.mem_ofFn] at hr
      obtain ⟨k, rfl⟩ := hr
      rfl
  · intro f hf
    obtain ⟨i, s, hi, e1, e2⟩ := (h1 f).mp hf
    refine ⟨i, hi, by rw [e2]; simp [sourceName], ?_⟩
    cases he : es[i] with
    | nil =>
      rw [he] at e1
      simp [rowSpectrum, item, bind, Except.bind] at e1
    | cons t r =>
      refine ⟨t, rfl, ?_⟩
      rw [he] at e1
      by_contra hne
      push Not at hne
      simp [rowSpectrum, item, bind, Except.bind, hne.1, hne.2, pure, Except.pure] at e1

/-- **C212**: the simulation of a catalogue ends with an error exactly if an entry does. -/
theorem simulate_error (freq curve : Fin n → Option ℝ) (f0 rms : ℝ) (draws : ℕ → Draws n) (es : List (List ℝ)) (i0 : ℕ) :
    (∃ x, simulate freq curve f0 rms draws i0 es = .error x) ↔ ∃ e ∈ es, ∃ x, rowSpectrum freq f0 e = .error x := by
  induction es generalizing i0 with
  | nil => simp [simulate]
  | cons e es ih =>
    unfold simulate
    simp only [List.mem_cons, exists_eq_or_imp]
    rw [← ih (i0 + 1)]
    cases hr : rowSpectrum freq f0 e with
    | error x => simp
    | ok o =>
      cases o with
      | none => simp
      | some s =>
        dsimp only
        cases simulate freq curve f0 rms draws (i0 + 1) es <;> simp

/-- A case: a catalogue of an entry of type 3, which is ignored, and a source of type 1 with one component. The file is `Source2.dat`. -/
example (curve : Fin 2 → Option ℝ) (rms : ℝ) (draws : ℕ → Draws 2) :
    ∃ t, simulate (fun k : Fin 2 => some ((k : ℝ) + 1)) curve 1 rms draws 0 [[3], swapRow1 (0, 0, 0, 0, 0) 1 0 [⟨1 / 2, 30, 10, 0⟩]] =
      .ok [("Source2.dat", t)] := by
  have h3 : rowSpectrum (fun k : Fin 2 => some ((k : ℝ) + 1)) 1 [3] = .ok none := by
    have : pyInt 3 = 3 := by
      rw [pyInt, if_pos (by norm_num)]
      exact_mod_cast Int.floor_intCast (3 : ℤ)
    simp [rowSpectrum, item, bind, Except.bind, this, pure, Except.pure]
  obtain ⟨s, hs, -, -⟩ := pquBurn_ok (fun k : Fin 2 => some ((k : ℝ) + 1)) [⟨1 / 2, 30, 10, 0⟩] (by simp)
  obtain ⟨r, hr, -⟩ := C104_burn (fun k : Fin 2 => some ((k : ℝ) + 1)) 1 0 1 one_pos _ _ _ _ s hs
  refine ⟨simTable (fun k : Fin 2 => some ((k : ℝ) + 1)) curve rms (draws 1) r, ?_⟩
  unfold simulate
  rw [h3]
  dsimp only
  unfold simulate
  rw [C102_row1_partial _ _ _ _ _ _ (by simp), hr]
  rfl

end Verif.Sim
