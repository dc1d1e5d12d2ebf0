import Verif.Sim.Props

/-!
# Properties of the simulation catalogues (C75, C102)
-/

namespace Verif.Sim

open Complex Verif.QU Verif.NumPy

/-! ### Splitting rows -/

theorem groups_nil {α : Type} (k : ℕ) (l : List α) (h : k = 0 ∨ l.length < k) : groups k l = [] := by
  rw [groups, if_pos h]

theorem groups_cons {α : Type} (k : ℕ) (l : List α) (hk : 0 < k) (h : k ≤ l.length) :
    groups k l = l.take k :: groups k (l.drop k) := by
  conv_lhs => rw [groups]
  rw [if_neg (by omega)]

theorem groups_spec {α : Type} (k : ℕ) (hk : 0 < k) : ∀ (N : ℕ) (l : List α), l.length ≤ N →
    (groups k l).length = l.length / k ∧ (∀ g ∈ groups k l, g.length = k) ∧
    ∀ r c, r < l.length / k → c < k → (groups k l)[r]?.bind (·[c]?) = l[r * k + c]? := by
  intro N
  induction N with
  | zero =>
    intro l hl
    have : l = [] := List.eq_nil_of_length_eq_zero (by omega)
    subst this
    rw [groups_nil k [] (Or.inr (by simpa using hk))]
    simp
  | succ N ih =>
    intro l hl
    by_cases h : l.length < k
    · rw [groups_nil k l (Or.inr h)]
      rw [Nat.div_eq_of_lt h]
      simp
    · have hkl : k ≤ l.length := by omega
      obtain ⟨h1, h2, h3⟩ := ih (l.drop k) (by simp only [List.length_drop]; omega)
      have hd : l.length / k = (l.drop k).length / k + 1 := by
        rw [List.length_drop]
        conv_lhs => rw [show l.length = l.length - k + k by omega]
        exact Nat.add_div_right _ hk
      rw [groups_cons k l hk hkl]
      refine ⟨by rw [List.length_cons, h1, hd], ?_, ?_⟩
      · intro g hg
        rcases List.mem_cons.1 hg with rfl | hg
        · simp [hkl]
        · exact h2 g hg
      · intro r c hr hc
        cases r with
        | zero =>
          simp only [List.getElem?_cons_zero, Option.bind_some, zero_mul, zero_add]
          rw [List.getElem?_take_of_lt hc]
        | succ r =>
          simp only [List.getElem?_cons_succ]
          rw [h3 r c (by omega) hc, List.getElem?_drop]
          congr 1
          ring

theorem columns_spec {α : Type} (k : ℕ) (rows : List (List α)) (hne : rows ≠ [])
    (hr : ∀ g ∈ rows, g.length = k) :
    (columns k rows).length = k ∧ ∀ c, c < k → ∃ col, (columns k rows)[c]? = some col ∧ col.length = rows.length ∧
      ∀ r : ℕ, col[r]? = rows[r]?.bind fun g => g[c]? := by
  have e : columns k rows = (List.range k).map fun c => rows.filterMap fun r => r[c]? := by
    cases rows with
    | nil => exact absurd rfl hne
    | cons _ _ => rfl
  rw [e]
  refine ⟨by simp, fun c hc => ⟨rows.filterMap fun r => r[c]?, by simp [hc], ?_⟩⟩
  clear e hne
  induction rows with
  | nil => simp
  | cons g rows ih =>
    obtain ⟨h1, h2⟩ := ih fun g' hg' => hr g' (by simp [hg'])
    have hg : g.length = k := hr g (by simp)
    have hgc : g[c]? = some (g[c]'(by omega)) := List.getElem?_eq_getElem (by omega)
    rw [List.filterMap_cons, hgc]
    refine ⟨by simp [h1], ?_⟩
    intro r
    cases r with
    | zero => simp [hgc]
    | succ r => simpa using h2 r

/-- What it means that nothing is lost or moved: the preamble is the start of the list, and entry `i` of the
rest is in column `i mod k`, row `i div k`. -/
def Faithful {α : Type} (l : List α) (nPre k : ℕ) (out : List α × List (List α)) : Prop :=
  out.1 = l.take nPre ∧ ∀ i, nPre + i < l.length → ∃ col, out.2[i % k]? = some col ∧ col[i / k]? = l[nPre + i]?

/-- All that the code returns: the entries of the complete rows, each in its place, and nothing else. -/
theorem splitRepeat_spec {α : Type} (l : List α) (nPre k : ℕ) (hk : 0 < k) :
    (splitRepeat l nPre k).1 = l.take nPre ∧
      (k ≤ l.length - nPre → (splitRepeat l nPre k).2.length = k) ∧
      (l.length - nPre < k → (splitRepeat l nPre k).2 = []) ∧
      ∀ c, c < k → k ≤ l.length - nPre → ∃ col, (splitRepeat l nPre k).2[c]? = some col ∧
        col.length = (l.length - nPre) / k ∧
        ∀ r, r < (l.length - nPre) / k → col[r]? = l[nPre + (r * k + c)]? := by
  obtain ⟨h1, h2, h3⟩ := groups_spec k hk _ (l.drop nPre) le_rfl
  rw [List.length_drop] at h1 h3
  refine ⟨rfl, ?_, ?_, ?_⟩
  · intro h
    have hne : groups k (l.drop nPre) ≠ [] := by
      intro h0
      rw [h0, List.length_nil] at h1
      have := Nat.div_pos h hk
      omega
    exact (columns_spec k _ hne h2).1
  · intro h
    simp only [splitRepeat]
    rw [groups_nil k _ (Or.inr (by rw [List.length_drop]; exact h))]
    rfl
  · intro c hc h
    have hne : groups k (l.drop nPre) ≠ [] := by
      intro h0
      rw [h0, List.length_nil] at h1
      have := Nat.div_pos h hk
      omega
    obtain ⟨col, h4, h5, h6⟩ := (columns_spec k _ hne h2).2 c hc
    refine ⟨col, h4, by rw [h5, h1], ?_⟩
    intro r hr
    rw [h6, h3 r c hr hc, List.getElem?_drop]

/-- **C75** (part): the split is faithful exactly when the entries after the preamble fill complete rows (or
there are none). Missing: lists with an incomplete last row, for which it is false. -/
theorem C75_split_partial {α : Type} (l : List α) (nPre k : ℕ) (hk : 0 < k) :
    Faithful l nPre k (splitRepeat l nPre k) ↔ k ∣ l.length - nPre := by
  obtain ⟨h1, h2, h3, h4⟩ := splitRepeat_spec l nPre k hk
  constructor
  · rintro ⟨-, h⟩
    by_contra hd
    have hpos : 0 < (l.length - nPre) % k := Nat.pos_of_ne_zero fun h0 => hd (Nat.dvd_of_mod_eq_zero h0)
    have hdm := Nat.div_add_mod (l.length - nPre) k
    set q := (l.length - nPre) / k with hq
    have hlt := Nat.mod_lt (l.length - nPre) hk
    obtain ⟨col, hc, hr⟩ := h (k * q) (by omega)
    rw [Nat.mul_mod_right] at hc
    rw [Nat.mul_div_cancel_left _ hk] at hr
    rw [List.getElem?_eq_getElem (l := l) (by omega)] at hr
    by_cases hkl : k ≤ l.length - nPre
    · obtain ⟨col', hc', hlen, -⟩ := h4 0 hk hkl
      rw [hc] at hc'
      obtain rfl := Option.some.inj hc'
      rw [List.getElem?_eq_none hlen.le] at hr
      exact absurd hr (by simp)
    · rw [h3 (lt_of_not_ge hkl)] at hc
      simp at hc
  · intro hd
    refine ⟨h1, fun i hi => ?_⟩
    have hkl : k ≤ l.length - nPre := Nat.le_of_dvd (by omega) hd
    obtain ⟨col, hc, hlen, hr⟩ := h4 (i % k) (Nat.mod_lt _ hk) hkl
    refine ⟨col, hc, ?_⟩
    have hi' : i / k < (l.length - nPre) / k := by
      obtain ⟨q, hq⟩ := hd
      rw [hq, Nat.mul_div_cancel_left _ hk]
      exact Nat.div_lt_of_lt_mul (by omega)
    rw [hr _ hi']
    congr 2
    exact Nat.div_add_mod' i k

/-- **C75** is false: a list with one entry too many loses it without notice. -/
theorem C75_fails : ¬ ∀ (l : List ℕ) (nPre k : ℕ), 0 < k → Faithful l nPre k (splitRepeat l nPre k) := by
  intro h
  have := (C75_split_partial [0, 1, 2, 3] 1 2 (by norm_num)).1 (h _ _ _ (by norm_num))
  norm_num at this

/-- A case that is faithful. -/
example : splitRepeat [9, 1, 2, 3, 4] 1 2 = ([9], [[1, 3], [2, 4]]) := by
  simp [splitRepeat, groups, columns]
  decide

/-! ### Rows as documented -/

/-- A row of type 1 as the help text orders it: type, position, size and angle, flux and spectral index, then
for each component the intrinsic angle, the fraction, the depth and the dispersion. -/
def docRow1 (pos : ℝ × ℝ × ℝ × ℝ × ℝ) (flux si : ℝ) (cs : List Comp) : List ℝ :=
  [1, pos.1, pos.2.1, pos.2.2.1, pos.2.2.2.1, pos.2.2.2.2, flux, si] ++
    cs.flatMap fun c => [c.psi, c.p, c.rm, c.sigma]

/-- The same with the fraction before the angle. -/
def swapRow1 (pos : ℝ × ℝ × ℝ × ℝ × ℝ) (flux si : ℝ) (cs : List Comp) : List ℝ :=
  [1, pos.1, pos.2.1, pos.2.2.1, pos.2.2.2.1, pos.2.2.2.2, flux, si] ++
    cs.flatMap fun c => [c.p, c.psi, c.rm, c.sigma]

/-- A row of type 2, as the help text orders it. -/
def docRow2 (pos : ℝ × ℝ × ℝ × ℝ × ℝ) (flux si : ℝ) (cs : List Comp) : List ℝ :=
  [2, pos.1, pos.2.1, pos.2.2.1, pos.2.2.2.1, pos.2.2.2.2, flux, si] ++
    cs.flatMap fun c => [c.psi, c.p, c.rm]

/-- The same with the fraction before the angle. -/
def swapRow2 (pos : ℝ × ℝ × ℝ × ℝ × ℝ) (flux si : ℝ) (cs : List Comp) : List ℝ :=
  [2, pos.1, pos.2.1, pos.2.2.1, pos.2.2.2.1, pos.2.2.2.2, flux, si] ++
    cs.flatMap fun c => [c.p, c.psi, c.rm]

theorem groups_flatMap {α β : Type} (k : ℕ) (hk : 0 < k) (f : β → List α) (hf : ∀ b, (f b).length = k)
    (l : List β) : groups k (l.flatMap f) = l.map f := by
  induction l with
  | nil => exact groups_nil k [] (Or.inr (by simpa using hk))
  | cons b l ih =>
    rw [List.flatMap_cons, groups_cons k _ hk (by rw [List.length_append, hf]; omega), List.map_cons]
    have h1 : (f b ++ l.flatMap f).take k = f b := by
      rw [← hf b]
      exact List.take_left
    have h2 : (f b ++ l.flatMap f).drop k = l.flatMap f := by
      rw [← hf b]
      exact List.drop_left
    rw [h1, h2, ih]

theorem pyInt_one : pyInt 1 = 1 := by simp [pyInt]

theorem pyInt_two : pyInt 2 = 2 := by
  rw [pyInt, if_pos (by norm_num)]
  exact_mod_cast Int.floor_intCast (2 : ℤ)

theorem columns4 (cs : List Comp) (hne : cs ≠ []) (a b c d : Comp → ℝ) :
    columns 4 (cs.map fun x => [a x, b x, c x, d x]) = [cs.map a, cs.map b, cs.map c, cs.map d] := by
  cases cs with
  | nil => exact absurd rfl hne
  | cons x cs =>
    simp only [columns, List.map_cons]
    simp [List.range_succ, List.filterMap_map]

theorem columns3 (cs : List Comp) (hne : cs ≠ []) (a b c : Comp → ℝ) :
    columns 3 (cs.map fun x => [a x, b x, c x]) = [cs.map a, cs.map b, cs.map c] := by
  cases cs with
  | nil => exact absurd rfl hne
  | cons x cs =>
    simp only [columns, List.map_cons]
    simp [List.range_succ, List.filterMap_map]

theorem split_row1 (pos : ℝ × ℝ × ℝ × ℝ × ℝ) (t flux si : ℝ) (cs : List Comp) (hne : cs ≠ []) (a b c d : Comp → ℝ) :
    splitRepeat (([t, pos.1, pos.2.1, pos.2.2.1, pos.2.2.2.1, pos.2.2.2.2, flux, si] ++
      cs.flatMap fun x => [a x, b x, c x, d x]).drop 1) 7 4 =
      ([pos.1, pos.2.1, pos.2.2.1, pos.2.2.2.1, pos.2.2.2.2, flux, si],
        [cs.map a, cs.map b, cs.map c, cs.map d]) := by
  simp only [splitRepeat, List.cons_append, List.nil_append, List.drop_succ_cons, List.drop_zero,
    List.take_succ_cons, List.take_zero]
  rw [groups_flatMap 4 (by norm_num) _ (by simp), columns4 cs hne]

theorem split_row2 (pos : ℝ × ℝ × ℝ × ℝ × ℝ) (t flux si : ℝ) (cs : List Comp) (hne : cs ≠ []) (a b c : Comp → ℝ) :
    splitRepeat (([t, pos.1, pos.2.1, pos.2.2.1, pos.2.2.2.1, pos.2.2.2.2, flux, si] ++
      cs.flatMap fun x => [a x, b x, c x]).drop 1) 7 3 =
      ([pos.1, pos.2.1, pos.2.2.1, pos.2.2.2.1, pos.2.2.2.2, flux, si], [cs.map a, cs.map b, cs.map c]) := by
  simp only [splitRepeat, List.cons_append, List.nil_append, List.drop_succ_cons, List.drop_zero,
    List.take_succ_cons, List.take_zero]
  rw [groups_flatMap 3 (by norm_num) _ (by simp), columns3 cs hne]

theorem row1 {n : ℕ} (freq : Fin n → Option ℝ) (f0 : ℝ) (pos : ℝ × ℝ × ℝ × ℝ × ℝ) (flux si : ℝ) (cs : List Comp)
    (hne : cs ≠ []) (a b c d : Comp → ℝ) :
    rowSpectrum freq f0 ([1, pos.1, pos.2.1, pos.2.2.1, pos.2.2.2.1, pos.2.2.2.2, flux, si] ++
      cs.flatMap fun x => [a x, b x, c x, d x]) =
      (iquBurn freq flux si (cs.map a) (cs.map b) (cs.map c) (some (cs.map d)) (some (some f0))).map some := by
  unfold rowSpectrum
  rw [split_row1 pos 1 flux si cs hne a b c d]
  simp only [item, List.cons_append, List.getElem?_cons_zero, List.getElem?_cons_succ, pyInt_one, bind,
    Except.bind, if_true, pure, Except.pure]
  cases iquBurn freq flux si (cs.map a) (cs.map b) (cs.map c) (some (cs.map d)) (some (some f0)) <;> rfl

theorem row2 {n : ℕ} (freq : Fin n → Option ℝ) (f0 : ℝ) (pos : ℝ × ℝ × ℝ × ℝ × ℝ) (flux si : ℝ) (cs : List Comp)
    (hne : cs ≠ []) (a b c : Comp → ℝ) :
    rowSpectrum freq f0 ([2, pos.1, pos.2.1, pos.2.2.1, pos.2.2.2.1, pos.2.2.2.2, flux, si] ++
      cs.flatMap fun x => [a x, b x, c x]) =
      (iquDiff freq flux si (.array (cs.map a)) (.array (cs.map b)) (.array (cs.map c)) (some (some f0))).map some := by
  unfold rowSpectrum
  rw [split_row2 pos 2 flux si cs hne a b c]
  simp only [item, List.cons_append, List.getElem?_cons_zero, List.getElem?_cons_succ, pyInt_two, bind,
    Except.bind, pure, Except.pure]
  rw [if_neg (by norm_num), if_pos trivial]
  cases iquDiff freq flux si (.array (cs.map a)) (.array (cs.map b)) (.array (cs.map c)) (some (some f0)) <;> rfl

/-- **C102** (part): a row of type 1 whose components give the fraction before the angle is simulated with
the parameters it lists. Missing: the documented order of the columns, for which it is false. -/
theorem C102_row1_partial {n : ℕ} (freq : Fin n → Option ℝ) (f0 : ℝ) (pos : ℝ × ℝ × ℝ × ℝ × ℝ) (flux si : ℝ)
    (cs : List Comp) (hne : cs ≠ []) :
    rowSpectrum freq f0 (swapRow1 pos flux si cs) =
      (iquBurn freq flux si (cs.map Comp.p) (cs.map Comp.psi) (cs.map Comp.rm) (some (cs.map Comp.sigma))
        (some (some f0))).map some :=
  row1 freq f0 pos flux si cs hne _ _ _ _

/-- **C102** (part): the same for rows of type 2. -/
theorem C102_row2_partial {n : ℕ} (freq : Fin n → Option ℝ) (f0 : ℝ) (pos : ℝ × ℝ × ℝ × ℝ × ℝ) (flux si : ℝ)
    (cs : List Comp) (hne : cs ≠ []) :
    rowSpectrum freq f0 (swapRow2 pos flux si cs) =
      (iquDiff freq flux si (.array (cs.map Comp.p)) (.array (cs.map Comp.psi)) (.array (cs.map Comp.rm))
        (some (some f0))).map some :=
  row2 freq f0 pos flux si cs hne _ _ _

/-- In the documented order the angle in degrees is used as the fraction and the fraction as the angle, for
every catalogue row of type 1. -/
theorem C102_documented_order {n : ℕ} (freq : Fin n → Option ℝ) (f0 : ℝ) (pos : ℝ × ℝ × ℝ × ℝ × ℝ) (flux si : ℝ)
    (cs : List Comp) (hne : cs ≠ []) :
    rowSpectrum freq f0 (docRow1 pos flux si cs) =
      (iquBurn freq flux si (cs.map Comp.psi) (cs.map Comp.p) (cs.map Comp.rm) (some (cs.map Comp.sigma))
        (some (some f0))).map some :=
  row1 freq f0 pos flux si cs hne _ _ _ _

/-- **C102** is false: a fully polarised source at angle zero is simulated without polarisation. -/
theorem C102_fails : ¬ ∀ (freq : Fin 1 → Option ℝ) (f0 : ℝ) (pos : ℝ × ℝ × ℝ × ℝ × ℝ) (flux si : ℝ)
    (cs : List Comp), cs ≠ [] → rowSpectrum freq f0 (docRow1 pos flux si cs) =
      (iquBurn freq flux si (cs.map Comp.p) (cs.map Comp.psi) (cs.map Comp.rm) (some (cs.map Comp.sigma))
        (some (some f0))).map some := by
  intro h
  have h1 := h (fun _ => some 1) 1 (0, 0, 0, 0, 0) 1 0 [⟨1, 0, 0, 0⟩] (by simp)
  rw [C102_documented_order _ _ _ _ _ _ (by simp)] at h1
  obtain ⟨s, hs, _, hs3⟩ := pquBurn_ok (fun _ : Fin 1 => some 1) [⟨1, 0, 0, 0⟩] (by simp)
  obtain ⟨t, ht, _, ht3⟩ := pquBurn_ok (fun _ : Fin 1 => some 1) [⟨0, 1, 0, 0⟩] (by simp)
  simp only [List.map_cons, List.map_nil] at hs ht h1
  obtain ⟨r, hr, hr3⟩ := C104_burn (fun _ : Fin 1 => some 1) 1 0 1 one_pos _ _ _ _ s hs
  obtain ⟨r', hr', hr3'⟩ := C104_burn (fun _ : Fin 1 => some 1) 1 0 1 one_pos _ _ _ _ t ht
  rw [hr, hr'] at h1
  have e : r' = r := by
    have := Except.ok.inj h1
    exact Option.some.inj this
  have hq := (hr3 0 1 rfl one_pos _ _ _ (hs3 0 1 rfl one_pos)).2.1
  have hq' := (hr3' 0 1 rfl one_pos _ _ _ (ht3 0 1 rfl one_pos)).2.1
  rw [e, hq] at hq'
  have h5 := Option.some.inj hq'
  simp only [List.map_cons, List.map_nil, List.sum_cons, List.sum_nil, add_zero] at h5
  rw [screen_eq _ _ _ _ _ le_rfl, screen_eq _ _ _ _ _ le_rfl] at h5
  simp [rot, radians] at h5

/-- A row without components, or cut short in its first component, is rejected. -/
theorem C102_short_row {n : ℕ} (freq : Fin n → Option ℝ) (f0 : ℝ) (e : List ℝ) (t : ℝ) (ht : pyInt t = 1)
    (he : e.length < 11) : rowSpectrum freq f0 (t :: e) = .error .indexError := by
  have h := (splitRepeat_spec e 7 4 (by norm_num)).2.2.1 (by omega)
  unfold rowSpectrum
  simp only [item, List.getElem?_cons_zero, bind, Except.bind, ht, if_true, List.drop_succ_cons, List.drop_zero]
  rw [show splitRepeat e 7 4 = ((splitRepeat e 7 4).1, (splitRepeat e 7 4).2) from rfl, h]
  generalize (splitRepeat e 7 4).1 = pre
  cases h5 : pre[5]? <;> cases h6 : pre[6]? <;> simp

end Verif.Sim
