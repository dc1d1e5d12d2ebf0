import Verif.Headers.Lemmas

/-!
# Coordinates in the headers of maps (C193, C194)
-/

namespace Verif.Headers

open Header

/-- The axes that a keyword belongs to. -/
def Key.axes : Key → List ℕ
  | .plain _ => []
  | .ax _ i => [i]
  | .mat _ i j => [i, j]
  | .old i j => [i, j]

/-- A keyword of the image plane: all axes it belongs to are the first and the second. -/
def Key.Plane (k : Key) : Prop := ∀ a ∈ k.axes, a ≤ 2

/-- A coordinate keyword of the image plane. -/
def Key.Coord (k : Key) : Prop := k.axes ≠ [] ∧ k.Plane

/-- What the cards of the third and fourth axis may be: length and coordinates of the axis, and the `PC` matrix. -/
def Usual (h : Header) : Prop := ∀ c ∈ h, c.1.Plane ∨
  (∃ s ∈ ["NAXIS", "CRPIX", "CDELT", "CUNIT", "CTYPE", "CRVAL"], ∃ i, (i = 3 ∨ i = 4) ∧ c.1 = .ax s i) ∨
  ∃ i j, 1 ≤ i ∧ i ≤ 4 ∧ 1 ≤ j ∧ j ≤ 4 ∧ c.1 = .mat "PC" i j

theorem not_mem_removeKeys (k : Key) (hk : k.Plane) : k ∉ removeKeys := by
  intro h
  have : ∀ k ∈ removeKeys, ∃ a ∈ k.axes, 2 < a := by decide
  obtain ⟨a, ha, h2⟩ := this k h
  have := hk a ha
  omega

theorem removeAxes_get (h h' : Header) (hr : removeAxes h = some h') (k : Key) (hk : k ∉ removeKeys)
    (h1 : k ≠ .plain "NAXIS") (h2 : k ≠ .plain "STOKES") (h3 : k ≠ .plain "WCSAXES") : h'.get k = h.get k := by
  rw [updatePosition_get _ _ hr, get_set_ne _ _ _ _ h3, get_del_ne _ _ _ h2, get_set_ne _ _ _ _ h1,
    get_foldl_del_ne _ _ _ hk]

theorem removeAxes_mem (h h' : Header) (hr : removeAxes h = some h') (d : Key × Val) (hd : d ∈ h') :
    d.1.axes = [] ∨ d ∈ h ∧ d.1 ∉ removeKeys := by
  rcases updatePosition_mem _ _ hr d hd with h1 | h1
  · left
    rw [h1]
    rfl
  · rcases mem_set _ _ _ _ h1 with h2 | h2
    · left
      rw [h2]
      rfl
    · rcases mem_set _ _ _ _ ((mem_del _ _ _).mp h2).1 with h3 | h3
      · left
        rw [h3]
        rfl
      · exact Or.inr ((mem_foldl_del _ _ _).mp h3)

/-- `remove_header_third_fourth_axis` succeeds exactly if one of twelve keywords of the first two axes is there. -/
theorem removeAxes_some (h : Header) : (∃ h', removeAxes h = some h') ↔ ∃ k ∈ wcsKeys, h.has k = true := by
  constructor
  · rintro ⟨h', hr⟩
    obtain ⟨v, pre, c, post, -, e, hc, -, -⟩ := updatePosition_spec _ _ hr
    refine ⟨c.1, hc, ?_⟩
    rw [has_iff]
    have hm : c ∈ ((((removeKeys.foldl del h).set (.plain "NAXIS") (.num 2)).del (.plain "STOKES")).set
        (.plain "WCSAXES") (.num 2)).del (.plain "WCSAXES") := by
      rw [e]
      simp
    have hne : c.1.axes ≠ [] := by
      have : ∀ k ∈ wcsKeys, k.axes ≠ [] := by decide
      exact this _ hc
    rcases mem_set _ _ _ _ ((mem_del _ _ _).mp hm).1 with h2 | h2
    · exact absurd (by rw [h2]; rfl) hne
    · rcases mem_set _ _ _ _ ((mem_del _ _ _).mp h2).1 with h3 | h3
      · exact absurd (by rw [h3]; rfl) hne
      · exact ⟨c, ((mem_foldl_del _ _ _).mp h3).1, rfl⟩
  · rintro ⟨k, hk, hh⟩
    refine updatePosition_some _ (.num 2) (get_set_self _ _ _) ⟨k, hk, ?_⟩
    have hp : k.Plane ∧ k.axes ≠ [] := by
      have : ∀ k ∈ wcsKeys, (∀ a ∈ k.axes, a ≤ 2) ∧ k.axes ≠ [] := by decide
      exact this _ hk
    have hpl : ∀ s, k ≠ .plain s := by
      rintro s rfl
      exact hp.2 rfl
    unfold Header.has at hh ⊢
    rw [get_set_ne _ _ _ _ (hpl _), get_del_ne _ _ _ (hpl _), get_set_ne _ _ _ _ (hpl _),
      get_foldl_del_ne _ _ _ (not_mem_removeKeys k hp.1)]
    exact hh

/-- The header of a map made from the header of a cube: the coordinates of the first two axes are kept, the header says
that there are two axes, and for a usual header nothing is left of the others. -/
theorem removeAxes_spec (h h' : Header) (hr : removeAxes h = some h') :
    (∀ k, Key.Coord k → h'.get k = h.get k) ∧ h'.get (.plain "NAXIS") = some (.num 2) ∧
      h'.get (.plain "WCSAXES") = some (.num 2) ∧ (Usual h → ∀ c ∈ h', c.1.Plane) := by
  refine ⟨?_, ?_, ?_, ?_⟩
  · intro k hk
    have hpl : ∀ s, k ≠ .plain s := by
      rintro s rfl
      exact hk.1 rfl
    exact removeAxes_get h h' hr k (not_mem_removeKeys k hk.2) (hpl _) (hpl _) (hpl _)
  · rw [updatePosition_get _ _ hr, get_set_ne _ _ _ _ (by decide), get_del_ne _ _ _ (by decide), get_set_self]
  · rw [updatePosition_get _ _ hr, get_set_self]
  · intro hu c hc
    rcases removeAxes_mem h h' hr c hc with h1 | ⟨h1, h2⟩
    · intro a ha
      rw [h1] at ha
      simp at ha
    · rcases hu c h1 with h3 | ⟨s, hs, i, hi, e⟩ | ⟨i, j, i1, i4, j1, j4, e⟩
      · exact h3
      · exfalso
        apply h2
        rw [e]
        have : ∀ s ∈ ["NAXIS", "CRPIX", "CDELT", "CUNIT", "CTYPE", "CRVAL"], Key.ax s 3 ∈ removeKeys ∧
            Key.ax s 4 ∈ removeKeys := by decide
        rcases hi with rfl | rfl
        · exact (this s hs).1
        · exact (this s hs).2
      · rw [e] at h2 ⊢
        by_contra hne
        apply h2
        unfold Key.Plane Key.axes at hne
        interval_cases i <;> interval_cases j <;> first | decide | (exfalso; apply hne; decide)

/-! ## C193: the map of the RMSF's width -/

theorem get_setDepths (h : Header) (axis nPhi : ℕ) (phi : ℕ → ℝ) (k : Key) (hk : ∀ s, k ≠ .ax s axis) :
    (setDepths h axis nPhi phi).get k = h.get k := by
  unfold setDepths
  rw [get_set_ne _ _ _ _ (hk _), get_set_ne _ _ _ _ (hk _), get_set_ne _ _ _ _ (hk _), get_set_ne _ _ _ _ (hk _),
    get_set_ne _ _ _ _ (hk _), get_set_ne _ _ _ _ (hk _)]

/-- The Faraday depth axis of the header. -/
theorem setDepths_axis (h : Header) (axis nPhi : ℕ) (phi : ℕ → ℝ) :
    (setDepths h axis nPhi phi).get (.ax "CTYPE" axis) = some (.txt "FDEP") ∧
    (setDepths h axis nPhi phi).get (.ax "CUNIT" axis) = some (.txt "rad/m^2") ∧
    (setDepths h axis nPhi phi).get (.ax "NAXIS" axis) = some (.num nPhi) ∧
    (setDepths h axis nPhi phi).get (.ax "CDELT" axis) = some (.num (phi 1 - phi 0)) ∧
    (setDepths h axis nPhi phi).get (.ax "CRPIX" axis) = some (.num ((nPhi / 2 : ℕ) + 1)) ∧
    (setDepths h axis nPhi phi).get (.ax "CRVAL" axis) = some (.num (phi (nPhi / 2))) := by
  have hne : ∀ s t : String, s ≠ t → Key.ax s axis ≠ .ax t axis := by
    intro s t hst e
    injection e with e1 _
    exact hst e1
  unfold setDepths
  refine ⟨?_, ?_, ?_, ?_, ?_, ?_⟩
  · rw [get_set_ne _ _ _ _ (hne _ _ (by decide)), get_set_ne _ _ _ _ (hne _ _ (by decide)),
      get_set_ne _ _ _ _ (hne _ _ (by decide)), get_set_ne _ _ _ _ (hne _ _ (by decide)),
      get_set_ne _ _ _ _ (hne _ _ (by decide)), get_set_self]
  · rw [get_set_ne _ _ _ _ (hne _ _ (by decide)), get_set_ne _ _ _ _ (hne _ _ (by decide)),
      get_set_ne _ _ _ _ (hne _ _ (by decide)), get_set_ne _ _ _ _ (hne _ _ (by decide)), get_set_self]
  · rw [get_set_ne _ _ _ _ (hne _ _ (by decide)), get_set_ne _ _ _ _ (hne _ _ (by decide)),
      get_set_ne _ _ _ _ (hne _ _ (by decide)), get_set_self]
  · rw [get_set_ne _ _ _ _ (hne _ _ (by decide)), get_set_ne _ _ _ _ (hne _ _ (by decide)), get_set_self]
  · rw [get_set_ne _ _ _ _ (hne _ _ (by decide)), get_set_self]
  · rw [get_set_self]

theorem setDepths_mem (h : Header) (axis nPhi : ℕ) (phi : ℕ → ℝ) (c : Key × Val)
    (hc : c ∈ setDepths h axis nPhi phi) :
    c ∈ h ∨ ∃ s ∈ ["NAXIS", "CRPIX", "CDELT", "CUNIT", "CTYPE", "CRVAL"], c.1 = .ax s axis := by
  unfold setDepths at hc
  rcases mem_set _ _ _ _ hc with e | hc
  · exact Or.inr ⟨"CRVAL", by decide, by rw [e]⟩
  rcases mem_set _ _ _ _ hc with e | hc
  · exact Or.inr ⟨"CRPIX", by decide, by rw [e]⟩
  rcases mem_set _ _ _ _ hc with e | hc
  · exact Or.inr ⟨"CDELT", by decide, by rw [e]⟩
  rcases mem_set _ _ _ _ hc with e | hc
  · exact Or.inr ⟨"NAXIS", by decide, by rw [e]⟩
  rcases mem_set _ _ _ _ hc with e | hc
  · exact Or.inr ⟨"CUNIT", by decide, by rw [e]⟩
  rcases mem_set _ _ _ _ hc with e | hc
  · exact Or.inr ⟨"CTYPE", by decide, by rw [e]⟩
  exact Or.inl hc

theorem findAxis_cases (isFreq : String → Bool) (h : Header) (n d : ℕ) :
    findAxis isFreq h n d = d ∨
      (1 ≤ findAxis isFreq h n d ∧ findAxis isFreq h n d ≤ n ∧
        mentions isFreq (h.get (.ax "CTYPE" (findAxis isFreq h n d))) = true) := by
  induction n with
  | zero => exact Or.inl rfl
  | succ n ih =>
    have e : findAxis isFreq h (n + 1) d =
        if mentions isFreq (h.get (.ax "CTYPE" (n + 1))) then n + 1 else findAxis isFreq h n d := by
      unfold findAxis
      rw [List.range'_concat, List.foldl_append]
      simp [add_comm]
    rw [e]
    by_cases hm : mentions isFreq (h.get (.ax "CTYPE" (n + 1))) = true
    · rw [if_pos hm]
      exact Or.inr ⟨by omega, le_refl _, hm⟩
    · rw [if_neg hm]
      rcases ih with h1 | ⟨h1, h2, h3⟩
      · exact Or.inl h1
      · exact Or.inr ⟨h1, by omega, h3⟩

/-- All axes have a text as type. -/
def Typed (h : Header) (naxis : ℕ) : Prop := ∀ i, 1 ≤ i → i ≤ naxis → ∃ s, h.get (.ax "CTYPE" i) = some (.txt s)

theorem stokesAxis_succ (isStokes : String → Bool) (h : Header) (n : ℕ) :
    stokesAxis isStokes h (n + 1) = (stokesAxis isStokes h n).bind fun r =>
      match h.get (.ax "CTYPE" (n + 1)) with
      | some (.txt s) => some (if isStokes s then some (n + 1) else r)
      | _ => none := by
  unfold stokesAxis
  rw [List.range'_concat, List.foldlM_append]
  simp only [List.foldlM_cons, List.foldlM_nil]
  rw [show 1 + 1 * n = n + 1 by omega]
  simp only [Option.bind_eq_bind]
  congr 1
  funext r
  cases h.get (.ax "CTYPE" (n + 1)) with
  | none => rfl
  | some v => cases v <;> rfl

theorem stokesAxis_typed (isStokes : String → Bool) (h : Header) (n : ℕ) (ht : Typed h n) :
    ∃ a, stokesAxis isStokes h n = some a ∧
      ∀ i, a = some i → 1 ≤ i ∧ i ≤ n ∧ ∃ s, h.get (.ax "CTYPE" i) = some (.txt s) ∧ isStokes s = true := by
  induction n with
  | zero => exact ⟨none, rfl, by simp⟩
  | succ n ih =>
    obtain ⟨a, ha, hs⟩ := ih fun i h1 h2 => ht i h1 (by omega)
    obtain ⟨s, e⟩ := ht (n + 1) (by omega) (le_refl _)
    rw [stokesAxis_succ, ha, Option.bind_some, e]
    refine ⟨if isStokes s then some (n + 1) else a, rfl, ?_⟩
    intro i hi
    by_cases hb : isStokes s = true
    · rw [if_pos hb] at hi
      obtain rfl := Option.some.inj hi
      exact ⟨by omega, le_refl _, s, e, hb⟩
    · rw [if_neg hb] at hi
      obtain ⟨h1, h2, h3⟩ := hs i hi
      exact ⟨h1, by omega, h3⟩

theorem stokesAxis_untyped (isStokes : String → Bool) (h : Header) (n i : ℕ) (h1 : 1 ≤ i) (hi : i ≤ n)
    (hn : h.get (.ax "CTYPE" i) = none) : stokesAxis isStokes h n = none := by
  induction n with
  | zero => omega
  | succ n ih =>
    rw [stokesAxis_succ]
    by_cases e : i = n + 1
    · subst e
      rw [hn]
      cases stokesAxis isStokes h n <;> rfl
    · rw [ih (by omega)]
      rfl

/-- Which axis `_setStokes` finds depends on the types only. -/
theorem stokesAxis_congr (isStokes : String → Bool) (h h' : Header) (n : ℕ)
    (e : ∀ i, h'.get (.ax "CTYPE" i) = h.get (.ax "CTYPE" i)) : stokesAxis isStokes h' n = stokesAxis isStokes h n := by
  unfold stokesAxis
  simp only [e]

theorem setStokes_get (isStokes : String → Bool) (h h' : Header) (naxis : ℕ) (s : String) (a : Option ℕ)
    (ha : stokesAxis isStokes h naxis = some a) (hs : setStokes isStokes h naxis s = some h') (k : Key)
    (h1 : ∀ i, a = some i → k ≠ .ax "CRPIX" i ∧ k ≠ .ax "CRVAL" i) (h2 : k ≠ .plain "STOKES") :
    h'.get k = h.get k := by
  unfold setStokes at hs
  rw [ha, Option.map_some] at hs
  obtain rfl := Option.some.inj hs
  rw [get_set_ne _ _ _ _ h2]
  cases a with
  | none => rfl
  | some i =>
    dsimp only
    rw [get_set_ne _ _ _ _ (h1 i rfl).2, get_set_ne _ _ _ _ (h1 i rfl).1]

theorem setStokes_mem (isStokes : String → Bool) (h h' : Header) (naxis : ℕ) (s : String) (a : Option ℕ)
    (ha : stokesAxis isStokes h naxis = some a) (hs : setStokes isStokes h naxis s = some h') (c : Key × Val)
    (hc : c ∈ h') : c ∈ h ∨ c.1 = .plain "STOKES" ∨ ∃ i, a = some i ∧ (c.1 = .ax "CRPIX" i ∨ c.1 = .ax "CRVAL" i) := by
  unfold setStokes at hs
  rw [ha, Option.map_some] at hs
  obtain rfl := Option.some.inj hs
  rcases mem_set _ _ _ _ hc with e | hc
  · right; left
    rw [e]
  · cases a with
    | none => exact Or.inl hc
    | some i =>
      dsimp only at hc
      rcases mem_set _ _ _ _ hc with e | hc
      · exact Or.inr (Or.inr ⟨i, rfl, Or.inr (by rw [e])⟩)
      · rcases mem_set _ _ _ _ hc with e | hc
        · exact Or.inr (Or.inr ⟨i, rfl, Or.inl (by rw [e])⟩)
        · exact Or.inl hc

end Verif.Headers
