import Verif.Headers.Writefits

/-!
# All headers written by RM-CLEAN of cubes (C251)

Source: `/repo/RMtools_3D/do_RMclean_3D.py` (`writefits` 168-334). Whether the parts of a cube are separate files or extensions of one file makes no
difference to the headers. Not modelled: comments of cards, `HISTORY`.
-/

namespace Verif.Headers

open Header

/-- The products of `writefits` of RM-CLEAN. -/
inductive CleanItem
  | clean (a : Part)
  | cc (a : Part)
  | nIter
deriving DecidableEq

/-- Lines 308-320: the depth axis and a Stokes axis are made degenerate; they are taken to be the third and fourth. -/
noncomputable def degenerate (h : Header) (i : ℕ) : Header :=
  ((h.set (.ax "NAXIS" i) (.num 1)).set (.ax "CTYPE" i) (.txt "DEGENERATE")).set (.ax "CUNIT" i) (.txt "")

/-- The products of RM-CLEAN with their headers, lines 217-334, from the header `h` of the dirty spectra with `naxis` axes. `none`: an exception. -/
noncomputable def cleanFits (isStokes : String → Bool) (h : Header) (naxis : ℕ) : Option (List (CleanItem × Header)) :=
  (threeParts isStokes h naxis .clean).bind fun a =>
    (threeParts isStokes a.2 naxis .cc).map fun b =>
      let h1 := if 2 < naxis then degenerate b.2 3 else b.2
      let h2 := if naxis = 4 then degenerate h1 4 else h1
      a.1 ++ b.1 ++ [(.nIter, (h2.set (.plain "BUNIT") (.txt "Iterations")).del (.plain "STOKES"))]

theorem degenerate_plain (h : Header) (i : ℕ) (s : String) : (degenerate h i).get (.plain s) = h.get (.plain s) := by
  unfold degenerate
  rw [get_set_ne _ _ _ _ (by simp), get_set_ne _ _ _ _ (by simp), get_set_ne _ _ _ _ (by simp)]

/-- The products are written if all axes have a type. -/
theorem cleanFits_some (isStokes : String → Bool) (h : Header) (naxis : ℕ) (ht : Typed h naxis) : ∃ L, cleanFits isStokes h naxis = some L := by
  obtain ⟨L, g, e, t⟩ := typed_threeParts isStokes h naxis ht CleanItem.clean
  obtain ⟨L2, g2, e2, -⟩ := typed_threeParts isStokes g naxis t CleanItem.cc
  unfold cleanFits
  rw [e, Option.bind_some]
  dsimp only
  rw [e2]
  exact ⟨_, rfl⟩

theorem threeParts_typed {ι : Type} (isStokes : String → Bool) (h : Header) (n : ℕ) (ht : Typed h n) (prod : Part → ι) (L : List (ι × Header))
    (g : Header) (e : threeParts isStokes h n prod = some (L, g)) : ∀ c ∈ L, Typed c.2 n := by
  obtain ⟨hQ, e1, t1⟩ := typed_setStokes isStokes h n ht "Q"
  obtain ⟨hU, e2, t2⟩ := typed_setStokes isStokes hQ n t1 "U"
  obtain ⟨hP, e3, t3⟩ := typed_setStokes isStokes hU n t2 "PI"
  unfold threeParts at e
  rw [e1, Option.bind_some, e2, Option.bind_some, e3, Option.map_some, Option.some.injEq, Prod.mk.injEq] at e
  obtain ⟨rfl, -⟩ := e
  intro c hc
  simp only [List.mem_cons, List.not_mem_nil, or_false] at hc
  rcases hc with rfl | rfl | rfl
  · exact t1
  · exact t2
  · exact typed_del _ _ t3 "STOKES"

/-- The dirty spectra written by RM synthesis have typed axes if the cube has. -/
theorem fdf_typed (isFreq isStokes : String → Bool) (h : Header) (naxis : ℕ) (j : Job) (ht : Typed h naxis) (L : List (Item × Header))
    (e : writefits isFreq isStokes h naxis j = some L) (a : Part) (H : Header) (hH : (.fdf a, H) ∈ L) : Typed H naxis := by
  unfold writefits at e
  split_ifs at e
  dsimp only at e
  generalize findAxis isFreq h naxis naxis = f at e
  rw [Option.bind_eq_some_iff] at e
  obtain ⟨h1, e1, e⟩ := e
  rw [Option.bind_eq_some_iff] at e
  obtain ⟨A, e2, e⟩ := e
  rw [Option.bind_eq_some_iff] at e
  obtain ⟨B, e3, e⟩ := e
  rw [Option.map_eq_some_iff] at e
  obtain ⟨C, e4, rfl⟩ := e
  obtain ⟨s1, s2⟩ := startHeader_plain _ _ _ _ e1
  obtain ⟨a1, a2, a3, a4⟩ := fdfStep_spec _ _ _ _ _ _ e2 s2
  obtain ⟨b1, b2, b3, b4⟩ := rmsfStep_spec _ _ _ _ _ _ e3 a2
  obtain ⟨c1, c2⟩ := peakStep_spec _ _ _ _ _ _ _ e4 b2
  have t1 : Typed h1 naxis := by
    have t0 : Typed (((((h.set (.ax "CTYPE" f) (.txt "FDEP")).set (.ax "CUNIT" f) (.txt "rad/m^2")).set (.plain "LAMSQ0") (.num j.lam0)).del
        (.plain "DATAMAX")).del (.plain "DATAMIN")) naxis :=
      typed_del _ _ (typed_del _ _ (typed_set _ _ (typed_set _ _ (typed_set _ _ ht _ _ (Or.inl ⟨_, rfl⟩)) _ _ (Or.inl ⟨_, rfl⟩)) _ _
        (Or.inr (by simp))) _) _
    unfold startHeader at e1
    dsimp only at e1
    generalize (((((h.set (.ax "CTYPE" f) (.txt "FDEP")).set (.ax "CUNIT" f) (.txt "rad/m^2")).set (.plain "LAMSQ0") (.num j.lam0)).del
      (.plain "DATAMAX")).del (.plain "DATAMIN")) = g at t0 e1
    cases hg : g.get (.plain "BUNIT") with
    | none =>
      rw [hg] at e1
      rw [← Option.some.inj e1]
      exact t0
    | some v =>
      rw [hg] at e1
      cases v with
      | num r => cases e1
      | txt s =>
        rw [← Option.some.inj e1]
        exact typed_set _ _ t0 _ _ (Or.inl ⟨_, rfl⟩)
  rw [List.mem_append, List.mem_append] at hH
  rcases hH with (hH | hH) | hH
  · unfold fdfStep at e2
    split_ifs at e2
    · obtain rfl := Option.some.inj e2
      cases hH
    · exact threeParts_typed _ _ _ (typed_setAxis _ _ t1 f j.nPhi j.phi) _ _ _ e2 _ hH
  · have := List.mem_map_of_mem (f := Prod.fst) hH
    rw [b3] at this
    split_ifs at this <;> simp at this
  · have := List.mem_map_of_mem (f := Prod.fst) hH
    rw [c1] at this
    split_ifs at this <;> simp at this

/-- **C251**, headers. The products, and what their headers say: spectra and components are in the unit of the dirty spectra, the map of the iterations
is in iterations, and all keywords without an axis but `STOKES` and the unit are those of the dirty spectra. -/
theorem cleanFits_spec (isStokes : String → Bool) (h : Header) (naxis : ℕ) (L : List (CleanItem × Header)) (e : cleanFits isStokes h naxis = some L) :
    L.map Prod.fst = [.clean .re, .clean .im, .clean .tot, .cc .re, .cc .im, .cc .tot, .nIter] ∧
    ∀ c ∈ L, c.2.get (.plain "BUNIT") = (if c.1 = .nIter then some (.txt "Iterations") else h.get (.plain "BUNIT")) ∧
      (∀ s, s ≠ "STOKES" → s ≠ "BUNIT" → c.2.get (.plain s) = h.get (.plain s)) ∧
      (c.1 = .nIter → c.2.get (.plain "STOKES") = none ∧ (2 < naxis → c.2.get (.ax "NAXIS" 3) = some (.num 1)) ∧
        (naxis = 4 → c.2.get (.ax "NAXIS" 4) = some (.num 1))) := by
  unfold cleanFits at e
  rw [Option.bind_eq_some_iff] at e
  obtain ⟨⟨A, g⟩, e1, e⟩ := e
  rw [Option.map_eq_some_iff] at e
  obtain ⟨⟨B, g2⟩, e2, rfl⟩ := e
  have t := fun s hs => threeParts_plain _ _ _ _ _ _ e1 s hs
  have t2 := fun s hs => threeParts_plain _ _ _ _ _ _ e2 s hs
  have hA : ∀ c ∈ A, c.1 ≠ .nIter := by
    intro c hc hn
    have := List.mem_map_of_mem (f := Prod.fst) hc
    rw [(t "X" (by decide)).2.1, hn] at this
    simp at this
  have hB : ∀ c ∈ B, c.1 ≠ .nIter := by
    intro c hc hn
    have := List.mem_map_of_mem (f := Prod.fst) hc
    rw [(t2 "X" (by decide)).2.1, hn] at this
    simp at this
  have hg : ∀ s, s ≠ "STOKES" → (if naxis = 4 then degenerate (if 2 < naxis then degenerate g2 3 else g2) 4 else
      if 2 < naxis then degenerate g2 3 else g2).get (.plain s) = h.get (.plain s) := by
    intro s hs
    have : g2.get (.plain s) = h.get (.plain s) := (t2 s hs).1.trans (t s hs).1
    split_ifs <;> simp only [degenerate_plain, this]
  refine ⟨?_, ?_⟩
  · dsimp only
    rw [List.map_append, List.map_append, (t "X" (by decide)).2.1, (t2 "X" (by decide)).2.1]
    rfl
  · intro c hc
    dsimp only at hc
    rw [List.mem_append, List.mem_append, List.mem_singleton] at hc
    rcases hc with (hc | hc) | rfl
    · rw [if_neg (hA c hc)]
      exact ⟨(t _ (by decide)).2.2 c hc, fun s hs _ => (t s hs).2.2 c hc, fun hn => absurd hn (hA c hc)⟩
    · rw [if_neg (hB c hc)]
      exact ⟨((t2 _ (by decide)).2.2 c hc).trans (t _ (by decide)).1, fun s hs _ => ((t2 s hs).2.2 c hc).trans (t s hs).1,
        fun hn => absurd hn (hB c hc)⟩
    · rw [if_pos rfl]
      refine ⟨?_, ?_, ?_⟩
      · dsimp only
        rw [get_del_ne _ _ _ (by decide), get_set_self]
      · intro s hs hb
        dsimp only
        rw [get_del_ne _ _ _ (by simpa using hs), get_set_ne _ _ _ _ (by simpa using hb)]
        exact hg s hs
      · intro _
        refine ⟨get_del_self _ _, ?_, ?_⟩
        · intro h2
          dsimp only
          rw [get_del_ne _ _ _ (by simp), get_set_ne _ _ _ _ (by simp), if_pos h2]
          split_ifs
          · unfold degenerate
            rw [get_set_ne _ _ _ _ (by decide), get_set_ne _ _ _ _ (by decide), get_set_ne _ _ _ _ (by decide), get_set_ne _ _ _ _ (by decide),
              get_set_ne _ _ _ _ (by decide), get_set_self]
          · unfold degenerate
            rw [get_set_ne _ _ _ _ (by decide), get_set_ne _ _ _ _ (by decide), get_set_self]
        · intro h4
          dsimp only
          rw [get_del_ne _ _ _ (by simp), get_set_ne _ _ _ _ (by simp), if_pos h4]
          unfold degenerate
          rw [get_set_ne _ _ _ _ (by decide), get_set_ne _ _ _ _ (by decide), get_set_self]

end Verif.Headers
