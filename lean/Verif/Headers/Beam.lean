import Mathlib.Data.Real.Basic
import Mathlib.Tactic

/-!
# The beam of an image from its header (C304)

Source: `/repo/RMutils/util_FITS.py` 256-293, `get_beam_from_header`. Not modelled: the regular expression itself; a line of the
history is given by whether it matches and by what `float` makes of its three words.
-/

namespace Verif.BeamCard

/-- The three words of a line of the history which matches the pattern (lines 278-279); `none`: `float` raises. -/
structure Words where
  bmaj : Option ℝ
  bmin : Option ℝ
  bpa : Option ℝ

/-- The three values returned, `none` is the Python `None`. -/
@[ext] structure Beam where
  bmaj : Option ℝ
  bmin : Option ℝ
  bpa : Option ℝ

/-- Lines 286-288: the three assignments in turn; an exception (lines 290-291) ends them and keeps what has been assigned. -/
def assign (b : Beam) (w : Words) : Beam :=
  match w.bmaj with
  | none => b
  | some x =>
    match w.bmin with
    | none => { b with bmaj := some x }
    | some y =>
      match w.bpa with
      | none => { b with bmaj := some x, bmin := some y }
      | some z => ⟨some x, some y, some z⟩

/-- Lines 283-289: the loop over the reversed history, which ends at the first line that matches. -/
def scan (b : Beam) : List (Option Words) → Beam
  | [] => b
  | none :: t => scan b t
  | some w :: _ => assign b w

/-- `get_beam_from_header` 256-293. `cards`: the three cards, `none` for a missing one. `history`: the lines, oldest first; `none`: the
history cannot be read (line 281 raises, for instance since the header has no such method). -/
def getBeam (cards : Beam) (history : Option (List (Option Words))) : Beam :=
  if cards.bmaj = none ∨ cards.bmin = none then
    match history with
    | none => cards
    | some h => scan cards h.reverse
  else cards

/-! ## Specification -/

/-- The last line of the history which matches. -/
def LastClean (h : List (Option Words)) (w : Words) : Prop := ∃ old new, h = old ++ some w :: new ∧ ∀ l ∈ new, l = none

/-! ## Proofs -/

theorem scan_none (b : Beam) (t s : List (Option Words)) (h : ∀ l ∈ t, l = none) : scan b (t ++ s) = scan b s := by
  induction t with
  | nil => rfl
  | cons a t ih =>
    have ha : a = none := h a (by simp)
    subst ha
    exact ih fun l hl => h l (List.mem_cons_of_mem _ hl)

theorem scan_last (b : Beam) (h : List (Option Words)) (w : Words) (hw : LastClean h w) : scan b h.reverse = assign b w := by
  obtain ⟨old, new, rfl, hn⟩ := hw
  rw [List.reverse_append, List.reverse_cons, List.append_assoc, scan_none b _ _ (by simpa using hn)]
  rfl

theorem last_exists (h : List (Option Words)) : (∀ l ∈ h, l = none) ∨ ∃ w, LastClean h w := by
  induction h with
  | nil => left; simp
  | cons a t ih =>
    rcases ih with ih | ⟨w, old, new, rfl, hn⟩
    · cases a with
      | none => left; simpa using ih
      | some w => exact Or.inr ⟨w, [], t, rfl, ih⟩
    · exact Or.inr ⟨w, a :: old, new, rfl, hn⟩

/-- **C304, cards.** With both cards for the axes the history is not used: the result is the cards, also without the angle. -/
theorem beam_cards (c : Beam) (h : Option (List (Option Words))) (x y : ℝ) (hx : c.bmaj = some x) (hy : c.bmin = some y) : getBeam c h = c := by
  unfold getBeam
  rw [if_neg]
  simp [hx, hy]

/-- **C304, history.** If a card for an axis is missing and the last CLEAN line of the history has three numbers, the beam is that of the line, all three values. -/
theorem beam_history (c : Beam) (h : List (Option Words)) (hc : c.bmaj = none ∨ c.bmin = none) (x y z : ℝ)
    (hw : LastClean h ⟨some x, some y, some z⟩) : getBeam c (some h) = ⟨some x, some y, some z⟩ := by
  unfold getBeam
  rw [if_pos hc]
  exact scan_last c h _ hw

/-- **C304, nothing found.** Without a CLEAN line, or with a history that cannot be read, the cards are returned, `None` for the missing ones. -/
theorem beam_missing (c : Beam) (h : Option (List (Option Words))) (hn : ∀ ls, h = some ls → ∀ l ∈ ls, l = none) : getBeam c h = c := by
  unfold getBeam
  split_ifs
  · cases h with
    | none => rfl
    | some ls =>
      have := scan_none c ls.reverse [] (by simpa using hn ls rfl)
      rw [List.append_nil] at this
      exact this
  · rfl

/-- **C304, the part that holds.** If the words of the CLEAN lines are numbers, the result is the beam of the cards or that of the last CLEAN line, never a mixture; the latter exactly if a card of
an axis is missing and there is such a line. -/
theorem beam_whole_partial (c : Beam) (h : List (Option Words)) (hnum : ∀ w, some w ∈ h → ∃ x y z, w = ⟨some x, some y, some z⟩) :
    ((∃ w, LastClean h w) ∧ (c.bmaj = none ∨ c.bmin = none) → ∃ w, LastClean h w ∧ getBeam c (some h) = ⟨w.bmaj, w.bmin, w.bpa⟩) ∧
    (¬ ((∃ w, LastClean h w) ∧ (c.bmaj = none ∨ c.bmin = none)) → getBeam c (some h) = c) := by
  constructor
  · rintro ⟨⟨w, hw⟩, hc⟩
    obtain ⟨x, y, z, rfl⟩ := hnum w (by obtain ⟨o, n, rfl, -⟩ := hw; simp)
    exact ⟨_, hw, beam_history c h hc x y z hw⟩
  · intro hn
    rcases last_exists h with hl | hl
    · exact beam_missing c (some h) fun ls e => by cases e; exact hl
    · have hc : ¬ (c.bmaj = none ∨ c.bmin = none) := fun hc => hn ⟨hl, hc⟩
      unfold getBeam
      rw [if_neg hc]

/-- C304 is false for a damaged line, for all cards with a missing axis: the values before the first damaged word of the last CLEAN line are those of the line, the rest are those of the cards;
an older line, complete or not, is not used. -/
theorem beam_mixed_wrong (c : Beam) (h : List (Option Words)) (hc : c.bmaj = none ∨ c.bmin = none) :
    (∀ y z, LastClean h ⟨none, y, z⟩ → getBeam c (some h) = c) ∧
    (∀ x z, LastClean h ⟨some x, none, z⟩ → getBeam c (some h) = ⟨some x, c.bmin, c.bpa⟩) ∧
    ∀ x y, LastClean h ⟨some x, some y, none⟩ → getBeam c (some h) = ⟨some x, some y, c.bpa⟩ := by
  unfold getBeam
  rw [if_pos hc]
  exact ⟨fun _ _ hw => scan_last c h _ hw, fun _ _ hw => scan_last c h _ hw, fun _ _ hw => scan_last c h _ hw⟩

/-- The cards give a minor axis of 2 and an angle; an older line is complete, the last one is damaged: the beam has a major axis smaller than its minor axis. And the complete line alone is taken. -/
theorem beam_case :
    getBeam ⟨none, some 2, some 30⟩ (some [some ⟨some 5, some 4, some 10⟩, none, some ⟨some 1, none, some 0⟩, none]) = ⟨some 1, some 2, some 30⟩ ∧
    getBeam ⟨none, some 2, some 30⟩ (some [none, some ⟨some 5, some 4, some 10⟩, none]) = ⟨some 5, some 4, some 10⟩ ∧
    LastClean [none, some ⟨some 5, some 4, some 10⟩, none] ⟨some 5, some 4, some 10⟩ :=
  ⟨(beam_mixed_wrong _ _ (Or.inl rfl)).2.1 1 (some 0) ⟨[some ⟨some 5, some 4, some 10⟩, none], [none], rfl, by simp⟩,
    beam_history _ _ (Or.inl rfl) 5 4 10 ⟨[none], [none], rfl, by simp⟩, ⟨[none], [none], rfl, by simp⟩⟩

end Verif.BeamCard
