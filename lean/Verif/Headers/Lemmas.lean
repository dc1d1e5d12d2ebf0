import Verif.Headers.Model

/-!
# Lemmas about header cards
-/

namespace Verif.Headers

open Header

theorem get_set_self (h : Header) (k : Key) (v : Val) : (h.set k v).get k = some v := by
  induction h with
  | nil => simp [Header.set, Header.get]
  | cons c h ih =>
    unfold Header.set
    by_cases hc : c.1 = k
    · rw [if_pos hc]
      simp [Header.get]
    · rw [if_neg hc]
      simp only [Header.get]
      rw [if_neg hc, ih]

theorem get_set_ne (h : Header) (k k' : Key) (v : Val) (hk : k' ≠ k) : (h.set k v).get k' = h.get k' := by
  induction h with
  | nil => simp [Header.set, Header.get, Ne.symm hk]
  | cons c h ih =>
    unfold Header.set
    by_cases hc : c.1 = k
    · rw [if_pos hc]
      simp only [Header.get]
      rw [if_neg (Ne.symm hk), if_neg (by rw [hc]; exact Ne.symm hk)]
    · rw [if_neg hc]
      simp only [Header.get]
      rw [ih]

theorem get_del_self (h : Header) (k : Key) : (h.del k).get k = none := by
  induction h with
  | nil => rfl
  | cons c h ih =>
    unfold Header.del at ih ⊢
    by_cases hc : c.1 = k
    · rw [List.filter_cons_of_neg (by simp [hc])]
      exact ih
    · rw [List.filter_cons_of_pos (by simp [hc])]
      simp only [Header.get]
      rw [if_neg hc]
      exact ih

theorem get_del_ne (h : Header) (k k' : Key) (hk : k' ≠ k) : (h.del k).get k' = h.get k' := by
  induction h with
  | nil => rfl
  | cons c h ih =>
    unfold Header.del at ih ⊢
    by_cases hc : c.1 = k
    · rw [List.filter_cons_of_neg (by simp [hc])]
      simp only [Header.get]
      rw [if_neg (by rw [hc]; exact Ne.symm hk)]
      exact ih
    · rw [List.filter_cons_of_pos (by simp [hc])]
      simp only [Header.get]
      rw [ih]

theorem get_foldl_del_ne (ks : List Key) (h : Header) (k : Key) (hk : k ∉ ks) : (ks.foldl del h).get k = h.get k := by
  induction ks generalizing h with
  | nil => rfl
  | cons a ks ih =>
    rw [List.foldl_cons, ih _ fun hm => hk (List.mem_cons_of_mem _ hm), get_del_ne _ _ _ fun e => hk (by simp [e])]

theorem mem_foldl_del (ks : List Key) (h : Header) (c : Key × Val) :
    c ∈ ks.foldl del h ↔ c ∈ h ∧ c.1 ∉ ks := by
  induction ks generalizing h with
  | nil => simp
  | cons a ks ih =>
    rw [List.foldl_cons, ih, Header.del, List.mem_filter]
    simp only [decide_not, Bool.not_eq_eq_eq_not, Bool.not_true, decide_eq_false_iff_not, List.mem_cons, not_or]
    tauto

theorem mem_del (h : Header) (k : Key) (c : Key × Val) : c ∈ h.del k ↔ c ∈ h ∧ c.1 ≠ k := by
  simp [Header.del]

theorem mem_set (h : Header) (k : Key) (v : Val) (c : Key × Val) (hc : c ∈ h.set k v) : c = (k, v) ∨ c ∈ h := by
  induction h with
  | nil => simpa [Header.set] using hc
  | cons a h ih =>
    unfold Header.set at hc
    by_cases ha : a.1 = k
    · rw [if_pos ha, List.mem_cons] at hc
      rcases hc with hc | hc
      · exact Or.inl hc
      · exact Or.inr (by simp [hc])
    · rw [if_neg ha, List.mem_cons] at hc
      rcases hc with hc | hc
      · exact Or.inr (by simp [hc])
      · rcases ih hc with h1 | h1
        · exact Or.inl h1
        · exact Or.inr (by simp [h1])

theorem get_none (h : Header) (k : Key) : h.get k = none ↔ ∀ c ∈ h, c.1 ≠ k := by
  induction h with
  | nil => simp [Header.get]
  | cons a h ih =>
    simp only [Header.get, List.mem_cons, forall_eq_or_imp]
    by_cases ha : a.1 = k
    · simp [ha]
    · rw [if_neg ha, ih]
      simp [ha]

theorem get_append (g h : Header) (k : Key) (hg : ∀ c ∈ g, c.1 ≠ k) : Header.get (g ++ h) k = h.get k := by
  induction g with
  | nil => rfl
  | cons a g ih =>
    rw [List.cons_append]
    simp only [Header.get]
    rw [if_neg (hg a (by simp)), ih fun c hc => hg c (by simp [hc])]

theorem get_append_cons_ne (g h : Header) (k k' : Key) (v : Val) (hk : k' ≠ k) :
    Header.get (g ++ (k, v) :: h) k' = Header.get (g ++ h) k' := by
  induction g with
  | nil =>
    simp only [List.nil_append, Header.get]
    rw [if_neg (Ne.symm hk)]
  | cons a g ih =>
    rw [List.cons_append, List.cons_append]
    simp only [Header.get]
    rw [ih]

theorem has_iff (h : Header) (k : Key) : h.has k = true ↔ ∃ c ∈ h, c.1 = k := by
  unfold Header.has
  rw [Option.isSome_iff_ne_none, Ne, get_none]
  push Not
  rfl

/-- The first card of one of several keywords splits the header. -/
theorem index_min (ks : List Key) (h : Header) (p : ℕ) (hp : (ks.filterMap h.index).min? = some p) :
    ∃ pre c post, h = pre ++ c :: post ∧ pre.length = p ∧ c.1 ∈ ks ∧ ∀ d ∈ pre, d.1 ∉ ks := by
  rw [List.min?_eq_some_iff] at hp
  obtain ⟨hm, hle⟩ := hp
  obtain ⟨k, hk, hi⟩ := List.mem_filterMap.mp hm
  unfold Header.index at hi
  rw [List.findIdx?_eq_some_iff_getElem] at hi
  obtain ⟨hlt, heq, -⟩ := hi
  refine ⟨h.take p, h[p], h.drop (p + 1), ?_, by simp [hlt.le], ?_, ?_⟩
  · rw [List.cons_getElem_drop_succ, List.take_append_drop]
  · have : h[p].1 = k := by simpa using heq
    rw [this]
    exact hk
  · intro d hd hmem
    obtain ⟨i, hi, rfl⟩ := List.getElem_of_mem hd
    rw [List.getElem_take] at hmem
    have hi' : i < p := by
      rw [List.length_take] at hi
      omega
    have hex : ∃ q, h.index h[i].1 = some q ∧ q ≤ i := by
      unfold Header.index
      rcases he : h.findIdx? (fun c => decide (c.1 = h[i].1)) with _ | q
      · rw [List.findIdx?_eq_none_iff] at he
        have := he h[i] (List.getElem_mem _)
        simp at this
      · refine ⟨q, he, ?_⟩
        rw [List.findIdx?_eq_some_iff_getElem] at he
        obtain ⟨_, _, hall⟩ := he
        by_contra hc
        push Not at hc
        have := hall i hc
        simp at this
    obtain ⟨q, hq, hqi⟩ := hex
    have := hle q (List.mem_filterMap.mpr ⟨_, hmem, hq⟩)
    omega

theorem index_none (ks : List Key) (h : Header) :
    (ks.filterMap h.index).min? = none ↔ ∀ k ∈ ks, h.has k = false := by
  rw [List.min?_eq_none_iff, List.filterMap_eq_nil_iff]
  refine forall_congr' fun k => imp_congr_right fun _ => ?_
  unfold Header.index
  rw [List.findIdx?_eq_none_iff, ← Bool.not_eq_true, has_iff]
  push Not
  simp

theorem insertIdx_append (pre post : Header) (c : Key × Val) :
    (pre ++ post).insertIdx pre.length c = pre ++ c :: post := by
  induction pre with
  | nil => rfl
  | cons a pre ih => simp [List.insertIdx_succ_cons, ih]

/-- What `update_position_wcsaxes` does. -/
theorem updatePosition_spec (h h' : Header) (hu : updatePosition h = some h') :
    ∃ v pre c post, h.get (.plain "WCSAXES") = some v ∧ h.del (.plain "WCSAXES") = pre ++ c :: post ∧ c.1 ∈ wcsKeys ∧
      (∀ d ∈ pre, d.1 ∉ wcsKeys) ∧ h' = pre ++ (.plain "WCSAXES", v) :: c :: post := by
  unfold updatePosition at hu
  rw [Option.bind_eq_some_iff] at hu
  obtain ⟨v, hv, hu⟩ := hu
  simp only [Option.map_eq_some_iff] at hu
  obtain ⟨p, hp, rfl⟩ := hu
  obtain ⟨pre, c, post, e, hl, hc, hpre⟩ := index_min _ _ _ hp
  refine ⟨v, pre, c, post, hv, e, hc, hpre, ?_⟩
  rw [e, ← hl, insertIdx_append]

theorem updatePosition_get (h h' : Header) (hu : updatePosition h = some h') (k : Key) : h'.get k = h.get k := by
  obtain ⟨v, pre, c, post, hv, e, -, -, rfl⟩ := updatePosition_spec h h' hu
  by_cases hk : k = .plain "WCSAXES"
  · subst hk
    rw [hv, get_append]
    · simp [Header.get]
    · intro d hd
      have : d ∈ h.del (.plain "WCSAXES") := by
        rw [e]
        simp [hd]
      exact ((mem_del _ _ _).mp this).2
  · rw [get_append_cons_ne _ _ _ _ _ hk, ← e, get_del_ne _ _ _ hk]

theorem updatePosition_mem (h h' : Header) (hu : updatePosition h = some h') (d : Key × Val) (hd : d ∈ h') :
    d.1 = .plain "WCSAXES" ∨ d ∈ h := by
  obtain ⟨v, pre, c, post, hv, e, -, -, rfl⟩ := updatePosition_spec h h' hu
  have : d = (.plain "WCSAXES", v) ∨ d ∈ h.del (.plain "WCSAXES") := by
    rw [e]
    simp only [List.mem_append, List.mem_cons] at hd ⊢
    tauto
  rcases this with h1 | h1
  · left
    rw [h1]
  · exact Or.inr ((mem_del _ _ _).mp h1).1

theorem updatePosition_some (h : Header) (v : Val) (hv : h.get (.plain "WCSAXES") = some v)
    (hk : ∃ k ∈ wcsKeys, h.has k = true) : ∃ h', updatePosition h = some h' := by
  unfold updatePosition
  rw [hv, Option.bind_some]
  rcases he : (wcsKeys.filterMap (h.del (.plain "WCSAXES")).index).min? with _ | p
  · exfalso
    rw [index_none] at he
    obtain ⟨k, hkm, hk⟩ := hk
    have := he k hkm
    rw [← Bool.not_eq_true, has_iff] at this
    rw [has_iff] at hk
    obtain ⟨c, hc, e⟩ := hk
    refine this ⟨c, (mem_del _ _ _).mpr ⟨hc, ?_⟩, e⟩
    rw [e]
    intro e2
    subst e2
    exact absurd hkm (by decide)
  · dsimp only
    rw [he]
    exact ⟨_, rfl⟩

end Verif.Headers
