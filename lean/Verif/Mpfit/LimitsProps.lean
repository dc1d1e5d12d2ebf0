import Verif.Mpfit.Limits

/-!
# C276: fitted parameters stay within their limits
-/

namespace Verif.Mpfit

open Verif.NumPy Finset

/-- Values of the free parameters within the limits. -/
def Info.InX (B : Info) (P : Prob) (x : Vec) : Prop :=
  ∀ j < P.n, (∀ l, B.lower (P.ifree j) = some l → l ≤ x j) ∧ ∀ u, B.upper (P.ifree j) = some u → x j ≤ u

theorem inside_full (B : Info) (P : Prob) (hP : P.Ok) (h0 : B.Inside P.npar P.p0) (x : Vec) (hx : B.InX P x) :
    B.Inside P.npar (P.full x) := by
  intro a ha
  obtain ⟨h3, h4⟩ := scatter_spec P.n P.ifree x P.p0 hP.inj
  unfold Prob.full
  by_cases h : ∃ j < P.n, P.ifree j = a
  · obtain ⟨j, hj, rfl⟩ := h
    rw [h3 j hj]
    exact hx j hj
  · push Not at h
    rw [h4 a h]
    exact h0 a ha

theorem inX_start (B : Info) (P : Prob) (hP : P.Ok) (h0 : B.Inside P.npar P.p0) : B.InX P fun j => P.p0 (P.ifree j) :=
  fun j hj => h0 _ (hP.lt j hj)

/-! ## The last correction -/

theorem upper_edge (c : Cfg) (hc : c.Ok) (u : ℝ) : upEdge c u ≤ u ∧ u - c.eps * max 1 |u| ≤ upEdge c u := by
  have he := hc.eps
  have h1 := le_max_left 1 |u|
  have h2 := le_max_right 1 |u|
  unfold upEdge
  by_cases h0 : u = 0
  · subst h0
    simp
    linarith
  · rw [if_neg h0]
    by_cases h : 0 ≤ u
    · rw [if_pos h]
      rw [abs_of_nonneg h] at h1 h2 ⊢
      constructor <;> nlinarith
    · rw [if_neg h]
      push Not at h
      rw [abs_of_neg h] at h1 h2 ⊢
      constructor <;> nlinarith

theorem lower_edge (c : Cfg) (hc : c.Ok) (l : ℝ) : l ≤ lowEdge c l ∧ lowEdge c l ≤ l + c.eps * max 1 |l| := by
  have he := hc.eps
  have h1 := le_max_left 1 |l|
  have h2 := le_max_right 1 |l|
  unfold lowEdge
  by_cases h0 : l = 0
  · subst h0
    simp
    linarith
  · rw [if_neg h0]
    by_cases h : 0 ≤ l
    · rw [if_pos h]
      rw [abs_of_nonneg h] at h1 h2 ⊢
      constructor <;> nlinarith
    · rw [if_neg h]
      push Not at h
      rw [abs_of_neg h] at h1 h2 ⊢
      constructor <;> nlinarith

theorem snapUp_le (c : Cfg) (hc : c.Ok) (w u : ℝ) : snapUp c w (some u) ≤ u := by
  unfold snapUp
  dsimp only
  split_ifs with h
  · exact le_rfl
  · push Not at h
    exact h.le.trans (upper_edge c hc u).1

theorem snapLow_ge (c : Cfg) (hc : c.Ok) (w l : ℝ) : l ≤ snapLow c w (some l) := by
  unfold snapLow
  dsimp only
  split_ifs with h
  · exact le_rfl
  · push Not at h
    exact (lower_edge c hc l).1.trans h.le

theorem snapLow_cases (c : Cfg) (w : ℝ) (l : Option ℝ) : snapLow c w l = w ∨ some (snapLow c w l) = l := by
  cases l with
  | none => exact Or.inl rfl
  | some l =>
    unfold snapLow
    dsimp only
    split_ifs
    · exact Or.inr rfl
    · exact Or.inl rfl

/-- The corrected values are within the limits. -/
theorem snap_spec (c : Cfg) (hc : c.Ok) (P : Prob) (B : Info) (hB : B.Consistent P) (w : Vec) : B.InX P (snap c P B w) := by
  intro j hj
  unfold snap
  refine ⟨fun l hl => ?_, fun u hu => ?_⟩
  · rw [hl]
    exact snapLow_ge c hc _ l
  · rcases snapLow_cases c (snapUp c (w j) (B.upper (P.ifree j))) (B.lower (P.ifree j)) with h | h
    · rw [h, hu]
      exact snapUp_le c hc _ u
    · exact (hB j hj _ u h.symm hu).le

theorem anyLim_none {B : Info} {P : Prob} (h : ¬ B.anyLim P) (j : ℕ) (hj : j < P.n) :
    B.upper (P.ifree j) = none ∧ B.lower (P.ifree j) = none := by
  unfold Info.anyLim at h
  push Not at h
  obtain ⟨h1, h2⟩ := h j hj
  exact ⟨by simpa using h1, by simpa using h2⟩

/-- Every trial is within the limits. -/
theorem move_inside (c : Cfg) (hc : c.Ok) (P : Prob) (B : Info) (hB : B.Consistent P) (x p : Vec) (v : Move)
    (h : move c P B x p = some v) : B.InX P v.wa2 := by
  unfold move at h
  by_cases h0 : ¬ B.anyLim P ∧ ¬ B.anyMax P
  · rw [if_pos h0] at h
    intro j hj
    obtain ⟨e1, e2⟩ := anyLim_none h0.1 j hj
    rw [e1, e2]
    simp
  · rw [if_neg h0] at h
    dsimp only at h
    rw [Option.map_eq_some_iff] at h
    obtain ⟨a, -, rfl⟩ := h
    exact snap_spec c hc P B hB _

/-! ## The invariant -/

/-- Where the free parameters are. -/
def St.x : St → Vec
  | .outer o => o.x
  | .inner s => s.o.x
  | .done e => e.x

/-- An accepted trial has a smaller sum of squares. -/
theorem accepted_lowerL (P : Prob) (s : Inner) (lm : Lm) (v : Move) (hf : 0 < s.o.fnorm) (h : 0.0001 ≤ (evalTrial P s lm v).ratio) :
    (evalTrial P s lm v).fnorm1 < s.o.fnorm := by
  set t := evalTrial P s lm v with ht
  have hr : t.ratio = ratioOf t.actred t.prered := rfl
  have hp : 0 ≤ t.prered := prered_nonneg _ _ _ _
  have ha : t.actred = actredOf s.o.fnorm t.fnorm1 := rfl
  have hn : 0 ≤ t.fnorm1 := nrm_nonneg _ _ _
  rw [hr] at h
  unfold ratioOf at h
  split_ifs at h with h0
  · have hpp : 0 < t.prered := lt_of_le_of_ne hp (Ne.symm h0)
    have hpos : 0 < t.actred := by
      by_contra hneg
      push Not at hneg
      have : t.actred / t.prered ≤ 0 := div_nonpos_of_nonpos_of_nonneg hneg hp
      norm_num at h
      linarith
    rw [ha] at hpos
    unfold actredOf at hpos
    split_ifs at hpos with h1
    · have h2 : (t.fnorm1 / s.o.fnorm) ^ 2 < 1 := by linarith
      have h3 : t.fnorm1 / s.o.fnorm < 1 := by
        by_contra h4
        push Not at h4
        nlinarith
      rwa [div_lt_one hf] at h3
    · linarith
  · norm_num at h

theorem after_invL (P : Prob) (hP : P.Ok) (s : Inner) (lm : Lm) (v : Move) (h : OInv P s.o) (hf : 0 < s.o.fnorm) :
    OInv P (afterTrial P s (evalTrial P s lm v)) := by
  have hp := scatter_full P hP (evalTrial P s lm v).wa2 s.o.params h.fixed
  unfold afterTrial
  dsimp only
  rw [hp]
  split_ifs with hr
  · have h4 : (evalTrial P s lm v).wa4 = P.f (P.full (evalTrial P s lm v).wa2) := by
      change P.f (scatter P.n P.ifree (evalTrial P s lm v).wa2 s.o.params) = _
      rw [hp]
    have h5 : (evalTrial P s lm v).fnorm1 = nrm 0 P.m (evalTrial P s lm v).wa4 := rfl
    refine ⟨full_fixed P hP _, h4, ?_, ?_⟩
    · dsimp only
      rw [h5, h4]; rfl
    · dsimp only
      exact (accepted_lowerL P s lm v hf hr).le.trans h.better
  · exact ⟨full_fixed P hP _, h.fvec, h.fnorm, h.better⟩

theorem after_x (P : Prob) (s : Inner) (t : Trial) : (afterTrial P s t).x = t.wa2 ∨ (afterTrial P s t).x = s.o.x := by
  unfold afterTrial
  dsimp only
  split_ifs
  · exact Or.inl rfl
  · exact Or.inr rfl

theorem headL_x (c : Cfg) (P : Prob) (B : Info) (o : Outer) : (headL c P B o).x = o.x := by
  unfold headL
  dsimp only
  split_ifs <;> rfl

theorem stepL_inv (c : Cfg) (hc : c.Ok) (P : Prob) (hP : P.Ok) (B : Info) (hB : B.Consistent P) (s s' : St) (h : SInv P s)
    (hx : B.InX P s.x) (hs : stepL c P B s = some s') : SInv P s' ∧ B.InX P s'.x := by
  match s with
  | .outer o =>
    have h : OInv P o := h
    have hp := scatter_full P hP o.x o.params h.fixed
    obtain rfl := Option.some.inj hs
    refine ⟨?_, by rw [headL_x]; exact hx⟩
    unfold headL
    dsimp only
    rw [hp]
    split_ifs with h1 h2
    · exact ⟨full_fixed P hP _, h.fnorm ▸ h.better⟩
    · exact ⟨full_fixed P hP _, h.fnorm ▸ h.better⟩
    · refine ⟨⟨full_fixed P hP _, h.fvec, h.fnorm, h.better⟩, ?_⟩
      dsimp only
      have h0 : 0 ≤ o.fnorm := by rw [h.fnorm]; exact nrm_nonneg _ _ _
      refine lt_of_le_of_ne h0 fun he => h1 ?_
      rw [← he, gnorm_zero]
      exact hc.gtol.le
  | .inner s =>
    obtain ⟨h, hf⟩ : OInv P s.o ∧ 0 < s.o.fnorm := h
    have hs : trialL c P B s = some s' := hs
    unfold trialL at hs
    rw [Option.map_eq_some_iff] at hs
    obtain ⟨v, hv, hs⟩ := hs
    have hin := move_inside c hc P B hB _ _ v hv
    have ho := after_invL P hP s (lmOf c P s) v h hf
    have hxo : B.InX P (afterTrial P s (evalTrial P s (lmOf c P s) v)).x := by
      rcases after_x P s (evalTrial P s (lmOf c P s) v) with e | e
      · rw [e]; exact hin
      · rw [e]; exact hx
    dsimp only at hs
    split_ifs at hs with h1 h2
    · subst hs; exact ⟨⟨ho.fixed, ho.fnorm ▸ ho.better⟩, hxo⟩
    · subst hs; exact ⟨ho, hxo⟩
    · subst hs
      refine ⟨⟨ho, ?_⟩, hxo⟩
      dsimp only
      unfold afterTrial
      rw [if_neg h2]
      exact hf
  | .done e =>
    obtain rfl := Option.some.inj hs
    exact ⟨h, hx⟩

theorem runL_inv (c : Cfg) (hc : c.Ok) (P : Prob) (hP : P.Ok) (B : Info) (h0 : B.Inside P.npar P.p0) (hB : B.Consistent P) (k : ℕ) (s : St)
    (h : runL c P B k = some s) : SInv P s ∧ B.InX P s.x := by
  induction k generalizing s with
  | zero =>
    obtain rfl := Option.some.inj h
    exact ⟨start_inv P hP, inX_start B P hP h0⟩
  | succ k ih =>
    unfold runL at h
    rw [Option.bind_eq_some_iff] at h
    obtain ⟨s0, h1, h2⟩ := h
    obtain ⟨i1, i2⟩ := ih s0 h1
    exact stepL_inv c hc P hP B hB s0 s i1 i2 h2

/-- The cases of an end. -/
theorem endsL_cases (c : Cfg) (P : Prob) (B : Info) (r : Fit) (h : EndsL c P B r) :
    (P.n = 0 ∧ r = ⟨0, none, -1, none, none, 0⟩) ∨
      (0 < P.n ∧ (¬ B.Inside P.npar P.p0 ∨ ¬ B.Consistent P ∨ P.m < P.n) ∧ r = ⟨0, some P.p0, -1, none, none, 0⟩) ∨
      (0 < P.n ∧ P.n ≤ P.m ∧ B.Inside P.npar P.p0 ∧ B.Consistent P ∧ ∃ k e, runL c P B k = some (.done e) ∧ r = finish P e) := by
  unfold EndsL at h
  by_cases h0 : P.n = 0
  · rw [if_pos h0] at h; exact Or.inl ⟨h0, h⟩
  · rw [if_neg h0] at h
    by_cases h2 : ¬ B.Inside P.npar P.p0 ∨ ¬ B.Consistent P
    · rw [if_pos h2] at h
      exact Or.inr (Or.inl ⟨by omega, by tauto, h⟩)
    · rw [if_neg h2] at h
      push Not at h2
      by_cases h1 : P.m < P.n
      · rw [if_pos h1] at h; exact Or.inr (Or.inl ⟨by omega, by tauto, h⟩)
      · rw [if_neg h1] at h; exact Or.inr (Or.inr ⟨by omega, by omega, h2.1, h2.2, h⟩)

/-! ## The properties -/

/-- Within the limits, for the reader: every limit of every parameter, also of one that is held fixed. -/
def Within (lower upper : ℕ → Option ℝ) (k : ℕ) (p : Vec) : Prop :=
  ∀ a < k, (∀ l, lower a = some l → l ≤ p a) ∧ ∀ u, upper a = some u → p a ≤ u

/-- A fit from a start within the limits returns parameters within the limits, at least as good as the start; parameters that are not free keep their value. -/
theorem fit_within_limits (c : Cfg) (hc : c.Ok) (P : Prob) (hP : P.Ok) (B : Info) (h0 : Within B.lower B.upper P.npar P.p0) (r : Fit)
    (h : EndsL c P B r) (p : Vec) (hp : r.params = some p) :
    Within B.lower B.upper P.npar p ∧ P.chi2 p ≤ P.chi2 P.p0 ∧ ∀ a, (∀ j < P.n, P.ifree j ≠ a) → p a = P.p0 a := by
  rcases endsL_cases c P B r h with ⟨-, rfl⟩ | ⟨-, -, rfl⟩ | ⟨-, -, h1, h2, k, e, hk, rfl⟩
  · simp at hp
  · simp only [Option.some.injEq] at hp
    subst hp
    exact ⟨h0, le_rfl, fun _ _ => rfl⟩
  · obtain ⟨i1, i2⟩ := runL_inv c hc P hP B h1 h2 k _ hk
    have : (finish P e).params = some (P.full e.x) := by
      unfold finish
      dsimp only
      rw [scatter_full P hP e.x e.params i1.1]
    rw [this] at hp
    simp only [Option.some.injEq] at hp
    subst hp
    exact ⟨inside_full B P hP h1 _ i2, (norm_le_iff P _ _).mp i1.2, full_fixed P hP _⟩

/-- A start outside the limits, or an empty range for a free parameter, is reported: status 0, nothing fitted. -/
theorem limits_checked (c : Cfg) (P : Prob) (B : Info) (hn : 0 < P.n)
    (h0 : ¬ Within B.lower B.upper P.npar P.p0 ∨ ∃ j < P.n, ∃ l u, B.lower (P.ifree j) = some l ∧ B.upper (P.ifree j) = some u ∧ u ≤ l) (r : Fit) :
    EndsL c P B r ↔ r = ⟨0, some P.p0, -1, none, none, 0⟩ := by
  unfold EndsL
  rw [if_neg (by omega), if_pos]
  rcases h0 with h0 | ⟨j, hj, l, u, e1, e2, hlu⟩
  · exact Or.inl h0
  · exact Or.inr fun hB => absurd (hB j hj l u e1 e2) (by linarith)

/-- The points at which the residuals are evaluated to try a step. -/
def Tries (c : Cfg) (P : Prob) (B : Info) (p : Vec) : Prop :=
  ∃ k s v, runL c P B k = some (.inner s) ∧ move c P B s.o.x (fun j => -(lmOf c P s).x j) = some v ∧ p = scatter P.n P.ifree v.wa2 s.o.params

/-- The points at which the residuals are evaluated for the derivatives. -/
def Probes (c : Cfg) (P : Prob) (B : Info) (p : Vec) : Prop :=
  ∃ k o, runL c P B k = some (.outer o) ∧ ∃ j < P.n,
    let q := scatter P.n P.ifree o.x o.params
    p = Function.update q (P.ifree j) (q (P.ifree j) + B.diff c P o.x j) ∨
      1 < |B.side (P.ifree j)| ∧ p = Function.update q (P.ifree j) (q (P.ifree j) - B.diff c P o.x j)

/-- Steps are tried within the limits only. -/
theorem tries_within (c : Cfg) (hc : c.Ok) (P : Prob) (hP : P.Ok) (B : Info) (h0 : Within B.lower B.upper P.npar P.p0) (hB : B.Consistent P) (p : Vec)
    (h : Tries c P B p) : Within B.lower B.upper P.npar p := by
  obtain ⟨k, s, v, hk, hv, rfl⟩ := h
  obtain ⟨i1, i2⟩ := runL_inv c hc P hP B h0 hB k _ hk
  rw [scatter_full P hP _ _ i1.1.fixed]
  exact inside_full B P hP h0 _ (move_inside c hc P B hB _ _ v hv)

theorem size_pos (c : Cfg) (hc : c.Ok) (P : Prob) (B : Info) (x : Vec) (j : ℕ) : 0 < B.size c P x j := by
  have he : 0 < Real.sqrt c.eps := Real.sqrt_pos.mpr hc.eps
  unfold Info.size
  dsimp only
  generalize hh : (if 0 < B.relstep (P.ifree j) then |B.relstep (P.ifree j) * x j|
    else if 0 < B.step (P.ifree j) then B.step (P.ifree j) else Real.sqrt c.eps * |x j|) = h2
  have h0 : 0 ≤ h2 := by
    rw [← hh]
    split_ifs with h1 h3
    · exact abs_nonneg _
    · exact h3.le
    · exact mul_nonneg he.le (abs_nonneg _)
  by_cases h : h2 = 0
  · rw [if_pos h]; exact he
  · rw [if_neg h]; exact lt_of_le_of_ne h0 (Ne.symm h)

/-- One-sided forward derivatives stay within the limits if the range of every parameter is at least two steps wide. Not in general: `probe_outside`. -/
theorem probes_within_partial (c : Cfg) (hc : c.Ok) (P : Prob) (hP : P.Ok) (B : Info) (h0 : Within B.lower B.upper P.npar P.p0) (hB : B.Consistent P)
    (hside : ∀ j < P.n, B.side (P.ifree j) = 0 ∨ B.side (P.ifree j) = 1)
    (hwide : ∀ j < P.n, ∀ l u, B.lower (P.ifree j) = some l → B.upper (P.ifree j) = some u → ∀ x : Vec, l ≤ x j → x j ≤ u → 2 * B.size c P x j ≤ u - l)
    (p : Vec) (h : Probes c P B p) : Within B.lower B.upper P.npar p := by
  obtain ⟨k, o, hk, j, hj, hp⟩ := h
  obtain ⟨i1, i2⟩ := runL_inv c hc P hP B h0 hB k _ hk
  have i1 : OInv P o := i1
  have i2 : B.InX P o.x := i2
  dsimp only at hp
  rw [scatter_full P hP _ _ i1.fixed] at hp
  have hin := inside_full B P hP h0 _ i2
  have hfa : P.full o.x (P.ifree j) = o.x j := full_apply P hP _ j hj
  have hs := size_pos c hc P B o.x j
  have hp : p = Function.update (P.full o.x) (P.ifree j) (o.x j + B.diff c P o.x j) := by
    rcases hp with hp | ⟨h1, -⟩
    · rw [hp, hfa]
    · rcases hside j hj with e | e <;> rw [e] at h1 <;> simp at h1
  subst hp
  intro a ha
  by_cases e : a = P.ifree j
  · subst e
    rw [Function.update_self]
    obtain ⟨x1, x2⟩ := i2 j hj
    unfold Info.diff
    have hne : B.side (P.ifree j) ≠ -1 := by rcases hside j hj with e | e <;> rw [e] <;> decide
    by_cases hd : B.side (P.ifree j) = -1 ∨ ∃ u, B.upper (P.ifree j) = some u ∧ u - B.size c P o.x j < o.x j
    · rw [if_pos hd]
      obtain ⟨u, hu, hlt⟩ := hd.resolve_left hne
      refine ⟨fun l hl => ?_, fun u' hu' => ?_⟩
      · have := hwide j hj l u hl hu o.x (x1 l hl) (x2 u hu)
        linarith
      · linarith [x2 u' hu']
    · rw [if_neg hd]
      push Not at hd
      exact ⟨fun l hl => by linarith [x1 l hl], fun u hu => by linarith [hd.2 u hu]⟩
  · rw [Function.update_of_ne e]
    exact hin a ha

/-- Two-sided derivatives and backward derivatives of a parameter that starts at its lower limit (without an upper one) are evaluated below the limit. -/
theorem probe_outside (c : Cfg) (hc : c.Ok) (P : Prob) (hP : P.Ok) (B : Info) (j : ℕ) (hj : j < P.n) (hl : B.lower (P.ifree j) = some (P.p0 (P.ifree j)))
    (hu : B.upper (P.ifree j) = none) (hs : 1 < B.side (P.ifree j) ∨ B.side (P.ifree j) = -1) :
    ∃ p, Probes c P B p ∧ ¬ Within B.lower B.upper P.npar p := by
  have hpos := size_pos c hc P B (fun j => P.p0 (P.ifree j)) j
  have hnu : ¬ ∃ u, B.upper (P.ifree j) = some u ∧ u - B.size c P (fun j => P.p0 (P.ifree j)) j < P.p0 (P.ifree j) := by
    rintro ⟨u, h, -⟩; rw [hu] at h; cases h
  have hfull : scatter P.n P.ifree (fun j => P.p0 (P.ifree j)) P.p0 = P.p0 := full_p0 P hP
  refine ⟨Function.update P.p0 (P.ifree j) (P.p0 (P.ifree j) - B.size c P (fun j => P.p0 (P.ifree j)) j), ⟨0, _, rfl, j, hj, ?_⟩, ?_⟩
  · dsimp only
    rw [hfull]
    unfold Info.diff
    rcases hs with hs | hs
    · right
      rw [if_neg (by rintro (e | e); · omega
                     · exact hnu e)]
      exact ⟨lt_of_lt_of_le hs (le_abs_self _), rfl⟩
    · left
      rw [if_pos (Or.inl hs)]
      rfl
  · intro h
    have := (h (P.ifree j) (hP.lt j hj)).1 _ hl
    rw [Function.update_self] at this
    linarith

/-! ## Without limits -/

theorem diff_none (c : Cfg) (P : Prob) (x : Vec) (j : ℕ) : Info.none.diff c P x j = stepOf c.eps (x j) := by
  unfold Info.diff Info.size stepOf Info.none
  simp

theorem fdjacL_none (c : Cfg) (P : Prob) (params x fvec : Vec) : fdjacL c P Info.none params x fvec = fdjac c P params x fvec := by
  funext i j
  unfold fdjacL fdjac
  dsimp only
  rw [diff_none c, if_pos (by simp [Info.none])]

theorem anyLim_Info_none (P : Prob) : ¬ Info.none.anyLim P := by
  rintro ⟨j, -, h⟩
  simp [Info.none] at h

theorem anyMax_Info_none (P : Prob) : ¬ Info.none.anyMax P := by
  rintro ⟨j, -, h⟩
  simp [Info.none] at h

theorem stepL_none (c : Cfg) (P : Prob) (s : St) : stepL c P Info.none s = some (step c P s) := by
  match s with
  | .outer o =>
    unfold stepL step headL head
    simp only [jacOf, if_neg (anyLim_Info_none P), fdjacL_none c]
  | .inner s =>
    have ht : evalTrial P s (lmOf c P s) ⟨fun j => -(lmOf c P s).x j, 1, fun j => s.o.x j + -(lmOf c P s).x j⟩ = trialOf c P s := by
      unfold evalTrial trialOf lmOf
      simp only [one_mul]
    change trialL c P Info.none s = some (trial c P s)
    unfold trialL move
    rw [if_pos ⟨anyLim_Info_none P, anyMax_Info_none P⟩, Option.map_some, ht]
    rfl
  | .done e => rfl

theorem runL_none (c : Cfg) (P : Prob) (k : ℕ) : runL c P Info.none k = some (runFor c P k) := by
  induction k with
  | zero => rfl
  | succ k ih =>
    unfold runL
    rw [ih, Option.bind_some, stepL_none c]
    unfold runFor
    rw [Function.iterate_succ_apply']

/-- Without entries in `parinfo` the fit is the one of `Verif.Mpfit.Loop`. -/
theorem ends_without_limits (c : Cfg) (P : Prob) (r : Fit) : EndsL c P Info.none r ↔ Ends c P r := by
  unfold EndsL Ends
  by_cases h0 : P.n = 0
  · rw [if_pos h0, if_pos h0]
  · rw [if_neg h0, if_neg h0, if_neg]
    · by_cases h1 : P.m < P.n
      · rw [if_pos h1, if_pos h1]
      · rw [if_neg h1, if_neg h1]
        simp only [runL_none c, Option.some.injEq]
    · push Not
      exact ⟨fun a _ => by simp [Info.none], fun j _ l u h => by simp [Info.none] at h⟩

end Verif.Mpfit
