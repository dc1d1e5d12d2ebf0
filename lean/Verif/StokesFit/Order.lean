import Verif.StokesFit.Basic

/-!
# The order chosen for a Stokes I model (C163)
-/

namespace Verif.StokesFit

open Verif.NumPy Verif.StokesI Verif.Mpfit Finset

variable {n : ℕ}

/-- The AIC of a fit of order `k`: twice the number of coefficients plus chi-squared. -/
noncomputable def aicOf (k : ℕ) (r : Fit) : ℝ := 2 * ((k : ℝ) + 1) + r.fnorm

/-- The search from order `cur` on, when order `cur - 1` is the best so far. -/
theorem searchFit_spec (mp : ℕ → Option Fit) (fuel cur : ℕ) (best : Fit) (out : ℕ × ℝ × Fit)
    (hb : mp cur = some best) (h : searchFit mp fuel (cur + 1) (aicOf cur best) best = some out) :
    ∃ o, out.1 = o + 1 ∧ cur ≤ o ∧ o ≤ cur + fuel ∧ mp o = some out.2.2 ∧ out.2.1 = aicOf o out.2.2 ∧
      (∀ k, cur ≤ k → k < o → ∃ f g, mp k = some f ∧ mp (k + 1) = some g ∧ aicOf (k + 1) g < aicOf k f) ∧
      (o < cur + fuel → ∃ g, mp (o + 1) = some g ∧ out.2.1 ≤ aicOf (o + 1) g) := by
  induction fuel generalizing cur best with
  | zero =>
    unfold searchFit at h
    rw [Option.some.injEq] at h
    subst h
    exact ⟨cur, rfl, le_rfl, le_rfl, hb, rfl, fun k h1 h2 => by omega, fun h => by omega⟩
  | succ fuel ih =>
    unfold searchFit at h
    cases hn : mp (cur + 1) with
    | none => rw [hn] at h; exact absurd h (by simp)
    | some new =>
      rw [hn, Option.bind_some] at h
      dsimp only at h
      by_cases hlt : 2 * (((cur + 1 : ℕ) : ℝ) + 1) + new.fnorm < aicOf cur best
      · rw [if_pos hlt] at h
        obtain ⟨o, h1, h2, h3, h4, h5, h6, h7⟩ := ih (cur + 1) new hn h
        refine ⟨o, h1, by omega, by omega, h4, h5, ?_, fun ho => h7 (by omega)⟩
        intro k hk1 hk2
        rcases Nat.lt_or_ge cur k with hk | hk
        · exact h6 k hk hk2
        · have : k = cur := by omega
          subst this
          exact ⟨best, new, hb, hn, hlt⟩
      · rw [if_neg hlt, Option.some.injEq] at h
        subst h
        exact ⟨cur, rfl, le_rfl, by omega, hb, rfl, fun k h1 h2 => by omega, fun _ => ⟨new, hn, not_lt.mp hlt⟩⟩

theorem choose_spec (mp : ℕ → Option Fit) (N : ℕ) (hN : 0 < N) (out : ℤ × ℝ × Fit) (h : choose mp (-N) = some out) :
    ∃ o : ℕ, out.1 = o ∧ o ≤ N ∧ mp o = some out.2.2 ∧ out.2.1 = aicOf o out.2.2 ∧
      (∀ k < o, ∃ f g, mp k = some f ∧ mp (k + 1) = some g ∧ aicOf (k + 1) g < aicOf k f) ∧
      (o < N → ∃ g, mp (o + 1) = some g ∧ out.2.1 ≤ aicOf (o + 1) g) := by
  unfold choose at h
  rw [if_pos (by omega)] at h
  cases hm : mp 0 with
  | none => rw [hm] at h; exact absurd h (by simp)
  | some first =>
    rw [hm, Option.bind_some] at h
    have e : (-(N : ℤ)).natAbs = N := by simp
    have e2 : (2 : ℝ) + first.fnorm = aicOf 0 first := by unfold aicOf; simp
    rw [e, e2] at h
    cases hs : searchFit mp N 1 (aicOf 0 first) first with
    | none => rw [hs] at h; exact absurd h (by simp)
    | some v =>
      rw [hs, Option.map_some, Option.some.injEq] at h
      obtain ⟨o, h1, -, h3, h4, h5, h6, h7⟩ := searchFit_spec mp N 0 first v hm hs
      rw [← h]
      refine ⟨o, ?_, by omega, h4, h5, fun k hk => h6 k (Nat.zero_le _) hk, fun ho => h7 (by omega)⟩
      dsimp only
      rw [h1]
      push_cast
      ring

/-- Above order five the fitter is asked for order five again. -/
theorem polyProb_high (fn : FitFun) (k : ℕ) (hk : 5 ≤ k) (d : Spec) : polyProb fn k d = polyProb fn 5 d := by
  unfold polyProb
  have : min ((k : ℕ) : ℤ).natAbs 5 = min (5 : ℤ).natAbs 5 := by
    rw [Int.natAbs_natCast]
    simp [hk]
  rw [this]

/-- C163. With a negative order `-N` the result of `fit_StokesI_model` is the fit of an order `o ≤ N`, at most
five, with its own parameters, chi-squared and AIC. The AIC falls strictly from order to order up to
`o`, so `o` is the best order up to itself, and the next order, if it is allowed, is not better. -/
theorem dynamic_order (w : Raw n) (c : Cfg) (N : ℕ) (hN : 0 < N) (hpo : w.polyOrd = -N) (r : FitResult)
    (cov : Bool) (h : w.fitStokes c = some (.fit r cov)) :
    ∃ (o : ℕ) (F : ℕ → Fit), r.polyOrd = o ∧ o ≤ N ∧ o ≤ 5 ∧
      (∀ k ≤ o, Ends c (polyProb w.fn k w.spec) (F k)) ∧
      r.chiSq = (F o).fnorm ∧ r.aic = 2 * ((o : ℝ) + 1) + r.chiSq ∧
      (∀ p, (F o).params = some p → ∀ a : Fin 6, r.params a = p a) ∧
      (∀ k < o, 2 * ((o : ℝ) + 1) + (F o).fnorm < 2 * ((k : ℝ) + 1) + (F k).fnorm) ∧
      (∀ k < o, 2 * ((k : ℝ) + 2) + (F (k + 1)).fnorm < 2 * ((k : ℝ) + 1) + (F k).fnorm) ∧
      (o < N → ∃ g, Ends c (polyProb w.fn ((o + 1 : ℕ) : ℤ) w.spec) g ∧ r.aic ≤ 2 * ((o : ℝ) + 2) + g.fnorm) := by
  unfold Raw.fitStokes at h
  cases hch : choose (w.poly c) w.polyOrd with
  | none => rw [hch] at h; exact absurd h (by simp)
  | some s =>
    rw [hch, Option.map_some, Option.some.injEq] at h
    have hr : r = resultOf n w.ref w.fn s := by
      split_ifs at h
      cases h
      rfl
    rw [hpo] at hch
    obtain ⟨o, h1, h2, h3, h4, h5, h6⟩ := choose_spec (w.poly c) N hN s hch
    have hall : ∀ k ≤ o, ∃ f, w.poly c k = some f := by
      intro k hk
      rcases Nat.lt_or_ge k o with hk' | hk'
      · obtain ⟨f, -, hf, -⟩ := h5 k hk'
        exact ⟨f, hf⟩
      · have : k = o := by omega
        exact ⟨_, this ▸ h3⟩
    set F : ℕ → Fit := fun k => (w.poly c k).getD s.2.2 with hF
    have hFe : ∀ k ≤ o, w.poly c k = some (F k) := by
      intro k hk
      obtain ⟨f, hf⟩ := hall k hk
      rw [hF]; dsimp only; rw [hf]; rfl
    have hFo : F o = s.2.2 := by rw [hF]; dsimp only; rw [h3]; rfl
    have hstep : ∀ k < o, 2 * ((k : ℝ) + 2) + (F (k + 1)).fnorm < 2 * ((k : ℝ) + 1) + (F k).fnorm := by
      intro k hk
      obtain ⟨f, g, hf, hg, hfg⟩ := h5 k hk
      rw [hFe k hk.le, Option.some.injEq] at hf
      rw [hFe (k + 1) hk, Option.some.injEq] at hg
      rw [← hf, ← hg] at hfg
      unfold aicOf at hfg
      push_cast at hfg
      linarith
    have haic : r.aic = 2 * ((o : ℝ) + 1) + (F o).fnorm := by
      rw [hr, hFo]; exact h4
    refine ⟨o, F, by rw [hr]; exact h1, h2, ?_, fun k hk => poly_ends w c _ _ (hFe k hk), ?_, ?_, ?_, ?_, hstep, ?_⟩
    · by_contra h5'
      have h6' := hstep 5 (by omega)
      have e1 := hFe 6 (by omega)
      have e2 := hFe 5 (by omega)
      unfold Raw.poly at e1 e2
      rw [polyProb_high w.fn 6 (by omega)] at e1
      have e3 : some (F 6) = some (F 5) := e1.symm.trans e2
      rw [Option.some.injEq] at e3
      rw [show (5 + 1 : ℕ) = 6 from rfl, e3] at h6'
      linarith
    · rw [hr, hFo]; rfl
    · rw [haic, hr, hFo]; rfl
    · intro p hp a
      rw [hFo] at hp
      rw [hr]
      unfold resultOf
      dsimp only
      rw [hp]
      rfl
    · intro k hk
      have : ∀ d, k + d + 1 ≤ o → 2 * (((k + d + 1 : ℕ) : ℝ) + 1) + (F (k + d + 1)).fnorm < 2 * ((k : ℝ) + 1) + (F k).fnorm := by
        intro d
        induction d with
        | zero =>
          intro hd
          have := hstep k (by omega)
          push_cast
          rw [Nat.add_zero]
          linarith
        | succ d ih =>
          intro hd
          have h1 := ih (by omega)
          have h2 := hstep (k + d + 1) (by omega)
          push_cast at h1 h2 ⊢
          rw [show k + (d + 1) + 1 = k + d + 1 + 1 by omega]
          linarith
      have := this (o - k - 1) (by omega)
      rwa [show k + (o - k - 1) + 1 = o by omega] at this
    · intro ho
      obtain ⟨g, hg1, hg2⟩ := h6 ho
      refine ⟨g, poly_ends w c _ _ hg1, ?_⟩
      have : r.aic = s.2.1 := by rw [hr]; rfl
      rw [this]
      unfold aicOf at hg2
      push_cast at hg2
      linarith

/-- C163, third part. Coefficients are added only while the fit is poor: every order that was given up for the
next one had a chi-squared above one. -/
theorem dynamic_order_parsimony (w : Raw n) (c : Cfg) (N : ℕ) (hN : 0 < N) (hpo : w.polyOrd = -N) (r : FitResult)
    (cov : Bool) (h : w.fitStokes c = some (.fit r cov)) (k : ℕ) (hk : (k : ℤ) < r.polyOrd) (f : Fit)
    (hf : Ends c (polyProb w.fn k w.spec) f) : 1 < f.fnorm := by
  obtain ⟨o, F, ho, -, -, hE, -, -, -, -, hstep, -⟩ := dynamic_order w c N hN hpo r cov h
  rw [ho] at hk
  have hk' : k < o := by exact_mod_cast hk
  have h1 := hstep k hk'
  have e : f = F k := by
    have a := fitter_eq c _ _ hf
    rw [fitter_eq c _ _ (hE k hk'.le), Option.some.injEq] at a
    exact a.symm
  have h2 : -1 ≤ (F (k + 1)).fnorm := by
    have := hE (k + 1) hk'
    unfold Ends at this
    split_ifs at this with a b
    · rw [this]
    · rw [this]
    · obtain ⟨_, _, -, hfin⟩ := this
      rw [hfin]
      unfold finish
      dsimp only
      have : ∀ a : ℝ, (-1 : ℝ) ≤ a ^ 2 := fun a => by nlinarith [sq_nonneg a]
      exact this _
  rw [e]
  linarith

/-- With fewer good channels than coefficients the fitter reports a chi-squared of `-1`. -/
theorem few_fnorm (w : Raw n) (c : Cfg) (k : ℕ) (hk : k ≤ 5) (hm : w.good.length ≤ k) (f : Fit)
    (h : Ends c (polyProb w.fn k w.spec) f) : f.fnorm = -1 := by
  unfold Ends at h
  have hn : (polyProb w.fn k w.spec).n = k + 1 := by
    unfold polyProb
    dsimp only
    rw [Int.natAbs_natCast, min_eq_left hk]
  rw [if_neg (by omega), if_pos (by rw [hn]; exact Nat.lt_succ_of_le hm)] at h
  rw [h]

/-- C163, second part. The search does not go beyond the number of good channels, if the fit with as many
coefficients as good channels is an acceptable interpolation (chi-squared at most one): the result has a
covariance matrix, so that the exception of C159 does not occur. -/
theorem dynamic_order_determined (w : Raw n) (c : Cfg) (N : ℕ) (hN : 0 < N) (hpo : w.polyOrd = -N)
    (hg : w.good ≠ []) (hint : ∀ f, w.good.length ≤ 6 →
      Ends c (polyProb w.fn ((w.good.length - 1 : ℕ) : ℤ) w.spec) f → f.fnorm ≤ 1) :
    w.fitStokes c = none ∨ ∃ r, w.fitStokes c = some (.fit r true) ∧ r.polyOrd < w.good.length := by
  have hlen : 0 < w.good.length := List.length_pos_of_ne_nil hg
  cases hch : choose (w.poly c) w.polyOrd with
  | none =>
    left
    unfold Raw.fitStokes
    rw [hch]; rfl
  | some s =>
    right
    have hch' := hch
    rw [hpo] at hch'
    obtain ⟨o, h1, -, h3, -, h5, -⟩ := choose_spec (w.poly c) N hN s hch'
    have ho5 : o ≤ 5 := by
      by_contra h5'
      obtain ⟨f, g, hf, hg', hfg⟩ := h5 5 (by omega)
      have e : w.poly c (5 + 1) = w.poly c 5 := by
        unfold Raw.poly
        rw [show ((5 + 1 : ℕ) : ℤ) = ((6 : ℕ) : ℤ) from rfl, polyProb_high w.fn 6 (by omega)]
        rfl
      rw [e, hf, Option.some.injEq] at hg'
      rw [hg'] at hfg
      unfold aicOf at hfg
      push_cast at hfg
      linarith
    have hol : o < w.good.length := by
      by_contra hge
      obtain ⟨f, g, hf, hg', hfg⟩ := h5 (w.good.length - 1) (by omega)
      have h6 := hint f (by omega) (poly_ends w c _ _ hf)
      have e : w.good.length - 1 + 1 = w.good.length := by omega
      rw [e] at hg' hfg
      have h7 := few_fnorm w c w.good.length (by omega) le_rfl g (poly_ends w c _ _ hg')
      unfold aicOf at hfg
      rw [h7] at hfg
      have : ((w.good.length - 1 : ℕ) : ℝ) = (w.good.length : ℝ) - 1 := by
        rw [Nat.cast_sub hlen]; simp
      rw [this] at hfg
      linarith
    have hcov : s.2.2.covar.isSome = true := by
      have he := poly_ends w c _ _ h3
      unfold Ends at he
      have hn : (polyProb w.fn o w.spec).n = o + 1 := by
        unfold polyProb
        dsimp only
        rw [Int.natAbs_natCast, min_eq_left ho5]
      have hm : (polyProb w.fn o w.spec).m = w.good.length := rfl
      rw [if_neg (by omega), if_neg (by omega)] at he
      obtain ⟨k, e, -, hfin⟩ := he
      rw [hfin]
      rfl
    refine ⟨resultOf n w.ref w.fn s, ?_, ?_⟩
    · unfold Raw.fitStokes
      rw [hch, Option.map_some]
      rw [if_neg, if_neg hg, hcov]
      rintro ⟨h, -⟩
      rw [Option.isNone_iff_eq_none] at h
      rw [h] at hcov
      exact absurd hcov (by simp)
    · change s.1 < _
      rw [h1]
      exact_mod_cast hol

end Verif.StokesFit
