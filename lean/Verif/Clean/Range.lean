import Verif.Clean.Continue

/-!
# C281: RM-CLEAN and the range of Faraday depths

Source: `/repo/RMutils/util_RM.py` 472-779. The model is that of `Clean/Model` and `Clean/Hogbom`; here is nothing new of the code.
-/

open Complex

namespace Verif.Clean

open Verif.NumPy

variable {N N' N2 N2' m : ℕ} [NeZero N] [NeZero N'] [NeZero N2] [NeZero N2']

theorem loop1_add (P : Params N N2) (a b : ℕ) (s : State N) : loop1 P (a + b) s = loop1 P b (loop1 P a s) := by
  have hstop : ∀ b (s : State N), ¬ P.cutoff ≤ npMax (fun i => ‖s.resid i‖) → loop1 P b s = s := by
    intro b s h
    cases b with
    | zero => rfl
    | succ b => unfold loop1; rw [if_neg h]
  induction a generalizing s with
  | zero => rw [Nat.zero_add]; rfl
  | succ a ih =>
    rw [Nat.succ_add]
    by_cases h : P.cutoff ≤ npMax (fun i => ‖s.resid i‖)
    · have e : ∀ n, loop1 P (n + 1) s = loop1 P n (step P s (npArgmax fun i => ‖s.resid i‖)) := fun n => by
        conv_lhs => unfold loop1
        rw [if_pos h]
      rw [e, e, ih]
    · rw [hstop _ s h, hstop _ s h, hstop _ s h]

theorem loop1_limit (P : Params N N2) (M n : ℕ) (s : State N) : loop1 (P.deeper P.cutoff M) n s = loop1 P n s := by
  induction n generalizing s with
  | zero => rfl
  | succ n ih =>
    unfold loop1
    rw [ih]
    rfl

/-- The part of a state from sample `e` on. -/
def Part (e : ℕ) (s : State N) (s' : State N') : Prop :=
  (∀ (i : Fin N) (j : Fin N'), (j : ℕ) = i + e → s'.resid j = s.resid i ∧ s'.cc j = s.cc i ∧ s'.clean j = s.clean i) ∧ s'.iter = s.iter

/-- A cleaner in a wider range: the same settings, the same depths and the same shifted RMSFs. -/
structure Wider (e : ℕ) (P : Params N N2) (P' : Params N' N2') : Prop where
  fits : N + e ≤ N'
  phi : ∀ (i : Fin N) (j : Fin N'), (j : ℕ) = i + e → P'.phi j = P.phi i
  shifted : ∀ (k i : Fin N) (k' i' : Fin N'), (k' : ℕ) = k + e → (i' : ℕ) = i + e → shifted P' k' i' = shifted P k i
  fwhm : P'.fwhm = P.fwhm
  gain : P'.gain = P.gain
  cutoff : P'.cutoff = P.cutoff

omit [NeZero N] [NeZero N'] in
theorem step_part {e : ℕ} {P : Params N N2} {P' : Params N' N2'} (h : Wider e P P') (s : State N) (s' : State N') (hs : Part e s s') (k : Fin N)
    (k' : Fin N') (hk : (k' : ℕ) = k + e) : Part e (step P s k) (step P' s' k') := by
  obtain ⟨h1, h2⟩ := hs
  refine ⟨fun i j hij => ?_, by change s'.iter + 1 = s.iter + 1; rw [h2]⟩
  obtain ⟨a, b, c⟩ := h1 i j hij
  have hCC : ((P'.gain : ℝ) : ℂ) * s'.resid k' = (P.gain : ℂ) * s.resid k := by rw [h.gain, (h1 k k' hk).1]
  unfold step
  dsimp only
  rw [hCC, a, b, c, h.shifted k i k' j hk hij, h.phi k k' hk, h.phi i j hij, h.fwhm]
  refine ⟨rfl, ?_, rfl⟩
  by_cases hik : i = k
  · rw [if_pos hik, if_pos (Fin.ext (by rw [hij, hk, hik]))]
  · rw [if_neg hik, if_neg]
    intro hjk
    have := congrArg Fin.val hjk
    exact hik (Fin.ext (by omega))

theorem loop1_part {e : ℕ} {P : Params N N2} {P' : Params N' N2'} (h : Wider e P P') (hg : P.gain ≠ 0) (hc : 0 < P.cutoff) (dirty : Fin N → ℂ)
    (dirty' : Fin N' → ℂ) (hd : ∀ (i : Fin N) (j : Fin N'), (j : ℕ) = i + e → dirty' j = dirty i) (T : ℕ)
    (hout : ∀ t, t ≤ T → ∀ j : Fin N', (∀ i : Fin N, (j : ℕ) ≠ i + e) → (loop1 P' t (start dirty')).cc j = 0) (t : ℕ) (ht : t ≤ T) :
    Part e (loop1 P t (start dirty)) (loop1 P' t (start dirty')) := by
  induction t with
  | zero =>
    refine ⟨fun i j hij => ⟨hd i j hij, rfl, rfl⟩, rfl⟩
  | succ t ih =>
    have ih := ih (by omega)
    have hout1 := hout (t + 1) ht
    have hout0 := hout t (by omega)
    rw [loop1_add P t 1, loop1_add P' t 1]
    rw [loop1_add P' t 1] at hout1
    set s := loop1 P t (start dirty)
    set s' := loop1 P' t (start dirty')
    have e1 : ∀ s : State N, loop1 P 1 s = if P.cutoff ≤ npMax (fun i => ‖s.resid i‖) then step P s (npArgmax fun i => ‖s.resid i‖) else s := fun s => rfl
    have e2 : ∀ s : State N', loop1 P' 1 s = if P'.cutoff ≤ npMax (fun i => ‖s.resid i‖) then step P' s (npArgmax fun i => ‖s.resid i‖) else s :=
      fun s => rfl
    rw [e1, e2]
    rw [e2] at hout1
    have hfit := h.fits
    -- the samples of the narrow range
    have hup : ∀ i : Fin N, ∃ j : Fin N', (j : ℕ) = i + e := fun i => ⟨⟨i + e, by omega⟩, rfl⟩
    by_cases hcut : P'.cutoff ≤ npMax (fun i => ‖s'.resid i‖)
    · rw [if_pos hcut] at hout1 ⊢
      set k' := npArgmax fun i => ‖s'.resid i‖ with hk'
      have hmax : ∀ j, ‖s'.resid j‖ ≤ ‖s'.resid k'‖ := fun j => le_npArgmax (fun i => ‖s'.resid i‖) j
      have hfirst : ∀ j, j < k' → ‖s'.resid j‖ < ‖s'.resid k'‖ := fun j hj => npArgmax_first (fun i => ‖s'.resid i‖) j hj
      have hpos : P'.cutoff ≤ ‖s'.resid k'‖ := hcut
      have hin : ∃ i : Fin N, (k' : ℕ) = i + e := by
        by_contra hno
        push Not at hno
        have := hout1 k' hno
        have e3 : (step P' s' k').cc k' = s'.cc k' + (P'.gain : ℂ) * s'.resid k' := by
          unfold step
          dsimp only
          rw [if_pos rfl]
        rw [e3, hout0 k' hno, zero_add, mul_eq_zero] at this
        rcases this with h0 | h0
        · rw [h.gain] at h0
          exact hg (Complex.ofReal_eq_zero.1 h0)
        · rw [h0, norm_zero, h.cutoff] at hpos
          linarith
      obtain ⟨k, hk⟩ := hin
      have harg : (npArgmax fun i => ‖s.resid i‖) = k := by
        rw [npArgmax_eq_iff]
        constructor
        · intro i
          obtain ⟨j, hj⟩ := hup i
          rw [← (ih.1 i j hj).1, ← (ih.1 k k' hk).1]
          exact hmax j
        · intro i hi
          obtain ⟨j, hj⟩ := hup i
          rw [← (ih.1 i j hj).1, ← (ih.1 k k' hk).1]
          refine hfirst j ?_
          have : (i : ℕ) < k := hi
          rw [Fin.lt_def]
          omega
      have hcut' : P.cutoff ≤ npMax (fun i => ‖s.resid i‖) := by
        unfold npMax
        rw [harg]
        change P.cutoff ≤ ‖s.resid k‖
        rw [← (ih.1 k k' hk).1, ← h.cutoff]
        exact hpos
      rw [if_pos hcut', harg]
      exact step_part h s s' ih k k' hk
    · have hcut' : ¬ P.cutoff ≤ npMax (fun i => ‖s.resid i‖) := by
        intro hle
        apply hcut
        obtain ⟨j, hj⟩ := hup (npArgmax fun i => ‖s.resid i‖)
        rw [h.cutoff]
        refine le_trans hle ?_
        have := le_npMax (fun i => ‖s'.resid i‖) j
        rw [(ih.1 _ j hj).1] at this
        exact this
      rw [if_neg hcut, if_neg hcut']
      exact ih

/-- RM-CLEAN of a cube in a narrower and a wider range, pixel `p`. -/
theorem clean_part (X : Cube N N2 m) (X' : Cube N' N2' m) (hw : X.window = none) (hw' : X'.window = none) (e : ℕ) (p : Fin m)
    (h : Wider e (X.params p) (X'.params p)) (hit : X'.maxIter = X.maxIter) (hN : 2 ≤ N) (hpad' : PadOk N' N2')
    (hg : X.gain ≠ 0) (hc : 0 < X.cutoff) (hnan : ∀ j, X'.dirty j p ≠ none)
    (hd : ∀ (i : Fin N) (j : Fin N'), (j : ℕ) = i + e → X'.dirty j p = X.dirty i p)
    (hout : ∀ t, t ≤ X.maxIter → ∀ rt, hogbom (X'.again X'.dirty X'.cutoff t) = some rt → ∀ j : Fin N', (∀ i : Fin N, (j : ℕ) ≠ i + e) → rt.cc j p = 0)
    (r : CubeOut N m) (r' : CubeOut N' m) (hr : hogbom X = some r) (hr' : hogbom X' = some r') :
    (∀ (i : Fin N) (j : Fin N'), (j : ℕ) = i + e → r.cc i p = r'.cc j p ∧ r.resid i p = r'.resid j p ∧ r.clean i p = r'.clean j p) ∧
      r.iterCount p = r'.iterCount p := by
  have hfit := h.fits
  have hd2 : ∀ j, X'.dirty j p = some ((X'.dirty j p).getD 0) := by
    intro j
    cases hj : X'.dirty j p with
    | none => exact absurd hj (hnan j)
    | some z => rfl
  have hd1 : ∀ i, X.dirty i p = some ((X.dirty i p).getD 0) := by
    intro i
    have := hd i ⟨i + e, by omega⟩ rfl
    rw [← this]
    exact hd2 _
  set D : Fin N → ℂ := fun i => (X.dirty i p).getD 0
  set D' : Fin N' → ℂ := fun i => (X'.dirty i p).getD 0
  have key := loop1_part h hg hc D D' (fun i j hij => by simp only [D, D']; rw [hd i j hij]) X.maxIter
    (by
      intro t ht j hj
      obtain ⟨rt, hrt⟩ := hogbom_runs (X'.again X'.dirty X'.cutoff t) (by omega) hpad'
      have h1 := hout t ht rt hrt j hj
      obtain ⟨-, h2, -, -⟩ := hogbom_stage1 (X'.again X'.dirty X'.cutoff t) hw' rt hrt p D' hd2
      rw [h2] at h1
      have h3 : stage1 ((X'.again X'.dirty X'.cutoff t).params p) D' = loop1 ((X'.params p).deeper (X'.params p).cutoff t) t (start D') := rfl
      rw [h3, loop1_limit] at h1
      exact h1)
    X.maxIter le_rfl
  obtain ⟨r1, r2, r3, r4⟩ := hogbom_stage1 X hw r hr p D hd1
  obtain ⟨s1, s2, s3, s4⟩ := hogbom_stage1 X' hw' r' hr' p D' hd2
  have e1 : stage1 (X.params p) D = loop1 (X.params p) X.maxIter (start D) := rfl
  have e2 : stage1 (X'.params p) D' = loop1 (X'.params p) X.maxIter (start D') := by
    change loop1 (X'.params p) X'.maxIter (start D') = _
    rw [hit]
  rw [e1] at r1 r2 r3 r4
  rw [e2] at s1 s2 s3 s4
  refine ⟨fun i j hij => ?_, by rw [r4, s4, key.2]⟩
  obtain ⟨a, b, c⟩ := key.1 i j hij
  rw [r1, r2, r3, s1, s2, s3, a, b, c]
  exact ⟨rfl, rfl, rfl⟩

/-- **C281**. RM-CLEAN (without the second stage) of Faraday spectra in two ranges of depths, `-c δ … c δ` and `-c' δ … c' δ` with `c ≤ c'`: the RMSFs are sampled from
the same functions (one for each pixel) on the doubled axes and are largest at depth zero, and the spectra agree in the narrower range. If the run in the wider
range, whatever its limit of iterations up to the given one, has no component outside the narrower range, then components, residuals and CLEAN spectra agree in the
narrower range, and so do the numbers of iterations. -/
theorem clean_range (X : Cube N N2 m) (X' : Cube N' N2' m) (hw : X.window = none) (hw' : X'.window = none) (c c' : ℕ) (hc1 : 1 ≤ c) (hcc : c ≤ c') (δ : ℝ)
    (hδ : δ ≠ 0) (hN : N = 2 * c + 1) (hN' : N' = 2 * c' + 1) (hphi : ∀ i, X.phi i = ((i : ℝ) - c) * δ) (hphi' : ∀ i, X'.phi i = ((i : ℝ) - c') * δ)
    (hN2 : N2 = Axis.nPhi2 N) (hN2' : N2' = Axis.nPhi2 N') (g : Fin (Axis.nPhi2 N) → ℝ) (g' : Fin (Axis.nPhi2 N') → ℝ) (hax : Axis.phi2 X.phi = some g)
    (hax' : Axis.phi2 X'.phi = some g') (R : Fin m → ℝ → ℂ) (hR : ∀ l p, X.rmsf l p = R p (g (Fin.cast hN2 l)))
    (hR' : ∀ l p, X'.rmsf l p = R p (g' (Fin.cast hN2' l))) (hpk : ∀ l p, g l ≠ 0 → (R p (g l)).re < (R p 0).re)
    (hpk' : ∀ l p, g' l ≠ 0 → (R p (g' l)).re < (R p 0).re) (hfw : X'.fwhm = X.fwhm) (hit : X'.maxIter = X.maxIter) (hga : X'.gain = X.gain)
    (hcu : X'.cutoff = X.cutoff) (hg : X.gain ≠ 0) (hc : 0 < X.cutoff)
    (hd : ∀ (i : Fin N) (j : Fin N') p, X'.phi j = X.phi i → X'.dirty j p = X.dirty i p) (p : Fin m) (hnan : ∀ j, X'.dirty j p ≠ none)
    (hout : ∀ t, t ≤ X.maxIter → ∀ rt, hogbom (X'.again X'.dirty X'.cutoff t) = some rt → ∀ j, |c * δ| < |X'.phi j| → rt.cc j p = 0) :
    ∃ r r', hogbom X = some r ∧ hogbom X' = some r' ∧
      (∀ i j, X'.phi j = X.phi i → r.cc i p = r'.cc j p ∧ r.resid i p = r'.resid j p ∧ r.clean i p = r'.clean j p) ∧
      r.iterCount p = r'.iterCount p := by
  have hpad : PadOk N N2 := by rw [hN2]; exact doubled_axis_padOk N (by omega)
  have hpad' : PadOk N' N2' := by rw [hN2']; exact doubled_axis_padOk N' (by omega)
  obtain ⟨r, hr⟩ := hogbom_runs X (by omega) hpad
  obtain ⟨r', hr'⟩ := hogbom_runs X' (by omega) hpad'
  have hat : ∀ (i : Fin N) (j : Fin N'), X'.phi j = X.phi i ↔ (j : ℕ) = i + (c' - c) := by
    intro i j
    rw [hphi, hphi', mul_left_inj' hδ]
    constructor
    · intro h
      have : (j : ℝ) + c = (i : ℝ) + c' := by linarith
      have : (j : ℕ) + c = i + c' := by exact_mod_cast this
      omega
    · intro h
      rw [h]
      push_cast [Nat.cast_sub hcc]
      ring
  have hwid : Wider (c' - c) (X.params p) (X'.params p) :=
    { fits := by omega
      phi := fun i j hij => (hat i j).2 hij
      shifted := by
        intro k i k' i' hk hi
        rw [shifted_is_rmsf c δ hN hc1 hδ X.phi hphi (X.params p) hN2 g hax (R p) (fun l => hR l p) (fun l => hpk l p),
          shifted_is_rmsf c' δ hN' (by omega) hδ X'.phi hphi' (X'.params p) hN2' g' hax' (R p) (fun l => hR' l p) (fun l => hpk' l p),
          (hat k k').2 hk, (hat i i').2 hi]
      fwhm := congrFun hfw p
      gain := hga
      cutoff := hcu }
  refine ⟨r, r', hr, hr', ?_⟩
  obtain ⟨h1, h2⟩ := clean_part X X' hw hw' (c' - c) p hwid hit (by omega) hpad' hg hc hnan (fun i j hij => hd i j p ((hat i j).2 hij))
    (by
      intro t ht rt hrt j hj
      refine hout t ht rt hrt j ?_
      rw [hphi', abs_mul, abs_mul]
      refine mul_lt_mul_of_pos_right ?_ (abs_pos.2 hδ)
      rw [Nat.abs_cast]
      by_contra hle
      rw [not_lt, abs_le] at hle
      have a1 : (c' : ℝ) ≤ (j : ℝ) + c := by linarith [hle.1]
      have a2 : (j : ℝ) ≤ c' + c := by linarith [hle.2]
      have b1 : c' ≤ (j : ℕ) + c := by exact_mod_cast a1
      have b2 : (j : ℕ) ≤ c' + c := by exact_mod_cast a2
      exact hj ⟨j - (c' - c), by omega⟩ (by change (j : ℕ) = (j : ℕ) - (c' - c) + (c' - c); omega))
    r r' hr hr'
  exact ⟨fun i j hij => h1 i j ((hat i j).1 hij), h2⟩

end Verif.Clean
