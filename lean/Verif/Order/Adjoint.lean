import Verif.Order.Run
import Verif.BwDepol.RunSource

/-!
# The adjoint method and the order of the channels (C273)

Source: `/repo/RMtools_1D/rmtools_bwdepol.py` 134-150, 812-956, 960-1364.
-/

namespace Verif.Order

open Verif.NumPy Verif.StokesI Verif.Mpfit Verif.StokesFit Verif.BwDepol

variable {n k M : ℕ}

/-! ## Helper lemmas -/

/-- The operator does not depend on the sign of the width. -/
theorem operator_neg (w f φ : ℝ) : rotationOperator (-w) f φ = rotationOperator w f φ := by
  unfold rotationOperator
  have e1 : f + 0.5 * -w = f - 0.5 * w := by ring
  have e2 : f - 0.5 * -w = f + 0.5 * w := by ring
  dsimp only
  rw [e1, e2]
  by_cases h : w = 0 ∨ f - 0.5 * w = 0 ∨ f + 0.5 * w = 0
  · rw [if_pos h, if_pos (by
      rcases h with h | h | h
      · exact Or.inl (by rw [h, neg_zero])
      · exact Or.inr (Or.inr h)
      · exact Or.inr (Or.inl h))]
  · rw [if_neg h, if_neg fun h' => h (by
      rcases h' with h' | h' | h'
      · exact Or.inl (neg_eq_zero.mp h')
      · exact Or.inr (Or.inr h')
      · exact Or.inr (Or.inl h'))]
    congr 1
    rw [show (1 / -w : ℝ) = -(1 / w) by rw [div_neg]]
    push_cast
    ring

theorem operator_abs {v w : ℝ} (h : |v| = |w|) (f φ : ℝ) : rotationOperator v f φ = rotationOperator w f φ := by
  rcases abs_eq_abs.mp h with rfl | rfl
  · rfl
  · exact operator_neg w f φ

theorem sumNaN_perm {α : Type*} [AddCommMonoid α] (e : Equiv.Perm (Fin n)) (f : Fin n → Option α) : sumNaN (fun j => f (e j)) = sumNaN f := by
  unfold sumNaN
  rw [Equiv.sum_comp e fun j => (f j).getD 0]
  have : (∀ j, (f (e j)).isSome = true) ↔ ∀ j, (f j).isSome = true := (e.surjective.forall (p := fun j => (f j).isSome = true)).symm
  simp only [this]

/-- Two calls of the adjoint synthesis with the channels in two orders, and widths that may differ in sign. -/
structure Adj (e : Equiv.Perm (Fin n)) (x y : Input n 1 k) : Prop where
  freq : y.freq = x.freq ∘ e
  widths : ∀ j, |y.widths j| = |x.widths (e j)|
  q : y.dataQ = fun j => x.dataQ (e j)
  u : y.dataU = fun j => x.dataU (e j)
  weight : y.weight = x.weight.map fun w j => w (e j)
  lam0 : y.lam0 = x.lam0
  phi : y.phi = x.phi

theorem Adj.synth {e : Equiv.Perm (Fin n)} {x y : Input n 1 k} (h : Adj e x y) : toSynth y = Synth.selectChannels e (toSynth x) := by
  unfold toSynth Synth.selectChannels
  rw [h.freq, h.q, h.u, h.weight, h.lam0, h.phi]
  rfl

theorem Adj.op {e : Equiv.Perm (Fin n)} {x y : Input n 1 k} (h : Adj e x y) (j : Fin n) (φ : ℝ) :
    rotationOperator (y.widths j) (y.freq j) φ = rotationOperator (x.widths (e j)) (x.freq (e j)) φ := by
  rw [operator_abs (h.widths j), h.freq]
  rfl

theorem weight0_perm (e : Equiv.Perm (Fin n)) (x : Synth.Input n 1 k) (j : Fin n) :
    Synth.weight0 (Synth.selectChannels e x) j = Synth.weight0 x (e j) := by
  unfold Synth.weight0 Synth.selectChannels
  cases x.weight <;> rfl

theorem pCubeRaw_perm (e : Equiv.Perm (Fin n)) (x : Synth.Input n 1 k) (j : Fin n) (p : Fin 1) :
    Synth.pCubeRaw (Synth.selectChannels e x) j p = Synth.pCubeRaw x (e j) p := by
  unfold Synth.pCubeRaw
  rw [weight0_perm]
  rfl

theorem weight1_perm (e : Equiv.Perm (Fin n)) (x : Synth.Input n 1 k) (j : Fin n) :
    Synth.weight1 (Synth.selectChannels e x) j = Synth.weight1 x (e j) := by
  unfold Synth.weight1 Synth.planeCount Synth.mskCube
  simp only [weight0_perm, pCubeRaw_perm]

theorem kArr_perm (e : Equiv.Perm (Fin n)) (x : Synth.Input n 1 k) (p : Fin 1) :
    Synth.kArr (Synth.selectChannels e x) p = Synth.kArr x p := by
  have : ∑ j, (if Synth.mskCube (Synth.selectChannels e x) j p then 0 else Synth.weight1 (Synth.selectChannels e x) j) =
      ∑ j, (if Synth.mskCube x j p then 0 else Synth.weight1 x j) := by
    simp only [Synth.mskCube, weight1_perm, pCubeRaw_perm]
    exact Equiv.sum_comp e fun j => if (Synth.pCubeRaw x j p).isNone then 0 else Synth.weight1 x j
  unfold Synth.kArr
  dsimp only
  rw [this]

theorem Adj.sum {e : Equiv.Perm (Fin n)} {x y : Input n 1 k} (h : Adj e x y) :
    ∑ j, Synth.weight1 (toSynth y) j = ∑ j, Synth.weight1 (toSynth x) j := by
  rw [h.synth]
  simp only [weight1_perm]
  exact Equiv.sum_comp e fun j => Synth.weight1 (toSynth x) j

theorem Adj.kGlobal {e : Equiv.Perm (Fin n)} {x y : Input n 1 k} (h : Adj e x y) : kGlobal y = kGlobal x := by
  unfold BwDepol.kGlobal
  rw [h.sum]

theorem Adj.lam0Sq {e : Equiv.Perm (Fin n)} {x y : Input n 1 k} (h : Adj e x y) : lam0Sq y = lam0Sq x := by
  have : ∑ j, Synth.weight1 (toSynth y) j * lamSq y.freq j = ∑ j, Synth.weight1 (toSynth x) j * lamSq x.freq j := by
    rw [h.synth, h.freq]
    simp only [weight1_perm]
    exact Equiv.sum_comp e fun j => Synth.weight1 (toSynth x) j * lamSq x.freq j
  unfold BwDepol.lam0Sq
  rw [h.kGlobal, this, h.lam0]

theorem Adj.fdf {e : Equiv.Perm (Fin n)} {x y : Input n 1 k} (h : Adj e x y) : fdf y = fdf x := by
  funext l p
  unfold BwDepol.fdf
  rw [h.lam0Sq]
  congr 1
  funext l0
  dsimp only
  have hp : ∀ j, Synth.pCube (toSynth y) j p = Synth.pCube (toSynth x) (e j) p := fun j => by
    rw [h.synth]
    unfold Synth.pCube
    rw [pCubeRaw_perm]
  simp only [hp, h.op, h.phi]
  rw [h.synth, kArr_perm, sumNaN_perm e fun j => (rotationOperator (x.widths j) (x.freq j) (x.phi l)).map fun r =>
    Synth.pCube (toSynth x) j p * Complex.exp (2 * Complex.I * x.phi l * l0) * (starRingEnd ℂ) r]

theorem Adj.theory {e : Equiv.Perm (Fin n)} {x y : Input n 1 k} (h : Adj e x y) (d : Fin n → Option ℝ) :
    (theoryOf y (d ∘ e)).map (fun t => (adjointNoise t, adjointSens t)) = (theoryOf x d).map fun t => (adjointNoise t, adjointSens t) := by
  unfold theoryOf
  rw [h.kGlobal, Option.map_map, Option.map_map]
  congr 1
  funext K
  simp only [Function.comp_apply, Prod.mk.injEq]
  constructor
  · funext l
    unfold adjointNoise
    dsimp only
    rw [h.sum, h.synth]
    simp only [weight1_perm, h.op, h.phi]
    rw [← sumNaN_perm e fun j => (d j).bind fun d => (rotationOperator (x.widths j) (x.freq j) (x.phi l)).map fun r =>
      (Synth.weight1 (toSynth x) j * d) ^ 2 * ‖r‖ ^ 2]
    rfl
  · funext l
    unfold adjointSens
    dsimp only
    rw [h.synth]
    simp only [weight1_perm, h.op, h.phi]
    rw [← sumNaN_perm e fun j => (rotationOperator (x.widths j) (x.freq j) (x.phi l)).map fun r =>
      Synth.weight1 (toSynth x) j * ‖r‖ ^ 2]

theorem dAngle_adj (e : Equiv.Perm (Fin n)) (l : Fin n → ℝ) (s l0 : ℝ) : BwDepol.dAngle0 (l ∘ e) s l0 = BwDepol.dAngle0 l s l0 := by
  unfold BwDepol.dAngle0 Peak.varLamSq
  rw [show ∑ j, (l ∘ e) j = ∑ j, l j from Equiv.sum_comp e l,
    show ∑ j, (l ∘ e) j ^ 2 = ∑ j, l j ^ 2 from Equiv.sum_comp e fun j => l j ^ 2]

theorem Adj.tail {e : Equiv.Perm (Fin n)} {x y : Input n 1 (M + 3)} (h : Adj e x y) (d : Fin n → Option ℝ) (fit : FitResult) (fw : ℝ) :
    tail y (d ∘ e) fit fw = tail x d fit fw := by
  have ht := h.theory d
  have hm : ∀ F fw sens noise l0 t, BwDepol.measure (n := n) (M := M) F x.phi fw sens noise (lamSq x.freq ∘ e) l0 t =
      BwDepol.measure F x.phi fw sens noise (lamSq x.freq) l0 t := by
    intro F fw sens noise l0 t
    unfold BwDepol.measure measureAt
    simp only [dAngle_adj]
  have hf : lamSq y.freq = lamSq x.freq ∘ e := by
    rw [h.freq]
    rfl
  unfold BwDepol.tail
  rw [h.lam0Sq, h.fdf, hf, h.phi]
  cases hx : theoryOf x d with
  | none =>
    rw [hx, Option.map_none, Option.map_eq_none_iff] at ht
    rw [ht]
    cases BwDepol.lam0Sq x <;> rfl
  | some t =>
    cases hy : theoryOf y (d ∘ e) with
    | none => rw [hx, hy] at ht; cases ht
    | some t' =>
      rw [hx, hy, Option.map_some, Option.map_some, Option.some.injEq, Prod.mk.injEq] at ht
      cases BwDepol.lam0Sq x with
      | none => rfl
      | some l0 =>
        dsimp only
        rw [ht.1, ht.2]
        simp only [hm]

/-- The widths given, in the other order. -/
def widths (e : Equiv.Perm (Fin n)) : Widths n → Widths n
  | .notGiven => .notGiven
  | .scalar w => .scalar w
  | .array w => .array (w ∘ e)

/-- The columns in the other order. -/
def cols (e : Equiv.Perm (Fin n)) (x : Columns n) : Columns n where
  freq := x.freq ∘ e
  widths := x.widths.map (widths e)
  I := x.I.map (· ∘ e)
  Q := x.Q ∘ e
  U := x.U ∘ e
  dI := x.dI.map (· ∘ e)
  dQ := x.dQ ∘ e
  dU := x.dU ∘ e

theorem readColumns_perm (e : Equiv.Perm (Fin n)) (data : List (Fin n → ℝ)) (s : Bool) :
    readColumns (data.map (· ∘ e)) s = (readColumns data s).map (cols e) := by
  match data with
  | [] => rfl
  | [_] => rfl
  | [_, _] => rfl
  | [_, _, _] => rfl
  | [_, _, _, _] => rfl
  | [_, _, _, _, _] => rfl
  | [_, _, _, _, _, _] => cases s <;> rfl
  | [_, _, _, _, _, _, _] => cases s <;> rfl
  | [_, _, _, _, _, _, _, _] => cases s <;> rfl
  | _ :: _ :: _ :: _ :: _ :: _ :: _ :: _ :: _ :: _ => rfl

/-- The distance of the first two channels of a list; zero for shorter lists. -/
noncomputable def firstStep (freq : Fin n → ℝ) : ℝ := if h : 1 < n then |freq ⟨1, h⟩ - freq ⟨0, by omega⟩| else 0

/-- The widths in the other order. -/
theorem resolve_perm (e : Equiv.Perm (Fin n)) (freq : Fin n → ℝ) (w : Widths n) (h : firstStep (freq ∘ e) = firstStep freq) :
    (∃ err, resolveWidths freq w = .error err ∧ resolveWidths (freq ∘ e) (widths e w) = .error err) ∨
    ∃ v v', resolveWidths freq w = .ok v ∧ resolveWidths (freq ∘ e) (widths e w) = .ok v' ∧ ∀ j, |v' j| = |v (e j)| := by
  cases w with
  | notGiven =>
    unfold firstStep at h
    by_cases hn : 1 < n
    · rw [dif_pos hn, dif_pos hn] at h
      refine Or.inr ⟨fun _ => freq ⟨1, hn⟩ - freq ⟨0, by omega⟩, fun _ => (freq ∘ e) ⟨1, hn⟩ - (freq ∘ e) ⟨0, by omega⟩, ?_, ?_, fun _ => h⟩
      · unfold resolveWidths estimateChannelBandwidth
        rw [dif_pos hn]
        rfl
      · unfold resolveWidths estimateChannelBandwidth widths
        dsimp only
        rw [dif_pos hn]
        rfl
    · refine Or.inl ⟨.indexError, ?_, ?_⟩
      · unfold resolveWidths estimateChannelBandwidth
        dsimp only
        rw [dif_neg hn]
        rfl
      · unfold resolveWidths estimateChannelBandwidth widths
        dsimp only
        rw [dif_neg hn]
        rfl
  | scalar v => exact Or.inr ⟨_, _, rfl, rfl, fun _ => rfl⟩
  | array v =>
    by_cases hn : n = 1
    · refine Or.inr ⟨v, v ∘ e, ?_, ?_, fun _ => rfl⟩
      · exact if_pos hn
      · exact if_pos hn
    · refine Or.inl ⟨.valueError, if_neg hn, if_neg hn⟩

/-- The weights of the run. -/
noncomputable def wts (variance : Bool) (d : Fin n → ℝ) (j : Fin n) : Option ℝ := if variance then some (1 / d j ^ 2) else some 1

/-- The run after the fit of Stokes I. -/
noncomputable def after (freq : Fin n → ℝ) (w : Option (Widths n)) (d : Fin n → ℝ) (F : FracOut n) (variance verbose : Bool) (phi : Fin (M + 3) → ℝ) (fw : ℝ) :
    Except Err (Out × Complexity.Result) :=
  open Classical in
  if n < 2 then .error .valueError
  else match w with
    | none => .error .unboundLocal
    | some w => do
      let ws ← resolveWidths freq w
      if variance = true ∧ ∃ j, d j = 0 then .error .valueError
      else do
        let out ← tail ⟨freq, ws, fun j _ => F.q j, fun j _ => F.u j, phi, some (wts variance d), none⟩ (fun j => some (d j)) F.fit fw
        let res := Complexity.measure freq F.q F.u F.dq F.du out.fracPol out.meas.polAngle0 out.meas.phi
        if verbose then printKeys resultKeys printedKeys
        return (out, res)

/-- The arguments of `create_frac_spectra`. -/
noncomputable def fracIn (x : Columns n) (di : Fin n → ℝ) (polyOrd : ℤ) : FracIn n :=
  ⟨fun j => x.freq j / 1e9, fun j => some (x.Q j), fun j => some (x.U j), fun j => some (di j),
      fun j => some (x.dQ j), fun j => some (x.dU j), polyOrd, .log, none⟩

/-- The mean of the errors. -/
noncomputable def dqu (x : Columns n) (j : Fin n) : ℝ := (x.dQ j + x.dU j) / 2

theorem runFull_columns (data : List (Fin n → ℝ)) (noStokesI variance verbose : Bool) (polyOrd : ℤ)
    (fitter : (freqGHz i di : Fin n → ℝ) → Option FitResult) (phi : Fin (M + 3) → ℝ) (fw : ℝ) (x : Columns n) (i di : Fin n → ℝ)
    (hx : readColumns data noStokesI = .ok x) (hi : x.I = some i) (hdi : x.dI = some di) :
    runFull data noStokesI variance verbose polyOrd fitter phi fw =
      after x.freq x.widths (dqu x) (createFrac (fracIn x di polyOrd) (fitter (fun j => x.freq j / 1e9) i di)) variance verbose phi fw := by
  obtain ⟨f, w, I, Q, U, dI, dQ, dU⟩ := x
  dsimp only at hi hdi
  subst hi hdi
  unfold runFull BwDepol.run after
  rw [hx]
  simp only [Bind.bind, Except.bind]
  by_cases hn : n < 2
  · rw [if_pos hn, if_pos hn]
  · rw [if_neg hn, if_neg hn]
    cases w with
    | none => rfl
    | some w =>
      dsimp only
      cases resolveWidths f w with
      | error err => rfl
      | ok ws => rfl

theorem after_perm (e : Equiv.Perm (Fin n)) (freq : Fin n → ℝ) (hf : firstStep (freq ∘ e) = firstStep freq) (w : Option (Widths n)) (d : Fin n → ℝ)
    (F : FracOut n) (variance verbose : Bool) (phi : Fin (M + 3) → ℝ) (fw : ℝ) :
    after (freq ∘ e) (w.map (widths e)) (d ∘ e) ⟨F.model ∘ e, F.q ∘ e, F.u ∘ e, F.dq ∘ e, F.du ∘ e, F.fit⟩ variance verbose phi fw =
      after freq w d F variance verbose phi fw := by
  unfold after
  generalize printKeys resultKeys printedKeys = P
  dsimp only
  by_cases hn : n < 2
  · rw [if_pos hn, if_pos hn]
  · rw [if_neg hn, if_neg hn]
    cases w with
    | none => rfl
    | some w =>
      dsimp only [Option.map_some]
      rcases resolve_perm e freq w hf with ⟨err, h1, h2⟩ | ⟨v, v', h1, h2, h3⟩
      · rw [h1, h2]
        simp only [Bind.bind, Except.bind]
      · rw [h1, h2]
        simp only [Bind.bind, Except.bind]
        have hz : (∃ j, (d ∘ e) j = 0) ↔ ∃ j, d j = 0 := (e.surjective.exists (p := fun j => d j = 0)).symm
        have hw : wts variance (d ∘ e) = wts variance d ∘ e := rfl
        have ha : Adj e (⟨freq, v, fun j _ => F.q j, fun j _ => F.u j, phi, some (wts variance d), none⟩ : Input n 1 (M + 3))
            ⟨freq ∘ e, v', fun j _ => (F.q ∘ e) j, fun j _ => (F.u ∘ e) j, phi, some (wts variance (d ∘ e)), none⟩ :=
          ⟨rfl, h3, rfl, rfl, congrArg some hw, rfl, rfl⟩
        have := ha.tail (fun j => some (d j)) F.fit fw
        by_cases hv : variance = true ∧ ∃ j, d j = 0
        · rw [if_pos hv, if_pos ⟨hv.1, hz.mpr hv.2⟩]
        · rw [if_neg hv, if_neg fun h => hv ⟨h.1, hz.mp h.2⟩, show (fun j => some ((d ∘ e) j)) = (fun j => some (d j)) ∘ e from rfl, this]
          simp only [complex_perm]

theorem columns_head (data : List (Fin n → ℝ)) (s : Bool) (x : Columns n) (h : readColumns data s = .ok x) : x.freq ∈ data.head? := by
  match data with
  | [] => cases h
  | [_] => cases h
  | [_, _] => cases h
  | [_, _, _] => cases h
  | [_, _, _, _] => cases h
  | [_, _, _, _, _] => cases h; rfl
  | [_, _, _, _, _, _] => cases s <;> cases h <;> rfl
  | [_, _, _, _, _, _, _] => cases s <;> cases h <;> rfl
  | [_, _, _, _, _, _, _, _] => cases s <;> cases h <;> rfl
  | _ :: _ :: _ :: _ :: _ :: _ :: _ :: _ :: _ :: _ => cases h

/-! ## C273 -/

/-- **C273, the part that holds.** The adjoint method on a file with the channels in any other order: the same result, exceptions included, if the
first two channels are as far apart as before. The Stokes I fit may be any that does not depend on the order (C270). -/
theorem adjoint_order_partial (e : Equiv.Perm (Fin n)) (data : List (Fin n → ℝ)) (noStokesI variance verbose : Bool) (polyOrd : ℤ)
    (fitter : (freqGHz i di : Fin n → ℝ) → Option FitResult) (hfit : ∀ f i di, fitter (f ∘ e) (i ∘ e) (di ∘ e) = fitter f i di)
    (phi : Fin (M + 3) → ℝ) (fw : ℝ) (h : ∀ f ∈ data.head?, firstStep (f ∘ e) = firstStep f) :
    runFull (data.map (· ∘ e)) noStokesI variance verbose polyOrd fitter phi fw = runFull data noStokesI variance verbose polyOrd fitter phi fw := by
  cases hx : readColumns data noStokesI with
  | error err =>
    unfold runFull
    rw [readColumns_perm, hx]
    rfl
  | ok x =>
    have hf := h x.freq (columns_head _ _ _ hx)
    have hx' : readColumns (data.map (· ∘ e)) noStokesI = .ok (cols e x) := by
      rw [readColumns_perm, hx]
      rfl
    cases hi : x.I with
    | none =>
      unfold runFull
      rw [hx, hx']
      simp only [Bind.bind, Except.bind, cols, hi, Option.map_none]
    | some i =>
      cases hdi : x.dI with
      | none =>
        unfold runFull
        rw [hx, hx']
        simp only [Bind.bind, Except.bind, cols, hi, hdi, Option.map_none, Option.map_some]
      | some di =>
        rw [runFull_columns data noStokesI variance verbose polyOrd fitter phi fw x i di hx hi hdi,
          runFull_columns _ noStokesI variance verbose polyOrd fitter phi fw (cols e x) (i ∘ e) (di ∘ e) hx' (by simp [cols, hi]) (by simp [cols, hdi]),
          ← after_perm e x.freq hf]
        have h1 := hfit (fun j => x.freq j / 1e9) i di
        rw [show (fun j => x.freq j / 1e9) ∘ e = fun j => (cols e x).freq j / 1e9 from rfl] at h1
        rw [h1, show fracIn (cols e x) (di ∘ e) polyOrd = frac e (fracIn x di polyOrd) from rfl, create_perm]
        rfl

/-- The Stokes I fit of the run, for the modelled fitter. -/
noncomputable def adjointFit (c : Cfg) (polyOrd : ℤ) (f i di : Fin n → ℝ) : Option FitResult :=
  match (⟨f, fun j => some (i j), fun _ => none, fun _ => none, fun j => some (di j), fun _ => none, fun _ => none, polyOrd, .log, none⟩ : Raw n).fitStokes c with
  | some (.fit r _) => some r
  | _ => none

/-- The modelled fitter does not depend on the order. -/
theorem adjointFit_order (e : Equiv.Perm (Fin n)) (c : Cfg) (hc : c.Ok) (polyOrd : ℤ) (f i di : Fin n → ℝ) :
    adjointFit c polyOrd (f ∘ e) (i ∘ e) (di ∘ e) = adjointFit c polyOrd f i di := by
  unfold adjointFit
  rw [← fitStokes_order e (⟨f, fun j => some (i j), fun _ => none, fun _ => none, fun j => some (di j), fun _ => none, fun _ => none,
    polyOrd, .log, none⟩ : Raw n) c hc]
  rfl

/-- The reverse order has the same first step if the channels are equally spaced. -/
theorem firstStep_reverse (freq : Fin n → ℝ) (a d : ℝ) (h : ∀ j : Fin n, freq j = a + (j : ℝ) * d) : firstStep (freq ∘ Fin.revPerm) = firstStep freq := by
  unfold firstStep
  by_cases hn : 1 < n
  · rw [dif_pos hn, dif_pos hn]
    simp only [Function.comp_apply, Fin.revPerm_apply, h, Fin.val_rev]
    have e1 : ((n - (1 + 1) : ℕ) : ℝ) = n - 2 := by
      rw [Nat.cast_sub (by omega)]
      norm_num
    have e2 : ((n - (0 + 1) : ℕ) : ℝ) = n - 1 := by
      rw [Nat.cast_sub (by omega)]
      norm_num
    rw [e1, e2, ← abs_neg]
    congr 1
    push_cast
    ring
  · rw [dif_neg hn, dif_neg hn]

/-- **C273 for equally spaced channels**: ascending and descending lists give the same result. -/
theorem adjoint_reverse (data : List (Fin n → ℝ)) (noStokesI variance verbose : Bool) (polyOrd : ℤ) (c : Cfg) (hc : c.Ok)
    (phi : Fin (M + 3) → ℝ) (fw : ℝ) (a d : ℝ) (h : ∀ f ∈ data.head?, ∀ j : Fin n, f j = a + (j : ℝ) * d) :
    runFull (data.map (· ∘ Fin.revPerm)) noStokesI variance verbose polyOrd (adjointFit c polyOrd) phi fw =
      runFull data noStokesI variance verbose polyOrd (adjointFit c polyOrd) phi fw :=
  adjoint_order_partial Fin.revPerm data noStokesI variance verbose polyOrd _ (fun f i di => adjointFit_order _ c hc polyOrd f i di) phi fw
    fun f hf => firstStep_reverse f a d (h f hf)

/-- A case: five columns, three channels from 1 to 1.2 GHz. -/
example (c : Cfg) (hc : c.Ok) (phi : Fin 7 → ℝ) (fw : ℝ) (q u dq du : Fin 3 → ℝ) :
    runFull (([fun j => 1e9 + (j : ℝ) * 1e8, q, u, dq, du] : List (Fin 3 → ℝ)).map (· ∘ Fin.revPerm)) true true false 2 (adjointFit c 2) phi fw =
      runFull [fun j => 1e9 + (j : ℝ) * 1e8, q, u, dq, du] true true false 2 (adjointFit c 2) phi fw :=
  adjoint_reverse (M := 4) _ _ _ _ _ c hc phi fw 1e9 1e8 fun f hf j => by
    simp only [List.head?_cons, Option.mem_def, Option.some.injEq] at hf
    rw [← hf]

/-! ## The order matters -/

theorem interior_ok (s : Fin (M + 3) → Option ℝ) (c0 : Fin (M + 1)) (h : (s (Peak.centre c0)).isSome) : ∃ i, BwDepol.interior s = .ok i := by
  obtain ⟨v, hv⟩ := Option.isSome_iff_exists.mp h
  obtain ⟨u, hu, -⟩ := toBot_le (le_npArgmax (fun i : Fin (M + 1) => toBot (s i.succ.castSucc)) c0) v hv
  refine ⟨npArgmax fun i : Fin (M + 1) => toBot (s i.succ.castSucc), ?_⟩
  unfold BwDepol.interior
  dsimp only
  rw [if_pos (by rw [hu]; rfl)]

/-- A run with a number at some interior depth gives a result. -/
theorem tail_result (x : Input n 1 (M + 3)) (d : Fin n → Option ℝ) (fit : FitResult) (fw l0 : ℝ) (t : Theory n (M + 3)) (c0 : Fin (M + 1)) (z : ℂ) (s : ℝ)
    (hl : lam0Sq x = some l0) (ht : theoryOf x d = some t) (hz : fdf x (Peak.centre c0) 0 = some z) (hs : adjointNoise t (Peak.centre c0) = some s)
    (hs0 : s ≠ 0) : ∃ out, tail x d fit fw = .ok out := by
  have h1 : ∀ (F : Fin (M + 3) → Option ℂ) (v : ℂ), F (Peak.centre c0) = some v → (snr F (adjointNoise t) (Peak.centre c0)).isSome := by
    intro F v hF
    unfold snr
    rw [hF, hs]
    simp [hs0]
  obtain ⟨i, hi⟩ := interior_ok _ c0 (h1 (fun l => fdf x l 0) z hz)
  obtain ⟨i', hi'⟩ := interior_ok _ c0 (h1 (fun l => (fdf x l 0).map fun z => z * ((BwDepol.ifreq0 fit (c / Real.sqrt l0) : ℝ) : ℂ)) _ (by rw [hz]; rfl))
  unfold tail
  rw [hl, ht]
  dsimp only
  rw [peakIdx_interior, hi]
  unfold BwDepol.measure
  rw [hi']
  exact ⟨_, rfl⟩

/-- A run without any number raises. -/
theorem tail_nan (x : Input n 1 (M + 3)) (d : Fin n → Option ℝ) (fit : FitResult) (fw : ℝ) (h : ∀ l, fdf x l 0 = none) :
    tail x d fit fw = .error .valueError := by
  unfold tail
  cases lam0Sq x with
  | none => rfl
  | some l0 =>
    cases theoryOf x d with
    | none => rfl
    | some t =>
      have : peakIdx (snr (fun l => fdf x l 0) (adjointNoise t)) = .error .valueError := by
        unfold peakIdx snr
        simp [h]
      dsimp only
      rw [this]
      rfl

theorem fdf_nan (x : Input n 1 k) (j : Fin n) (h : ∀ φ, rotationOperator (x.widths j) (x.freq j) φ = none) (l : Fin k) : fdf x l 0 = none := by
  unfold fdf
  cases lam0Sq x with
  | none => rfl
  | some l0 =>
    simp only [Option.bind_some]
    unfold sumNaN
    rw [if_neg, Option.map_none]
    intro hall
    have := hall j
    dsimp only at this
    rw [h] at this
    simp at this

/-- Three channels, at 1, 1.5 and 3 GHz. -/
noncomputable def three : Fin 3 → ℝ := ![1e9, 1.5e9, 3e9]

theorem three_channels : Channels (fun _ => three ⟨1, by norm_num⟩ - three ⟨0, by norm_num⟩) three := by
  intro j
  unfold three
  fin_cases j <;> norm_num [abs_of_pos]

/-- **C273, the part that fails.** The width of all channels is the distance of the first two of the list. A source at depth zero, seen in channels at
1, 1.5 and 3 GHz, on an axis with depth zero inside: a result. With the last two channels exchanged, the channels are taken to be 2 GHz wide, the
first one from zero to 2 GHz: an exception. -/
theorem adjoint_order_matters (r : FitResult) (fitter : (freqGHz i di : Fin 3 → ℝ) → Option FitResult) (i di d : Fin 3 → ℝ) (hd : ∀ j, 0 < d j)
    (hfit : fitter (fun j => three j / 1e9) i di = some r) (hI : ∀ j, calcModel r (three j / 1e9) ≠ 0)
    (variance : Bool) (polyOrd : ℤ) (phi : Fin (M + 3) → ℝ) (c0 : Fin (M + 1)) (hc : phi (Peak.centre c0) = 0) (fw p psi : ℝ) :
    let data := sourceFile (three ⟨1, by norm_num⟩ - three ⟨0, by norm_num⟩) three i di d (fun j => calcModel r (three j / 1e9)) p psi 0
    (∃ out, runFull data false variance false polyOrd fitter phi fw = .ok out) ∧
    runFull (data.map (· ∘ Equiv.swap 1 2)) false variance false polyOrd fitter phi fw = .error .valueError := by
  intro data
  constructor
  · obtain ⟨fit, g, -, hrun⟩ := runFull_source (by norm_num : 2 ≤ 3) three i di d hd fitter r hfit hI variance polyOrd phi fw p psi 0
    set x := sourceInput (fun _ => three ⟨1, by norm_num⟩ - three ⟨0, by norm_num⟩) three (weightOf variance d) p psi 0 phi with hx
    have hw : ∀ j, Synth.weight1 (toSynth x) j = weightOf variance d j := fun j => sourceInput_weight _ _ _ _ _ _ _ j
    have hwp : ∀ j, 0 < Synth.weight1 (toSynth x) j := fun j => by
      rw [hw]
      exact weightOf_pos variance d hd j
    have hW : 0 < ∑ j, Synth.weight1 (toSynth x) j := Finset.sum_pos (fun j _ => hwp j) ⟨0, Finset.mem_univ _⟩
    obtain ⟨l0, hl0⟩ := lam0Sq_isSome x (Or.inr hW.ne')
    have ht : theoryOf x (fun j => some (d j)) =
        some ⟨x.widths, x.freq, x.phi, 1 / ∑ j, Synth.weight1 (toSynth x) j, Synth.weight1 (toSynth x), fun j => some (d j)⟩ := by
      unfold theoryOf kGlobal
      rw [if_neg hW.ne']
      rfl
    have hch : Channels x.widths x.freq := three_channels
    obtain ⟨out, ho⟩ := tail_result x (fun j => some (d j)) fit fw l0 _ c0 _ _ hl0 ht (fdf_eq x hch l0 hl0 _ 0) (noise_eq _ hch hW.ne' d (fun _ => rfl) _)
      (Real.sqrt_pos.mpr (div_pos (Finset.sum_pos (fun j _ => by
        have h1 : channelAverage (x.widths j) (x.freq j) (x.phi (Peak.centre c0)) = 1 := by
          rw [show x.phi (Peak.centre c0) = 0 from hc]
          exact channelAverage_zero _ _ (hch j).1
        have := mul_pos (hwp j) (hd j)
        dsimp only
        rw [h1]
        simp only [norm_one, one_pow, mul_one]
        positivity) ⟨0, Finset.mem_univ _⟩) (by positivity))).ne'
    refine ⟨(out, g out), ?_⟩
    rw [hrun, ho]
    rfl
  · have hdat : ∃ a b q u e1 e2, data.map (· ∘ Equiv.swap 1 2) = [three ∘ Equiv.swap 1 2, a, q, u, b, e1, e2] ∧ ∀ j, 0 < e1 j ∧ 0 < e2 j :=
      ⟨_, _, _, _, _, _, rfl, fun j => ⟨hd _, hd _⟩⟩
    obtain ⟨a, b, q, u, e1, e2, he, hp⟩ := hdat
    rw [he, runFull_seven (by norm_num : 2 ≤ 3) _ _ _ _ _ _ _ _ (fun _ j => by have := hp j; linarith [this.1, this.2])]
    rw [tail_nan]
    · rfl
    · refine fdf_nan _ 0 fun φ => ?_
      unfold rotationOperator
      rw [if_pos]
      refine Or.inr (Or.inl ?_)
      show (three ∘ Equiv.swap 1 2) 0 - 0.5 * ((three ∘ Equiv.swap 1 2) 1 - (three ∘ Equiv.swap 1 2) 0) = 0
      have s0 : (Equiv.swap 1 2 : Equiv.Perm (Fin 3)) 0 = 0 := by decide
      have s1 : (Equiv.swap 1 2 : Equiv.Perm (Fin 3)) 1 = 2 := by decide
      simp only [Function.comp_apply, s0, s1, three]
      rw [show (![1e9, 1.5e9, 3e9] : Fin 3 → ℝ) 2 = 3e9 from rfl]
      norm_num

/-- A case: a fit with intensity one. -/
example (variance : Bool) (fw : ℝ) : ∃ data : List (Fin 3 → ℝ), ∃ e : Equiv.Perm (Fin 3), ∃ r : FitResult,
    runFull (data.map (· ∘ e)) false variance false 0 (fun _ _ _ => some r) (zeroAxis (2 : Fin 5) 1) fw ≠
      runFull data false variance false 0 (fun _ _ _ => some r) (zeroAxis (2 : Fin 5) 1) fw := by
  let r : FitResult := ⟨![0, 0, 0, 0, 0, 1], 1, 0, 0, 4, 0, 1, 0, fun _ => some 0, .log⟩
  have h := adjoint_order_matters r (fun _ _ _ => some r) (fun _ => 1) (fun _ => 1) (fun _ => 1) (fun _ => one_pos) rfl (fun j => by
    simp [calcModel, r, powerlawPoly5]) variance 0 (zeroAxis (2 : Fin 5) 1) 2 (by
    rw [zeroAxis_centre]
    simp) fw 0.5 0
  refine ⟨sourceFile (three ⟨1, by norm_num⟩ - three ⟨0, by norm_num⟩) three (fun _ => 1) (fun _ => 1) (fun _ => 1)
    (fun j => calcModel r (three j / 1e9)) 0.5 0 0, Equiv.swap 1 2, r, ?_⟩
  obtain ⟨⟨out, h1⟩, h2⟩ := h
  rw [h1, h2]
  intro h
  cases h

end Verif.Order
