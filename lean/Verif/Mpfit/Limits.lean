import Verif.Mpfit.Props

/-!
# The least-squares fitter with limits and step sizes: model

Source: `/repo/RMutils/mpfit.py` 870-1465 and 1590-1703 for parameters with the entries `limited`, `limits`, `mpmaxstep`, `step`, `relstep` and `mpside` of
`parinfo`. `Verif.Mpfit.Loop` has the case without these entries, the only one that RM-Tools uses itself. Not modelled: `tied`, derivatives supplied by
the caller, `damp`, a residual function that reports an error, termination by the print function, `mpminstep` (switched off at line 963).
-/

namespace Verif.Mpfit

open Verif.NumPy Finset

/-- The entries of `parinfo` for each parameter; `none` is "not limited", `maxstep` and the steps are 0 by default (lines 955-961, 983-984). -/
structure Info where
  lower : ℕ → Option ℝ
  upper : ℕ → Option ℝ
  maxstep : ℕ → ℝ
  step : ℕ → ℝ
  relstep : ℕ → ℝ
  side : ℕ → ℤ

/-- No entries. -/
def Info.none : Info := ⟨fun _ => .none, fun _ => .none, fun _ => 0, fun _ => 0, fun _ => 0, fun _ => 0⟩

/-- `qanylim`, lines 1007-1010: a free parameter has a limit. -/
def Info.anyLim (B : Info) (P : Prob) : Prop := ∃ j < P.n, (B.upper (P.ifree j)).isSome ∨ (B.lower (P.ifree j)).isSome

/-- `qminmax` is not zero, lines 964-969. -/
def Info.anyMax (B : Info) (P : Prob) : Prop := ∃ a < P.npar, B.maxstep a ≠ 0

/-- The initial values are allowed, lines 987-992. -/
def Info.Inside (B : Info) (k : ℕ) (p : Vec) : Prop := ∀ a < k, (∀ l, B.lower a = some l → l ≤ p a) ∧ ∀ u, B.upper a = some u → p a ≤ u

/-- The limits of the free parameters are consistent, lines 993-999. -/
def Info.Consistent (B : Info) (P : Prob) : Prop :=
  ∀ j < P.n, ∀ l u, B.lower (P.ifree j) = some l → B.upper (P.ifree j) = some u → l < u

open Classical in
/-- The size of the step of the numerical derivative for free parameter `j`, lines 1648-1667. -/
noncomputable def Info.size (B : Info) (c : Cfg) (P : Prob) (x : Vec) (j : ℕ) : ℝ :=
  let h0 := Real.sqrt c.eps * |x j|
  let h1 := if 0 < B.step (P.ifree j) then B.step (P.ifree j) else h0
  let h2 := if 0 < B.relstep (P.ifree j) then |B.relstep (P.ifree j) * x j| else h1
  if h2 = 0 then Real.sqrt c.eps else h2

open Classical in
/-- The same with its sign, lines 1669-1678. -/
noncomputable def Info.diff (B : Info) (c : Cfg) (P : Prob) (x : Vec) (j : ℕ) : ℝ :=
  if B.side (P.ifree j) = -1 ∨ ∃ u, B.upper (P.ifree j) = some u ∧ u - B.size c P x j < x j then -B.size c P x j else B.size c P x j

open Classical in
/-- `fdjac2`, lines 1679-1703. -/
noncomputable def fdjacL (c : Cfg) (P : Prob) (B : Info) (params x fvec : Vec) : Mat := fun i j =>
  let h := B.diff c P x j
  let fp := P.f (Function.update params (P.ifree j) (params (P.ifree j) + h))
  if |B.side (P.ifree j)| ≤ 1 then (fp i - fvec i) / h
  else (fp i - P.f (Function.update params (P.ifree j) (params (P.ifree j) - h)) i) / (2 * h)

open Classical in
/-- Lines 1134-1153: a column of zeros for a parameter at a limit that would be pushed out. -/
noncomputable def peg (P : Prob) (B : Info) (x fvec : Vec) (J : Mat) : Mat :=
  let J1 : Mat := fun i j => if B.lower (P.ifree j) = some (x j) ∧ 0 < ∑ k ∈ range P.m, fvec k * J k j then 0 else J i j
  fun i j => if B.upper (P.ifree j) = some (x j) ∧ ∑ k ∈ range P.m, fvec k * J1 k j < 0 then 0 else J1 i j

open Classical in
/-- Lines 1117-1153: the derivatives with the columns of pegged parameters. -/
noncomputable def jacOf (c : Cfg) (P : Prob) (B : Info) (params x fvec : Vec) : Mat :=
  if B.anyLim P then peg P B x fvec (fdjacL c P B params x fvec) else fdjacL c P B params x fvec

/-- As `head`. -/
noncomputable def headL (c : Cfg) (P : Prob) (B : Info) (o : Outer) : St :=
  let params := scatter P.n P.ifree o.x o.params
  let J := jacOf c P B params o.x o.fvec
  let q := qrfac c.eps P.m P.n J
  let acnorm : Vec := fun j => nrm 0 P.m fun i => J i j
  let sc := scaling c P o acnorm
  let t := formQtf P.m P.n q o.fvec
  let gnorm := gnormOf P.n t.a q.ipvt t.qtf acnorm o.fnorm
  if gnorm ≤ c.gtol then .done ⟨4, o.x, params, o.fnorm1, t.a, q.ipvt, o.niter⟩
  else if c.maxiter = 0 then .done ⟨5, o.x, params, o.fnorm1, t.a, q.ipvt, o.niter⟩
  else
    .inner
      { o := { x := o.x, params := params, fvec := o.fvec, fnorm := o.fnorm, fnorm1 := o.fnorm1, par := o.par
               diag := (fun j => max (sc.diag j) (acnorm j))
               delta := sc.delta, xnorm := sc.xnorm, niter := o.niter }
        r := t.a, ipvt := q.ipvt, qtf := t.qtf, gnorm := gnorm, wa1 := q.rdiag, wa2 := acnorm }

/-- `numpy.max` and `numpy.min` of the first `n` entries. -/
noncomputable def vmax (n : ℕ) (v : Vec) : ℝ := forRange 1 n (fun j g => max g (v j)) (v 0)

noncomputable def vmin (n : ℕ) (v : Vec) : ℝ := forRange 1 n (fun j g => min g (v j)) (v 0)

open Classical in
/-- Lines 1247-1251: the steps of parameters at a limit; `numpy.clip(a, lo, hi)` is `min(max(a, lo), hi)`. -/
noncomputable def clipped (P : Prob) (B : Info) (x p : Vec) : Vec :=
  let p1 : Vec := fun j => if B.lower (P.ifree j) = some (x j) then min (max (p j) 0) (vmax P.n p) else p j
  fun j => if B.upper (P.ifree j) = some (x j) then min (max (p1 j) (vmin P.n p1)) 0 else p1 j

/-- Lines 1254-1259 for one parameter. -/
noncomputable def cutLow (c : Cfg) (x p a : ℝ) : Option ℝ → ℝ
  | some l => if c.eps < |p| ∧ x + p < l then min a ((l - x) / p) else a
  | .none => a

/-- Lines 1260-1265 for one parameter. -/
noncomputable def cutUp (c : Cfg) (x p a : ℝ) : Option ℝ → ℝ
  | some u => if c.eps < |p| ∧ u < x + p then min a ((u - x) / p) else a
  | .none => a

/-- Lines 1253-1265: the fraction of the step that stays inside the limits. -/
noncomputable def fraction (c : Cfg) (P : Prob) (B : Info) (x p : Vec) : ℝ :=
  let a1 := forRange 0 P.n (fun j (a : ℝ) => cutLow c (x j) (p j) a (B.lower (P.ifree j))) 1
  forRange 0 P.n (fun j (a : ℝ) => cutUp c (x j) (p j) a (B.upper (P.ifree j))) a1

open Classical in
/-- Lines 1267-1277: the fraction that obeys the largest steps. `whmax` numbers all parameters, `nwa1` only the free ones: `none` is the `IndexError` of line
1273. A largest step of zero gives NaN, which fails the comparison, or infinity. -/
noncomputable def maxFraction (P : Prob) (B : Info) (p : Vec) (alpha : ℝ) : Option ℝ :=
  if ∃ i < P.npar, 0 < B.maxstep i ∧ P.n ≤ i then .none
  else if ∃ i < P.npar, 0 < B.maxstep i ∧ B.maxstep (P.ifree i) = 0 ∧ p i * alpha = 0 then some alpha
  else if ∃ i < P.npar, 0 < B.maxstep i ∧ B.maxstep (P.ifree i) = 0 then some 0
  else
    let mrat := forRange 0 P.npar (fun i (g : ℝ) => if 0 < B.maxstep i then max g (|p i * alpha| / |B.maxstep (P.ifree i)|) else g) 0
    some (if 1 < mrat then alpha / mrat else alpha)

/-- `ulim1`, lines 1285-1290. -/
noncomputable def upEdge (c : Cfg) (u : ℝ) : ℝ := u * (1 - (if 0 ≤ u then 1 else -1) * c.eps) - (if u = 0 then c.eps else 0)

/-- `llim1`, lines 1285-1290. -/
noncomputable def lowEdge (c : Cfg) (l : ℝ) : ℝ := l * (1 + (if 0 ≤ l then 1 else -1) * c.eps) + (if l = 0 then c.eps else 0)

/-- Lines 1291-1293: a value at or beyond the upper limit, or next to it, is set to the limit. -/
noncomputable def snapUp (c : Cfg) (w : ℝ) : Option ℝ → ℝ
  | some u => if upEdge c u ≤ w then u else w
  | .none => w

/-- Lines 1294-1296: the same for the lower limit. -/
noncomputable def snapLow (c : Cfg) (w : ℝ) : Option ℝ → ℝ
  | some l => if w ≤ lowEdge c l then l else w
  | .none => w

/-- Lines 1283-1296. -/
noncomputable def snap (c : Cfg) (P : Prob) (B : Info) (w : Vec) : Vec := fun j =>
  snapLow c (snapUp c (w j) (B.upper (P.ifree j))) (B.lower (P.ifree j))

/-- The step, its fraction and the new values, lines 1231-1297. -/
structure Move where
  p : Vec
  alpha : ℝ
  wa2 : Vec

open Classical in
/-- Lines 1231-1297. -/
noncomputable def move (c : Cfg) (P : Prob) (B : Info) (x p : Vec) : Option Move :=
  if ¬ B.anyLim P ∧ ¬ B.anyMax P then some ⟨p, 1, fun j => x j + p j⟩
  else
    let p1 := if B.anyLim P then clipped P B x p else p
    let a1 := if B.anyLim P then fraction c P B x p1 else 1
    (if B.anyMax P then maxFraction P B p1 a1 else some a1).map fun a =>
      ⟨fun j => p1 j * a, a, snap c P B fun j => x j + p1 j * a⟩

/-- Lines 1298-1355, for a step `p`, the fraction `alpha` and the new values `wa2`. -/
noncomputable def evalTrial (P : Prob) (s : Inner) (lm : Lm) (v : Move) : Trial :=
  let pnorm := nrm 0 P.n fun j => s.o.diag j * v.p j
  let delta := if s.o.niter = 1 then min s.o.delta pnorm else s.o.delta
  let wa4 := P.f (scatter P.n P.ifree v.wa2 s.o.params)
  let fnorm1 := nrm 0 P.m wa4
  let actred := actredOf s.o.fnorm fnorm1
  let rp := nrm 0 P.n fun j => v.alpha * applyR P.n lm.r s.ipvt v.p (fun j => s.o.diag j * v.p j) j
  let prered := preredOf rp (v.alpha * lm.par) pnorm s.o.fnorm
  let dirder := -((rp / s.o.fnorm) * (rp / s.o.fnorm)
    + (Real.sqrt (v.alpha * lm.par) * pnorm / s.o.fnorm) * (Real.sqrt (v.alpha * lm.par) * pnorm / s.o.fnorm))
  let ratio := ratioOf actred prered
  let b := updateBound ratio actred dirder s.o.fnorm fnorm1 delta pnorm lm.par
  ⟨lm, v.p, v.wa2, pnorm, wa4, fnorm1, actred, prered, ratio, b.1, b.2⟩

/-- The step of Levenberg and Marquardt, line 1228. -/
noncomputable def lmOf (c : Cfg) (P : Prob) (s : Inner) : Lm :=
  lmpar c.eps c.dwarf P.n s.r s.ipvt s.o.diag s.qtf s.o.delta s.wa1 s.wa2 s.o.par

/-- As `trial`; `none` is an exception. -/
noncomputable def trialL (c : Cfg) (P : Prob) (B : Info) (s : Inner) : Option St :=
  (move c P B s.o.x fun j => -(lmOf c P s).x j).map fun v =>
    let t := evalTrial P s (lmOf c P s) v
    let o := afterTrial P s t
    let st := statusOf c t.actred t.prered t.ratio t.delta o.xnorm s.gnorm o.niter
    if st ≠ 0 then .done ⟨st, o.x, o.params, o.fnorm1, t.lm.r, s.ipvt, o.niter⟩
    else if 0.0001 ≤ t.ratio then .outer o
    else .inner { s with o := o, r := t.lm.r, wa1 := t.p, wa2 := t.wa2 }

/-- One move of the machine. -/
noncomputable def stepL (c : Cfg) (P : Prob) (B : Info) : St → Option St
  | .outer o => some (headL c P B o)
  | .inner s => trialL c P B s
  | .done e => some (.done e)

/-- The state after `k` moves; `none` after an exception. -/
noncomputable def runL (c : Cfg) (P : Prob) (B : Info) : ℕ → Option St
  | 0 => some (start P)
  | k + 1 => (runL c P B k).bind (stepL c P B)

open Classical in
/-- The constructor ends with the object `r`. Lines 974-976 (no free parameter), 987-999 (limits), 1058 (too few residuals). -/
def EndsL (c : Cfg) (P : Prob) (B : Info) (r : Fit) : Prop :=
  if P.n = 0 then r = ⟨0, none, -1, none, none, 0⟩
  else if ¬ B.Inside P.npar P.p0 ∨ ¬ B.Consistent P then r = ⟨0, some P.p0, -1, none, none, 0⟩
  else if P.m < P.n then r = ⟨0, some P.p0, -1, none, none, 0⟩
  else ∃ k e, runL c P B k = some (.done e) ∧ r = finish P e

/-- The constructor raises. -/
def RaisesL (c : Cfg) (P : Prob) (B : Info) : Prop :=
  0 < P.n ∧ P.n ≤ P.m ∧ B.Inside P.npar P.p0 ∧ B.Consistent P ∧ ∃ k, runL c P B k = none

end Verif.Mpfit
