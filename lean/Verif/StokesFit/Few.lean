import Verif.StokesFit.Basic

/-!
# Few good channels in Stokes I (C159)

A user expects a spectrum with flagged Stokes I channels to be processed, with a model as good as the
remaining channels allow or, failing that, with the fallback of a unit Stokes I spectrum. With fewer
good channels than coefficients the fallback is reached only if the number of all channels happens to equal the
number of coefficients; otherwise the run ends with an exception.
-/

namespace Verif.StokesFit

open Verif.NumPy Verif.StokesI Verif.Mpfit Finset

variable {n : ℕ}

/-- The outcome of `fit_StokesI_model` with at least one but fewer good channels than coefficients. -/
theorem fitStokes_few (w : Raw n) (c : Cfg) (order : ℕ) (hpo : w.polyOrd = order) (ho : order ≤ 5)
    (hg : w.good ≠ []) (hm : w.good.length ≤ order) :
    (n = order + 1 → w.fitStokes c = some .raised) ∧
    (n ≠ order + 1 → ∃ r, w.fitStokes c = some (.fit r false) ∧ r.fitStatus = 0 ∧ r.refFreq = w.ref ∧
      ∀ f, calcModel r f = w.spec.mean) := by
  set P := polyProb w.fn order w.spec with hP
  have hn : P.n = order + 1 := by simp only [hP, polyProb, Int.natAbs_natCast]; omega
  have hE : Ends c P ⟨0, some P.p0, -1, none, none, 0⟩ := by
    unfold Ends
    have h1 : P.m < P.n := by rw [hn]; exact Nat.lt_succ_of_le hm
    have h0 : P.n ≠ 0 := by omega
    rw [if_neg h0, if_pos h1]
  have hf : w.poly c order = some ⟨0, some P.p0, -1, none, none, 0⟩ :=
    poly_eq w c order _ (Or.inr (by rw [min_eq_left ho]; exact hm)) hE
  have hch : choose (w.poly c) w.polyOrd =
      some ((order : ℤ), 2 * (((order : ℤ) : ℝ) + 1) + -1, ⟨0, some P.p0, -1, none, none, 0⟩) := by
    unfold choose
    have h1 : ¬((order : ℤ) < 0) := by omega
    rw [hpo, if_neg h1, Int.toNat_natCast, hf]
    rfl
  unfold Raw.fitStokes
  rw [hch, Option.map_some]
  constructor
  · intro h
    have h1 : (n : ℤ) - order - 1 = 0 := by omega
    rw [if_pos ⟨rfl, h1⟩]
  · intro h
    have h1 : ¬((n : ℤ) - order - 1 = 0) := by omega
    rw [if_neg (fun h => h1 h.2), if_neg hg]
    refine ⟨_, rfl, rfl, rfl, fun f => ?_⟩
    rw [calc_eval n w.ref w.fn _ P.p0 rfl f]
    exact eval_mean w.fn order w.spec _

/-- C159, refutation. With fewer good Stokes I channels than coefficients, but at least one:

* if there are as many channels as coefficients, the run continues with a unit Stokes I spectrum;
* otherwise the standard run raises although there are channels with valid Q and U and positive
  weight (and the good Stokes I values have a positive mean);
* otherwise, with super-resolution, it continues with the unweighted mean of the good Stokes I values. -/
theorem few_channels [NeZero n] (w : Raw n) (c : Cfg) (o : Pipe1D.Opts) (fw : ℝ) (order : ℕ)
    (hpo : w.polyOrd = order) (ho : order ≤ 5) (hmod : w.modI = none) (hf : ∀ j, 0 < w.freq j)
    (hg : ∃ j, w.i j ≠ none ∧ w.dI j ≠ none)
    (hm : (univ.filter fun j => w.i j ≠ none ∧ w.dI j ≠ none).card ≤ order) :
    (n = order + 1 → w.run c o fw = some (Pipe1D.run w.frac none o fw)) ∧
    (n ≠ order + 1 → o.superRes = false →
      0 < ∑ j ∈ univ.filter (fun j => w.i j ≠ none ∧ w.dI j ≠ none), (w.i j).getD 0 →
      (∃ j, Pipe1D.Usable w.frac o j ∧
        (o.variance = true → ∀ a b, w.dQ j = some a → w.dU j = some b → a + b ≠ 0)) →
      w.run c o fw = some none) ∧
    (n ≠ order + 1 → o.superRes = true → ∃ r, w.run c o fw = some (Pipe1D.run w.frac (some r) o fw) ∧
      ∀ f, calcModel r f = (∑ j ∈ univ.filter (fun j => w.i j ≠ none ∧ w.dI j ≠ none), (w.i j).getD 0)
        / (univ.filter fun j => w.i j ≠ none ∧ w.dI j ≠ none).card) := by
  have hset : w.good.toFinset = univ.filter fun j => w.i j ≠ none ∧ w.dI j ≠ none := by
    ext j
    rw [List.mem_toFinset, mem_good]
    simp
  have hlen : w.good.length = (univ.filter fun j => w.i j ≠ none ∧ w.dI j ≠ none).card := by
    rw [← hset, List.toFinset_card_of_nodup (good_nodup w)]
  have hg' : w.good ≠ [] := by
    obtain ⟨j, hj⟩ := hg
    exact List.ne_nil_of_mem ((mem_good w j).mpr hj)
  have hmean : w.spec.mean = (∑ j ∈ univ.filter (fun j => w.i j ≠ none ∧ w.dI j ≠ none), (w.i j).getD 0)
        / (univ.filter fun j => w.i j ≠ none ∧ w.dI j ≠ none).card := by
    rw [spec_mean, hset, hlen]
  obtain ⟨h1, h2⟩ := fitStokes_few w c order hpo ho hg' (hlen ▸ hm)
  refine ⟨fun h => ?_, fun h hs hpos hu => ?_, fun h hs => ?_⟩
  · unfold Raw.run
    rw [hmod, h1 h]
    rfl
  · obtain ⟨r, hr, -, -, hcm⟩ := h2 h
    obtain ⟨j, hj, hz⟩ := hu
    have hl := lam0_pos w.frac r o hmod hs hf j hj hz (by
      rw [hcm, hmean]
      refine div_pos hpos ?_
      rw [← hlen]
      exact_mod_cast List.length_pos_iff.mpr hg')
    unfold Raw.run
    rw [hmod, hr]
    simp only [Option.map_some]
    rw [if_pos ⟨trivial, hl.ne'⟩]
  · obtain ⟨r, hr, -, -, hcm⟩ := h2 h
    refine ⟨r, ?_, fun f => by rw [hcm, hmean]⟩
    have h0 : (Synth.doRmsynthPlanes (Pipe1D.synthInput w.frac (some r) o)).2 = 0 := by
      unfold Synth.doRmsynthPlanes Synth.lam0Sq Pipe1D.synthInput
      simp [hs]
    unfold Raw.run
    rw [hmod, hr]
    simp only [Option.map_some]
    rw [if_neg (fun h => h.2 h0)]

/-- Three channels, Stokes I flagged in two of them, a straight-line model: the run raises. -/
example (c : Cfg) (o : Pipe1D.Opts) (ho : o.superRes = false) (fw : ℝ) :
    let w : Raw 3 := { freq := fun j => 1e9 + 1e8 * j, i := ![some 1, none, none], q := fun _ => some 1, u := fun _ => some 0
                       dI := fun _ => some 1, dQ := fun _ => some 1, dU := fun _ => some 1, polyOrd := 1
                       fn := .linear, modI := none }
    w.run c o fw = some none := by
  intro w
  have hset : (univ.filter fun j => w.i j ≠ none ∧ w.dI j ≠ none) = {0} := by
    ext j
    fin_cases j <;> simp [w]
  refine (few_channels w c o fw 1 rfl (by norm_num) rfl (fun j => ?_) ⟨0, by simp [w]⟩ (by rw [hset]; simp)).2.1
    (by norm_num) ho ?_ ⟨0, ?_, ?_⟩
  · simp only [w]; positivity
  · rw [hset]; simp [w]
  · simp [Pipe1D.Usable, Raw.frac, w]
  · intro _ a b ha hb
    simp only [w, Option.some.injEq] at ha hb
    rw [← ha, ← hb]; norm_num

/-- C159, the part that holds: with more good channels than the order, positive errors there, and a
non-zero mean of the good values that fits at least as well as zero does, the fit ends with a covariance
matrix, and the run continues with its model. That model fits at least as well as the mean. -/
theorem enough_channels_partial [NeZero n] (w : Raw n) (c : Cfg) (hc : c.Ok) (o : Pipe1D.Opts) (fw : ℝ) (order : ℕ)
    (hpo : w.polyOrd = order) (ho : order ≤ 5) (hmod : w.modI = none)
    (hm : order < (univ.filter fun j => w.i j ≠ none ∧ w.dI j ≠ none).card)
    (hpos : ∀ j a s, w.i j = some a → w.dI j = some s → 0 < s) (mean : ℝ) (h0 : mean ≠ 0)
    (hmean : mean = (∑ j ∈ univ.filter (fun j => w.i j ≠ none ∧ w.dI j ≠ none), (w.i j).getD 0)
        / (univ.filter fun j => w.i j ≠ none ∧ w.dI j ≠ none).card)
    (hbetter : ∑ j ∈ univ.filter (fun j => w.i j ≠ none ∧ w.dI j ≠ none), ((mean - (w.i j).getD 0) / (w.dI j).getD 0) ^ 2
      ≤ ∑ j ∈ univ.filter (fun j => w.i j ≠ none ∧ w.dI j ≠ none), ((w.i j).getD 0 / (w.dI j).getD 0) ^ 2) :
    ∃ r, w.fitStokes c = some (.fit r true) ∧ w.run c o fw = some (Pipe1D.run w.frac (some r) o fw) ∧
      r.polyOrd = order ∧ 1 ≤ r.fitStatus ∧ r.fitStatus ≤ 8 ∧
      ∑ j ∈ univ.filter (fun j => w.i j ≠ none ∧ w.dI j ≠ none), ((calcModel r (w.freq j) - (w.i j).getD 0) / (w.dI j).getD 0) ^ 2
        ≤ ∑ j ∈ univ.filter (fun j => w.i j ≠ none ∧ w.dI j ≠ none), ((mean - (w.i j).getD 0) / (w.dI j).getD 0) ^ 2 := by
  have hset : w.good.toFinset = univ.filter fun j => w.i j ≠ none ∧ w.dI j ≠ none := by
    ext j
    rw [List.mem_toFinset, mem_good]
    simp
  have hlen : w.good.length = (univ.filter fun j => w.i j ≠ none ∧ w.dI j ≠ none).card := by
    rw [← hset, List.toFinset_card_of_nodup (good_nodup w)]
  have hsm : w.spec.mean = mean := by rw [spec_mean, hset, hlen, hmean]
  rw [← hset] at hbetter ⊢
  rw [← hlen] at hm
  have hg' : w.good ≠ [] := by
    intro h
    rw [h] at hm
    simp at hm
  set P := polyProb w.fn order w.spec with hP
  have hn : P.n = order + 1 := by simp only [hP, polyProb, Int.natAbs_natCast]; omega
  have hnm : P.n ≤ P.m := by rw [hn]; exact hm
  have hdy : ∀ k < w.spec.m, 0 < w.spec.dy k := by
    intro k hk
    obtain ⟨j, hj, hk'⟩ := good_get w k hk
    obtain ⟨h1, h2⟩ := (mem_good w j).mp hj
    obtain ⟨a, ha⟩ := Option.ne_none_iff_exists'.1 h1
    obtain ⟨s, hs⟩ := Option.ne_none_iff_exists'.1 h2
    have : w.spec.dy k = s := by
      unfold Raw.spec
      dsimp only
      rw [hk', Option.elim, hs, Option.getD_some]
    rw [this]
    exact hpos j a s ha hs
  have herr : w.spec.err = w.spec.dy := err_pos _ 0 (by change 0 < w.good.length; omega) hdy
  have hchi : ∀ g : ℝ → ℝ, w.spec.chi2 g = ∑ j ∈ w.good.toFinset, ((g (w.freq j / w.ref) - (w.i j).getD 0) / (w.dI j).getD 0) ^ 2 := by
    intro g
    unfold Spec.chi2
    rw [herr, sum_spec w fun x y s => ((g x - y) / s) ^ 2]
  obtain ⟨r, hr, -⟩ := fit_ends c hc P (polyProb_ok _ _ _) hnm ⟨order, by omega, by
      simp only [hP, polyProb, Int.natAbs_natCast]
      rw [if_pos (by omega), hsm]
      exact h0⟩ (by
      rw [poly_chi2, poly_chi2, hchi, hchi]
      refine le_trans (le_of_eq ?_) (le_trans hbetter (le_of_eq ?_))
      · refine Finset.sum_congr rfl fun j _ => ?_
        rw [eval_mean, hsm]
      · refine Finset.sum_congr rfl fun j _ => ?_
        have : evalFn w.fn (fun a => if (∃ j < P.n, P.ifree j = a) then 0 else P.p0 a) (w.freq j / w.ref) = 0 := by
          have h5 : (if (∃ j < P.n, P.ifree j = 5) then (0 : ℝ) else P.p0 5) = 0 := by
            rw [if_pos]
            refine ⟨order, by omega, ?_⟩
            simp only [hP, polyProb, Int.natAbs_natCast]
            omega
          have h4 : ∀ a : ℕ, a < 5 → (if (∃ j < P.n, P.ifree j = a) then (0 : ℝ) else P.p0 a) = 0 := by
            intro a ha
            split_ifs
            · rfl
            · simp only [hP, polyProb]
              rw [if_neg (by omega)]
          unfold evalFn
          cases w.fn
          · simp only [poly5]
            have e0 := h4 0 (by norm_num)
            have e1 := h4 1 (by norm_num)
            have e2 := h4 2 (by norm_num)
            have e3 := h4 3 (by norm_num)
            have e4 := h4 4 (by norm_num)
            simp only [Fin.val_zero, Fin.val_one, Fin.val_two] at *
            change (if (∃ j < P.n, P.ifree j = 0) then (0 : ℝ) else P.p0 0) * _
              + (if (∃ j < P.n, P.ifree j = 1) then (0 : ℝ) else P.p0 1) * _
              + (if (∃ j < P.n, P.ifree j = 2) then (0 : ℝ) else P.p0 2) * _
              + (if (∃ j < P.n, P.ifree j = 3) then (0 : ℝ) else P.p0 3) * _
              + (if (∃ j < P.n, P.ifree j = 4) then (0 : ℝ) else P.p0 4) * _
              + (if (∃ j < P.n, P.ifree j = 5) then (0 : ℝ) else P.p0 5) = 0
            rw [e0, e1, e2, e3, e4, h5]
            ring
          · simp only [powerlawPoly5]
            change (if (∃ j < P.n, P.ifree j = 5) then (0 : ℝ) else P.p0 5) * _ = 0
            rw [h5, zero_mul]
        rw [this, zero_sub, neg_div, neg_sq])
  obtain ⟨hs1, hs2, -, -, hcov, -⟩ := fit_status c hc P (polyProb_ok _ _ _) (by omega) hnm r hr
  have hmix : ¬w.spec.Mixed := fun ⟨⟨k, hk, hz⟩, _⟩ => (hdy k hk).ne' hz
  obtain ⟨p, hp, hle, -⟩ := poly_never_worse c hc w.fn order w.spec hmix r hr
  have hch : choose (w.poly c) w.polyOrd = some ((order : ℤ), 2 * (((order : ℤ) : ℝ) + 1) + r.fnorm, r) := by
    unfold choose
    have h1 : ¬((order : ℤ) < 0) := by omega
    rw [hpo, if_neg h1, Int.toNat_natCast, show w.poly c order = some r from poly_eq w c order _ (Or.inl hmix) hr]
    rfl
  have hfs : w.fitStokes c = some (.fit (resultOf n w.ref w.fn ((order : ℤ), 2 * (((order : ℤ) : ℝ) + 1) + r.fnorm, r)) true) := by
    unfold Raw.fitStokes
    rw [hch, Option.map_some]
    rw [if_neg (fun h => by
      have := h.1
      dsimp only at this
      rw [Option.isNone_iff_eq_none] at this
      rw [this] at hcov
      exact absurd hcov (by simp)), if_neg hg']
    dsimp only
    rw [hcov]
  refine ⟨_, hfs, ?_, rfl, ?_, ?_, ?_⟩
  · unfold Raw.run
    rw [hmod, hfs]
    simp only [Option.map_some]
    rw [if_neg (fun h => by simp at h)]
  · change 1 ≤ r.status.natAbs
    omega
  · change r.status.natAbs ≤ 8
    omega
  · change (∑ i ∈ range w.spec.m, w.spec.y i) / (w.spec.m : ℝ) = mean at hsm
    rw [hchi, hchi, hsm] at hle
    refine le_trans (le_of_eq ?_) hle
    refine Finset.sum_congr rfl fun j _ => ?_
    rw [calc_eval n w.ref w.fn _ p hp]

/-- Three channels, one flagged, and a straight line (power law): the fit succeeds. -/
example : let w : Raw 3 := { freq := fun j => 1e9 + 1e8 * j, i := ![some 1, some 2, none], q := fun _ => some 1, u := fun _ => some 0
                             dI := fun _ => some 1, dQ := fun _ => some 1, dU := fun _ => some 1, polyOrd := 1
                             fn := .log, modI := none }
    ∃ r, w.fitStokes mpDefault = some (.fit r true) := by
  intro w
  have hset : (univ.filter fun j => w.i j ≠ none ∧ w.dI j ≠ none) = {0, 1} := by
    ext j
    fin_cases j <;> simp [w]
  obtain ⟨r, hr, -⟩ := enough_channels_partial w mpDefault mpDefault_ok
    { variance := true, superRes := false, dPhi := none, phiMax := none, nSamples := 10 } 1 1 rfl (by norm_num) rfl
    (by rw [hset]; simp)
    (fun j a s _ hs => by simp only [w, Option.some.injEq] at hs; rw [← hs]; norm_num) (3 / 2) (by norm_num)
    (by rw [hset, Finset.sum_pair (by decide)]; simp [w]; norm_num)
    (by rw [hset, Finset.sum_pair (by decide), Finset.sum_pair (by decide)]; simp [w]; norm_num)
  exact ⟨r, hr⟩

end Verif.StokesFit
