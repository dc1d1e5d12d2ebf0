import Verif.Complexity.Flags
import Verif.Pipe1D.Props

/-!
# The complexity of Faraday-thin sources (C167)
-/

open Complex

namespace Verif.Complexity

open Verif.NumPy Verif.Stats Verif.SynthSpec

variable {n : ℕ}

/-- Normalised residuals within the errors give at most 12 % of the errors. -/
theorem unit_within (y dy : Fin n → Option ℝ) (hdy : ∀ j d, dy j = some d → d = 1)
    (hy : ∀ j v, y j = some v → |v| ≤ 1) (hex : ∃ j v, y j = some v ∧ dy j = some 1) :
    ∃ s m p, sigmaAdd y dy 0 1000 = some (s, m, p) ∧ 0 < s ∧ s ≤ 0.12 := by
  obtain ⟨j, v, h1, h2⟩ := hex
  obtain ⟨a, b, hext⟩ := extent_exists y dy ⟨j, v, 1, h1, h2⟩
  have hj := hext.1 j v 1 h1 h2
  have hr : 0 < b - a := by linarith [hj.1, hj.2]
  have hle : b - a ≤ 4 := by
    obtain ⟨-, ⟨i, w, d, i1, i2, i3⟩, ⟨k, w', d', k1, k2, k3⟩⟩ := hext
    have e1 := hdy i d i2
    have e2 := hdy k d' k2
    have e3 := abs_le.mp (hy i w i1)
    have e4 := abs_le.mp (hy k w' k1)
    linarith [e3.1, e4.2]
  obtain ⟨s, m, p, e1, e2, e3⟩ := core_within y dy 0 (b - a) hr (by
    intro j v d hv hd
    rw [hdy j d hd, sub_zero]
    exact sq_le_sq' (by linarith [(abs_le.mp (hy j v hv)).1]) (abs_le.mp (hy j v hv)).2)
  refine ⟨s, m, p, ?_, e2, by linarith⟩
  unfold sigmaAdd
  rw [yRange_eq y dy a b hext, Option.bind_some, if_neg (by push Not; exact ⟨hr, by norm_num⟩), e1]

/-- Residuals within the errors everywhere: all three measures are numbers of at most 0.12. -/
theorem measure_within (freq : Fin n → ℝ) (q u dq du : Fin n → Option ℝ) (frac psi rm : Option ℝ)
    (hq : ∀ j a m d, q j = some a → thinModel freq frac psi rm j = some m → dq j = some d → |a - m.1| ≤ |d|)
    (hu : ∀ j a m d, u j = some a → thinModel freq frac psi rm j = some m → du j = some d → |a - m.2| ≤ |d|)
    (hex : ∃ j a b m d e, q j = some a ∧ u j = some b ∧ thinModel freq frac psi rm j = some m ∧
      dq j = some d ∧ d ≠ 0 ∧ du j = some e ∧ e ≠ 0) :
    let r := measure freq q u dq du frac psi rm
    (∃ s m p, r.q = some (s, m, p) ∧ 0 < s ∧ s ≤ 0.12) ∧ (∃ s m p, r.u = some (s, m, p) ∧ 0 < s ∧ s ≤ 0.12) ∧
      ∃ s m p, r.c = some (s, m, p) ∧ 0 < s ∧ s ≤ 0.12 := by
  intro r
  set mod := thinModel freq frac psi rm with hmod
  set yq : Fin n → Option ℝ := fun j => quot (subNaN (q j) ((mod j).map Prod.fst)) (dq j) with hyq
  set yu : Fin n → Option ℝ := fun j => quot (subNaN (u j) ((mod j).map Prod.snd)) (du j) with hyu
  set eq : Fin n → Option ℝ := fun j => quot (dq j) (dq j) with heq
  set eu : Fin n → Option ℝ := fun j => quot (du j) (du j) with heu
  have aux : ∀ (a : Option ℝ) (m : Option ℝ) (d : Option ℝ) (v : ℝ), quot (subNaN a m) d = some v →
      (∀ a' m' d', a = some a' → m = some m' → d = some d' → |a' - m'| ≤ |d'|) → |v| ≤ 1 := by
    intro a m d v h hb
    obtain ⟨x, y, h1, h2, h3, h4⟩ := quot_eq h
    cases a with
    | none => simp [subNaN] at h1
    | some a =>
      cases m with
      | none => simp [subNaN] at h1
      | some m =>
        simp [subNaN] at h1
        rw [h4, abs_div, div_le_one (abs_pos.mpr h3), ← h1]
        exact hb a m y rfl rfl h2
  have q1 : ∀ j v, yq j = some v → |v| ≤ 1 := by
    intro j v h
    refine aux _ _ _ v h fun a m d ha hm hd => ?_
    rw [Option.map_eq_some_iff] at hm
    obtain ⟨m', hm', rfl⟩ := hm
    exact hq j a m' d ha hm' hd
  have u1 : ∀ j v, yu j = some v → |v| ≤ 1 := by
    intro j v h
    refine aux _ _ _ v h fun a m d ha hm hd => ?_
    rw [Option.map_eq_some_iff] at hm
    obtain ⟨m', hm', rfl⟩ := hm
    exact hu j a m' d ha hm' hd
  have q2 : ∀ j d, eq j = some d → d = 1 := fun j d h => quot_one h
  have u2 : ∀ j d, eu j = some d → d = 1 := fun j d h => quot_one h
  obtain ⟨j, a, b, m, d, e, x1, x2, x3, x4, x5, x6, x7⟩ := hex
  have q3 : yq j = some ((a - m.1) / d) ∧ eq j = some 1 := by
    simp only [hyq, heq]
    rw [x1, x3, x4]
    exact ⟨by simp [quot, subNaN, x5], quot_self d x5⟩
  have u3 : yu j = some ((b - m.2) / e) ∧ eu j = some 1 := by
    simp only [hyu, heu]
    rw [x2, x3, x6]
    exact ⟨by simp [quot, subNaN, x7], quot_self e x7⟩
  refine ⟨unit_within yq eq q2 q1 ⟨j, _, q3.1, q3.2⟩, unit_within yu eu u2 u1 ⟨j, _, u3.1, u3.2⟩,
    unit_within (Fin.append yq yu) (Fin.append eq eu) ?_ ?_ ⟨Fin.castAdd n j, (a - m.1) / d, ?_, ?_⟩⟩
  · intro i d
    induction i using Fin.addCases with
    | left i => rw [Fin.append_left]; exact q2 i d
    | right i => rw [Fin.append_right]; exact u2 i d
  · intro i v
    induction i using Fin.addCases with
    | left i => rw [Fin.append_left]; exact q1 i v
    | right i => rw [Fin.append_right]; exact u1 i v
  · rw [Fin.append_left]; exact q3.1
  · rw [Fin.append_left]; exact q3.2

/-- The model subtracted is that of a Faraday-thin source. -/
theorem thinModel_eq (freq : Fin n → ℝ) (p ang psi rm : ℝ) (h : Peak.IsPolAngle ang (exp (2 * I * psi))) (j : Fin n)
    (hf : freq j ≠ 0) :
    thinModel freq (some p) (some ang) (some rm) j =
      some ((thin p psi rm (Pipe1D.lamSq freq j)).re, (thin p psi rm (Pipe1D.lamSq freq j)).im) := by
  have hn : ‖exp (2 * I * (psi : ℂ))‖ = 1 := by
    rw [show (2 * I * (psi : ℂ)) = ((2 * psi : ℝ) : ℂ) * I by push_cast; ring, Complex.norm_exp_ofReal_mul_I]
  have h3 := h.2.2
  rw [hn] at h3
  have e : Sim.burnTerm p ang rm 0 (Sim.c0 / freq j) = thin p psi rm (Pipe1D.lamSq freq j) := by
    unfold Sim.burnTerm thin
    rw [show (-2 * (0 : ℝ) * (Sim.c0 / freq j) ^ 4 : ℝ) = 0 by ring, Complex.ofReal_zero, Complex.exp_zero, mul_one, mul_one]
    congr 1
    rw [show (2 * I * ((QU.radians ang + rm * (Sim.c0 / freq j) ^ 2 : ℝ) : ℂ)) =
      2 * I * ((ang * Real.pi / 180 : ℝ) : ℂ) + 2 * I * (rm * ((Pipe1D.lamSq freq j : ℝ) : ℂ)) by
        unfold QU.radians Pipe1D.lamSq Pipe1D.c Sim.c0; push_cast; ring,
      Complex.exp_add, mul_add, Complex.exp_add, h3]
    simp
  unfold thinModel Sim.pquBurn
  simp only [Option.bind_some, Option.getD_none, List.map_cons, List.map_nil, List.length_singleton, ne_eq,
    not_true_eq_false, if_false, Sim.lam, if_neg hf, Option.map_some]
  rw [Sim.burnSum, Sim.burnSum, add_zero, e]
  · rfl
  all_goals simp

/-- The fields of a successful run: noise, fraction and corrected amplitude. -/
theorem run_fields [NeZero n] (x : StokesI.FracIn n) (fit : Option StokesI.FitResult) (o : Pipe1D.Opts) (fw : ℝ)
    (out : Pipe1D.Out) (h : Pipe1D.run x fit o fw = some out) :
    out.dFDFth = (Pipe1D.noiseTheory (Pipe1D.stage x fit o).weight (Pipe1D.stage x fit o).dqu).map
        (fun v => |out.ifreq0| * v) ∧
      out.fracPol = out.meas.ampEff.bind (fun a => Peak.fdiv a out.ifreq0) ∧
      ∀ A s, out.meas.amp = some A → out.dFDFth = some s → 0 < s →
        (5 ≤ A / s → ∃ e, out.meas.ampEff = some e ∧ 0 ≤ e ∧ e < A ∧ e ^ 2 = A ^ 2 - 2.3 * s ^ 2) ∧
          (A / s < 5 → out.meas.ampEff = some A) := by
  replace h := (Pipe1D.regular_of_run h).2
  unfold Pipe1D.runRegular at h
  dsimp only at h
  rw [Option.bind_eq_some_iff] at h
  obtain ⟨⟨f0, i0⟩, h1, h⟩ := h
  rw [Option.bind_eq_some_iff] at h
  obtain ⟨i, h2, h⟩ := h
  by_cases hs : ∀ l, ((Synth.doRmsynthPlanes (Pipe1D.synthInput x fit o)).1 l 0).isSome
  swap
  · rw [dif_neg hs] at h; exact absurd h (by simp)
  rw [dif_pos hs, Option.map_eq_some_iff] at h
  obtain ⟨m, h3, h⟩ := h
  rw [← h]
  refine ⟨rfl, rfl, ?_⟩
  dsimp only
  intro A s hA hth hs0
  unfold Pipe1D.measureN at h3
  by_cases hN : 3 ≤ Axis.nChanRM (Pipe1D.stage x fit o).phiMax (Pipe1D.stage x fit o).dPhi
  swap
  · rw [dif_neg hN] at h3; exact absurd h3 (by simp)
  rw [dif_pos hN, Option.some.injEq] at h3
  rw [hth] at h3
  rw [← h3] at hA ⊢
  have hd := (Peak.debias (M := _ - 3) _ _ _ (some s) (Pipe1D.lamSq x.freq) _ 5 (by norm_num) (by norm_num)).2 A s hA rfl
  exact ⟨hd.1 hs0, hd.2.1 hs0⟩

/-- With inverse-variance weights the theoretical noise does not exceed the error of any channel. -/
theorem noise_le (d : Fin n → Option ℝ) (hd : ∀ j v, d j = some v → 0 < v) (j : Fin n) (v : ℝ) (hj : d j = some v) :
    ∃ s, Pipe1D.noiseTheory (fun j => Pipe1D.weight true (d j)) d = some s ∧ 0 < s ∧ s ≤ v := by
  have hv := hd j v hj
  set w : Fin n → ℝ := fun j => (Pipe1D.weight true (d j)).getD 0 with hw
  have hw0 : ∀ i, 0 ≤ w i := by
    intro i
    simp only [hw, Pipe1D.weight, if_true]
    cases d i with
    | none => simp
    | some a => simp; positivity
  have hwj : w j = 1 / v ^ 2 := by simp [hw, Pipe1D.weight, hj]
  have hle : 1 / v ^ 2 ≤ ∑ i, w i := hwj ▸ Finset.single_le_sum (fun i _ => hw0 i) (Finset.mem_univ j)
  have hpos : 0 < ∑ i, w i := lt_of_lt_of_le (by positivity) hle
  have he : ∀ i, w i ^ 2 * ((d i).getD 0) ^ 2 = w i := by
    intro i
    simp only [hw, Pipe1D.weight, if_true]
    cases hi : d i with
    | none => simp
    | some a =>
      have := hd i a hi
      simp
      field_simp
  refine ⟨Real.sqrt (1 / ∑ i, w i), ?_, Real.sqrt_pos.mpr (by positivity), ?_⟩
  · unfold Pipe1D.noiseTheory
    dsimp only
    rw [if_neg hpos.ne']
    congr 2
    rw [Finset.sum_congr rfl fun i _ => he i]
    change (∑ i, w i) / (∑ i, w i) ^ 2 = 1 / ∑ i, w i
    field_simp
  · rw [Real.sqrt_le_left hv.le]
    rw [div_le_iff₀ (by positivity)] at hle ⊢
    linarith

/-- C167. A noise-free Faraday-thin source (as in `run_thin_source`), with inverse-variance weights, positive errors
that differ by at most a factor of three between Q and U, and channels flagged in Q and U alike: the run reports for
Q, U and both together an additional scatter of at most 12 % of the errors. -/
theorem run_thin_not_complex [NeZero n] (x : StokesI.FracIn n) (r : StokesI.FitResult) (o : Pipe1D.Opts)
    (fw p psi : ℝ) (k : Fin (Axis.nChanRM (Pipe1D.axisParams x.freq o).2 (Pipe1D.axisParams x.freq o).1))
    (hk0 : 0 < (k : ℕ)) (hk1 : (k : ℕ) + 1 < Axis.nChanRM (Pipe1D.axisParams x.freq o).2 (Pipe1D.axisParams x.freq o).1)
    (hmod : x.modI = none) (hs : o.superRes = false) (hf : ∀ j, 0 < x.freq j) (hr : 0 < r.refFreq)
    (hp : 0 < p) (hd : 0 < (Pipe1D.axisParams x.freq o).1)
    (hpos : ∀ f, (∃ j, x.freq j ≤ f) → (∃ j, f ≤ x.freq j) → 0 < StokesI.calcModel r f)
    (hx : Pipe1D.IsThin x (StokesI.calcModel r) p psi
      (Axis.phiAxis (Pipe1D.axisParams x.freq o).2 (Pipe1D.axisParams x.freq o).1 k))
    (hv : o.variance = true)
    (hflag : ∀ j, x.q j = none ↔ x.u j = none)
    (herr : ∀ j, (x.dQ j = none ∧ x.dU j = none) ∨
      ∃ a b, x.dQ j = some a ∧ x.dU j = some b ∧ 0 < a ∧ 0 < b ∧ a ≤ 3 * b ∧ b ≤ 3 * a)
    (j j' : Fin n) (hj : Pipe1D.Usable x o j) (hj' : Pipe1D.Usable x o j')
    (hne : Pipe1D.lamSq x.freq j ≠ Pipe1D.lamSq x.freq j')
    (hpi : ((Axis.nChanRM (Pipe1D.axisParams x.freq o).2 (Pipe1D.axisParams x.freq o).1 - 1 : ℕ) : ℝ) *
      (Pipe1D.axisParams x.freq o).1 * |Pipe1D.lamSq x.freq j - Pipe1D.lamSq x.freq j'| < Real.pi) :
    ∃ out res, run x (some r) o fw = some (out, res) ∧
      (∃ s m p, res.q = some (s, m, p) ∧ 0 < s ∧ s ≤ 0.12) ∧ (∃ s m p, res.u = some (s, m, p) ∧ 0 < s ∧ s ≤ 0.12) ∧
      ∃ s m p, res.c = some (s, m, p) ∧ 0 < s ∧ s ≤ 0.12 := by
  have hz : o.variance = true → ∀ j a b, x.dQ j = some a → x.dU j = some b → a + b ≠ 0 := by
    intro _ i a b ha hb
    rcases herr i with ⟨h, -⟩ | ⟨a', b', h1, h2, h3, h4, -⟩
    · rw [h] at ha; exact absurd ha (by simp)
    · rw [ha, Option.some.injEq] at h1
      rw [hb, Option.some.injEq] at h2
      rw [h1, h2]; positivity
  obtain ⟨out, e1, e2, e3, e4, -, ⟨fa, fb, hfa, hfb⟩, ang, e5, e6⟩ := Pipe1D.run_thin_source x r o fw p psi k hk0 hk1 hmod hs hf hr hp hd
    hpos hx hz j j' hj hj' hne hpi
  set rm := Axis.phiAxis (Pipe1D.axisParams x.freq o).2 (Pipe1D.axisParams x.freq o).1 k with hrm
  set S := StokesI.calcModel r with hS
  have hSj : ∀ j, 0 < S (x.freq j) := fun j => hpos _ ⟨j, le_rfl⟩ ⟨j, le_rfl⟩
  have hi0 : 0 < out.ifreq0 := by rw [e4]; exact hpos _ ⟨fa, hfa⟩ ⟨fb, hfb⟩
  -- the fractional spectra
  have hc : ∃ res, StokesI.createFrac x (some r) =
      { model := fun j => some (S (x.freq j))
        q := fun j => StokesI.divNaN (x.q j) (some (S (x.freq j)))
        u := fun j => StokesI.divNaN (x.u j) (some (S (x.freq j)))
        dq := fun j => StokesI.divNaN (x.dQ j) (some (S (x.freq j)))
        du := fun j => StokesI.divNaN (x.dU j) (some (S (x.freq j)))
        fit := res } := by
    unfold StokesI.createFrac
    rw [hmod]
    exact ⟨_, rfl⟩
  obtain ⟨res, hc⟩ := hc
  have hfr : (Pipe1D.stage x (some r) o).frac = StokesI.createFrac x (some r) := rfl
  set st := Pipe1D.stage x (some r) o with hst
  have hq : ∀ j, st.frac.q j = StokesI.divNaN (x.q j) (some (S (x.freq j))) := by intro j; rw [hfr, hc]
  have hu : ∀ j, st.frac.u j = StokesI.divNaN (x.u j) (some (S (x.freq j))) := by intro j; rw [hfr, hc]
  have hdq : ∀ j, st.frac.dq j = StokesI.divNaN (x.dQ j) (some (S (x.freq j))) := by intro j; rw [hfr, hc]
  have hdu : ∀ j, st.frac.du j = StokesI.divNaN (x.dU j) (some (S (x.freq j))) := by intro j; rw [hfr, hc]
  have hdiv : ∀ (v s : ℝ), 0 < s → StokesI.divNaN (some v) (some s) = some (v / s) := by
    intro v s hs
    simp [StokesI.divNaN, hs.ne']
  have hdqu : ∀ i, st.dqu i = Pipe1D.dqu (st.frac.dq i) (st.frac.du i) := fun i => rfl
  have hdval : ∀ i a b, x.dQ i = some a → x.dU i = some b → 0 < a → 0 < b →
      st.dqu i = some ((a / S (x.freq i) + b / S (x.freq i)) / 2) := by
    intro i a b ha hb h1 h2
    rw [hdqu, hdq, hdu, ha, hb, hdiv _ _ (hSj i), hdiv _ _ (hSj i)]
    simp only [Pipe1D.dqu, Option.bind_some, Option.map_some]
    rw [abs_of_pos]
    have := hSj i
    positivity
  have hdpos : ∀ i v, st.dqu i = some v → 0 < v := by
    intro i v hv
    rcases herr i with ⟨h, -⟩ | ⟨a, b, h1, h2, h3, h4, -⟩
    · rw [hdqu, hdq, h] at hv
      simp [Pipe1D.dqu, StokesI.divNaN] at hv
    · rw [hdval i a b h1 h2 h3 h4, Option.some.injEq] at hv
      have := hSj i
      rw [← hv]; positivity
  have hwt : st.weight = fun i => Pipe1D.weight true (st.dqu i) := by
    rw [hst]
    unfold Pipe1D.stage
    rw [hv]
  -- a channel with an error
  obtain ⟨a0, b0, ha0, hb0, ha0', hb0', -⟩ : ∃ a b, x.dQ j = some a ∧ x.dU j = some b ∧ 0 < a ∧ 0 < b ∧ a ≤ 3 * b ∧ b ≤ 3 * a := by
    rcases herr j with ⟨h, -⟩ | h
    · exact absurd h (hj.2.2 hv).1
    · exact h
  obtain ⟨ν, hν, hν0, -⟩ := noise_le st.dqu hdpos j _ (hdval j a0 b0 ha0 hb0 ha0' hb0')
  have hνle : ∀ i v, st.dqu i = some v → ν ≤ v := by
    intro i v hi
    obtain ⟨s, hs, -, hle⟩ := noise_le st.dqu hdpos i v hi
    rw [hν, Option.some.injEq] at hs
    rw [hs]; exact hle
  obtain ⟨g1, g2, g3⟩ := run_fields x (some r) o fw out e1
  rw [← hst, hwt, hν, Option.map_some, abs_of_pos hi0] at g1
  obtain ⟨G1, G2⟩ := g3 _ _ e3 g1 (mul_pos hi0 hν0)
  -- the fraction subtracted
  have hfrac : ∃ f, out.fracPol = some f ∧ |p - f| ≤ 0.46 * ν := by
    rw [g2]
    have hdivA : p * S out.freq0 / (out.ifreq0 * ν) = p / ν := by rw [← e4]; field_simp
    rw [hdivA] at G1 G2
    rcases lt_or_ge (p / ν) 5 with hlt | hge
    · rw [G2 hlt]
      refine ⟨p, ?_, by rw [sub_self, abs_zero]; positivity⟩
      rw [← e4]
      simp [Peak.fdiv, hi0.ne']
    · obtain ⟨e, q1, q2, q3, q4⟩ := G1 hge
      rw [q1]
      refine ⟨e / out.ifreq0, by simp [Peak.fdiv, hi0.ne'], ?_⟩
      rw [← e4] at q3 q4
      set f := e / out.ifreq0 with hfd
      have hef : e = f * out.ifreq0 := by rw [hfd]; field_simp
      have q2' := q2
      rw [hef] at q2 q3 q4
      have hf0 : 0 ≤ f := by rw [hfd]; exact div_nonneg q2' hi0.le
      have hfp : f < p := lt_of_mul_lt_mul_right q3 hi0.le
      have hsq : f ^ 2 = p ^ 2 - 2.3 * ν ^ 2 := by
        have : (f ^ 2 - (p ^ 2 - 2.3 * ν ^ 2)) * out.ifreq0 ^ 2 = 0 := by linarith
        rcases mul_eq_zero.mp this with h | h
        · linarith
        · exact absurd h (by positivity)
      rw [le_div_iff₀ hν0] at hge
      rw [abs_of_pos (by linarith)]
      have : (p - f) * (p + f) = 2.3 * ν ^ 2 := by ring_nf; ring_nf at hsq; linarith
      by_contra hcon
      push Not at hcon
      have h1 : 0.46 * ν * (5 * ν) < (p - f) * (p + f) := by
        apply mul_lt_mul hcon (by linarith) (by positivity) (by linarith)
      nlinarith
  obtain ⟨f, hf1, hf2⟩ := hfrac
  refine ⟨out, _, by unfold run; rw [e1]; rfl, ?_⟩
  rw [hf1, e2, e5, ← hst]
  have hmodel : ∀ i, thinModel x.freq (some f) (some ang) (some rm) i =
      some ((thin f psi rm (Pipe1D.lamSq x.freq i)).re, (thin f psi rm (Pipe1D.lamSq x.freq i)).im) :=
    fun i => thinModel_eq x.freq f ang psi rm e6 i (hf i).ne'
  have hdiff : ∀ i, ‖thin p psi rm (Pipe1D.lamSq x.freq i) - thin f psi rm (Pipe1D.lamSq x.freq i)‖ ≤ 0.46 * ν := by
    intro i
    refine le_trans (le_of_eq ?_) hf2
    unfold thin
    rw [← sub_mul, norm_mul, show (2 * I * ((psi : ℂ) + rm * (Pipe1D.lamSq x.freq i : ℂ))) =
      ((2 * (psi + rm * Pipe1D.lamSq x.freq i) : ℝ) : ℂ) * I by push_cast; ring, Complex.norm_exp_ofReal_mul_I, mul_one,
      ← Complex.ofReal_sub, Complex.norm_real, Real.norm_eq_abs]
  have hval : ∀ i, st.frac.q i = none ∧ st.frac.u i = none ∨
      st.frac.q i = some (thin p psi rm (Pipe1D.lamSq x.freq i)).re ∧
        st.frac.u i = some (thin p psi rm (Pipe1D.lamSq x.freq i)).im := by
    intro i
    rw [hq, hu]
    cases hqi : x.q i with
    | none =>
      left
      rw [(hflag i).mp hqi]
      exact ⟨rfl, rfl⟩
    | some a =>
      cases hui : x.u i with
      | none => rw [(hflag i).mpr hui] at hqi; exact absurd hqi (by simp)
      | some b =>
        right
        have h := Pipe1D.frac_thin x S p psi rm hx hSj (fun j => some (S (x.freq j))) (fun _ => rfl) i (by
          rw [hqi, hui, hdiv _ _ (hSj i), hdiv _ _ (hSj i)]; rfl)
        rw [hqi, hui, hdiv _ _ (hSj i), hdiv _ _ (hSj i)] at h
        simp only [pol, Option.bind_some, Option.map_some, Option.some.injEq] at h
        rw [hdiv _ _ (hSj i), hdiv _ _ (hSj i), ← h]
        exact ⟨rfl, rfl⟩
  have hbound : ∀ i, (∀ d, st.frac.dq i = some d → 0.46 * ν ≤ |d|) ∧ ∀ d, st.frac.du i = some d → 0.46 * ν ≤ |d| := by
    intro i
    have hs := hSj i
    rcases herr i with ⟨h, h'⟩ | ⟨a, b, h1, h2, h3, h4, h5, h6⟩
    · rw [hdq, hdu, h, h']
      constructor <;> intro d hd <;> exact absurd hd (by simp [StokesI.divNaN])
    · have hle := hνle i _ (hdval i a b h1 h2 h3 h4)
      rw [hdq, hdu, h1, h2, hdiv _ _ hs, hdiv _ _ hs]
      have k1 : b / S (x.freq i) ≤ 3 * (a / S (x.freq i)) := by rw [← mul_div_assoc]; gcongr
      have k2 : a / S (x.freq i) ≤ 3 * (b / S (x.freq i)) := by rw [← mul_div_assoc]; gcongr
      have k3 : 0 < a / S (x.freq i) := by positivity
      have k4 : 0 < b / S (x.freq i) := by positivity
      constructor
      · intro d hd
        rw [Option.some.injEq] at hd
        rw [← hd, abs_of_pos k3]; linarith
      · intro d hd
        rw [Option.some.injEq] at hd
        rw [← hd, abs_of_pos k4]; linarith
  refine measure_within x.freq st.frac.q st.frac.u st.frac.dq st.frac.du (some f) (some ang) (some rm) ?_ ?_ ?_
  · intro i a m d ha hm hd
    rw [hmodel, Option.some.injEq] at hm
    rcases hval i with ⟨h, -⟩ | ⟨h, -⟩
    · rw [h] at ha; exact absurd ha (by simp)
    · rw [h, Option.some.injEq] at ha
      rw [← ha, ← hm]
      refine le_trans ?_ ((hbound i).1 d hd)
      rw [← Complex.sub_re]
      exact (Complex.abs_re_le_norm _).trans (hdiff i)
  · intro i a m d ha hm hd
    rw [hmodel, Option.some.injEq] at hm
    rcases hval i with ⟨-, h⟩ | ⟨-, h⟩
    · rw [h] at ha; exact absurd ha (by simp)
    · rw [h, Option.some.injEq] at ha
      rw [← ha, ← hm]
      refine le_trans ?_ ((hbound i).2 d hd)
      rw [← Complex.sub_im]
      exact (Complex.abs_im_le_norm _).trans (hdiff i)
  · have hsj := hSj j
    rcases hval j with ⟨h, -⟩ | ⟨h, h'⟩
    · exfalso
      obtain ⟨v, hv⟩ := Option.ne_none_iff_exists'.1 hj.1
      rw [hq, hv, hdiv _ _ hsj] at h
      exact absurd h (by simp)
    · refine ⟨j, _, _, _, a0 / S (x.freq j), b0 / S (x.freq j), h, h', hmodel j, ?_, ?_, ?_, ?_⟩
      · rw [hdq, ha0, hdiv _ _ hsj]
      · positivity
      · rw [hdu, hb0, hdiv _ _ hsj]
      · positivity

/-- A case: the source of `Pipe1D.exThin`, half polarised. -/
example : ∃ (x : StokesI.FracIn 2) (r : StokesI.FitResult) (o : Pipe1D.Opts) (out : Pipe1D.Out) (res : Result),
    run x (some r) o 1 = some (out, res) ∧ ∃ s m p, res.c = some (s, m, p) ∧ 0 < s ∧ s ≤ 0.12 := by
  obtain ⟨x, r, o, k, h1, h2, h3, h4, h5, h6, h7, h8, h9, h10, -, h11, h12, h13, h14, h15, h16⟩ := Pipe1D.exThin
  obtain ⟨out, res, e1, -, -, e2⟩ := run_thin_not_complex x r o 1 (1 / 2) 0 k h1 h2 h3 h4 h5 h6 (by norm_num) h7
    (fun f _ _ => h8 f) h9 h10 h15 (fun j => Or.inr ⟨1, 1, (h16 j).1, (h16 j).2, by norm_num⟩) 0 1 h11 h12 h13 h14
  exact ⟨x, r, o, out, res, e1, e2⟩

end Verif.Complexity
