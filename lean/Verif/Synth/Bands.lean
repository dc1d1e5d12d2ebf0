import Verif.Synth.Props
import Verif.Errors.CleanNoise

/-!
# Observations in several bands (C261)

The channels of two bands, observed separately or in one run: `do_rmsynth_planes` (`/repo/RMutils/util_RM.py` 97-225) and the theoretical noise of
`run_rmsynth` (`/repo/RMtools_1D/do_RMsynth_1D.py` 293-297 and 365-369).
-/

open Complex

namespace Verif.Synth

open Verif.SynthSpec

variable {n n' N m k : ℕ}

/-- The channels of `x` are those of `a` and those of `b`, in any order; the depths are the same. -/
structure Joined (x : Input N m k) (a : Input n m k) (b : Input n' m k) (e : Fin n ⊕ Fin n' ≃ Fin N) : Prop where
  phiA : a.phi = x.phi
  phiB : b.phi = x.phi
  lamA : ∀ j, a.lamSq j = x.lamSq (e (.inl j))
  lamB : ∀ j, b.lamSq j = x.lamSq (e (.inr j))
  qA : ∀ j, a.dataQ j = x.dataQ (e (.inl j))
  qB : ∀ j, b.dataQ j = x.dataQ (e (.inr j))
  uA : ∀ j, a.dataU j = x.dataU (e (.inl j))
  uB : ∀ j, b.dataU j = x.dataU (e (.inr j))
  wA : ∀ j, effWeight a.weight j = effWeight x.weight (e (.inl j))
  wB : ∀ j, effWeight b.weight j = effWeight x.weight (e (.inr j))

/-- Sums over the selected channels of both bands. -/
theorem sum_joined {M : Type*} [AddCommMonoid M] (e : Fin n ⊕ Fin n' ≃ Fin N) (good : Fin N → Prop) [DecidablePred good] (v : Fin N → M) :
    ∑ j ∈ Finset.univ.filter good, v j =
      ∑ j ∈ Finset.univ.filter (fun j => good (e (.inl j))), v (e (.inl j)) + ∑ j ∈ Finset.univ.filter (fun j => good (e (.inr j))), v (e (.inr j)) := by
  simp only [Finset.sum_filter]
  rw [← e.sum_comp, Fintype.sum_sum_type]

section

variable {x : Input N m k} {a : Input n m k} {b : Input n' m k} {e : Fin n ⊕ Fin n' ≃ Fin N}

theorem Joined.specA (h : Joined x a b e) (p : Fin m) (j : Fin n) : spectrum a p j = spectrum x p (e (.inl j)) := by
  unfold spectrum
  rw [h.qA, h.uA]

theorem Joined.specB (h : Joined x a b e) (p : Fin m) (j : Fin n') : spectrum b p j = spectrum x p (e (.inr j)) := by
  unfold spectrum
  rw [h.qB, h.uB]

/-- The sum of the weights of the unflagged channels of a pixel. -/
noncomputable def pixWeight (x : Input N m k) (p : Fin m) : ℝ := weightSum (effWeight x.weight) fun j => (spectrum x p j).isSome = true

theorem Joined.pixWeight (h : Joined x a b e) (p : Fin m) : pixWeight x p = Synth.pixWeight a p + Synth.pixWeight b p := by
  unfold Synth.pixWeight weightSum
  rw [sum_joined e]
  simp only [h.specA, h.specB, h.wA, h.wB]

/-- The numerator of the defining sum. -/
theorem value_mul (x : Input N m k) (hs : SymGrid x.phi) (hw : ∀ j, 0 ≤ effWeight x.weight j) (L : ℝ) (l : Fin k) (p : Fin m) :
    exp (-2 * I * x.phi l * (refLamSq x - L)) * value x l p * (pixWeight x p : ℝ) =
      ∑ j ∈ Finset.univ.filter (fun j => (spectrum x p j).isSome = true),
        (effWeight x.weight j : ℂ) * (spectrum x p j).getD 0 * exp (-2 * I * x.phi l * (x.lamSq j - L)) := by
  rw [value_sym x hs]
  unfold SynthSpec.fdf
  have hsum : ∀ j : Fin N, exp (-2 * I * x.phi l * (x.lamSq j - L)) = exp (-2 * I * x.phi l * (refLamSq x - L)) * exp (-2 * I * x.phi l * (x.lamSq j - refLamSq x)) := fun j => by
    rw [← Complex.exp_add]
    congr 1
    ring
  have hrhs : (∑ j ∈ Finset.univ.filter (fun j => (spectrum x p j).isSome = true), (effWeight x.weight j : ℂ) * (spectrum x p j).getD 0 * exp (-2 * I * x.phi l * (x.lamSq j - L))) =
      exp (-2 * I * x.phi l * (refLamSq x - L)) * ∑ j ∈ Finset.univ.filter (fun j => (spectrum x p j).isSome = true),
        (effWeight x.weight j : ℂ) * (spectrum x p j).getD 0 * exp (-2 * I * x.phi l * (x.lamSq j - refLamSq x)) := by
    rw [Finset.mul_sum]
    refine Finset.sum_congr rfl fun j _ => ?_
    rw [hsum j]
    ring
  rw [hrhs, mul_assoc]
  congr 1
  by_cases h0 : pixWeight x p = 0
  · rw [h0]
    have hz : ∀ j ∈ Finset.univ.filter (fun j => (spectrum x p j).isSome = true), effWeight x.weight j = 0 :=
      (Finset.sum_eq_zero_iff_of_nonneg fun j _ => hw j).1 h0
    rw [Finset.sum_eq_zero fun j hj => by rw [hz j hj]; simp]
    simp
  · have h0' : ((weightSum (effWeight x.weight) fun j => (spectrum x p j).isSome = true : ℝ) : ℂ) ≠ 0 := by exact_mod_cast h0
    exact div_mul_cancel₀ _ h0'

/-- **C261**, Faraday spectra: the spectrum of all channels is the weighted mean of the spectra of the bands, once these are turned to its reference
wavelength; for each pixel, with its flagged channels left out, and whatever reference wavelengths the three runs use. -/
theorem bands_spectrum (h : Joined x a b e) (hs : SymGrid x.phi) (hw : ∀ j, 0 ≤ effWeight x.weight j) (l : Fin k) (p : Fin m) :
    value x l p * (pixWeight x p : ℝ) =
      exp (-2 * I * x.phi l * (refLamSq a - refLamSq x)) * value a l p * (pixWeight a p : ℝ) +
        exp (-2 * I * x.phi l * (refLamSq b - refLamSq x)) * value b l p * (pixWeight b p : ℝ) := by
  have hx := value_mul x hs hw (refLamSq x) l p
  have ha := value_mul a (by rw [h.phiA]; exact hs) (fun j => by rw [h.wA]; exact hw _) (refLamSq x) l p
  have hb := value_mul b (by rw [h.phiB]; exact hs) (fun j => by rw [h.wB]; exact hw _) (refLamSq x) l p
  rw [h.phiA] at ha
  rw [h.phiB] at hb
  rw [sub_self, mul_zero, Complex.exp_zero, one_mul] at hx
  rw [ha, hb, hx, sum_joined e]
  simp only [h.specA, h.specB, h.wA, h.wB, h.lamA, h.lamB]

open Classical in
/-- The sum of the weights of the channels with any data. -/
noncomputable def planeWeight (x : Input N m k) : ℝ := weightSum (effWeight x.weight) fun j => ∃ p, (spectrum x p j).isSome = true

open Classical in
theorem ref_mul (x : Input N m k) (hr : x.lam0 = none) (hw : ∀ j, 0 ≤ effWeight x.weight j) :
    refLamSq x * planeWeight x = ∑ j ∈ Finset.univ.filter (fun j => ∃ p, (spectrum x p j).isSome = true), effWeight x.weight j * x.lamSq j := by
  by_cases h0 : planeWeight x = 0
  · have hz : ∀ j ∈ Finset.univ.filter (fun j => ∃ p, (spectrum x p j).isSome = true), effWeight x.weight j = 0 :=
      (Finset.sum_eq_zero_iff_of_nonneg fun j _ => hw j).1 h0
    rw [h0, mul_zero, Finset.sum_eq_zero fun j hj => by rw [hz j hj, zero_mul]]
  · rw [refLamSq_mean x hr h0]
    unfold meanLamSq
    exact div_mul_cancel₀ _ h0

/-- **C261**, reference wavelengths: the one of all channels is the weighted mean of those of the bands. -/
theorem bands_ref (h : Joined x a b e) (hw : ∀ j, 0 ≤ effWeight x.weight j) (hx : x.lam0 = none) (ha : a.lam0 = none) (hb : b.lam0 = none) :
    planeWeight x = planeWeight a + planeWeight b ∧ refLamSq x * planeWeight x = refLamSq a * planeWeight a + refLamSq b * planeWeight b := by
  classical
  constructor
  · unfold planeWeight weightSum
    rw [sum_joined e]
    simp only [h.specA, h.specB, h.wA, h.wB]
  · rw [ref_mul x hx hw, ref_mul a ha fun j => by rw [h.wA]; exact hw _, ref_mul b hb fun j => by rw [h.wB]; exact hw _, sum_joined e]
    simp only [h.specA, h.specB, h.wA, h.wB, h.lamA, h.lamB]

end

end Verif.Synth

namespace Verif.Pipe1D

variable {n n' N : ℕ}

/-- With variance weights the theoretical noise is one over the root of the sum of the weights. -/
theorem noiseTheory_variance (d : Fin n → Option ℝ) (h0 : ∀ j, d j ≠ some 0) (v : ℝ)
    (hv : noiseTheory (fun j => weight true (d j)) d = some v) :
    0 < v ∧ 1 / v ^ 2 = ∑ j, ((weight true (d j)).getD 0) := by
  unfold noiseTheory at hv
  by_cases hz : ∑ j, ((weight true (d j)).getD 0) = 0
  · rw [if_pos hz] at hv
    exact absurd hv (by simp)
  · rw [if_neg hz, Option.some.injEq] at hv
    have hnn : 0 ≤ ∑ j, ((weight true (d j)).getD 0) := Finset.sum_nonneg fun j _ => by
      unfold weight
      cases d j with
      | none => simp
      | some t => simp; positivity
    have hpos : 0 < ∑ j, ((weight true (d j)).getD 0) := lt_of_le_of_ne hnn (Ne.symm hz)
    have hterm : ∑ j, ((weight true (d j)).getD 0) ^ 2 * ((d j).getD 0) ^ 2 = ∑ j, ((weight true (d j)).getD 0) := by
      refine Finset.sum_congr rfl fun j _ => ?_
      unfold weight
      cases hd : d j with
      | none => simp
      | some t =>
        have ht : t ≠ 0 := fun h => h0 j (by rw [hd, h])
        simp only [if_true, Option.map_some, Option.getD_some]
        field_simp
    rw [hterm] at hv
    set W := ∑ j, ((weight true (d j)).getD 0) with hW
    have he : W / W ^ 2 = 1 / W := by field_simp
    rw [he] at hv
    subst hv
    refine ⟨Real.sqrt_pos.2 (by positivity), ?_⟩
    rw [Real.sq_sqrt (by positivity), one_div_one_div]

/-- **C261**, noise with variance weights: the inverse squares of the theoretical noise of the bands add up, so that no band is better alone. -/
theorem bands_noise_variance (d : Fin N → Option ℝ) (e : Fin n ⊕ Fin n' ≃ Fin N) (h0 : ∀ j, d j ≠ some 0) (v va vb : ℝ)
    (hv : noiseTheory (fun j => weight true (d j)) d = some v)
    (ha : noiseTheory (fun j => weight true (d (e (.inl j)))) (fun j => d (e (.inl j))) = some va)
    (hb : noiseTheory (fun j => weight true (d (e (.inr j)))) (fun j => d (e (.inr j))) = some vb) :
    1 / v ^ 2 = 1 / va ^ 2 + 1 / vb ^ 2 ∧ v < va ∧ v < vb := by
  obtain ⟨p, q⟩ := noiseTheory_variance d h0 v hv
  obtain ⟨pa, qa⟩ := noiseTheory_variance _ (fun j => h0 _) va ha
  obtain ⟨pb, qb⟩ := noiseTheory_variance _ (fun j => h0 _) vb hb
  have hsum : 1 / v ^ 2 = 1 / va ^ 2 + 1 / vb ^ 2 := by
    rw [q, qa, qb, ← e.sum_comp, Fintype.sum_sum_type]
  have i1 : 0 < 1 / va ^ 2 := by positivity
  have i2 : 0 < 1 / vb ^ 2 := by positivity
  refine ⟨hsum, ?_, ?_⟩
  · have : 1 / va ^ 2 < 1 / v ^ 2 := by linarith
    exact lt_of_pow_lt_pow_left₀ 2 pa.le ((one_div_lt_one_div (by positivity) (by positivity)).1 this)
  · have : 1 / vb ^ 2 < 1 / v ^ 2 := by linarith
    exact lt_of_pow_lt_pow_left₀ 2 pb.le ((one_div_lt_one_div (by positivity) (by positivity)).1 this)

theorem noiseTheory_uniform (d : Fin n → Option ℝ) (v : ℝ) (hv : noiseTheory (fun j => weight false (d j)) d = some v) :
    0 < n ∧ 0 ≤ v ∧ (n * v) ^ 2 = ∑ j, ((d j).getD 0) ^ 2 := by
  unfold noiseTheory weight at hv
  simp only [Bool.false_eq_true, if_false, Option.getD_some, Finset.sum_const, Finset.card_univ, Fintype.card_fin, nsmul_eq_mul, mul_one, one_pow, one_mul] at hv
  by_cases hn : (n : ℝ) = 0
  · rw [if_pos hn] at hv
    exact absurd hv (by simp)
  · rw [if_neg hn, Option.some.injEq] at hv
    subst hv
    refine ⟨Nat.pos_of_ne_zero fun h => hn (by rw [h]; simp), Real.sqrt_nonneg _, ?_⟩
    rw [mul_pow, Real.sq_sqrt (div_nonneg (Finset.sum_nonneg fun j _ => sq_nonneg _) (sq_nonneg _)), mul_div_cancel₀ _ (pow_ne_zero 2 hn)]

/-- **C261**, noise with uniform weights: the squares add up with the squares of the numbers of channels. A second band makes the noise smaller exactly if its
own noise is below a limit. -/
theorem bands_noise_uniform (d : Fin N → Option ℝ) (e : Fin n ⊕ Fin n' ≃ Fin N) (v va vb : ℝ)
    (hv : noiseTheory (fun j => weight false (d j)) d = some v)
    (ha : noiseTheory (fun j => weight false (d (e (.inl j)))) (fun j => d (e (.inl j))) = some va)
    (hb : noiseTheory (fun j => weight false (d (e (.inr j)))) (fun j => d (e (.inr j))) = some vb) :
    (((n : ℝ) + n') * v) ^ 2 = (n * va) ^ 2 + (n' * vb) ^ 2 ∧ (v ≤ va ↔ n' * vb ^ 2 ≤ (2 * n + n') * va ^ 2) := by
  obtain ⟨p, pv, q⟩ := noiseTheory_uniform d v hv
  obtain ⟨pa, pva, qa⟩ := noiseTheory_uniform _ va ha
  obtain ⟨pb, pvb, qb⟩ := noiseTheory_uniform _ vb hb
  have hN : N = n + n' := by
    have := Fintype.card_congr e
    simpa using this.symm
  have hN' : (N : ℝ) = n + n' := by rw [hN]; push_cast; ring
  have hsum : (((n : ℝ) + n') * v) ^ 2 = (n * va) ^ 2 + (n' * vb) ^ 2 := by
    rw [← hN', q, qa, qb, ← e.sum_comp, Fintype.sum_sum_type]
  refine ⟨hsum, ?_⟩
  have hn1 : (0 : ℝ) < n := by exact_mod_cast pa
  have hn2 : (0 : ℝ) < n' := by exact_mod_cast pb
  constructor
  · intro hle
    have h1 : (((n : ℝ) + n') * v) ^ 2 ≤ (((n : ℝ) + n') * va) ^ 2 := by gcongr
    have h2 : n' * (n' * vb ^ 2) ≤ n' * ((2 * n + n') * va ^ 2) := by nlinarith
    exact le_of_mul_le_mul_left h2 hn2
  · intro hle
    have h2 : n' * (n' * vb ^ 2) ≤ n' * ((2 * n + n') * va ^ 2) := by gcongr
    have h1 : (((n : ℝ) + n') * v) ^ 2 ≤ (((n : ℝ) + n') * va) ^ 2 := by nlinarith
    have h3 := (sq_le_sq₀ (by positivity) (by positivity)).1 h1
    exact le_of_mul_le_mul_left h3 (by positivity)

/-- **C261 is false for uniform weights**: a channel of error 1 alone has noise 1; with a second channel of error 10 the noise is more than 5. -/
theorem bands_noise_uniform_wrong :
    noiseTheory (n := 1) (fun _ => weight false (some 1)) (fun _ => some 1) = some 1 ∧
    ∃ v, noiseTheory (n := 2) (fun _ => weight false (some 1)) ![some 1, some 10] = some v ∧ 5 < v := by
  constructor
  · simp [noiseTheory, weight]
  · have e : noiseTheory (n := 2) (fun _ => weight false (some 1)) ![some 1, some 10] = some (Real.sqrt ((1 + 10 ^ 2) / 2 ^ 2)) := by
      simp only [noiseTheory, weight, Fin.sum_univ_two, Bool.false_eq_true, if_false, Option.getD_some, Matrix.cons_val_zero, Matrix.cons_val_one]
      rw [if_neg (by norm_num)]
      norm_num
    refine ⟨_, e, ?_⟩
    rw [Real.lt_sqrt (by norm_num)]
    norm_num

/-- **C261**, runs of `run_rmsynth` with variance weights on the two bands and on all channels: the noise of the three results, in units of Stokes I at their
reference frequencies, is that of `bands_noise_variance`. The Stokes I models may differ, as long as the fractional errors are the same. -/
theorem bands_run [NeZero N] [NeZero n] [NeZero n'] (x : StokesI.FracIn N) (a : StokesI.FracIn n) (b : StokesI.FracIn n')
    (fx fa fb : Option StokesI.FitResult) (ox oa ob : Opts) (wx wa wb : ℝ) (e : Fin n ⊕ Fin n' ≃ Fin N)
    (hox : ox.variance = true) (hoa : oa.variance = true) (hob : ob.variance = true)
    (hda : ∀ j, (stage a fa oa).dqu j = (stage x fx ox).dqu (e (.inl j))) (hdb : ∀ j, (stage b fb ob).dqu j = (stage x fx ox).dqu (e (.inr j)))
    (rx ra rb : Out) (hx : run x fx ox wx = some rx) (ha : run a fa oa wa = some ra) (hb : run b fb ob wb = some rb)
    (t ta tb : ℝ) (ht : rx.dFDFth = some t) (hta : ra.dFDFth = some ta) (htb : rb.dFDFth = some tb)
    (hi : rx.ifreq0 ≠ 0) (hia : ra.ifreq0 ≠ 0) (hib : rb.ifreq0 ≠ 0) :
    (rx.ifreq0 / t) ^ 2 = (ra.ifreq0 / ta) ^ 2 + (rb.ifreq0 / tb) ^ 2 := by
  have key : ∀ {M : ℕ} [NeZero M] (y : StokesI.FracIn M) (fy : Option StokesI.FitResult) (oy : Opts) (w : ℝ) (r : Out) (s : ℝ), oy.variance = true →
      run y fy oy w = some r → r.dFDFth = some s → r.ifreq0 ≠ 0 → ∃ v, noiseTheory (fun j => weight true ((stage y fy oy).dqu j)) (stage y fy oy).dqu = some v ∧
        (r.ifreq0 / s) ^ 2 = 1 / v ^ 2 := by
    intro M _ y fy oy w r s ho hr hs h0
    have h1 := Errors.run_noise y fy oy w r hr
    rw [hs] at h1
    obtain ⟨v, hv, hv'⟩ := Option.map_eq_some_iff.1 h1.symm
    have h2 : (stage y fy oy).weight = fun j => weight true ((stage y fy oy).dqu j) := by
      rw [← ho]
      rfl
    rw [h2] at hv
    refine ⟨v, hv, ?_⟩
    rw [← hv', div_pow, mul_pow, sq_abs]
    have h3 : r.ifreq0 ^ 2 ≠ 0 := pow_ne_zero 2 h0
    rw [div_mul_eq_div_div, div_self h3]
  obtain ⟨v, hv, e1⟩ := key x fx ox wx rx t hox hx ht hi
  obtain ⟨va, hva, e2⟩ := key a fa oa wa ra ta hoa ha hta hia
  obtain ⟨vb, hvb, e3⟩ := key b fb ob wb rb tb hob hb htb hib
  have hfin := (regular_of_run hx).1.2.2.2.2
  have ea : (stage a fa oa).dqu = fun j => (stage x fx ox).dqu (e (.inl j)) := funext hda
  have eb : (stage b fb ob).dqu = fun j => (stage x fx ox).dqu (e (.inr j)) := funext hdb
  rw [ea] at hva
  rw [eb] at hvb
  rw [e1, e2, e3]
  exact (bands_noise_variance _ e (hfin hox) v va vb hv hva hvb).1

end Verif.Pipe1D

/-! ## Cases -/

namespace Verif.Synth

/-- Of `bands_spectrum` and `bands_ref`: two bands of two and one channels, one of them flagged. -/
noncomputable def bandA (phi : Fin 3 → ℝ) : Input 2 1 3 := ⟨fun j _ => if j = 0 then some 1 else none, fun _ _ => some 2, fun j => 1 + j, phi, none, none⟩

noncomputable def bandB (phi : Fin 3 → ℝ) : Input 1 1 3 := ⟨fun _ _ => some 5, fun _ _ => some 7, fun _ => 4, phi, some fun _ => some 1, none⟩

noncomputable def bandAB (phi : Fin 3 → ℝ) : Input 3 1 3 :=
  ⟨![fun _ => some 1, fun _ => none, fun _ => some 5], ![fun _ => some 2, fun _ => some 2, fun _ => some 7], ![1, 2, 4], phi, none, none⟩

example (phi : Fin 3 → ℝ) : Joined (bandAB phi) (bandA phi) (bandB phi) (finSumFinEquiv (m := 2) (n := 1)) where
  phiA := rfl
  phiB := rfl
  lamA := by
    intro j
    fin_cases j <;> norm_num [bandA, bandAB, finSumFinEquiv, Fin.castAdd, Fin.castLE]
  lamB := by
    intro j
    fin_cases j
    rfl
  qA := by
    intro j
    fin_cases j <;> rfl
  qB := by
    intro j
    fin_cases j
    rfl
  uA := by
    intro j
    fin_cases j <;> rfl
  uB := by
    intro j
    fin_cases j
    rfl
  wA := fun _ => rfl
  wB := fun _ => rfl

end Verif.Synth

namespace Verif.Pipe1D

/-- Of `bands_noise_variance`: errors 3 and 4 give the noise 12/5. -/
example : noiseTheory (n := 2) (fun j => weight true ((![some 3, some 4] : Fin 2 → Option ℝ) j)) ![some 3, some 4] = some (12 / 5) := by
  simp only [noiseTheory, weight, Fin.sum_univ_two, if_true, Matrix.cons_val_zero, Matrix.cons_val_one, Option.map_some, Option.getD_some]
  rw [if_neg (by norm_num)]
  congr 1
  rw [show ((1 / 3 ^ 2 : ℝ) ^ 2 * 3 ^ 2 + (1 / 4 ^ 2) ^ 2 * 4 ^ 2) / (1 / 3 ^ 2 + 1 / 4 ^ 2) ^ 2 = (12 / 5) ^ 2 by norm_num]
  exact Real.sqrt_sq (by norm_num)

end Verif.Pipe1D
