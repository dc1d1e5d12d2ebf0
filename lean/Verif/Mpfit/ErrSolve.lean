import Verif.Mpfit.ScaleSolve

/-!
# The least-squares fitter with other error bars: the step

Residuals and their Jacobian are multiplied by a common factor `t` (error bars divided by `t`); parameters stay. `Verif/Mpfit/ScaleSolve` has the other case,
where residuals stay and parameters are divided.
-/

namespace Verif.Mpfit.Err

open Verif.NumPy Finset

variable {t : ℝ}

theorem nrm_mul (ht : 0 < t) (n : ℕ) (v w : Vec) (h : MulV t n v w) : nrm 0 n w = t * nrm 0 n v :=
  nrm_scale ht 0 n v w fun i _ hi => h i hi

/-- Two states of the elimination. -/
structure GRel (t : ℝ) (n K : ℕ) (s s' : Giv) : Prop where
  r : ∀ i < n, ∀ c < n, s'.r i c = t * s.r i c
  wa : MulV t n s.wa s'.wa
  sd : MulV t K s.sd s'.sd
  q : s'.q = t * s.q

theorem rot_scale (ht : 0 < t) (n k : ℕ) (hk : k < n) (s s' : Giv) (h : GRel t n n s s') :
    CtlRel (GRel t n n) (GRel t n n) (rotStep k s) (rotStep k s') := by
  unfold rotStep
  rw [h.sd k hk, h.r k hk k hk, givens_scale ht]
  by_cases h0 : s.sd k = 0
  · rw [if_pos h0, if_pos (by rw [h0, mul_zero])]
    exact .brk _ _ h
  rw [if_neg h0, if_neg (mul_ne_zero ht.ne' h0)]
  refine .next _ _ ⟨fun i hi c hc => ?_, fun j hj => ?_, fun j hj => ?_, ?_⟩
  · dsimp only
    by_cases hc' : c = k ∧ k ≤ i
    · rw [if_pos hc', if_pos hc', h.r i hi k hk, h.sd i hi]; ring
    · rw [if_neg hc', if_neg hc', h.r i hi c hc]
  · dsimp only
    by_cases he : j = k
    · subst he; rw [Function.update_self, Function.update_self, h.wa j hj, h.q]; ring
    · rw [Function.update_of_ne he, Function.update_of_ne he, h.wa j hj]
  · dsimp only
    by_cases he : k < j
    · rw [if_pos he, if_pos he, h.r j hj k hk, h.sd j hj]; ring
    · rw [if_neg he, if_neg he, h.sd j hj]
  · dsimp only
    rw [h.wa k hk, h.q]; ring

theorem elim_scale (ht : 0 < t) (n j : ℕ) (hj : j < n) (ipvt : ℕ → ℕ) (d d' x x' : Vec)
    (hd0 : d (ipvt j) ≠ 0) (hd : d' (ipvt j) = t * d (ipvt j)) (hx : MulV t n x x')
    (s s' : Giv) (h : GRel t n j s s') (Q : Giv → Giv → Prop) :
    CtlRel (GRel t n (j + 1)) Q (elimStep n ipvt d x j s) (elimStep n ipvt d' x' j s') := by
  unfold elimStep
  rw [if_neg hd0, if_neg (by rw [hd]; exact mul_ne_zero ht.ne' hd0)]
  have h1 : GRel t n n { s with sd := fun k => if k = j then d (ipvt j) else if j < k then 0 else s.sd k, q := 0 }
      { s' with sd := fun k => if k = j then d' (ipvt j) else if j < k then 0 else s'.sd k, q := 0 } := by
    refine ⟨h.r, h.wa, fun k hk => ?_, (mul_zero t).symm⟩
    dsimp only
    by_cases e1 : k = j
    · rw [if_pos e1, if_pos e1, hd]
    · rw [if_neg e1, if_neg e1]
      by_cases e2 : j < k
      · rw [if_pos e2, if_pos e2, mul_zero]
      · rw [if_neg e2, if_neg e2, h.sd k (by omega)]
  have h2 := forBreak_rel (fun _ => GRel t n n) (GRel t n n) j n hj.le rotStep rotStep _ _ h1
    (fun k a b _ hk hr => rot_scale ht n k hk a b hr) fun _ _ h => h
  refine .next _ _ ⟨fun i hi c hc => ?_, h2.wa, fun k hk => ?_, h2.q⟩
  · dsimp only
    by_cases e : i = j ∧ c = j
    · rw [if_pos e, if_pos e, hx j hj]
    · rw [if_neg e, if_neg e, h2.r i hi c hc]
  · dsimp only
    by_cases e : k = j
    · subst e; rw [Function.update_self, Function.update_self, h2.r k hj k hj]
    · rw [Function.update_of_ne e, Function.update_of_ne e, h2.sd k (by omega)]

theorem backSub_scale (ht : 0 < t) (n L : ℕ) (hL : L ≤ n) (r r' : Mat) (sd sd' w w' : Vec)
    (hr : ∀ i < n, ∀ c < n, r' i c = t * r i c) (hsd : MulV t n sd sd') (hw : MulV t n w w') (hz : ∀ j, L ≤ j → w j = 0) :
    SameV n (backSub L r sd w) (backSub L r' sd' w') := by
  have ht0 := ht.ne'
  have := forDown_rel (fun j (a b : Vec) => ∀ i < n, (i < j → b i = t * a i) ∧ (j ≤ i → b i = a i))
    (fun j w => Function.update w j ((w j - ∑ i ∈ Ico (j + 1) L, r i j * w i) / sd j))
    (fun j w => Function.update w j ((w j - ∑ i ∈ Ico (j + 1) L, r' i j * w i) / sd' j)) L w w' ?_ ?_
  · exact fun j hj => (this j hj).2 (Nat.zero_le _)
  · exact fun i hi => ⟨fun _ => hw i hi, fun h => by rw [hw i hi, hz i h, mul_zero]⟩
  · intro k a b hk hab i hi
    have hs : ∑ i ∈ Ico (k + 1) L, r' i k * b i = t * ∑ i ∈ Ico (k + 1) L, r i k * a i := by
      rw [Finset.mul_sum]
      refine Finset.sum_congr rfl fun i hi => ?_
      rw [Finset.mem_Ico] at hi
      rw [hr i (by omega) k (by omega), (hab i (by omega)).2 hi.1, mul_assoc]
    rw [hs, (hab k (by omega)).1 (by omega), hsd k (by omega), ← mul_sub, mul_div_mul_left _ _ ht0]
    refine ⟨fun h => ?_, fun h => ?_⟩
    · rw [Function.update_of_ne (by omega), Function.update_of_ne (by omega), (hab i hi).1 (by omega)]
    · by_cases e : i = k
      · subst e; rw [Function.update_self, Function.update_self]
      · rw [Function.update_of_ne e, Function.update_of_ne e, (hab i hi).2 (by omega)]

theorem scatter_same (n : ℕ) (ipvt : ℕ → ℕ) (hlt : ∀ k < n, ipvt k < n)
    (hinj : ∀ k < n, ∀ k' < n, ipvt k = ipvt k' → k = k') (z z' x x' : Vec) (hz : SameV n z z') :
    SameV n (scatter n ipvt z x) (scatter n ipvt z' x') := by
  intro a ha
  obtain ⟨k, hk, rfl⟩ := perm_surj n ipvt hlt hinj a ha
  rw [(scatter_spec n ipvt z x hinj).1 k hk, (scatter_spec n ipvt z' x' hinj).1 k hk, hz k hk]

theorem qrsolv_scale (ht : 0 < t) (n : ℕ) (r r' : Mat) (ipvt : ℕ → ℕ) (d d' qtb qtb' sd sd' : Vec)
    (hlt : ∀ k < n, ipvt k < n) (hinj : ∀ k < n, ∀ k' < n, ipvt k = ipvt k' → k = k')
    (hr : UpRel t n r r') (hd0 : ∀ k < n, d (ipvt k) ≠ 0) (hd : MulV t n d d') (hq : MulV t n qtb qtb') :
    let o := qrsolv n r ipvt d qtb sd
    let o' := qrsolv n r' ipvt d' qtb' sd'
    (∀ i < n, ∀ c < n, o'.1 i c = t * o.1 i c) ∧ SameV n o.2.1 o'.2.1 ∧ MulV t n o.2.2 o'.2.2 := by
  have ht0 := ht.ne'
  have hsym : ∀ i < n, ∀ c < n, symm r' i c = t * symm r i c := by
    intro i hi c hc
    unfold symm
    by_cases h : c ≤ i
    · rw [if_pos h, if_pos h, hr c i h hi]
    · rw [if_neg h, if_neg h, hr i c (by omega) hc]
  have hx : MulV t n (fun j => symm r j j) fun j => symm r' j j := fun j hj => hsym j hj j hj
  have hs := forBreak_rel (fun j => GRel t n j) (GRel t n n) 0 n (Nat.zero_le n)
    (elimStep n ipvt d fun j => symm r j j) (elimStep n ipvt d' fun j => symm r' j j)
    { r := symm r, wa := qtb, sd := sd, q := 0 } { r := symm r', wa := qtb', sd := sd', q := 0 }
    ⟨hsym, hq, fun j hj => by omega, (mul_zero t).symm⟩
    (fun k a b _ hk hab => elim_scale ht n k hk ipvt d d' _ _ (hd0 k hk) (hd _ (hlt k hk)) hx a b hab _)
    fun _ _ h => h
  unfold qrsolv
  dsimp only
  set s := forBreak 0 n (elimStep n ipvt d fun j => symm r j j) { r := symm r, wa := qtb, sd := sd, q := 0 }
  set s' := forBreak 0 n (elimStep n ipvt d' fun j => symm r' j j) { r := symm r', wa := qtb', sd := sd', q := 0 }
  have hL : firstIdx n (fun j => s'.sd j = 0) = firstIdx n fun j => s.sd j = 0 :=
    firstIdx_congr _ _ _ fun j hj => by
      rw [hs.sd j hj]
      exact ⟨fun h => (mul_eq_zero.mp h).resolve_left ht0, fun h => by rw [h, mul_zero]⟩
  rw [hL]
  refine ⟨hs.r, scatter_same n ipvt hlt hinj _ _ _ _ (backSub_scale ht n _ (firstIdx_le _ _) _ _ _ _ _ _ hs.r hs.sd ?_ ?_), hs.sd⟩
  · intro j hj
    dsimp only
    rw [hs.wa j hj]
    split_ifs
    · rw [mul_zero]
    · rfl
  · intro j hj
    rw [if_pos hj]

theorem gnDir_scale (ht : 0 < t) (eps : ℝ) (n : ℕ) (r r' : Mat) (q q' : Vec) (hr : UpRel t n r r') (hq : MulV t n q q') :
    (gnDir eps n r' q').1 = (gnDir eps n r q).1 ∧ SameV n (gnDir eps n r q).2 (gnDir eps n r' q').2 := by
  rcases Nat.eq_zero_or_pos n with h0 | hn
  · subst h0
    refine ⟨?_, fun j hj => by omega⟩
    have := firstIdx_le 0 fun j => |r j j| < forRange 1 0 (fun j b => max b |r j j|) |r 0 0| * eps
    have := firstIdx_le 0 fun j => |r' j j| < forRange 1 0 (fun j b => max b |r' j j|) |r' 0 0| * eps
    unfold gnDir
    dsimp only
    omega
  have ht0 := ht.ne'
  have hab : ∀ j < n, |r' j j| = t * |r j j| := fun j hj => by
    rw [hr j j le_rfl hj, abs_mul, abs_of_pos ht]
  have hM : forRange 1 n (fun j b => max b |r' j j|) |r' 0 0| = t * forRange 1 n (fun j b => max b |r j j|) |r 0 0| :=
    forRange_rel (fun _ (a b : ℝ) => b = t * a) 1 n hn _ _ _ _ (hab 0 hn) fun k a b _ hk h => by
      rw [h, hab k hk, ← mul_max_of_nonneg _ _ ht.le]
  unfold gnDir
  dsimp only
  rw [hM]
  set M := forRange 1 n (fun j b => max b |r j j|) |r 0 0|
  have hL : firstIdx n (fun j => |r' j j| < t * M * eps) = firstIdx n fun j => |r j j| < M * eps :=
    firstIdx_congr _ _ _ fun j hj => by
      rw [hab j hj, mul_assoc]
      exact mul_lt_mul_iff_right₀ ht
  rw [hL]
  set L := firstIdx n fun j => |r j j| < M * eps
  have hLn : L ≤ n := firstIdx_le _ _
  refine ⟨rfl, ?_⟩
  have := forDown_rel (fun j (a b : Vec) => ∀ i < n, (i < j → b i = t * a i) ∧ (j ≤ i → b i = a i))
    (fun j w => fun i => if i < j then w i - r i j * (w j / r j j) else if i = j then w j / r j j else w i)
    (fun j w => fun i => if i < j then w i - r' i j * (w j / r' j j) else if i = j then w j / r' j j else w i)
    L (fun j => if L ≤ j then 0 else q j) (fun j => if L ≤ j then 0 else q' j) ?_ ?_
  · exact fun j hj => (this j hj).2 (Nat.zero_le _)
  · intro i hi
    refine ⟨fun h => ?_, fun h => ?_⟩
    · have hn1 : ¬L ≤ i := by omega
      rw [if_neg hn1, if_neg hn1, hq i hi]
    · rw [if_pos h, if_pos h]
  · intro k a b hk hab i hi
    rw [(hab k (by omega)).1 (by omega), hr k k le_rfl (by omega), mul_div_mul_left _ _ ht0]
    refine ⟨fun h => ?_, fun h => ?_⟩
    · rw [if_pos h, if_pos h, (hab i hi).1 (by omega), hr i k h.le (by omega)]
      ring
    · have hn1 : ¬i < k := by omega
      rw [if_neg hn1, if_neg hn1]
      by_cases e : i = k
      · rw [if_pos e, if_pos e]
      · rw [if_neg e, if_neg e, (hab i hi).2 (by omega)]

/-- Two results of `lmpar`. -/
structure LRel (t : ℝ) (n : ℕ) (o o' : Lm) : Prop where
  r : UpRel t n o.r o'.r
  par : o'.par = o.par
  x : SameV n o.x o'.x

theorem lmLoop_scale (ht : 0 < t) (dwarf : ℝ) (hdw : 0 < dwarf) (n : ℕ) (ipvt : ℕ → ℕ)
    (hlt : ∀ k < n, ipvt k < n) (hinj : ∀ k < n, ∀ k' < n, ipvt k = ipvt k' → k = k')
    (d d' q q' : Vec) (delta : ℝ) (hd0 : ∀ k < n, 0 < d k) (hd : MulV t n d d') (hq : MulV t n q q') (left : ℕ)
    (s s' : LmSt) (hr : UpRel t n s.r s'.r) (h1 : s'.fp = t * s.fp) (h2 : s'.par = s.par) (h3 : s'.parl = s.parl)
    (h4 : s'.paru = s.paru) (hp : 0 ≤ s.par) (hpl : 0 ≤ s.parl) :
    LRel t n (lmLoop dwarf n ipvt d q delta left s) (lmLoop dwarf n ipvt d' q' (t * delta) left s') := by
  have ht0 := ht.ne'
  induction left generalizing s s' with
  | zero =>
    unfold lmLoop
    dsimp only
    rw [h2, h3, h4]
    set par := if s.par = 0 then max dwarf (s.paru * 0.001) else s.par with hpar
    have hpos : 0 < par := by
      rw [hpar]
      split_ifs with h
      · exact lt_max_of_lt_left hdw
      · exact lt_of_le_of_ne hp (Ne.symm h)
    obtain ⟨q1, q2, -⟩ := qrsolv_scale ht n s.r s'.r ipvt (fun i => Real.sqrt par * d i) (fun i => Real.sqrt par * d' i)
      q q' s.sd s'.sd hlt hinj hr (fun k hk => (mul_pos (Real.sqrt_pos.mpr hpos) (hd0 _ (hlt k hk))).ne')
      (fun j hj => by dsimp only; rw [hd j hj]; ring) hq
    rw [ite_self, ite_self]
    exact ⟨fun i c hic hc => q1 i (by omega) c hc, rfl, q2⟩
  | succ left ih =>
    unfold lmLoop
    dsimp only
    rw [h1, h2, h3, h4]
    set par := if s.par = 0 then max dwarf (s.paru * 0.001) else s.par with hpar
    have hpos : 0 < par := by
      rw [hpar]
      split_ifs with h
      · exact lt_max_of_lt_left hdw
      · exact lt_of_le_of_ne hp (Ne.symm h)
    obtain ⟨q1, q2, q3⟩ := qrsolv_scale ht n s.r s'.r ipvt (fun i => Real.sqrt par * d i) (fun i => Real.sqrt par * d' i)
      q q' s.sd s'.sd hlt hinj hr (fun k hk => (mul_pos (Real.sqrt_pos.mpr hpos) (hd0 _ (hlt k hk))).ne')
      (fun j hj => by dsimp only; rw [hd j hj]; ring) hq
    set o := qrsolv n s.r ipvt (fun i => Real.sqrt par * d i) q s.sd
    set o' := qrsolv n s'.r ipvt (fun i => Real.sqrt par * d' i) q' s'.sd
    have hw2 : MulV t n (fun i => d i * o.2.1 i) fun i => d' i * o'.2.1 i := fun j hj => by
      dsimp only
      rw [hd j hj, q2 j hj]; ring
    rw [nrm_mul ht n _ _ hw2]
    set dx := nrm 0 n fun i => d i * o.2.1 i
    have hup : UpRel t n o.1 o'.1 := fun i c hic hc => q1 i (by omega) c hc
    have e1 : t * dx - t * delta = t * (dx - delta) := by ring
    have hcond : (|t * dx - t * delta| ≤ 0.1 * (t * delta) ∨ (s.parl = 0 ∧ t * dx - t * delta ≤ t * s.fp ∧ t * s.fp < 0)) ↔
        (|dx - delta| ≤ 0.1 * delta ∨ (s.parl = 0 ∧ dx - delta ≤ s.fp ∧ s.fp < 0)) := by
      rw [e1, abs_mul, abs_of_pos ht, mul_left_comm, mul_le_mul_iff_right₀ ht, mul_le_mul_iff_right₀ ht]
      have : t * s.fp < 0 ↔ s.fp < 0 := by
        constructor
        · intro h; by_contra h0; push Not at h0; exact absurd (mul_nonneg ht.le h0) (not_le.mpr h)
        · exact fun h => mul_neg_of_pos_of_neg ht h
      rw [this]
    by_cases hc : |dx - delta| ≤ 0.1 * delta ∨ (s.parl = 0 ∧ dx - delta ≤ s.fp ∧ s.fp < 0)
    · rw [if_pos hc, if_pos (hcond.mpr hc)]
      exact ⟨hup, rfl, q2⟩
    · rw [if_neg hc, if_neg fun h => hc (hcond.mp h)]
      have hl : 0 ≤ if dx - delta > 0 then max s.parl par else s.parl := by
        split_ifs
        · exact le_max_of_le_left hpl
        · exact hpl
      have htmp : nrm 0 n (fwdSubS n o'.1 o'.2.2 fun j => d' (ipvt j) * (d' (ipvt j) * o'.2.1 (ipvt j)) / (t * dx))
          = nrm 0 n (fwdSubS n o.1 o.2.2 fun j => d (ipvt j) * (d (ipvt j) * o.2.1 (ipvt j)) / dx) := by
        refine nrm_same n _ _ (fwdSubS_scale ht n _ _ _ _ _ _ q1 q3 fun j hj => ?_)
        have := hw2 _ (hlt j hj)
        dsimp only at this
        rw [this, hd _ (hlt j hj), mul_left_comm, mul_div_mul_left _ _ ht0, mul_assoc, mul_div_assoc]
      have hpos' : t * (dx - delta) > 0 ↔ dx - delta > 0 := by
        constructor
        · intro h; by_contra h0; push Not at h0; exact absurd h (not_lt.mpr (mul_nonpos_of_nonneg_of_nonpos ht.le h0))
        · exact fun h => mul_pos ht h
      have hneg' : t * (dx - delta) < 0 ↔ dx - delta < 0 := by
        constructor
        · intro h; by_contra h0; push Not at h0; exact absurd (mul_nonneg ht.le h0) (not_le.mpr h)
        · exact fun h => mul_neg_of_pos_of_neg ht h
      rw [htmp, e1]
      simp only [hpos', hneg', mul_div_mul_left _ _ ht0]
      exact ih _ _ hup rfl rfl rfl rfl (le_max_of_le_left hl) hl

theorem lmpar_scale (ht : 0 < t) (eps dwarf : ℝ) (hdw : 0 < dwarf) (n : ℕ) (r r' : Mat) (ipvt : ℕ → ℕ)
    (hlt : ∀ k < n, ipvt k < n) (hinj : ∀ k < n, ∀ k' < n, ipvt k = ipvt k' → k = k')
    (d d' q q' : Vec) (delta : ℝ) (hdel : 0 < delta) (x x' sd sd' : Vec) (par : ℝ) (hpar : 0 ≤ par)
    (hd0 : ∀ k < n, 0 < d k) (hd : MulV t n d d') (hq : MulV t n q q') (hr : UpRel t n r r')
    (hgrad : ∃ j < n, ∑ i ∈ range (j + 1), r i j * q i ≠ 0) :
    LRel t n (lmpar eps dwarf n r ipvt d q delta x sd par) (lmpar eps dwarf n r' ipvt d' q' (t * delta) x' sd' par) := by
  have ht0 := ht.ne'
  obtain ⟨g1, g2⟩ := gnDir_scale ht eps n r r' q q' hr hq
  unfold lmpar
  dsimp only
  rw [g1]
  set g := gnDir eps n r q
  set g' := gnDir eps n r' q'
  have hx := scatter_same n ipvt hlt hinj g.2 g'.2 x x' g2
  set x1 := scatter n ipvt g.2 x
  set x1' := scatter n ipvt g'.2 x'
  have hw2 : MulV t n (fun i => d i * x1 i) fun i => d' i * x1' i := fun j hj => by
    dsimp only
    rw [hd j hj, hx j hj]; ring
  rw [nrm_mul ht n _ _ hw2]
  set dx := nrm 0 n fun i => d i * x1 i with hdx'
  have e1 : t * dx - t * delta = t * (dx - delta) := by ring
  rw [e1]
  have hcond : t * (dx - delta) ≤ 0.1 * (t * delta) ↔ dx - delta ≤ 0.1 * delta := by
    rw [mul_left_comm, mul_le_mul_iff_right₀ ht]
  by_cases hc : dx - delta ≤ 0.1 * delta
  · rw [if_pos hc, if_pos (hcond.mpr hc)]
    exact ⟨hr, rfl, hx⟩
  rw [if_neg hc, if_neg fun h => hc (hcond.mp h)]
  have hfp0 : 0 < dx - delta := by
    push Not at hc
    linarith [mul_pos (by norm_num : (0 : ℝ) < 0.1) hdel]
  have hdx : 0 < dx := by linarith
  have htmp : nrm 0 n (fwdSub n r' fun j => d' (ipvt j) * (d' (ipvt j) * x1' (ipvt j)) / (t * dx))
      = nrm 0 n (fwdSub n r fun j => d (ipvt j) * (d (ipvt j) * x1 (ipvt j)) / dx) := by
    refine nrm_same n _ _ (fwdSub_scale ht n _ _ _ _ hr fun j hj => ?_)
    have := hw2 _ (hlt j hj)
    dsimp only at this
    rw [this, hd _ (hlt j hj), mul_left_comm, mul_div_mul_left _ _ ht0, mul_assoc, mul_div_assoc]
  have hgn : nrm 0 n (fun j => (∑ i ∈ range (j + 1), r' i j * q' i) / d' (ipvt j))
      = t * nrm 0 n fun j => (∑ i ∈ range (j + 1), r i j * q i) / d (ipvt j) := by
    refine nrm_mul ht n _ _ fun j hj => ?_
    have : ∑ i ∈ range (j + 1), r' i j * q' i = t * (t * ∑ i ∈ range (j + 1), r i j * q i) := by
      rw [Finset.mul_sum, Finset.mul_sum]
      refine Finset.sum_congr rfl fun i hi => ?_
      rw [Finset.mem_range] at hi
      rw [hr i j (by omega) hj, hq i (by omega)]; ring
    rw [this, hd _ (hlt j hj), mul_div_mul_left _ _ ht0, mul_div_assoc]
  rw [htmp, hgn]
  set temp := nrm 0 n (fwdSub n r fun j => d (ipvt j) * (d (ipvt j) * x1 (ipvt j)) / dx)
  have hgn1 : nrm 0 n (fun j => (∑ i ∈ range (j + 1), r i j * q i) / d (ipvt j)) ≠ 0 := fun h0 => by
    obtain ⟨j, hj, h1⟩ := hgrad
    have := nrm_eq_zero _ _ _ h0 j (Nat.zero_le _) hj
    exact h1 ((div_eq_zero_iff.mp this).resolve_right (hd0 _ (hlt j hj)).ne')
  set gn := nrm 0 n fun j => (∑ i ∈ range (j + 1), r i j * q i) / d (ipvt j)
  have hgn0 : 0 ≤ gn := nrm_nonneg _ _ _
  have hparl : 0 ≤ if n ≤ g.1 then (dx - delta) / delta / temp / temp else 0 := by
    split_ifs
    · rw [div_div]
      exact div_nonneg (div_nonneg hfp0.le hdel.le) (mul_self_nonneg _)
    · exact le_rfl
  simp only [mul_div_mul_left _ _ ht0, if_neg (div_ne_zero hgn1 hdel.ne')]
  refine lmLoop_scale ht dwarf hdw n ipvt hlt hinj d d' q q' delta hd0 hd hq 9 _ _ hr rfl rfl rfl rfl ?_ hparl
  dsimp only
  set pl := if n ≤ g.1 then (dx - delta) / delta / temp / temp else 0
  by_cases h2 : min (max par pl) (gn / delta) = 0
  · rw [if_pos h2]
    exact div_nonneg hgn0 hdx.le
  · rw [if_neg h2]
    exact le_min (le_max_of_le_left hpar) (div_nonneg hgn0 hdel.le)

theorem applyQ_mul (m : ℕ) (a : Mat) (ipvt : ℕ → ℕ) (f : Vec) (K : ℕ) (i : ℕ) :
    applyQ m a ipvt K (fun i => t * f i) i = t * applyQ m a ipvt K f i := by
  induction K generalizing i with
  | zero => rfl
  | succ K ih =>
    unfold applyQ refl
    have hsum : ∑ i ∈ Ico K m, a i (ipvt K) * applyQ m a ipvt K (fun i => t * f i) i
        = t * ∑ i ∈ Ico K m, a i (ipvt K) * applyQ m a ipvt K f i := by
      rw [Finset.mul_sum]
      exact Finset.sum_congr rfl fun i _ => by rw [ih]; ring
    dsimp only
    rw [ih, hsum]
    split_ifs
    · ring
    · rfl

theorem formQtf_scale (ht : 0 < t) (eps : ℝ) (m n : ℕ) (hm : n ≤ m) (A A' : Mat)
    (hA : ∀ i < m, ∀ k < n, A' i k = t * A i k) (f f' : Vec) (hf : f' = fun i => t * f i) :
    let q := qrfac eps m n A
    let q' := qrfac eps m n A'
    q'.ipvt = q.ipvt ∧ UpRel t n (formQtf m n q f).a (formQtf m n q' f').a ∧
      MulV t n (formQtf m n q f).qtf (formQtf m n q' f').qtf := by
  intro q q'
  obtain ⟨J, h, hd⟩ := qrfac_scale ht eps m n hm A A' hA
  change QRel t m n J q q' at h
  change Done A m n J q at hd
  have hinj' : ∀ k < n, ∀ k' < n, q'.ipvt k = q'.ipvt k' → k = k' := by rw [h.ipvt]; exact h.inj
  obtain ⟨a1, -, a3⟩ := qtLoop m n q f h.inj
  obtain ⟨b1, -, b3⟩ := qtLoop m n q' f' hinj'
  have hJ := hd.le
  refine ⟨h.ipvt, fun i c hic hc => ?_, fun j hj => ?_⟩
  · rw [a3 c hc, b3 c hc]
    by_cases e : i = c
    · rw [if_pos e, if_pos e, h.rdiag c hc]
    · rw [if_neg e, if_neg e, h.ipvt, h.a c hc i (by omega), if_neg (by omega)]
  · rw [a1 j hj, b1 j hj, hf, applyQ_extra m q.a q.ipvt J n hJ hd.zero, applyQ_extra m q'.a q'.ipvt J n hJ, applyQ_mul]
    · rw [applyQ_rel m n J hJ (by omega) q q' h f J le_rfl j (by omega)]
    · intro k h1 h2
      rw [h.ipvt, h.a k h2 k (by omega), hd.zero k h1 h2, mul_zero]

end Verif.Mpfit.Err
