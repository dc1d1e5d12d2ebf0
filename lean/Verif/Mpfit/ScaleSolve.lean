import Verif.Mpfit.Scale

/-!
# The least-squares fitter under a change of unit: the step
-/

namespace Verif.Mpfit

open Verif.NumPy Finset

variable {t : ℝ}

/-- The upper triangles differ by the factor. -/
def UpRel (t : ℝ) (n : ℕ) (r r' : Mat) : Prop := ∀ i c, i ≤ c → c < n → r' i c = t * r i c

/-- Vectors that agree. -/
def SameV (n : ℕ) (w w' : Vec) : Prop := ∀ j < n, w' j = w j

/-- Vectors that differ by the factor. -/
def MulV (t : ℝ) (n : ℕ) (w w' : Vec) : Prop := ∀ j < n, w' j = t * w j

/-- Vectors that differ by the inverse factor. -/
def DivV (t : ℝ) (n : ℕ) (w w' : Vec) : Prop := ∀ j < n, w' j = w j / t

theorem nrm_same (n : ℕ) (v w : Vec) (h : SameV n v w) : nrm 0 n w = nrm 0 n v :=
  nrm_congr 0 n w v fun i _ hi => h i hi

open Classical in
theorem firstIdx_congr (n : ℕ) (p q : ℕ → Prop) (h : ∀ j < n, p j ↔ q j) : firstIdx n p = firstIdx n q := by
  unfold firstIdx
  have e : (fun j => j < n ∧ p j) = fun j => j < n ∧ q j := by
    funext j
    exact propext (and_congr_right (h j))
  by_cases h1 : ∃ j, j < n ∧ p j
  · have h2 : ∃ j, j < n ∧ q j := by rw [← e]; exact h1
    rw [dif_pos h1, dif_pos h2]
    exact Nat.find_congr' fun {j} => and_congr_right (h j)
  · have h2 : ¬∃ j, j < n ∧ q j := by rw [← e]; exact h1
    rw [dif_neg h1, dif_neg h2]

theorem givens_scale (ht : 0 < t) (a b : ℝ) : givens (t * a) (t * b) = givens a b := by
  unfold givens
  rw [abs_mul, abs_mul, abs_of_pos ht, mul_div_mul_left _ _ ht.ne', mul_div_mul_left _ _ ht.ne']
  by_cases h : |a| < |b|
  · rw [if_pos h, if_pos (mul_lt_mul_of_pos_left h ht)]
  · rw [if_neg h, if_neg fun h' => h (lt_of_mul_lt_mul_left h' ht.le)]

/-- Two states of the elimination. -/
structure GRel (t : ℝ) (n K : ℕ) (s s' : Giv) : Prop where
  r : ∀ i < n, ∀ c < n, s'.r i c = t * s.r i c
  wa : SameV n s.wa s'.wa
  sd : MulV t K s.sd s'.sd
  q : s'.q = s.q

theorem rot_scale (ht : 0 < t) (n k : ℕ) (hk : k < n) (s s' : Giv) (h : GRel t n n s s') :
    CtlRel (GRel t n n) (GRel t n n) (rotStep k s) (rotStep k s') := by
  unfold rotStep
  rw [h.sd k hk, h.r k hk k hk, givens_scale ht]
  by_cases h0 : s.sd k = 0
  · rw [if_pos h0, if_pos (by rw [h0, mul_zero])]
    exact .brk _ _ h
  rw [if_neg h0, if_neg (mul_ne_zero ht.ne' h0)]
  refine .next _ _ ⟨fun i hi c hc => ?_, fun j hj => ?_, fun j hj => ?_, ?_⟩
  · dsimp only
    by_cases hc' : c = k ∧ k ≤ i
    · rw [if_pos hc', if_pos hc', h.r i hi k hk, h.sd i hi]; ring
    · rw [if_neg hc', if_neg hc', h.r i hi c hc]
  · dsimp only
    by_cases he : j = k
    · subst he; rw [Function.update_self, Function.update_self, h.wa j hj, h.q]
    · rw [Function.update_of_ne he, Function.update_of_ne he, h.wa j hj]
  · dsimp only
    by_cases he : k < j
    · rw [if_pos he, if_pos he, h.r j hj k hk, h.sd j hj]; ring
    · rw [if_neg he, if_neg he, h.sd j hj]
  · dsimp only
    rw [h.wa k hk, h.q]

theorem elim_scale (ht : 0 < t) (n j : ℕ) (hj : j < n) (ipvt : ℕ → ℕ) (d d' x x' : Vec)
    (hd0 : d (ipvt j) ≠ 0) (hd : d' (ipvt j) = t * d (ipvt j)) (hx : MulV t n x x')
    (s s' : Giv) (h : GRel t n j s s') (Q : Giv → Giv → Prop) :
    CtlRel (GRel t n (j + 1)) Q (elimStep n ipvt d x j s) (elimStep n ipvt d' x' j s') := by
  unfold elimStep
  rw [if_neg hd0, if_neg (by rw [hd]; exact mul_ne_zero ht.ne' hd0)]
  have h1 : GRel t n n { s with sd := fun k => if k = j then d (ipvt j) else if j < k then 0 else s.sd k, q := 0 }
      { s' with sd := fun k => if k = j then d' (ipvt j) else if j < k then 0 else s'.sd k, q := 0 } := by
    refine ⟨h.r, h.wa, fun k hk => ?_, rfl⟩
    dsimp only
    by_cases e1 : k = j
    · rw [if_pos e1, if_pos e1, hd]
    · rw [if_neg e1, if_neg e1]
      by_cases e2 : j < k
      · rw [if_pos e2, if_pos e2, mul_zero]
      · rw [if_neg e2, if_neg e2, h.sd k (by omega)]
  have h2 := forBreak_rel (fun _ => GRel t n n) (GRel t n n) j n hj.le rotStep rotStep _ _ h1
    (fun k a b _ hk hr => rot_scale ht n k hk a b hr) fun _ _ h => h
  refine .next _ _ ⟨fun i hi c hc => ?_, h2.wa, fun k hk => ?_, h2.q⟩
  · dsimp only
    by_cases e : i = j ∧ c = j
    · rw [if_pos e, if_pos e, hx j hj]
    · rw [if_neg e, if_neg e, h2.r i hi c hc]
  · dsimp only
    by_cases e : k = j
    · subst e; rw [Function.update_self, Function.update_self, h2.r k hj k hj]
    · rw [Function.update_of_ne e, Function.update_of_ne e, h2.sd k (by omega)]

theorem backSub_scale (ht : 0 < t) (n L : ℕ) (hL : L ≤ n) (r r' : Mat) (sd sd' w w' : Vec)
    (hr : ∀ i < n, ∀ c < n, r' i c = t * r i c) (hsd : MulV t n sd sd') (hw : SameV n w w') (hz : ∀ j, L ≤ j → w j = 0) :
    DivV t n (backSub L r sd w) (backSub L r' sd' w') := by
  have ht0 := ht.ne'
  have := forDown_rel (fun j (a b : Vec) => ∀ i < n, (i < j → b i = a i) ∧ (j ≤ i → b i = a i / t))
    (fun j w => Function.update w j ((w j - ∑ i ∈ Ico (j + 1) L, r i j * w i) / sd j))
    (fun j w => Function.update w j ((w j - ∑ i ∈ Ico (j + 1) L, r' i j * w i) / sd' j)) L w w' ?_ ?_
  · exact fun j hj => (this j hj).2 (Nat.zero_le _)
  · exact fun i hi => ⟨fun _ => hw i hi, fun h => by rw [hw i hi, hz i h, zero_div]⟩
  · intro k a b hk hab i hi
    have hs : ∑ i ∈ Ico (k + 1) L, r' i k * b i = ∑ i ∈ Ico (k + 1) L, r i k * a i := by
      refine Finset.sum_congr rfl fun i hi => ?_
      rw [Finset.mem_Ico] at hi
      rw [hr i (by omega) k (by omega), (hab i (by omega)).2 hi.1]
      field_simp
    rw [hs, (hab k (by omega)).1 (by omega), hsd k (by omega)]
    refine ⟨fun h => ?_, fun h => ?_⟩
    · rw [Function.update_of_ne (by omega), Function.update_of_ne (by omega), (hab i hi).1 (by omega)]
    · by_cases e : i = k
      · subst e; rw [Function.update_self, Function.update_self, div_div, mul_comm t]
      · rw [Function.update_of_ne e, Function.update_of_ne e, (hab i hi).2 (by omega)]

theorem scatter_div (n : ℕ) (ipvt : ℕ → ℕ) (hlt : ∀ k < n, ipvt k < n)
    (hinj : ∀ k < n, ∀ k' < n, ipvt k = ipvt k' → k = k') (z z' x x' : Vec) (hz : DivV t n z z') :
    DivV t n (scatter n ipvt z x) (scatter n ipvt z' x') := by
  intro a ha
  obtain ⟨k, hk, rfl⟩ := perm_surj n ipvt hlt hinj a ha
  rw [(scatter_spec n ipvt z x hinj).1 k hk, (scatter_spec n ipvt z' x' hinj).1 k hk, hz k hk]

theorem qrsolv_scale (ht : 0 < t) (n : ℕ) (r r' : Mat) (ipvt : ℕ → ℕ) (d d' qtb qtb' sd sd' : Vec)
    (hlt : ∀ k < n, ipvt k < n) (hinj : ∀ k < n, ∀ k' < n, ipvt k = ipvt k' → k = k')
    (hr : UpRel t n r r') (hd0 : ∀ k < n, d (ipvt k) ≠ 0) (hd : MulV t n d d') (hq : SameV n qtb qtb') :
    let o := qrsolv n r ipvt d qtb sd
    let o' := qrsolv n r' ipvt d' qtb' sd'
    (∀ i < n, ∀ c < n, o'.1 i c = t * o.1 i c) ∧ DivV t n o.2.1 o'.2.1 ∧ MulV t n o.2.2 o'.2.2 := by
  have ht0 := ht.ne'
  have hsym : ∀ i < n, ∀ c < n, symm r' i c = t * symm r i c := by
    intro i hi c hc
    unfold symm
    by_cases h : c ≤ i
    · rw [if_pos h, if_pos h, hr c i h hi]
    · rw [if_neg h, if_neg h, hr i c (by omega) hc]
  have hx : MulV t n (fun j => symm r j j) fun j => symm r' j j := fun j hj => hsym j hj j hj
  have hs := forBreak_rel (fun j => GRel t n j) (GRel t n n) 0 n (Nat.zero_le n)
    (elimStep n ipvt d fun j => symm r j j) (elimStep n ipvt d' fun j => symm r' j j)
    { r := symm r, wa := qtb, sd := sd, q := 0 } { r := symm r', wa := qtb', sd := sd', q := 0 }
    ⟨hsym, hq, fun j hj => by omega, rfl⟩
    (fun k a b _ hk hab => elim_scale ht n k hk ipvt d d' _ _ (hd0 k hk) (hd _ (hlt k hk)) hx a b hab _)
    fun _ _ h => h
  unfold qrsolv
  dsimp only
  set s := forBreak 0 n (elimStep n ipvt d fun j => symm r j j) { r := symm r, wa := qtb, sd := sd, q := 0 }
  set s' := forBreak 0 n (elimStep n ipvt d' fun j => symm r' j j) { r := symm r', wa := qtb', sd := sd', q := 0 }
  have hL : firstIdx n (fun j => s'.sd j = 0) = firstIdx n fun j => s.sd j = 0 :=
    firstIdx_congr _ _ _ fun j hj => by
      rw [hs.sd j hj]
      exact ⟨fun h => (mul_eq_zero.mp h).resolve_left ht0, fun h => by rw [h, mul_zero]⟩
  rw [hL]
  refine ⟨hs.r, scatter_div n ipvt hlt hinj _ _ _ _ (backSub_scale ht n _ (firstIdx_le _ _) _ _ _ _ _ _ hs.r hs.sd ?_ ?_), hs.sd⟩
  · intro j hj
    dsimp only
    rw [hs.wa j hj]
  · intro j hj
    rw [if_pos hj]

theorem gnDir_scale (ht : 0 < t) (eps : ℝ) (n : ℕ) (r r' : Mat) (q q' : Vec) (hr : UpRel t n r r') (hq : SameV n q q') :
    (gnDir eps n r' q').1 = (gnDir eps n r q).1 ∧ DivV t n (gnDir eps n r q).2 (gnDir eps n r' q').2 := by
  rcases Nat.eq_zero_or_pos n with h0 | hn
  · subst h0
    refine ⟨?_, fun j hj => by omega⟩
    have := firstIdx_le 0 fun j => |r j j| < forRange 1 0 (fun j b => max b |r j j|) |r 0 0| * eps
    have := firstIdx_le 0 fun j => |r' j j| < forRange 1 0 (fun j b => max b |r' j j|) |r' 0 0| * eps
    unfold gnDir
    dsimp only
    omega
  have ht0 := ht.ne'
  have hab : ∀ j < n, |r' j j| = t * |r j j| := fun j hj => by
    rw [hr j j le_rfl hj, abs_mul, abs_of_pos ht]
  have hM : forRange 1 n (fun j b => max b |r' j j|) |r' 0 0| = t * forRange 1 n (fun j b => max b |r j j|) |r 0 0| :=
    forRange_rel (fun _ (a b : ℝ) => b = t * a) 1 n hn _ _ _ _ (hab 0 hn) fun k a b _ hk h => by
      rw [h, hab k hk, ← mul_max_of_nonneg _ _ ht.le]
  unfold gnDir
  dsimp only
  rw [hM]
  set M := forRange 1 n (fun j b => max b |r j j|) |r 0 0|
  have hL : firstIdx n (fun j => |r' j j| < t * M * eps) = firstIdx n fun j => |r j j| < M * eps :=
    firstIdx_congr _ _ _ fun j hj => by
      rw [hab j hj, mul_assoc]
      exact mul_lt_mul_iff_right₀ ht
  rw [hL]
  set L := firstIdx n fun j => |r j j| < M * eps
  have hLn : L ≤ n := firstIdx_le _ _
  refine ⟨rfl, ?_⟩
  have := forDown_rel (fun j (a b : Vec) => ∀ i < n, (i < j → b i = a i) ∧ (j ≤ i → b i = a i / t))
    (fun j w => fun i => if i < j then w i - r i j * (w j / r j j) else if i = j then w j / r j j else w i)
    (fun j w => fun i => if i < j then w i - r' i j * (w j / r' j j) else if i = j then w j / r' j j else w i)
    L (fun j => if L ≤ j then 0 else q j) (fun j => if L ≤ j then 0 else q' j) ?_ ?_
  · exact fun j hj => (this j hj).2 (Nat.zero_le _)
  · intro i hi
    refine ⟨fun h => ?_, fun h => ?_⟩
    · have hn1 : ¬L ≤ i := by omega
      rw [if_neg hn1, if_neg hn1, hq i hi]
    · rw [if_pos h, if_pos h, zero_div]
  · intro k a b hk hab i hi
    rw [(hab k (by omega)).1 (by omega), hr k k le_rfl (by omega)]
    refine ⟨fun h => ?_, fun h => ?_⟩
    · rw [if_pos h, if_pos h, (hab i hi).1 (by omega), hr i k h.le (by omega)]
      rw [mul_comm t (r k k), ← div_div]
      field_simp
    · have hn1 : ¬i < k := by omega
      rw [if_neg hn1, if_neg hn1]
      by_cases e : i = k
      · rw [if_pos e, if_pos e, div_div, mul_comm t]
      · rw [if_neg e, if_neg e, (hab i hi).2 (by omega)]

theorem fwdSub_scale (ht : 0 < t) (n : ℕ) (r r' : Mat) (w w' : Vec) (hr : UpRel t n r r') (hw : MulV t n w w') :
    SameV n (fwdSub n r w) (fwdSub n r' w') := by
  have ht0 := ht.ne'
  have := forRange_rel (fun j (a b : Vec) => ∀ i < n, (i < j → b i = a i) ∧ (j ≤ i → b i = t * a i)) 0 n (Nat.zero_le n)
    (fun j w => Function.update w j ((w j - ∑ i ∈ range j, r i j * w i) / r j j))
    (fun j w => Function.update w j ((w j - ∑ i ∈ range j, r' i j * w i) / r' j j)) w w' ?_ ?_
  · exact fun i hi => (this i hi).1 hi
  · exact fun i hi => ⟨fun h => by omega, fun _ => hw i hi⟩
  · intro k a b _ hk hab i hi
    have hs : ∑ i ∈ range k, r' i k * b i = t * ∑ i ∈ range k, r i k * a i := by
      rw [Finset.mul_sum]
      refine Finset.sum_congr rfl fun i hi => ?_
      rw [Finset.mem_range] at hi
      rw [hr i k hi.le hk, (hab i (by omega)).1 hi]; ring
    rw [hs, (hab k hk).2 le_rfl, hr k k le_rfl hk, ← mul_sub, mul_div_mul_left _ _ ht0]
    refine ⟨fun h => ?_, fun h => ?_⟩
    · by_cases e : i = k
      · subst e; rw [Function.update_self, Function.update_self]
      · rw [Function.update_of_ne e, Function.update_of_ne e, (hab i hi).1 (by omega)]
    · rw [Function.update_of_ne (by omega), Function.update_of_ne (by omega), (hab i hi).2 (by omega)]

theorem fwdSubS_scale (ht : 0 < t) (n : ℕ) (r r' : Mat) (sd sd' w w' : Vec)
    (hr : ∀ i < n, ∀ c < n, r' i c = t * r i c) (hsd : MulV t n sd sd') (hw : MulV t n w w') :
    SameV n (fwdSubS n r sd w) (fwdSubS n r' sd' w') := by
  have ht0 := ht.ne'
  have := forRange_rel (fun j (a b : Vec) => ∀ i < n, (i < j → b i = a i) ∧ (j ≤ i → b i = t * a i)) 0 (n - 1) (Nat.zero_le _)
    (fun j w => fun i => if j < i ∧ i < n then w i - r i j * (w j / sd j) else if i = j then w j / sd j else w i)
    (fun j w => fun i => if j < i ∧ i < n then w i - r' i j * (w j / sd' j) else if i = j then w j / sd' j else w i) w w' ?_ ?_
  · intro i hi
    unfold fwdSubS
    dsimp only at this ⊢
    by_cases e : i = n - 1
    · rw [← e] at this ⊢
      rw [Function.update_self, Function.update_self, (this i hi).2 le_rfl, hsd i hi, mul_div_mul_left _ _ ht0]
    · rw [Function.update_of_ne e, Function.update_of_ne e, (this i hi).1 (by omega)]
  · exact fun i hi => ⟨fun h => by omega, fun _ => hw i hi⟩
  · intro k a b _ hk hab i hi
    rw [(hab k (by omega)).2 le_rfl, hsd k (by omega), mul_div_mul_left _ _ ht0]
    refine ⟨fun h => ?_, fun h => ?_⟩
    · have hn1 : ¬(k < i ∧ i < n) := by omega
      rw [if_neg hn1, if_neg hn1]
      by_cases e : i = k
      · rw [if_pos e, if_pos e]
      · rw [if_neg e, if_neg e, (hab i hi).1 (by omega)]
    · rw [if_pos ⟨by omega, hi⟩, if_pos ⟨by omega, hi⟩, (hab i hi).2 (by omega), hr i hi k (by omega)]
      ring

/-- Two results of `lmpar`. -/
structure LRel (t : ℝ) (n : ℕ) (o o' : Lm) : Prop where
  r : UpRel t n o.r o'.r
  par : o'.par = o.par
  x : DivV t n o.x o'.x

theorem lmLoop_scale (ht : 0 < t) (dwarf : ℝ) (hdw : 0 < dwarf) (n : ℕ) (ipvt : ℕ → ℕ)
    (hlt : ∀ k < n, ipvt k < n) (hinj : ∀ k < n, ∀ k' < n, ipvt k = ipvt k' → k = k')
    (d d' q q' : Vec) (delta : ℝ) (hd0 : ∀ k < n, 0 < d k) (hd : MulV t n d d') (hq : SameV n q q') (left : ℕ)
    (s s' : LmSt) (hr : UpRel t n s.r s'.r) (h1 : s'.fp = s.fp) (h2 : s'.par = s.par) (h3 : s'.parl = s.parl)
    (h4 : s'.paru = s.paru) (hp : 0 ≤ s.par) (hpl : 0 ≤ s.parl) :
    LRel t n (lmLoop dwarf n ipvt d q delta left s) (lmLoop dwarf n ipvt d' q' delta left s') := by
  have ht0 := ht.ne'
  induction left generalizing s s' with
  | zero =>
    unfold lmLoop
    dsimp only
    rw [h1, h2, h3, h4]
    set par := if s.par = 0 then max dwarf (s.paru * 0.001) else s.par with hpar
    have hpos : 0 < par := by
      rw [hpar]
      split_ifs with h
      · exact lt_max_of_lt_left hdw
      · exact lt_of_le_of_ne hp (Ne.symm h)
    obtain ⟨q1, q2, -⟩ := qrsolv_scale ht n s.r s'.r ipvt (fun i => Real.sqrt par * d i) (fun i => Real.sqrt par * d' i)
      q q' s.sd s'.sd hlt hinj hr (fun k hk => (mul_pos (Real.sqrt_pos.mpr hpos) (hd0 _ (hlt k hk))).ne')
      (fun j hj => by dsimp only; rw [hd j hj]; ring) hq
    rw [ite_self, ite_self]
    exact ⟨fun i c hic hc => q1 i (by omega) c hc, rfl, q2⟩
  | succ left ih =>
    unfold lmLoop
    dsimp only
    rw [h1, h2, h3, h4]
    set par := if s.par = 0 then max dwarf (s.paru * 0.001) else s.par with hpar
    have hpos : 0 < par := by
      rw [hpar]
      split_ifs with h
      · exact lt_max_of_lt_left hdw
      · exact lt_of_le_of_ne hp (Ne.symm h)
    obtain ⟨q1, q2, q3⟩ := qrsolv_scale ht n s.r s'.r ipvt (fun i => Real.sqrt par * d i) (fun i => Real.sqrt par * d' i)
      q q' s.sd s'.sd hlt hinj hr (fun k hk => (mul_pos (Real.sqrt_pos.mpr hpos) (hd0 _ (hlt k hk))).ne')
      (fun j hj => by dsimp only; rw [hd j hj]; ring) hq
    set o := qrsolv n s.r ipvt (fun i => Real.sqrt par * d i) q s.sd
    set o' := qrsolv n s'.r ipvt (fun i => Real.sqrt par * d' i) q' s'.sd
    have hw2 : SameV n (fun i => d i * o.2.1 i) fun i => d' i * o'.2.1 i := fun j hj => by
      dsimp only
      rw [hd j hj, q2 j hj]; field_simp
    rw [nrm_same n _ _ hw2]
    set dx := nrm 0 n fun i => d i * o.2.1 i
    have hup : UpRel t n o.1 o'.1 := fun i c hic hc => q1 i (by omega) c hc
    by_cases hc : |dx - delta| ≤ 0.1 * delta ∨ (s.parl = 0 ∧ dx - delta ≤ s.fp ∧ s.fp < 0)
    · rw [if_pos hc, if_pos hc]
      exact ⟨hup, rfl, q2⟩
    · rw [if_neg hc, if_neg hc]
      have hl : 0 ≤ if dx - delta > 0 then max s.parl par else s.parl := by
        split_ifs
        · exact le_max_of_le_left hpl
        · exact hpl
      have htmp : nrm 0 n (fwdSubS n o'.1 o'.2.2 fun j => d' (ipvt j) * (d' (ipvt j) * o'.2.1 (ipvt j)) / dx)
          = nrm 0 n (fwdSubS n o.1 o.2.2 fun j => d (ipvt j) * (d (ipvt j) * o.2.1 (ipvt j)) / dx) := by
        refine nrm_same n _ _ (fwdSubS_scale ht n _ _ _ _ _ _ q1 q3 fun j hj => ?_)
        have := hw2 _ (hlt j hj)
        dsimp only at this
        rw [this, hd _ (hlt j hj)]; ring
      rw [htmp]
      exact ih _ _ hup rfl rfl rfl rfl (le_max_of_le_left hl) hl

theorem lmpar_scale (ht : 0 < t) (eps dwarf : ℝ) (hdw : 0 < dwarf) (n : ℕ) (r r' : Mat) (ipvt : ℕ → ℕ)
    (hlt : ∀ k < n, ipvt k < n) (hinj : ∀ k < n, ∀ k' < n, ipvt k = ipvt k' → k = k')
    (d d' q q' : Vec) (delta : ℝ) (hdel : 0 < delta) (x x' sd sd' : Vec) (par : ℝ) (hpar : 0 ≤ par)
    (hd0 : ∀ k < n, 0 < d k) (hd : MulV t n d d') (hq : SameV n q q') (hr : UpRel t n r r') :
    LRel t n (lmpar eps dwarf n r ipvt d q delta x sd par) (lmpar eps dwarf n r' ipvt d' q' delta x' sd' par) := by
  have ht0 := ht.ne'
  obtain ⟨g1, g2⟩ := gnDir_scale ht eps n r r' q q' hr hq
  unfold lmpar
  dsimp only
  rw [g1]
  set g := gnDir eps n r q
  set g' := gnDir eps n r' q'
  have hx := scatter_div (t := t) n ipvt hlt hinj g.2 g'.2 x x' g2
  set x1 := scatter n ipvt g.2 x
  set x1' := scatter n ipvt g'.2 x'
  have hw2 : SameV n (fun i => d i * x1 i) fun i => d' i * x1' i := fun j hj => by
    dsimp only
    rw [hd j hj, hx j hj]; field_simp
  rw [nrm_same n _ _ hw2]
  set dx := nrm 0 n fun i => d i * x1 i with hdx'
  by_cases hc : dx - delta ≤ 0.1 * delta
  · rw [if_pos hc, if_pos hc]
    exact ⟨hr, rfl, hx⟩
  rw [if_neg hc, if_neg hc]
  have hfp0 : 0 < dx - delta := by
    push Not at hc
    linarith [mul_pos (by norm_num : (0 : ℝ) < 0.1) hdel]
  have hdx : 0 < dx := by linarith
  have htmp : nrm 0 n (fwdSub n r' fun j => d' (ipvt j) * (d' (ipvt j) * x1' (ipvt j)) / dx)
      = nrm 0 n (fwdSub n r fun j => d (ipvt j) * (d (ipvt j) * x1 (ipvt j)) / dx) := by
    refine nrm_same n _ _ (fwdSub_scale ht n _ _ _ _ hr fun j hj => ?_)
    have := hw2 _ (hlt j hj)
    dsimp only at this
    rw [this, hd _ (hlt j hj)]; ring
  have hgn : nrm 0 n (fun j => (∑ i ∈ range (j + 1), r' i j * q' i) / d' (ipvt j))
      = nrm 0 n fun j => (∑ i ∈ range (j + 1), r i j * q i) / d (ipvt j) := by
    refine nrm_same n _ _ fun j hj => ?_
    have : ∑ i ∈ range (j + 1), r' i j * q' i = t * ∑ i ∈ range (j + 1), r i j * q i := by
      rw [Finset.mul_sum]
      refine Finset.sum_congr rfl fun i hi => ?_
      rw [Finset.mem_range] at hi
      rw [hr i j (by omega) hj, hq i (by omega)]; ring
    rw [this, hd _ (hlt j hj), mul_div_mul_left _ _ ht0]
  rw [htmp, hgn]
  set temp := nrm 0 n (fwdSub n r fun j => d (ipvt j) * (d (ipvt j) * x1 (ipvt j)) / dx)
  set gn := nrm 0 n fun j => (∑ i ∈ range (j + 1), r i j * q i) / d (ipvt j)
  have hgn0 : 0 ≤ gn := nrm_nonneg _ _ _
  have hparl : 0 ≤ if n ≤ g.1 then (dx - delta) / delta / temp / temp else 0 := by
    split_ifs
    · rw [div_div]
      exact div_nonneg (div_nonneg hfp0.le hdel.le) (mul_self_nonneg _)
    · exact le_rfl
  have hparu : 0 ≤ if gn / delta = 0 then dwarf / min delta 0.1 else gn / delta := by
    split_ifs
    · exact div_nonneg hdw.le (le_min hdel.le (by norm_num))
    · exact div_nonneg hgn0 hdel.le
  refine lmLoop_scale ht dwarf hdw n ipvt hlt hinj d d' q q' delta hd0 hd hq 9 _ _ hr rfl rfl rfl rfl ?_ hparl
  dsimp only
  set pl := if n ≤ g.1 then (dx - delta) / delta / temp / temp else 0
  set pu := if gn / delta = 0 then dwarf / min delta 0.1 else gn / delta
  by_cases h2 : min (max par pl) pu = 0
  · rw [if_pos h2]
    exact div_nonneg hgn0 hdx.le
  · rw [if_neg h2]
    exact le_min (le_max_of_le_left hpar) hparu

/-! ## The factorisation -/

theorem applyQ_rel (m n J : ℕ) (hJn : J ≤ n) (hJm : J ≤ m) (s s' : Qr) (h : QRel t m n J s s') (w : Vec) (K : ℕ) (hK : K ≤ J) :
    ∀ i < m, applyQ m s'.a s'.ipvt K w i = applyQ m s.a s.ipvt K w i := by
  induction K with
  | zero => exact fun _ _ => rfl
  | succ K ih =>
    intro i hi
    unfold applyQ refl
    have hcol : ∀ i, K ≤ i → i < m → s'.a i (s.ipvt K) = s.a i (s.ipvt K) := fun i h1 h2 => by
      rw [h.a K (by omega) i h2, if_pos ⟨by omega, h1⟩, one_mul]
    have hsum : ∑ i ∈ Ico K m, s'.a i (s.ipvt K) * applyQ m s'.a s'.ipvt K w i
        = ∑ i ∈ Ico K m, s.a i (s.ipvt K) * applyQ m s.a s.ipvt K w i :=
      Finset.sum_congr rfl fun i hi => by
        rw [Finset.mem_Ico] at hi
        rw [hcol i hi.1 hi.2, ih (by omega) i hi.2]
    rw [h.ipvt] at hsum ih ⊢
    dsimp only
    rw [ih (by omega) i hi, hsum]
    by_cases hKi : K ≤ i
    · rw [if_pos hKi, if_pos hKi, hcol i hKi hi, hcol K le_rfl (by omega)]
    · rw [if_neg hKi, if_neg hKi]

theorem formQtf_scale (ht : 0 < t) (eps : ℝ) (m n : ℕ) (hm : n ≤ m) (A A' : Mat)
    (hA : ∀ i < m, ∀ k < n, A' i k = t * A i k) (f f' : Vec) (hf : f' = f) :
    let q := qrfac eps m n A
    let q' := qrfac eps m n A'
    q'.ipvt = q.ipvt ∧ UpRel t n (formQtf m n q f).a (formQtf m n q' f').a ∧
      SameV n (formQtf m n q f).qtf (formQtf m n q' f').qtf := by
  intro q q'
  obtain ⟨J, h, hd⟩ := qrfac_scale ht eps m n hm A A' hA
  change QRel t m n J q q' at h
  change Done A m n J q at hd
  have hinj' : ∀ k < n, ∀ k' < n, q'.ipvt k = q'.ipvt k' → k = k' := by rw [h.ipvt]; exact h.inj
  obtain ⟨a1, -, a3⟩ := qtLoop m n q f h.inj
  obtain ⟨b1, -, b3⟩ := qtLoop m n q' f' hinj'
  have hJ := hd.le
  refine ⟨h.ipvt, fun i c hic hc => ?_, fun j hj => ?_⟩
  · rw [a3 c hc, b3 c hc]
    by_cases e : i = c
    · rw [if_pos e, if_pos e, h.rdiag c hc]
    · rw [if_neg e, if_neg e, h.ipvt, h.a c hc i (by omega), if_neg (by omega)]
  · rw [a1 j hj, b1 j hj, hf, applyQ_extra m q.a q.ipvt J n hJ hd.zero, applyQ_extra m q'.a q'.ipvt J n hJ]
    · exact applyQ_rel m n J hJ (by omega) q q' h f J le_rfl j (by omega)
    · intro k h1 h2
      rw [h.ipvt, h.a k h2 k (by omega), hd.zero k h1 h2, mul_zero]

end Verif.Mpfit
