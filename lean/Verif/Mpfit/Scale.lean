import Verif.Mpfit.Poly
import Verif.NumPy.LoopRel

/-!
# The fitter and a change of unit

Two runs of the fitter, the second for the problem with all parameters in units smaller by the factor `t`:
every quantity of the second run is that of the first one times a power of `t`, if the residuals are affine.
-/

namespace Verif.Mpfit

open Verif.NumPy Finset

variable {t : ℝ}

theorem nrm_scale (ht : 0 < t) (lo hi : ℕ) (v w : Vec) (h : ∀ i, lo ≤ i → i < hi → w i = t * v i) :
    nrm lo hi w = t * nrm lo hi v := by
  unfold nrm
  have e : ∑ i ∈ Ico lo hi, w i ^ 2 = t ^ 2 * ∑ i ∈ Ico lo hi, v i ^ 2 := by
    rw [Finset.mul_sum]
    refine Finset.sum_congr rfl fun i hi => ?_
    rw [Finset.mem_Ico] at hi
    rw [h i hi.1 hi.2, mul_pow]
  rw [e, Real.sqrt_mul (sq_nonneg t), Real.sqrt_sq ht.le]

/-! ## `qrfac` -/

theorem kmax_scale (ht : 0 < t) (n j : ℕ) (hj : j < n) (r r' : Vec) (h : ∀ k < n, r' k = t * r k) :
    kmax n j r' = kmax n j r := by
  have := forRange_rel (fun _ (b b' : ℕ) => b < n ∧ b' = b) (j + 1) n hj
    (fun k b => if r b < r k then k else b) (fun k b => if r' b < r' k then k else b) j j ⟨hj, rfl⟩ ?_
  · exact this.2
  · rintro k b b' h1 h2 ⟨h3, rfl⟩
    rw [h b' h3, h k h2]
    by_cases hlt : r b' < r k
    · rw [if_pos hlt, if_pos (by nlinarith)]; exact ⟨h2, rfl⟩
    · rw [if_neg hlt, if_neg (by nlinarith)]; exact ⟨h3, rfl⟩

/-- Storage of `qrfac` in the two runs before pass `j`. -/
structure QRel (t : ℝ) (m n j : ℕ) (s s' : Qr) : Prop where
  ipvt : s'.ipvt = s.ipvt
  inj : ∀ k < n, ∀ k' < n, s.ipvt k = s.ipvt k' → k = k'
  rdiag : ∀ k < n, s'.rdiag k = t * s.rdiag k
  wa : ∀ k < n, s'.wa k = t * s.wa k
  a : ∀ k < n, ∀ i < m, s'.a i (s.ipvt k) = (if k < j ∧ k ≤ i then 1 else t) * s.a i (s.ipvt k)

theorem pivot_scale (ht : 0 < t) (m n j : ℕ) (hj : j < n) (s s' : Qr) (h : QRel t m n j s s') :
    QRel t m n j (pivotStep n j s) (pivotStep n j s') := by
  obtain ⟨hK1, hK2, -⟩ := kmax_spec n j hj s.rdiag
  unfold pivotStep
  rw [kmax_scale ht n j hj _ _ h.rdiag, h.ipvt]
  set K := kmax n j s.rdiag
  dsimp only
  by_cases hK : K = j
  · rw [if_pos hK, if_pos hK]; exact h
  rw [if_neg hK, if_neg hK]
  have hip : ∀ k < n, ∃ k0 < n, Function.update (Function.update s.ipvt j (s.ipvt K)) K (s.ipvt j) k = s.ipvt k0 ∧
      (k0 = k ∨ (j ≤ k0 ∧ j ≤ k)) ∧ (k = K ↔ k0 = j) ∧ (k = j ↔ k0 = K) := by
    intro k hk
    by_cases h1 : k = K
    · subst h1
      exact ⟨j, hj, by rw [Function.update_self], Or.inr ⟨le_rfl, hK1⟩, by simp, by constructor <;> intro h <;> omega⟩
    · by_cases h2 : k = j
      · subst h2
        exact ⟨K, hK2, by rw [Function.update_of_ne h1, Function.update_self], Or.inr ⟨hK1, le_rfl⟩,
          by constructor <;> intro h <;> omega, by simp⟩
      · exact ⟨k, hk, by rw [Function.update_of_ne h1, Function.update_of_ne h2], Or.inl rfl,
          by constructor <;> intro h <;> omega, by constructor <;> intro h <;> omega⟩
  refine ⟨rfl, ?_, ?_, ?_, ?_⟩
  · intro k hk k' hk' he
    dsimp only at he
    obtain ⟨a, ha, e1, -, h3, h4⟩ := hip k hk
    obtain ⟨b, hb, e2, -, h5, h6⟩ := hip k' hk'
    rw [e1, e2] at he
    have hab := h.inj a ha b hb he
    subst hab
    by_cases c1 : a = j
    · rw [h3.mpr c1, h5.mpr c1]
    · by_cases c2 : a = K
      · rw [h4.mpr c2, h6.mpr c2]
      · have e3 : k ≠ K := fun h => c1 (h3.mp h)
        have e4 : k ≠ j := fun h => c2 (h4.mp h)
        have e5 : k' ≠ K := fun h => c1 (h5.mp h)
        have e6 : k' ≠ j := fun h => c2 (h6.mp h)
        rw [Function.update_of_ne e3, Function.update_of_ne e4] at e1
        rw [Function.update_of_ne e5, Function.update_of_ne e6] at e2
        rw [h.inj k hk a ha e1, h.inj k' hk' a ha e2]
  · intro k hk
    dsimp only
    by_cases h1 : k = K
    · subst h1; rw [Function.update_self, Function.update_self, h.rdiag j hj]
    · rw [Function.update_of_ne h1, Function.update_of_ne h1, h.rdiag k hk]
  · intro k hk
    dsimp only
    by_cases h1 : k = K
    · subst h1; rw [Function.update_self, Function.update_self, h.wa j hj]
    · rw [Function.update_of_ne h1, Function.update_of_ne h1, h.wa k hk]
  · intro k hk i hi
    dsimp only
    obtain ⟨a, ha, e1, h2, -, -⟩ := hip k hk
    rw [e1, h.a a ha i hi]
    rcases h2 with rfl | ⟨h2, h3⟩
    · rfl
    · rw [if_neg (by omega), if_neg (by omega)]

theorem col_scale (ht : 0 < t) (eps : ℝ) (m n j k : ℕ) (hj : j < n) (hm : j < m) (hjk : j < k) (hk : k < n) (v v' : Vec)
    (hv : ∀ i < m, v' i = v i) (s s' : Qr) (h : QRel t m n (j + 1) s s') :
    QRel t m n (j + 1) (colStep eps m j v k s) (colStep eps m j v' k s') := by
  have ht0 := ht.ne'
  unfold colStep
  dsimp only
  rw [h.ipvt, h.a j hj j hm, if_pos (⟨by omega, le_rfl⟩ : j < j + 1 ∧ j ≤ j), one_mul]
  by_cases h0 : s.a j (s.ipvt j) = 0
  · rw [if_pos h0, if_pos h0]; exact h
  rw [if_neg h0, if_neg h0]
  have hcol : ∀ i < m, s'.a i (s.ipvt k) = t * s.a i (s.ipvt k) := fun i hi => by
    rw [h.a k hk i hi, if_neg (by omega)]
  have hsum : ∑ i ∈ Ico j m, s'.a i (s.ipvt k) * v' i = t * ∑ i ∈ Ico j m, s.a i (s.ipvt k) * v i := by
    rw [Finset.mul_sum]
    refine Finset.sum_congr rfl fun i hi => ?_
    rw [Finset.mem_Ico] at hi
    rw [hcol i hi.2, hv i hi.2]; ring
  set A : Mat := fun i c => if c = s.ipvt k ∧ j ≤ i then
    s.a i (s.ipvt k) - v i * (∑ i ∈ Ico j m, s.a i (s.ipvt k) * v i) / s.a j (s.ipvt j) else s.a i c with hA
  set A' : Mat := fun i c => if c = s.ipvt k ∧ j ≤ i then
    s'.a i (s.ipvt k) - v' i * (∑ i ∈ Ico j m, s'.a i (s.ipvt k) * v' i) / s.a j (s.ipvt j) else s'.a i c with hA'
  have hnew : ∀ i < m, A' i (s.ipvt k) = t * A i (s.ipvt k) := by
    intro i hi
    rw [hA, hA']
    dsimp only
    by_cases hji : j ≤ i
    · rw [if_pos ⟨rfl, hji⟩, if_pos ⟨rfl, hji⟩, hcol i hi, hv i hi, hsum]; ring
    · rw [if_neg (by tauto), if_neg (by tauto), hcol i hi]
  have hall : ∀ k0 < n, ∀ i < m, A' i (s.ipvt k0) = (if k0 < j + 1 ∧ k0 ≤ i then 1 else t) * A i (s.ipvt k0) := by
    intro k0 hk0 i hi
    by_cases he : k0 = k
    · subst he
      rw [if_neg (by omega), hnew i hi]
    · have hne : s.ipvt k0 ≠ s.ipvt k := fun e => he (h.inj k0 hk0 k hk e)
      rw [hA, hA']
      dsimp only
      rw [if_neg (fun e => hne e.1), if_neg (fun e : s.ipvt k0 = s.ipvt k ∧ j ≤ i => hne e.1), h.a k0 hk0 i hi]
  have hnj := hnew j hm
  change QRel t m n (j + 1)
    (if s.rdiag k = 0 then { s with a := A } else
      if 0.05 * (s.rdiag k * Real.sqrt (max (1 - (A j (s.ipvt k) / s.rdiag k) ^ 2) 0) / s.wa k) *
          (s.rdiag k * Real.sqrt (max (1 - (A j (s.ipvt k) / s.rdiag k) ^ 2) 0) / s.wa k) ≤ eps then
        { s with a := A, rdiag := Function.update s.rdiag k (nrm (j + 1) m fun i => A i (s.ipvt k)),
                 wa := Function.update s.wa k (nrm (j + 1) m fun i => A i (s.ipvt k)) }
      else { s with a := A, rdiag := Function.update s.rdiag k
                      (s.rdiag k * Real.sqrt (max (1 - (A j (s.ipvt k) / s.rdiag k) ^ 2) 0)) })
    (if s'.rdiag k = 0 then { a := A', ipvt := s.ipvt, rdiag := s'.rdiag, wa := s'.wa } else
      if 0.05 * (s'.rdiag k * Real.sqrt (max (1 - (A' j (s.ipvt k) / s'.rdiag k) ^ 2) 0) / s'.wa k) *
          (s'.rdiag k * Real.sqrt (max (1 - (A' j (s.ipvt k) / s'.rdiag k) ^ 2) 0) / s'.wa k) ≤ eps then
        { a := A', ipvt := s.ipvt, rdiag := Function.update s'.rdiag k (nrm (j + 1) m fun i => A' i (s.ipvt k)),
          wa := Function.update s'.wa k (nrm (j + 1) m fun i => A' i (s.ipvt k)) }
      else { a := A', ipvt := s.ipvt, rdiag := Function.update s'.rdiag k
               (s'.rdiag k * Real.sqrt (max (1 - (A' j (s.ipvt k) / s'.rdiag k) ^ 2) 0)), wa := s'.wa })
  rw [h.rdiag k hk, h.wa k hk, hnj]
  by_cases h1 : s.rdiag k = 0
  · rw [if_pos h1, if_pos (by rw [h1, mul_zero])]
    exact ⟨rfl, h.inj, h.rdiag, h.wa, hall⟩
  rw [if_neg h1, if_neg (mul_ne_zero ht0 h1), mul_div_mul_left _ _ ht0]
  set r1 := s.rdiag k * Real.sqrt (max (1 - (A j (s.ipvt k) / s.rdiag k) ^ 2) 0)
  rw [mul_assoc t (s.rdiag k), mul_div_mul_left _ _ ht0]
  have hnr : nrm (j + 1) m (fun i => A' i (s.ipvt k)) = t * nrm (j + 1) m fun i => A i (s.ipvt k) :=
    nrm_scale ht _ _ _ _ fun i _ hi => hnew i hi
  have hup : ∀ (x x' y y' : Vec) (z : ℝ), (∀ k < n, x' k = t * x k) →
      ∀ k0 < n, Function.update x' k (t * z) k0 = t * Function.update x k z k0 := by
    intro x x' y y' z hx k0 hk0
    by_cases he : k0 = k
    · subst he; rw [Function.update_self, Function.update_self]
    · rw [Function.update_of_ne he, Function.update_of_ne he, hx k0 hk0]
  by_cases h2 : 0.05 * (r1 / s.wa k) * (r1 / s.wa k) ≤ eps
  · rw [if_pos h2, if_pos h2, hnr]
    exact ⟨rfl, h.inj, hup _ _ 0 0 _ h.rdiag, hup _ _ 0 0 _ h.wa, hall⟩
  · rw [if_neg h2, if_neg h2]
    exact ⟨rfl, h.inj, hup _ _ 0 0 _ h.rdiag, h.wa, hall⟩

theorem qrStep_scale (ht : 0 < t) (eps : ℝ) (m n j : ℕ) (hj : j < n) (hm : j < m) (s s' : Qr) (h : QRel t m n j s s') :
    CtlRel (QRel t m n (j + 1)) (QRel t m n j) (qrStep eps m n j s) (qrStep eps m n j s') := by
  have ht0 := ht.ne'
  have hp := pivot_scale ht m n j hj s s' h
  unfold qrStep
  set p := pivotStep n j s
  set p' := pivotStep n j s'
  dsimp only
  rw [hp.ipvt]
  have hcol : ∀ i < m, p'.a i (p.ipvt j) = t * p.a i (p.ipvt j) := fun i hi => by
    rw [hp.a j hj i hi, if_neg (by omega)]
  have hnj : nrm j m (fun i => p'.a i (p.ipvt j)) = t * nrm j m fun i => p.a i (p.ipvt j) :=
    nrm_scale ht _ _ _ _ fun i _ hi => hcol i hi
  rw [hnj, hcol j hm]
  by_cases h0 : nrm j m (fun i => p.a i (p.ipvt j)) = 0
  · rw [if_pos h0, if_pos (by rw [h0, mul_zero])]
    exact .brk _ _ hp
  rw [if_neg h0, if_neg (mul_ne_zero ht0 h0)]
  set nj := nrm j m fun i => p.a i (p.ipvt j)
  have haj : (if t * p.a j (p.ipvt j) < 0 then -(t * nj) else t * nj) = t * if p.a j (p.ipvt j) < 0 then -nj else nj := by
    by_cases hs : p.a j (p.ipvt j) < 0
    · rw [if_pos hs, if_pos (by nlinarith)]; ring
    · rw [if_neg hs, if_neg (by nlinarith)]
  rw [haj]
  set aj := if p.a j (p.ipvt j) < 0 then -nj else nj
  set v : Vec := fun i => p.a i (p.ipvt j) / aj + if i = j then 1 else 0 with hv
  set v' : Vec := fun i => p'.a i (p.ipvt j) / (t * aj) + if i = j then 1 else 0 with hv'
  have hvv : ∀ i < m, v' i = v i := fun i hi => by
    rw [hv, hv']
    dsimp only
    rw [hcol i hi, mul_div_mul_left _ _ ht0]
  have hstart : QRel t m n (j + 1)
      { p with a := fun i c => if c = p.ipvt j ∧ j ≤ i then v i else p.a i c }
      { a := fun i c => if c = p.ipvt j ∧ j ≤ i then v' i else p'.a i c, ipvt := p.ipvt, rdiag := p'.rdiag, wa := p'.wa } := by
    refine ⟨rfl, hp.inj, hp.rdiag, hp.wa, ?_⟩
    intro k hk i hi
    dsimp only
    by_cases he : k = j
    · subst he
      by_cases hji : k ≤ i
      · rw [if_pos ⟨rfl, hji⟩, if_pos ⟨by omega, hji⟩, if_pos ⟨rfl, hji⟩, one_mul, hvv i hi]
      · rw [if_neg (by tauto), if_neg (by omega), if_neg (by tauto), hcol i hi]
    · have hne : p.ipvt k ≠ p.ipvt j := fun e => he (hp.inj k hk j hj e)
      rw [if_neg (fun e => hne e.1), hp.a k hk i hi, if_neg (fun e : p.ipvt k = p.ipvt j ∧ j ≤ i => hne e.1)]
      congr 1
      by_cases hc : k < j ∧ k ≤ i
      · rw [if_pos hc, if_pos (⟨by omega, hc.2⟩ : k < j + 1 ∧ k ≤ i)]
      · rw [if_neg hc, if_neg (by omega)]
  have hl := forRange_rel (fun _ (a b : Qr) => QRel t m n (j + 1) a b) (j + 1) n hj (colStep eps m j v) (colStep eps m j v')
    _ _ hstart fun k a b h1 h2 h3 => col_scale ht eps m n j k hj hm (by omega) h2 v v' hvv a b h3
  refine .next _ _ ⟨hl.ipvt, hl.inj, ?_, hl.wa, hl.a⟩
  intro k hk
  dsimp only
  by_cases he : k = j
  · subst he; rw [Function.update_self, Function.update_self]; ring
  · rw [Function.update_of_ne he, Function.update_of_ne he]
    exact hl.rdiag k hk

theorem qrInit (A : Mat) (m n : ℕ) : Inv A m n 0 0
    { a := A, ipvt := id, rdiag := fun j => nrm 0 m fun i => A i j, wa := fun j => nrm 0 m fun i => A i j } := by
  refine ⟨fun k hk => hk, fun k _ k' _ h => h, fun t ht => by omega, fun t ht => by omega, ?_, ?_,
    fun t ht => by omega⟩
  · intro k _ i _
    simp [applyQ, work]
  · intro k _ _
    rfl

theorem inv_done (A : Mat) (m n : ℕ) (s : Qr) (h : Inv A m n n n s) : Done A m n n s := by
  refine ⟨le_rfl, h.lt, h.inj, h.ne, h.sq, fun t h1 h2 => by omega, ?_, ?_⟩
  · intro k hk i hi
    rw [h.col k hk i hi]
    unfold work
    rw [if_pos hk]
  · intro t ht k hk1 hk2
    have := h.dec t ht k hk1 hk2
    unfold work at this
    simp only [if_pos hk2] at this
    exact this

theorem qrfac_scale (ht : 0 < t) (eps : ℝ) (m n : ℕ) (hm : n ≤ m) (A A' : Mat) (hA : ∀ i < m, ∀ k < n, A' i k = t * A i k) :
    ∃ J, QRel t m n J (qrfac eps m n A) (qrfac eps m n A') ∧ Done A m n J (qrfac eps m n A) := by
  unfold qrfac
  rw [min_eq_right hm]
  refine forBreak_rel (fun j s s' => QRel t m n j s s' ∧ Inv A m n j j s)
    (fun s s' => ∃ J, QRel t m n J s s' ∧ Done A m n J s) 0 n (Nat.zero_le _) _ _ _ _ ?_ ?_ ?_
  · have hn : ∀ k < n, nrm 0 m (fun i => A' i k) = t * nrm 0 m fun i => A i k := fun k hk =>
      nrm_scale ht _ _ _ _ fun i _ hi => hA i hi k hk
    refine ⟨⟨rfl, fun k _ k' _ h => h, hn, hn, fun k hk i hi => ?_⟩, ?_⟩
    · rw [if_neg (by omega)]; exact hA i hi k hk
    · exact qrInit A m n
  · rintro j s s' - hj ⟨h1, h2⟩
    have h := qrStep_scale ht eps m n j hj (by omega) s s' h1
    have hn := step_next A eps m n j hj hm s
    have hb := step_brk A eps m n j hj hm s
    revert h hn hb
    generalize qrStep eps m n j s = u
    generalize qrStep eps m n j s' = u'
    intro h hn hb
    cases h with
    | brk a b hq =>
      have hd := hb a h2 rfl
      exact .brk _ _ ⟨j, hq, hd⟩
    | next a b hr => exact .next _ _ ⟨hr, hn a h2 rfl⟩
  · rintro s s' ⟨h1, h2⟩
    exact ⟨n, h1, inv_done A m n s h2⟩

end Verif.Mpfit
