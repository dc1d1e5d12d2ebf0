import Verif.Mpfit.OrderQr
import Verif.Mpfit.ErrSolve

/-!
# The least-squares fitter and the order of the data: the step

Triangular factors that differ by the signs of rows give the same step.
-/

namespace Verif.Mpfit.Order

open Verif.NumPy Finset

theorem sg_ne {e : ℝ} (h : e * e = 1) : e ≠ 0 := fun h0 => by rw [h0] at h; norm_num at h

theorem sg_abs {e : ℝ} (h : e * e = 1) (a : ℝ) : |e * a| = |a| := by
  rw [abs_mul]
  have : |e| = 1 := by
    have h1 : |e| * |e| = 1 := by rw [← abs_mul, h, abs_one]
    nlinarith [abs_nonneg e]
  rw [this, one_mul]

theorem sg_div {e d : ℝ} (hd : d * d = 1) (a b : ℝ) : e * a / (d * b) = e * d * (a / b) := by
  have h0 := sg_ne hd
  rw [mul_div_mul_comm]
  congr 1
  rw [div_eq_iff h0, mul_assoc, hd, mul_one]

theorem sg_div' {e : ℝ} (he : e * e = 1) (a b : ℝ) : e * a / (e * b) = a / b := mul_div_mul_left _ _ (sg_ne he)

theorem sg_div_one {e : ℝ} (he : e * e = 1) (a b : ℝ) : a / (e * b) = e * (a / b) := by
  have := sg_div (e := 1) he a b
  rw [one_mul, one_mul] at this
  exact this

theorem nrm_sg (σ : ℕ → ℝ) (hσ : Sgn σ) (n : ℕ) (v w : Vec) (h : ∀ i < n, w i = σ i * v i) : nrm 0 n w = nrm 0 n v := by
  unfold nrm
  congr 1
  refine Finset.sum_congr rfl fun i hi => ?_
  rw [Finset.mem_Ico] at hi
  rw [h i hi.2]
  linear_combination (v i ^ 2) * hσ i

/-- Rotations of two rows that carry signs: the results carry signs. -/
theorem givens_sg (e d a b : ℝ) (he : e * e = 1) (hd : d * d = 1) (hb : b ≠ 0) :
    (∃ e' d' : ℝ, e' * e' = 1 ∧ d' * d' = 1 ∧ ∀ x y : ℝ,
      (givens (e * a) (d * b)).1 * (e * x) + (givens (e * a) (d * b)).2 * (d * y) = e' * ((givens a b).1 * x + (givens a b).2 * y) ∧
      -(givens (e * a) (d * b)).2 * (e * x) + (givens (e * a) (d * b)).1 * (d * y) = d' * (-(givens a b).2 * x + (givens a b).1 * y)) ∧
    (a = 0 → (givens a b).1 = 0 ∧ (givens (e * a) (d * b)).1 = 0) := by
  constructor
  · unfold givens
    rw [sg_abs he, sg_abs hd, sg_div hd, sg_div he]
    by_cases h : |a| < |b|
    · rw [if_pos h, if_pos h]
      dsimp only
      have e1 : 0.25 + 0.25 * (e * d * (a / b)) * (e * d * (a / b)) = 0.25 + 0.25 * (a / b) * (a / b) := by
        linear_combination (0.25 * (a / b) * (a / b) * (d * d)) * he + (0.25 * (a / b) * (a / b)) * hd
      rw [e1]
      generalize (0.5 : ℝ) / Real.sqrt (0.25 + 0.25 * (a / b) * (a / b)) = s
      generalize a / b = u
      refine ⟨d, e, hd, he, fun x y => ⟨?_, ?_⟩⟩
      · linear_combination (s * u * d * x) * he
      · linear_combination (s * u * e * y) * hd
    · rw [if_neg h, if_neg h]
      dsimp only
      have e1 : 0.25 + 0.25 * (d * e * (b / a)) * (d * e * (b / a)) = 0.25 + 0.25 * (b / a) * (b / a) := by
        linear_combination (0.25 * (b / a) * (b / a) * (d * d)) * he + (0.25 * (b / a) * (b / a)) * hd
      rw [e1]
      generalize (0.5 : ℝ) / Real.sqrt (0.25 + 0.25 * (b / a) * (b / a)) = s
      generalize b / a = u
      refine ⟨e, d, he, hd, fun x y => ⟨?_, ?_⟩⟩
      · linear_combination (s * u * e * y) * hd
      · linear_combination (-s * u * d * x) * he
  · intro h0
    subst h0
    have hb' : |(0 : ℝ)| < |b| := by rw [abs_zero]; exact abs_pos.mpr hb
    have hb'' : |e * 0| < |d * b| := by rw [sg_abs hd, sg_abs he]; exact hb'
    unfold givens
    rw [if_pos hb', if_pos hb'']
    simp

/-- The elimination of row `j` before rotation `k`: `ρ` are the signs of the rows of the triangle, `τ` that of the row that is eliminated. -/
structure GI (σ : ℕ → ℝ) (n j k : ℕ) (ρ : ℕ → ℝ) (τ : ℝ) (s s' : Giv) : Prop where
  sg : Sgn ρ
  sgt : τ * τ = 1
  upper : ∀ i c, i < c → c < n → s'.r i c = σ i * s.r i c
  diag : ∀ i < j, s'.r i i = σ i * s.r i i
  low : ∀ c i, c < i → i < n → s'.r i c = ρ c * s.r i c
  dlow : ∀ c, j ≤ c → c < n → s'.r c c = ρ c * s.r c c
  sd : ∀ i < j, s'.sd i = ρ i * s.sd i
  row : ∀ i, k ≤ i → i < n → s'.sd i = τ * s.sd i
  q : s'.q = τ * s.q ∨ ∀ i, k ≤ i → i < n → s.sd i = 0
  wa : ∀ c < n, s'.wa c = ρ c * s.wa c ∨ (k ≤ c ∧ ∀ i, c ≤ i → i < n → s.r i c = 0)
  start : k = j → s.sd j ≠ 0

theorem rot_order (σ : ℕ → ℝ) (n j k : ℕ) (hjk : j ≤ k) (hk : k < n) (s s' : Giv) (h : ∃ ρ τ, GI σ n j k ρ τ s s') :
    CtlRel (fun s s' => ∃ ρ τ, GI σ n j (k + 1) ρ τ s s') (fun s s' => ∃ k ρ τ, j < k ∧ GI σ n j k ρ τ s s') (rotStep k s) (rotStep k s') := by
  obtain ⟨ρ, τ, h⟩ := h
  have hsd := h.row k le_rfl hk
  unfold rotStep
  rw [hsd, h.dlow k hjk hk]
  by_cases h0 : s.sd k = 0
  · rw [if_pos h0, if_pos (by rw [h0, mul_zero])]
    refine .brk _ _ ⟨k, ρ, τ, ?_, h⟩
    rcases Nat.lt_or_ge j k with h1 | h1
    · exact h1
    · have : k = j := by omega
      subst this
      exact absurd h0 (h.start rfl)
  rw [if_neg h0, if_neg (mul_ne_zero (sg_ne h.sgt) h0)]
  obtain ⟨⟨e', d', he', hd', hrot⟩, hz⟩ := givens_sg (ρ k) τ (s.r k k) (s.sd k) (h.sg k) h.sgt h0
  set g := givens (s.r k k) (s.sd k)
  set g' := givens (ρ k * s.r k k) (τ * s.sd k)
  have hcol : ∀ i, k ≤ i → i < n → s'.r i k = ρ k * s.r i k := fun i h1 h2 => by
    rcases Nat.lt_or_ge k i with h3 | h3
    · exact h.low k i h3 h2
    · have : i = k := by omega
      subst this
      exact h.dlow i hjk hk
  have hq : s'.q = τ * s.q := h.q.resolve_right fun h1 => h0 (h1 k le_rfl hk)
  have hρ : ∀ i, i ≠ k → Function.update ρ k e' i = ρ i := fun i hi => Function.update_of_ne hi _ _
  have hρk : Function.update ρ k e' k = e' := Function.update_self _ _ _
  -- the right-hand side
  have hw : (g'.1 * s'.wa k + g'.2 * s'.q = e' * (g.1 * s.wa k + g.2 * s.q)) ∧
      (-g'.2 * s'.wa k + g'.1 * s'.q = d' * (-g.2 * s.wa k + g.1 * s.q) ∨
        ∀ i, k + 1 ≤ i → i < n → -g.2 * s.r i k + g.1 * s.sd i = 0) := by
    rcases h.wa k hk with h1 | ⟨-, h1⟩
    · rw [h1, hq]
      exact ⟨(hrot _ _).1, Or.inl (hrot _ _).2⟩
    · obtain ⟨z1, z2⟩ := hz (h1 k le_rfl hk)
      refine ⟨?_, Or.inr fun i hi hin => ?_⟩
      · have := (hrot 0 s.q).1
        rw [z1, z2] at this ⊢
        rw [hq]
        linarith
      · rw [z1, h1 i (by omega) hin]
        ring
  refine .next _ _ ⟨Function.update ρ k e', d', fun i => ?_, hd', fun i c hic hc => ?_, fun i hi => ?_, fun c i hci hi => ?_, fun c hjc hc => ?_,
    fun i hi => ?_, fun i hi hin => ?_, ?_, fun c hc => ?_, fun he => by omega⟩
  · by_cases hi : i = k
    · subst hi; rw [hρk]; exact he'
    · rw [hρ i hi]; exact h.sg i
  · dsimp only
    rw [if_neg (by omega), if_neg (by omega)]
    exact h.upper i c hic hc
  · dsimp only
    rw [if_neg (by omega), if_neg (by omega)]
    exact h.diag i hi
  · dsimp only
    by_cases hc : c = k
    · subst hc
      rw [if_pos ⟨rfl, hci.le⟩, if_pos ⟨rfl, hci.le⟩, hρk, hcol i hci.le hi, h.row i hci.le hi]
      exact (hrot _ _).1
    · rw [if_neg (by omega), if_neg (by omega), hρ c hc]
      exact h.low c i hci hi
  · dsimp only
    by_cases hc' : c = k
    · subst hc'
      rw [if_pos ⟨rfl, le_rfl⟩, if_pos ⟨rfl, le_rfl⟩, hρk, hcol c le_rfl hc, h.row c le_rfl hc]
      exact (hrot _ _).1
    · rw [if_neg (by omega), if_neg (by omega), hρ c hc']
      exact h.dlow c hjc hc
  · dsimp only
    rw [if_neg (by omega), if_neg (by omega), hρ i (by omega)]
    exact h.sd i hi
  · dsimp only
    rw [if_pos (by omega), if_pos (by omega), hcol i (by omega) hin, h.row i (by omega) hin]
    exact (hrot _ _).2
  · dsimp only
    rcases hw.2 with h1 | h1
    · exact Or.inl h1
    · right
      intro i hi hin
      rw [if_pos (by omega)]
      exact h1 i hi hin
  · dsimp only
    by_cases hc' : c = k
    · subst hc'
      left
      rw [hρk, Function.update_self, Function.update_self]
      exact hw.1
    · rw [hρ c hc', Function.update_of_ne hc', Function.update_of_ne hc']
      rcases h.wa c hc with h1 | ⟨h1, h2⟩
      · exact Or.inl h1
      · right
        refine ⟨by omega, fun i hi hin => ?_⟩
        rw [if_neg (by omega)]
        exact h2 i hi hin

/-- Between the eliminations. -/
structure GO (σ : ℕ → ℝ) (n j : ℕ) (ρ : ℕ → ℝ) (s s' : Giv) : Prop where
  sg : Sgn ρ
  upper : ∀ i c, i < c → c < n → s'.r i c = σ i * s.r i c
  diag : ∀ i < j, s'.r i i = σ i * s.r i i
  low : ∀ c i, c < i → i < n → s'.r i c = ρ c * s.r i c
  dlow : ∀ c, j ≤ c → c < n → s'.r c c = ρ c * s.r c c
  sd : ∀ i < j, s'.sd i = ρ i * s.sd i
  wa : ∀ c < n, s'.wa c = ρ c * s.wa c ∨ (j ≤ c ∧ ∀ i, c ≤ i → i < n → s.r i c = 0)

theorem elim_order (σ : ℕ → ℝ) (n j : ℕ) (hj : j < n) (ipvt : ℕ → ℕ) (d d' x x' : Vec)
    (hd0 : d (ipvt j) ≠ 0) (hd : d' (ipvt j) = d (ipvt j)) (hx : x' j = σ j * x j)
    (s s' : Giv) (h : ∃ ρ, GO σ n j ρ s s') (Q : Giv → Giv → Prop) :
    CtlRel (fun s s' => ∃ ρ, GO σ n (j + 1) ρ s s') Q (elimStep n ipvt d x j s) (elimStep n ipvt d' x' j s') := by
  obtain ⟨ρ, h⟩ := h
  unfold elimStep
  rw [if_neg hd0, if_neg (by rw [hd]; exact hd0)]
  have h1 : GI σ n j j ρ 1 { s with sd := fun k => if k = j then d (ipvt j) else if j < k then 0 else s.sd k, q := 0 }
      { s' with sd := fun k => if k = j then d' (ipvt j) else if j < k then 0 else s'.sd k, q := 0 } := by
    refine ⟨h.sg, one_mul 1, h.upper, h.diag, h.low, h.dlow, fun i hi => ?_, fun i hi hin => ?_, Or.inl (mul_zero _).symm, h.wa, fun _ => ?_⟩
    · dsimp only
      rw [if_neg (by omega), if_neg (by omega), if_neg (by omega), if_neg (by omega), h.sd i hi]
    · dsimp only
      rw [one_mul, hd]
      by_cases e : i = j
      · rw [if_pos e, if_pos e]
      · rw [if_neg e, if_neg e, if_pos (by omega), if_pos (by omega)]
    · dsimp only
      rw [if_pos rfl]
      exact hd0
  obtain ⟨k, ρ', τ', hk, h2⟩ := forBreak_rel (fun k s s' => ∃ ρ τ, GI σ n j k ρ τ s s') (fun s s' => ∃ k ρ τ, j < k ∧ GI σ n j k ρ τ s s')
    j n hj.le rotStep rotStep _ _ ⟨ρ, 1, h1⟩ (fun k a b hjk hk hr => rot_order σ n j k hjk hk a b hr)
    fun a b ⟨ρ, τ, h⟩ => ⟨n, ρ, τ, hj, h⟩
  refine .next _ _ ⟨ρ', h2.sg, fun i c hic hc => ?_, fun i hi => ?_, fun c i hci hi => ?_, fun c hjc hc => ?_, fun i hi => ?_, fun c hc => ?_⟩
  · dsimp only
    rw [if_neg (by omega), if_neg (by omega)]
    exact h2.upper i c hic hc
  · dsimp only
    by_cases e : i = j
    · subst e
      rw [if_pos ⟨rfl, rfl⟩, if_pos ⟨rfl, rfl⟩, hx]
    · rw [if_neg (by omega), if_neg (by omega)]
      exact h2.diag i (by omega)
  · dsimp only
    rw [if_neg (by omega), if_neg (by omega)]
    exact h2.low c i hci hi
  · dsimp only
    rw [if_neg (by omega), if_neg (by omega)]
    exact h2.dlow c (by omega) hc
  · dsimp only
    by_cases e : i = j
    · subst e
      rw [Function.update_self, Function.update_self]
      exact h2.dlow i le_rfl hj
    · rw [Function.update_of_ne e, Function.update_of_ne e]
      exact h2.sd i (by omega)
  · dsimp only
    rcases h2.wa c hc with h3 | ⟨h3, h4⟩
    · exact Or.inl h3
    · right
      refine ⟨by omega, fun i hi hin => ?_⟩
      rw [if_neg (by omega)]
      exact h4 i hi hin

theorem backSub_order (ρ : ℕ → ℝ) (hρ : Sgn ρ) (n L : ℕ) (hL : L ≤ n) (r r' : Mat) (sd sd' w w' : Vec)
    (hr : ∀ c i, c < i → i < n → r' i c = ρ c * r i c) (hsd : ∀ i < n, sd' i = ρ i * sd i) (hw : ∀ i < n, w' i = ρ i * w i)
    (hz : ∀ j, L ≤ j → w j = 0) : SameV n (backSub L r sd w) (backSub L r' sd' w') := by
  have := forDown_rel (fun j (a b : Vec) => ∀ i < n, (i < j → b i = ρ i * a i) ∧ (j ≤ i → b i = a i))
    (fun j w => Function.update w j ((w j - ∑ i ∈ Ico (j + 1) L, r i j * w i) / sd j))
    (fun j w => Function.update w j ((w j - ∑ i ∈ Ico (j + 1) L, r' i j * w i) / sd' j)) L w w' ?_ ?_
  · exact fun j hj => (this j hj).2 (Nat.zero_le _)
  · exact fun i hi => ⟨fun _ => hw i hi, fun h => by rw [hw i hi, hz i h, mul_zero]⟩
  · intro k a b hk hab i hi
    have hs : ∑ i ∈ Ico (k + 1) L, r' i k * b i = ρ k * ∑ i ∈ Ico (k + 1) L, r i k * a i := by
      rw [Finset.mul_sum]
      refine Finset.sum_congr rfl fun i hi => ?_
      rw [Finset.mem_Ico] at hi
      rw [hr k i (by omega) (by omega), (hab i (by omega)).2 hi.1, mul_assoc]
    rw [hs, (hab k (by omega)).1 (by omega), hsd k (by omega), ← mul_sub, sg_div' (hρ k)]
    refine ⟨fun h => ?_, fun h => ?_⟩
    · rw [Function.update_of_ne (by omega), Function.update_of_ne (by omega), (hab i hi).1 (by omega)]
    · by_cases e : i = k
      · subst e; rw [Function.update_self, Function.update_self]
      · rw [Function.update_of_ne e, Function.update_of_ne e, (hab i hi).2 (by omega)]

theorem qrsolv_order (σ : ℕ → ℝ) (hσ : Sgn σ) (n : ℕ) (r r' : Mat) (ipvt : ℕ → ℕ) (d d' qtb qtb' sd sd' : Vec)
    (hlt : ∀ k < n, ipvt k < n) (hinj : ∀ k < n, ∀ k' < n, ipvt k = ipvt k' → k = k')
    (hr : UpSg σ n r r') (hd0 : ∀ k < n, d (ipvt k) ≠ 0) (hd : SameV n d d') (hq : RhsSg σ n r qtb qtb') :
    let o := qrsolv n r ipvt d qtb sd
    let o' := qrsolv n r' ipvt d' qtb' sd'
    UpSg σ n o.1 o'.1 ∧ SameV n o.2.1 o'.2.1 ∧
      ∃ ρ, Sgn ρ ∧ (∀ c i, c < i → i < n → o'.1 i c = ρ c * o.1 i c) ∧ ∀ i < n, o'.2.2 i = ρ i * o.2.2 i := by
  have hx : ∀ j < n, symm r' j j = σ j * symm r j j := fun j hj => by
    unfold symm
    rw [if_pos le_rfl, if_pos le_rfl]
    exact hr j j le_rfl hj
  obtain ⟨ρ, hs⟩ := forBreak_rel (fun j s s' => ∃ ρ, GO σ n j ρ s s') (fun s s' => ∃ ρ, GO σ n n ρ s s') 0 n (Nat.zero_le n)
    (elimStep n ipvt d fun j => symm r j j) (elimStep n ipvt d' fun j => symm r' j j)
    { r := symm r, wa := qtb, sd := sd, q := 0 } { r := symm r', wa := qtb', sd := sd', q := 0 }
    ⟨σ, hσ, fun i c hic hc => by
        unfold symm
        dsimp only
        rw [if_neg (by omega), if_neg (by omega)]
        exact hr i c hic.le hc, fun i hi => by omega, fun c i hci hi => by
        unfold symm
        dsimp only
        rw [if_pos hci.le, if_pos hci.le]
        exact hr c i hci.le hi, fun c _ hc => hx c hc, fun i hi => by omega, fun c hc => by
        rcases hq c hc with h | h
        · exact Or.inl h
        · right
          refine ⟨Nat.zero_le _, fun i hi hin => ?_⟩
          unfold symm
          dsimp only
          rw [if_pos hi]
          exact h i hi hin⟩
    (fun k a b _ hk hab => elim_order σ n k hk ipvt d d' _ _ (hd0 k hk) (hd _ (hlt k hk)) (hx k hk) a b hab _)
    fun _ _ h => h
  unfold qrsolv
  dsimp only
  set s := forBreak 0 n (elimStep n ipvt d fun j => symm r j j) { r := symm r, wa := qtb, sd := sd, q := 0 }
  set s' := forBreak 0 n (elimStep n ipvt d' fun j => symm r' j j) { r := symm r', wa := qtb', sd := sd', q := 0 }
  have hL : firstIdx n (fun j => s'.sd j = 0) = firstIdx n fun j => s.sd j = 0 :=
    firstIdx_congr _ _ _ fun j hj => by
      rw [hs.sd j hj]
      exact ⟨fun h => (mul_eq_zero.mp h).resolve_left (sg_ne (hs.sg j)), fun h => by rw [h, mul_zero]⟩
  rw [hL]
  refine ⟨fun i c hic hc => ?_, Err.scatter_same n ipvt hlt hinj _ _ _ _
    (backSub_order ρ hs.sg n _ (firstIdx_le _ _) _ _ _ _ _ _ hs.low hs.sd ?_ ?_), ρ, hs.sg, hs.low, hs.sd⟩
  · rcases Nat.lt_or_ge i c with h | h
    · exact hs.upper i c h hc
    · have : i = c := by omega
      subst this
      exact hs.diag i hc
  · intro j hj
    have : s'.wa j = ρ j * s.wa j := (hs.wa j hj).resolve_right fun h => by omega
    rw [this]
    split_ifs
    · rw [mul_zero]
    · rfl
  · intro j hj
    rw [if_pos hj]

theorem gnDir_order (σ : ℕ → ℝ) (hσ : Sgn σ) (eps : ℝ) (n : ℕ) (r r' : Mat) (q q' : Vec) (hr : UpSg σ n r r') (hq : RhsSg σ n r q q') :
    (gnDir eps n r' q').1 = (gnDir eps n r q).1 ∧ SameV n (gnDir eps n r q).2 (gnDir eps n r' q').2 := by
  rcases Nat.eq_zero_or_pos n with h0 | hn
  · subst h0
    refine ⟨?_, fun j hj => by omega⟩
    have := firstIdx_le 0 fun j => |r j j| < forRange 1 0 (fun j b => max b |r j j|) |r 0 0| * eps
    have := firstIdx_le 0 fun j => |r' j j| < forRange 1 0 (fun j b => max b |r' j j|) |r' 0 0| * eps
    unfold gnDir
    dsimp only
    omega
  have hab : ∀ j < n, |r' j j| = |r j j| := fun j hj => by
    rw [hr j j le_rfl hj, sg_abs (hσ j)]
  have hM : forRange 1 n (fun j b => max b |r' j j|) |r' 0 0| = forRange 1 n (fun j b => max b |r j j|) |r 0 0| :=
    forRange_rel (fun _ (a b : ℝ) => b = a) 1 n hn _ _ _ _ (hab 0 hn) fun k a b _ hk h => by
      rw [h, hab k hk]
  unfold gnDir
  dsimp only
  rw [hM]
  set M := forRange 1 n (fun j b => max b |r j j|) |r 0 0|
  have hL : firstIdx n (fun j => |r' j j| < M * eps) = firstIdx n fun j => |r j j| < M * eps :=
    firstIdx_congr _ _ _ fun j hj => by rw [hab j hj]
  rw [hL]
  set L := firstIdx n fun j => |r j j| < M * eps
  have hLn : L ≤ n := firstIdx_le _ _
  refine ⟨rfl, ?_⟩
  have := forDown_rel (fun j (a b : Vec) => ∀ i < n, (i < j → b i = σ i * a i ∨ r i i = 0) ∧ (j ≤ i → b i = a i))
    (fun j w => fun i => if i < j then w i - r i j * (w j / r j j) else if i = j then w j / r j j else w i)
    (fun j w => fun i => if i < j then w i - r' i j * (w j / r' j j) else if i = j then w j / r' j j else w i)
    L (fun j => if L ≤ j then 0 else q j) (fun j => if L ≤ j then 0 else q' j) ?_ ?_
  · exact fun j hj => (this j hj).2 (Nat.zero_le _)
  · intro i hi
    refine ⟨fun h => ?_, fun h => ?_⟩
    · have hn1 : ¬L ≤ i := by omega
      rw [if_neg hn1, if_neg hn1]
      rcases hq i hi with h1 | h1
      · exact Or.inl h1
      · exact Or.inr (h1 i le_rfl hi)
    · rw [if_pos h, if_pos h]
  · intro k a b hk hab i hi
    have hwj : b k / r' k k = a k / r k k := by
      rw [hr k k le_rfl (by omega)]
      rcases (hab k (by omega)).1 (by omega) with h1 | h1
      · rw [h1, sg_div' (hσ k)]
      · rw [h1, mul_zero, div_zero, div_zero]
    rw [hwj]
    refine ⟨fun h => ?_, fun h => ?_⟩
    · rw [if_pos h, if_pos h]
      rcases (hab i hi).1 (by omega) with h1 | h1
      · left
        rw [h1, hr i k h.le (by omega)]
        ring
      · exact Or.inr h1
    · have hn1 : ¬i < k := by omega
      rw [if_neg hn1, if_neg hn1]
      by_cases e : i = k
      · rw [if_pos e, if_pos e]
      · rw [if_neg e, if_neg e, (hab i hi).2 (by omega)]

theorem fwdSub_order (σ : ℕ → ℝ) (hσ : Sgn σ) (n : ℕ) (r r' : Mat) (w w' : Vec) (hr : UpSg σ n r r') (hw : SameV n w w') :
    ∀ i < n, fwdSub n r' w' i = σ i * fwdSub n r w i := by
  have := forRange_rel (fun j (a b : Vec) => ∀ i < n, (i < j → b i = σ i * a i) ∧ (j ≤ i → b i = a i)) 0 n (Nat.zero_le n)
    (fun j w => Function.update w j ((w j - ∑ i ∈ range j, r i j * w i) / r j j))
    (fun j w => Function.update w j ((w j - ∑ i ∈ range j, r' i j * w i) / r' j j)) w w' ?_ ?_
  · exact fun i hi => (this i hi).1 hi
  · exact fun i hi => ⟨fun h => by omega, fun _ => hw i hi⟩
  · intro k a b _ hk hab i hi
    have hs : ∑ i ∈ range k, r' i k * b i = ∑ i ∈ range k, r i k * a i := by
      refine Finset.sum_congr rfl fun i hi => ?_
      rw [Finset.mem_range] at hi
      rw [hr i k hi.le hk, (hab i (by omega)).1 hi]
      linear_combination (r i k * a i) * hσ i
    rw [hs, (hab k hk).2 le_rfl, hr k k le_rfl hk, sg_div_one (hσ k)]
    refine ⟨fun h => ?_, fun h => ?_⟩
    · by_cases e : i = k
      · subst e; rw [Function.update_self, Function.update_self]
      · rw [Function.update_of_ne e, Function.update_of_ne e, (hab i hi).1 (by omega)]
    · rw [Function.update_of_ne (by omega), Function.update_of_ne (by omega), (hab i hi).2 (by omega)]

theorem fwdSubS_order (ρ : ℕ → ℝ) (hρ : Sgn ρ) (n : ℕ) (r r' : Mat) (sd sd' w w' : Vec)
    (hr : ∀ c i, c < i → i < n → r' i c = ρ c * r i c) (hsd : ∀ i < n, sd' i = ρ i * sd i) (hw : SameV n w w') :
    ∀ i < n, fwdSubS n r' sd' w' i = ρ i * fwdSubS n r sd w i := by
  have := forRange_rel (fun j (a b : Vec) => ∀ i < n, (i < j → b i = ρ i * a i) ∧ (j ≤ i → b i = a i)) 0 (n - 1) (Nat.zero_le _)
    (fun j w => fun i => if j < i ∧ i < n then w i - r i j * (w j / sd j) else if i = j then w j / sd j else w i)
    (fun j w => fun i => if j < i ∧ i < n then w i - r' i j * (w j / sd' j) else if i = j then w j / sd' j else w i) w w' ?_ ?_
  · intro i hi
    unfold fwdSubS
    dsimp only at this ⊢
    by_cases e : i = n - 1
    · rw [← e] at this ⊢
      rw [Function.update_self, Function.update_self, (this i hi).2 le_rfl, hsd i hi, sg_div_one (hρ i)]
    · rw [Function.update_of_ne e, Function.update_of_ne e, (this i hi).1 (by omega)]
  · exact fun i hi => ⟨fun h => by omega, fun _ => hw i hi⟩
  · intro k a b _ hk hab i hi
    rw [(hab k (by omega)).2 le_rfl, hsd k (by omega), sg_div_one (hρ k)]
    refine ⟨fun h => ?_, fun h => ?_⟩
    · have hn1 : ¬(k < i ∧ i < n) := by omega
      rw [if_neg hn1, if_neg hn1]
      by_cases e : i = k
      · subst e; rw [if_pos rfl, if_pos rfl]
      · rw [if_neg e, if_neg e, (hab i hi).1 (by omega)]
    · rw [if_pos ⟨by omega, hi⟩, if_pos ⟨by omega, hi⟩, (hab i hi).2 (by omega), hr k i (by omega) hi]
      linear_combination (-r i k * (a k / sd k)) * hρ k

/-- Two results of `lmpar`. -/
structure LRel (σ : ℕ → ℝ) (n : ℕ) (o o' : Lm) : Prop where
  r : UpSg σ n o.r o'.r
  par : o'.par = o.par
  x : SameV n o.x o'.x

/-- The upper triangle survives the elimination. -/
theorem rhs_same (σ : ℕ → ℝ) (n : ℕ) (r r1 : Mat) (q q' : Vec) (h : SameUp n r r1) (hq : RhsSg σ n r q q') : RhsSg σ n r1 q q' := by
  intro i hi
  rcases hq i hi with h1 | h1
  · exact Or.inl h1
  · right
    intro c hc hcn
    rw [h i c hc hcn]
    exact h1 c hc hcn

theorem lmLoop_order (σ : ℕ → ℝ) (hσ : Sgn σ) (dwarf : ℝ) (hdw : 0 < dwarf) (n : ℕ) (ipvt : ℕ → ℕ)
    (hlt : ∀ k < n, ipvt k < n) (hinj : ∀ k < n, ∀ k' < n, ipvt k = ipvt k' → k = k')
    (d d' q q' : Vec) (delta : ℝ) (hd0 : ∀ k < n, 0 < d k) (hd : SameV n d d') (left : ℕ)
    (s s' : LmSt) (hr : UpSg σ n s.r s'.r) (hq : RhsSg σ n s.r q q') (h1 : s'.fp = s.fp) (h2 : s'.par = s.par) (h3 : s'.parl = s.parl)
    (h4 : s'.paru = s.paru) (hp : 0 ≤ s.par) (hpl : 0 ≤ s.parl) :
    LRel σ n (lmLoop dwarf n ipvt d q delta left s) (lmLoop dwarf n ipvt d' q' delta left s') := by
  induction left generalizing s s' with
  | zero =>
    unfold lmLoop
    dsimp only
    rw [h1, h2, h3, h4]
    set par := if s.par = 0 then max dwarf (s.paru * 0.001) else s.par with hpar
    have hpos : 0 < par := by
      rw [hpar]
      split_ifs with h
      · exact lt_max_of_lt_left hdw
      · exact lt_of_le_of_ne hp (Ne.symm h)
    obtain ⟨q1, q2, -⟩ := qrsolv_order σ hσ n s.r s'.r ipvt (fun i => Real.sqrt par * d i) (fun i => Real.sqrt par * d' i)
      q q' s.sd s'.sd hlt hinj hr (fun k hk => (mul_pos (Real.sqrt_pos.mpr hpos) (hd0 _ (hlt k hk))).ne')
      (fun j hj => by dsimp only; rw [hd j hj]) hq
    rw [ite_self, ite_self]
    exact ⟨q1, rfl, q2⟩
  | succ left ih =>
    unfold lmLoop
    dsimp only
    rw [h1, h2, h3, h4]
    set par := if s.par = 0 then max dwarf (s.paru * 0.001) else s.par with hpar
    have hpos : 0 < par := by
      rw [hpar]
      split_ifs with h
      · exact lt_max_of_lt_left hdw
      · exact lt_of_le_of_ne hp (Ne.symm h)
    have hdne : ∀ k < n, Real.sqrt par * d (ipvt k) ≠ 0 := fun k hk => (mul_pos (Real.sqrt_pos.mpr hpos) (hd0 _ (hlt k hk))).ne'
    obtain ⟨q1, q2, ρ, q3, q4, q5⟩ := qrsolv_order σ hσ n s.r s'.r ipvt (fun i => Real.sqrt par * d i) (fun i => Real.sqrt par * d' i)
      q q' s.sd s'.sd hlt hinj hr hdne (fun j hj => by dsimp only; rw [hd j hj]) hq
    have hsame := qrsolv_same n s.r ipvt (fun i => Real.sqrt par * d i) q s.sd hdne
    set o := qrsolv n s.r ipvt (fun i => Real.sqrt par * d i) q s.sd
    set o' := qrsolv n s'.r ipvt (fun i => Real.sqrt par * d' i) q' s'.sd
    have hw2 : SameV n (fun i => d i * o.2.1 i) fun i => d' i * o'.2.1 i := fun j hj => by
      dsimp only
      rw [hd j hj, q2 j hj]
    rw [nrm_same n _ _ hw2]
    set dx := nrm 0 n fun i => d i * o.2.1 i
    by_cases hc : |dx - delta| ≤ 0.1 * delta ∨ (s.parl = 0 ∧ dx - delta ≤ s.fp ∧ s.fp < 0)
    · rw [if_pos hc, if_pos hc]
      exact ⟨q1, rfl, q2⟩
    · rw [if_neg hc, if_neg hc]
      have hl : 0 ≤ if dx - delta > 0 then max s.parl par else s.parl := by
        split_ifs
        · exact le_max_of_le_left hpl
        · exact hpl
      have htmp : nrm 0 n (fwdSubS n o'.1 o'.2.2 fun j => d' (ipvt j) * (d' (ipvt j) * o'.2.1 (ipvt j)) / dx)
          = nrm 0 n (fwdSubS n o.1 o.2.2 fun j => d (ipvt j) * (d (ipvt j) * o.2.1 (ipvt j)) / dx) := by
        refine nrm_sg ρ q3 n _ _ (fwdSubS_order ρ q3 n _ _ _ _ _ _ q4 q5 fun j hj => ?_)
        have := hw2 _ (hlt j hj)
        dsimp only at this
        rw [this, hd _ (hlt j hj)]
      rw [htmp]
      exact ih _ _ q1 (rhs_same σ n _ _ q q' hsame hq) rfl rfl rfl rfl (le_max_of_le_left hl) hl

theorem sum_order (σ : ℕ → ℝ) (hσ : Sgn σ) (n : ℕ) (r r' : Mat) (q q' : Vec) (hr : UpSg σ n r r') (hq : RhsSg σ n r q q') (j : ℕ) (hj : j < n) :
    ∑ i ∈ range (j + 1), r' i j * q' i = ∑ i ∈ range (j + 1), r i j * q i := by
  refine Finset.sum_congr rfl fun i hi => ?_
  rw [Finset.mem_range] at hi
  rw [hr i j (by omega) hj]
  rcases hq i (by omega) with h | h
  · rw [h]
    linear_combination (r i j * q i) * hσ i
  · rw [h j (by omega) hj]
    ring

theorem lmpar_order (σ : ℕ → ℝ) (hσ : Sgn σ) (eps dwarf : ℝ) (hdw : 0 < dwarf) (n : ℕ) (r r' : Mat) (ipvt : ℕ → ℕ)
    (hlt : ∀ k < n, ipvt k < n) (hinj : ∀ k < n, ∀ k' < n, ipvt k = ipvt k' → k = k')
    (d d' q q' : Vec) (delta : ℝ) (hdel : 0 < delta) (x x' sd sd' : Vec) (par : ℝ) (hpar : 0 ≤ par)
    (hd0 : ∀ k < n, 0 < d k) (hd : SameV n d d') (hr : UpSg σ n r r') (hq : RhsSg σ n r q q') :
    LRel σ n (lmpar eps dwarf n r ipvt d q delta x sd par) (lmpar eps dwarf n r' ipvt d' q' delta x' sd' par) := by
  obtain ⟨g1, g2⟩ := gnDir_order σ hσ eps n r r' q q' hr hq
  unfold lmpar
  dsimp only
  rw [g1]
  set g := gnDir eps n r q
  set g' := gnDir eps n r' q'
  have hx := Err.scatter_same n ipvt hlt hinj g.2 g'.2 x x' g2
  set x1 := scatter n ipvt g.2 x
  set x1' := scatter n ipvt g'.2 x'
  have hw2 : SameV n (fun i => d i * x1 i) fun i => d' i * x1' i := fun j hj => by
    dsimp only
    rw [hd j hj, hx j hj]
  rw [nrm_same n _ _ hw2]
  set dx := nrm 0 n fun i => d i * x1 i with hdx'
  by_cases hc : dx - delta ≤ 0.1 * delta
  · rw [if_pos hc, if_pos hc]
    exact ⟨hr, rfl, hx⟩
  rw [if_neg hc, if_neg hc]
  have hfp0 : 0 < dx - delta := by
    push Not at hc
    linarith [mul_pos (by norm_num : (0 : ℝ) < 0.1) hdel]
  have hdx : 0 < dx := by linarith
  have htmp : nrm 0 n (fwdSub n r' fun j => d' (ipvt j) * (d' (ipvt j) * x1' (ipvt j)) / dx)
      = nrm 0 n (fwdSub n r fun j => d (ipvt j) * (d (ipvt j) * x1 (ipvt j)) / dx) := by
    refine nrm_sg σ hσ n _ _ (fwdSub_order σ hσ n _ _ _ _ hr fun j hj => ?_)
    have := hw2 _ (hlt j hj)
    dsimp only at this
    rw [this, hd _ (hlt j hj)]
  have hgn : nrm 0 n (fun j => (∑ i ∈ range (j + 1), r' i j * q' i) / d' (ipvt j))
      = nrm 0 n fun j => (∑ i ∈ range (j + 1), r i j * q i) / d (ipvt j) := by
    refine nrm_same n _ _ fun j hj => ?_
    rw [sum_order σ hσ n r r' q q' hr hq j hj, hd _ (hlt j hj)]
  rw [htmp, hgn]
  set temp := nrm 0 n (fwdSub n r fun j => d (ipvt j) * (d (ipvt j) * x1 (ipvt j)) / dx)
  set gn := nrm 0 n fun j => (∑ i ∈ range (j + 1), r i j * q i) / d (ipvt j)
  have hgn0 : 0 ≤ gn := nrm_nonneg _ _ _
  have hparl : 0 ≤ if n ≤ g.1 then (dx - delta) / delta / temp / temp else 0 := by
    split_ifs
    · rw [div_div]
      exact div_nonneg (div_nonneg hfp0.le hdel.le) (mul_self_nonneg _)
    · exact le_rfl
  have hparu : 0 ≤ if gn / delta = 0 then dwarf / min delta 0.1 else gn / delta := by
    split_ifs
    · exact div_nonneg hdw.le (le_min hdel.le (by norm_num))
    · exact div_nonneg hgn0 hdel.le
  refine lmLoop_order σ hσ dwarf hdw n ipvt hlt hinj d d' q q' delta hd0 hd 9 _ _ hr hq rfl rfl rfl rfl ?_ hparl
  dsimp only
  set pl := if n ≤ g.1 then (dx - delta) / delta / temp / temp else 0
  set pu := if gn / delta = 0 then dwarf / min delta 0.1 else gn / delta
  by_cases h2 : min (max par pl) pu = 0
  · rw [if_pos h2]
    exact div_nonneg hgn0 hdx.le
  · rw [if_neg h2]
    exact le_min (le_max_of_le_left hpar) hparu

end Verif.Mpfit.Order
