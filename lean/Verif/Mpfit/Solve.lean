import Verif.Mpfit.Qr

/-!
# The least-squares fitter: one step

Source: `/repo/RMutils/mpfit.py` 1994-2077 (`qrsolv`) and 2164-2279 (`lmpar`).

Matrices are `n` by `n`. Slices are closed forms of the loops NumPy runs; `x[ipvt] = w` is the loop
over the entries of `w`.
-/

namespace Verif.Mpfit

open Verif.NumPy Finset

/-- `x[idx] = w` for an index array of length `n`. -/
noncomputable def scatter (n : ℕ) (idx : ℕ → ℕ) (w x : Vec) : Vec :=
  forRange 0 n (fun j x => Function.update x (idx j) (w j)) x

open Classical in
/-- `n`, or the first of `numpy.nonzero(p)[0]` if there is one. -/
noncomputable def firstIdx (n : ℕ) (p : ℕ → Prop) : ℕ := if h : ∃ j, j < n ∧ p j then Nat.find h else n

/-- State of the elimination in `qrsolv`: `r`, `wa`, `sdiag`, `qtbpj`. -/
structure Giv where
  r : Mat
  wa : Vec
  sd : Vec
  q : ℝ

/-- Lines 2026-2033: the rotation, (cosine, sine). -/
noncomputable def givens (a b : ℝ) : ℝ × ℝ :=
  if |a| < |b| then
    let cotan := a / b
    let sine := 0.5 / Real.sqrt (0.25 + 0.25 * cotan * cotan)
    (sine * cotan, sine)
  else
    let tang := b / a
    let cosine := 0.5 / Real.sqrt (0.25 + 0.25 * tang * tang)
    (cosine, cosine * tang)

/-- Lines 2024-2048: one iteration of the loop over `k`; the loop is left at a zero entry. -/
noncomputable def rotStep (k : ℕ) (s : Giv) : Ctl Giv :=
  if s.sd k = 0 then .brk s
  else
    let g := givens (s.r k k) (s.sd k)
    .next
      { r := fun i c =>
          if c = k ∧ k ≤ i then g.1 * s.r i k + g.2 * s.sd i else s.r i c
        wa := Function.update s.wa k (g.1 * s.wa k + g.2 * s.q)
        sd := fun i => if k < i then -g.2 * s.r i k + g.1 * s.sd i else s.sd i
        q := -g.2 * s.wa k + g.1 * s.q }

/-- Lines 2011-2050: one iteration of the loop over `j`. `x` is the diagonal of the input. -/
noncomputable def elimStep (n : ℕ) (ipvt : ℕ → ℕ) (diag x : Vec) (j : ℕ) (s : Giv) : Ctl Giv :=
  if diag (ipvt j) = 0 then .brk s
  else
    let s1 : Giv :=
      { s with sd := fun k => if k = j then diag (ipvt j) else if j < k then 0 else s.sd k, q := 0 }
    let s2 := forBreak j n rotStep s1
    .next { s2 with sd := Function.update s2.sd j (s2.r j j)
                    r := fun i c => if i = j ∧ c = j then x j else s2.r i c }

/-- Lines 2005-2006, in one assignment: copy the upper triangle to the lower. -/
def symm (r : Mat) : Mat := fun i c => if c ≤ i then r c i else r i c

/-- Lines 2063-2068 with the first iteration (line 2064) written like the others. -/
noncomputable def backSub (nsing : ℕ) (r : Mat) (sd wa : Vec) : Vec :=
  forDown (fun j w => Function.update w j ((w j - ∑ i ∈ Ico (j + 1) nsing, r i j * w i) / sd j)) nsing wa

/-- `qrsolv(r, ipvt, diag, qtb, sdiag)`, lines 1994-2072: returns `r`, `x`, `sdiag`. -/
noncomputable def qrsolv (n : ℕ) (r : Mat) (ipvt : ℕ → ℕ) (diag qtb sdiag : Vec) : Mat × Vec × Vec :=
  let r0 := symm r
  let x : Vec := fun j => r0 j j
  let s := forBreak 0 n (elimStep n ipvt diag x) { r := r0, wa := qtb, sd := sdiag, q := 0 }
  let nsing := firstIdx n fun j => s.sd j = 0
  let wa : Vec := fun j => if nsing ≤ j then 0 else s.wa j
  let z := backSub nsing s.r s.sd wa
  (s.r, scatter n ipvt z x, s.sd)

/-- Lines 2176-2188: the Gauss-Newton direction in permuted order, and `nsing`. -/
noncomputable def gnDir (eps : ℝ) (n : ℕ) (r : Mat) (qtb : Vec) : ℕ × Vec :=
  let rthresh := forRange 1 n (fun j b => max b |r j j|) |r 0 0| * eps
  let nsing := firstIdx n fun j => |r j j| < rthresh
  let wa : Vec := fun j => if nsing ≤ j then 0 else qtb j
  (nsing, forDown (fun j w =>
    let wj := w j / r j j
    fun i => if i < j then w i - r i j * wj else if i = j then wj else w i) nsing wa)

/-- Lines 2207-2212: forward substitution with `R^T`. -/
noncomputable def fwdSub (n : ℕ) (r : Mat) (w : Vec) : Vec :=
  forRange 0 n (fun j w => Function.update w j ((w j - ∑ i ∈ range j, r i j * w i) / r j j)) w

/-- Lines 2253-2257: forward substitution with `S^T`. -/
noncomputable def fwdSubS (n : ℕ) (r : Mat) (sd w : Vec) : Vec :=
  let w1 := forRange 0 (n - 1) (fun j w =>
    let wj := w j / sd j
    fun i => if j < i ∧ i < n then w i - r i j * wj else if i = j then wj else w i) w
  Function.update w1 (n - 1) (w1 (n - 1) / sd (n - 1))

/-- The result of `lmpar`: `r`, `par`, `x`, `sdiag`. -/
structure Lm where
  r : Mat
  par : ℝ
  x : Vec
  sd : Vec

/-- State of the loop of `lmpar`. -/
structure LmSt where
  r : Mat
  sd : Vec
  fp : ℝ
  par : ℝ
  parl : ℝ
  paru : ℝ

/-- Lines 2237-2277: the loop, with `left = 10 - iter` iterations to go after this one. -/
noncomputable def lmLoop (dwarf : ℝ) (n : ℕ) (ipvt : ℕ → ℕ) (diag qtb : Vec) (delta : ℝ) :
    ℕ → LmSt → Lm
  | left, s =>
    let par := if s.par = 0 then max dwarf (s.paru * 0.001) else s.par
    let o := qrsolv n s.r ipvt (fun i => Real.sqrt par * diag i) qtb s.sd
    let wa2 : Vec := fun i => diag i * o.2.1 i
    let dxnorm := nrm 0 n wa2
    let fp := dxnorm - delta
    if |fp| ≤ 0.1 * delta ∨ (s.parl = 0 ∧ fp ≤ s.fp ∧ s.fp < 0) then ⟨o.1, par, o.2.1, o.2.2⟩
    else
      match left with
      | 0 => ⟨o.1, par, o.2.1, o.2.2⟩
      | left + 1 =>
        let w := fwdSubS n o.1 o.2.2 fun j => diag (ipvt j) * wa2 (ipvt j) / dxnorm
        let temp := nrm 0 n w
        let parc := fp / delta / temp / temp
        let parl := if fp > 0 then max s.parl par else s.parl
        let paru := if fp < 0 then min s.paru par else s.paru
        lmLoop dwarf n ipvt diag qtb delta left
          { r := o.1, sd := o.2.2, fp := fp, par := max parl (par + parc), parl := parl, paru := paru }

/-- `lmpar(r, ipvt, diag, qtb, delta, x, sdiag, par)`, lines 2164-2279. -/
noncomputable def lmpar (eps dwarf : ℝ) (n : ℕ) (r : Mat) (ipvt : ℕ → ℕ) (diag qtb : Vec) (delta : ℝ)
    (x sdiag : Vec) (par : ℝ) : Lm :=
  let g := gnDir eps n r qtb
  let x1 := scatter n ipvt g.2 x
  let wa2 : Vec := fun i => diag i * x1 i
  let dxnorm := nrm 0 n wa2
  let fp := dxnorm - delta
  if fp ≤ 0.1 * delta then ⟨r, 0, x1, sdiag⟩
  else
    let parl :=
      if n ≤ g.1 then
        let temp := nrm 0 n (fwdSub n r fun j => diag (ipvt j) * wa2 (ipvt j) / dxnorm)
        fp / delta / temp / temp
      else 0
    let gnorm := nrm 0 n fun j => (∑ i ∈ range (j + 1), r i j * qtb i) / diag (ipvt j)
    let paru := if gnorm / delta = 0 then dwarf / min delta 0.1 else gnorm / delta
    let par1 := min (max par parl) paru
    let par2 := if par1 = 0 then gnorm / dxnorm else par1
    lmLoop dwarf n ipvt diag qtb delta 9
      { r := r, sd := sdiag, fp := fp, par := par2, parl := parl, paru := paru }

/-! ## Index assignments -/

theorem scatter_spec (n : ℕ) (idx : ℕ → ℕ) (w x : Vec)
    (hinj : ∀ k < n, ∀ k' < n, idx k = idx k' → k = k') :
    (∀ j < n, scatter n idx w x (idx j) = w j) ∧
      ∀ a, (∀ j < n, idx j ≠ a) → scatter n idx w x a = x a := by
  have := forRange_ind (fun J (y : Vec) => (∀ j < J, y (idx j) = w j) ∧
    ∀ a, (∀ j < J, idx j ≠ a) → y a = x a) 0 n (Nat.zero_le n)
    (fun j x => Function.update x (idx j) (w j)) x ⟨fun j hj => by omega, fun _ _ => rfl⟩ ?_
  · exact this
  · rintro J y - hJ ⟨h1, h2⟩
    refine ⟨fun j hj => ?_, fun a ha => ?_⟩
    · rcases Nat.lt_succ_iff_lt_or_eq.mp hj with h | h
      · rw [Function.update_of_ne, h1 j h]
        intro he
        have := hinj j (by omega) J hJ he
        omega
      · subst h; rw [Function.update_self]
    · rw [Function.update_of_ne (ha J (by omega)).symm, h2 a fun j hj => ha j (by omega)]

theorem firstIdx_eq (n : ℕ) (p : ℕ → Prop) (h : ∀ j < n, ¬p j) : firstIdx n p = n := by
  unfold firstIdx
  rw [dif_neg]
  rintro ⟨j, hj, hp⟩
  exact h j hj hp

theorem firstIdx_le (n : ℕ) (p : ℕ → Prop) : firstIdx n p ≤ n := by
  classical
  unfold firstIdx
  split_ifs with h
  · exact (Nat.find_spec h).1.le
  · exact le_rfl

/-! ## Back substitution -/

/-- Back substitution of `lmpar`: the result solves the leading triangular system. -/
theorem gn_solve (L : ℕ) (r : Mat) (w : Vec) (hr : ∀ j < L, r j j ≠ 0) :
    let z := forDown (fun j w =>
      let wj := w j / r j j
      fun i => if i < j then w i - r i j * wj else if i = j then wj else w i) L w
    (∀ i < L, ∑ j ∈ Ico i L, r i j * z j = w i) ∧ ∀ i, L ≤ i → z i = w i := by
  have := forDown_ind (fun J (z : Vec) => (∀ i < L, J ≤ i → ∑ j ∈ Ico i L, r i j * z j = w i) ∧
    (∀ i < J, z i + ∑ j ∈ Ico J L, r i j * z j = w i) ∧ ∀ i, L ≤ i → z i = w i)
    (fun j w =>
      let wj := w j / r j j
      fun i => if i < j then w i - r i j * wj else if i = j then wj else w i) L w
    ⟨fun i h1 h2 => by omega, fun i hi => by simp, fun _ _ => rfl⟩ ?_
  · exact ⟨fun i hi => this.1 i hi (Nat.zero_le i), this.2.2⟩
  · rintro J z hJ ⟨h1, h2, h3⟩
    dsimp only
    have hsame : ∀ i, ∀ a, J + 1 ≤ a → ∑ j ∈ Ico a L, r i j *
        (if j < J then z j - r j J * (z J / r J J) else if j = J then z J / r J J else z j)
        = ∑ j ∈ Ico a L, r i j * z j := by
      intro i a ha
      refine Finset.sum_congr rfl fun j hj => ?_
      rw [Finset.mem_Ico] at hj
      rw [if_neg (by omega), if_neg (by omega)]
    refine ⟨fun i hi hi' => ?_, fun i hi => ?_, fun i hi => ?_⟩
    · rcases Nat.lt_or_ge J i with h | h
      · rw [hsame i i h]; exact h1 i hi h
      · obtain rfl : i = J := by omega
        rw [Finset.sum_eq_sum_Ico_succ_bot hi, hsame _ _ le_rfl, if_neg (lt_irrefl _), if_pos rfl,
          mul_div_cancel₀ _ (hr i hi)]
        exact h2 i (by omega)
    · rw [Finset.sum_eq_sum_Ico_succ_bot hJ, hsame _ _ le_rfl, if_pos hi, if_neg (lt_irrefl _), if_pos rfl]
      have := h2 i (by omega)
      linarith
    · rw [if_neg (by omega), if_neg (by omega), h3 i hi]

/-- Back substitution of `qrsolv`. -/
theorem backSub_solve (n : ℕ) (r : Mat) (sd w : Vec) (hr : ∀ j < n, sd j ≠ 0) :
    ∀ i < n, sd i * backSub n r sd w i + ∑ j ∈ Ico (i + 1) n, r j i * backSub n r sd w j = w i := by
  have := forDown_ind (fun J (z : Vec) =>
    (∀ i < n, J ≤ i → sd i * z i + ∑ j ∈ Ico (i + 1) n, r j i * z j = w i) ∧ ∀ i < J, z i = w i)
    (fun j w => Function.update w j ((w j - ∑ i ∈ Ico (j + 1) n, r i j * w i) / sd j)) n w
    ⟨fun i h1 h2 => by omega, fun _ _ => rfl⟩ ?_
  · exact fun i hi => this.1 i hi (Nat.zero_le i)
  · rintro J z hJ ⟨h1, h2⟩
    have hsame : ∀ i, ∀ a, J + 1 ≤ a → ∀ v, ∑ j ∈ Ico a n, r j i * Function.update z J v j
        = ∑ j ∈ Ico a n, r j i * z j := by
      intro i a ha v
      refine Finset.sum_congr rfl fun j hj => ?_
      rw [Finset.mem_Ico] at hj
      rw [Function.update_of_ne (by omega)]
    refine ⟨fun i hi hi' => ?_, fun i hi => ?_⟩
    · rw [hsame i (i + 1) (by omega)]
      rcases Nat.lt_or_ge J i with h | h
      · rw [Function.update_of_ne (by omega)]; exact h1 i hi h
      · obtain rfl : i = J := by omega
        rw [Function.update_self, mul_div_cancel₀ _ (hr i hi), h2 i (by omega)]
        ring
    · rw [Function.update_of_ne (by omega), h2 i (by omega)]

/-! ## Givens rotations -/

theorem givens_spec (a b : ℝ) (hb : b ≠ 0) :
    (givens a b).1 ^ 2 + (givens a b).2 ^ 2 = 1 ∧ -(givens a b).2 * a + (givens a b).1 * b = 0 := by
  have key : ∀ t : ℝ, (0.5 / Real.sqrt (0.25 + 0.25 * t * t)) ^ 2 * (1 + t ^ 2) = 1 := by
    intro t
    have hp : 0 < 0.25 + 0.25 * t * t := by nlinarith [sq_nonneg t]
    rw [div_pow, Real.sq_sqrt hp.le]
    field_simp
    ring
  unfold givens
  split_ifs with h
  · refine ⟨?_, ?_⟩
    · have := key (a / b)
      dsimp only
      linarith [this, mul_pow (0.5 / Real.sqrt (0.25 + 0.25 * (a / b) * (a / b))) (a / b) 2]
    · dsimp only
      field_simp
      ring
  · have ha : a ≠ 0 := by
      rintro rfl
      rw [abs_zero, not_lt] at h
      exact hb (abs_eq_zero.mp (le_antisymm h (abs_nonneg _)))
    refine ⟨?_, ?_⟩
    · have := key (b / a)
      dsimp only
      linarith [this, mul_pow (0.5 / Real.sqrt (0.25 + 0.25 * (b / a) * (b / a))) (b / a) 2]
    · dsimp only
      field_simp
      ring

/-- The triangular factor kept in the lower triangle during pass `j`: finished rows have their diagonal
entry in `sdiag`. -/
noncomputable def Sof (j : ℕ) (r : Mat) (sd : Vec) : Mat := fun t c =>
  if c < t then 0 else if c = t then (if t < j then sd t else r t t) else r c t

/-- Replacing one row of a sum. -/
theorem sum_row (n k : ℕ) (hk : k < n) (f g : ℕ → ℝ) (h : ∀ t < n, t ≠ k → f t = g t) :
    ∑ t ∈ range n, f t = ∑ t ∈ range n, g t + (f k - g k) := by
  have hm : k ∈ range n := Finset.mem_range.mpr hk
  rw [← Finset.add_sum_erase _ _ hm, ← Finset.add_sum_erase _ _ hm]
  have : ∑ t ∈ (range n).erase k, f t = ∑ t ∈ (range n).erase k, g t := by
    refine Finset.sum_congr rfl fun t ht => ?_
    rw [Finset.mem_erase, Finset.mem_range] at ht
    exact h t ht.2 ht.1
  rw [this]
  ring

/-- Invariant of the inner loop of the elimination, pass `j`, before rotation `k`. -/
structure RotInv (n j k : ℕ) (G : Mat) (H : Vec) (r0 : Mat) (sd0 : Vec) (s : Giv) : Prop where
  gram : ∀ c < n, ∀ c' < n, ∑ t ∈ range n, Sof j s.r s.sd t c * Sof j s.r s.sd t c'
    + (if c < k then 0 else s.sd c) * (if c' < k then 0 else s.sd c') = G c c'
  rhs : ∀ c < n, ∑ t ∈ range n, Sof j s.r s.sd t c * s.wa t + (if c < k then 0 else s.sd c) * s.q = H c
  up : ∀ i c, i < c → s.r i c = r0 i c
  dia : ∀ t < j, s.r t t = r0 t t
  sd : ∀ t < j, s.sd t = sd0 t
  start : k = j → s.sd j ≠ 0
  piv : j < k → s.r j j ≠ 0

theorem rot_inv (n j k : ℕ) (hj : j ≤ k) (hk : k < n) (G : Mat) (H : Vec) (r0 : Mat) (sd0 : Vec)
    (s s' : Giv) (h : RotInv n j k G H r0 sd0 s) (hs : rotStep k s = .next s') :
    RotInv n j (k + 1) G H r0 sd0 s' := by
  unfold rotStep at hs
  by_cases h0 : s.sd k = 0
  · rw [if_pos h0] at hs; exact absurd hs (by simp)
  rw [if_neg h0] at hs
  injection hs with hs
  obtain ⟨g1, g2⟩ := givens_spec (s.r k k) (s.sd k) h0
  set C := (givens (s.r k k) (s.sd k)).1
  set D := (givens (s.r k k) (s.sd k)).2
  set S := Sof j s.r s.sd with hS
  set e : Vec := fun c => if c < k then 0 else s.sd c with he
  have hr : ∀ i c, s'.r i c = if c = k ∧ k ≤ i then C * s.r i k + D * s.sd i else s.r i c :=
    fun i c => by rw [← hs]
  have hw : s'.wa = Function.update s.wa k (C * s.wa k + D * s.q) := by rw [← hs]
  have hsd : ∀ i, s'.sd i = if k < i then -D * s.r i k + C * s.sd i else s.sd i := fun i => by rw [← hs]
  have hq : s'.q = -D * s.wa k + C * s.q := by rw [← hs]
  have rowk : ∀ c, Sof j s'.r s'.sd k c = C * S k c + D * e c := by
    intro c
    rw [hS, he]
    unfold Sof
    dsimp only
    rcases lt_trichotomy c k with hc | hc | hc
    · simp [hc]
    · subst hc
      rw [if_neg (lt_irrefl _), if_pos rfl, if_neg (by omega), if_neg (lt_irrefl _), if_pos rfl,
        if_neg (by omega), if_neg (lt_irrefl _), hr, if_pos ⟨rfl, le_rfl⟩]
    · rw [if_neg (by omega), if_neg (by omega), if_neg (by omega), if_neg (by omega), if_neg (by omega), hr,
        if_pos ⟨rfl, hc.le⟩]
  have rowo : ∀ t, t ≠ k → ∀ c, Sof j s'.r s'.sd t c = S t c := by
    intro t ht c
    rw [hS]
    unfold Sof
    rcases lt_trichotomy c t with hc | hc | hc
    · rw [if_pos hc, if_pos hc]
    · subst hc
      rw [if_neg (lt_irrefl _), if_pos rfl, if_neg (lt_irrefl _), if_pos rfl]
      by_cases hcj : c < j
      · rw [if_pos hcj, if_pos hcj, hsd, if_neg (by omega)]
      · rw [if_neg hcj, if_neg hcj, hr, if_neg (by tauto)]
    · rw [if_neg (by omega), if_neg (by omega), if_neg (by omega), if_neg (by omega), hr, if_neg (by tauto)]
  have he' : ∀ c, (if c < k + 1 then 0 else s'.sd c) = -D * S k c + C * e c := by
    intro c
    rw [hS, he]
    unfold Sof
    dsimp only
    rcases lt_trichotomy c k with hc | hc | hc
    · simp [hc, show c < k + 1 by omega]
    · subst hc
      rw [if_pos (by omega), if_neg (lt_irrefl _), if_pos rfl, if_neg (by omega), if_neg (lt_irrefl _)]
      exact g2.symm
    · rw [if_neg (by omega), if_neg (by omega), if_neg (by omega), if_neg (by omega), hsd, if_pos hc]
  refine ⟨?_, ?_, ?_, ?_, ?_, ?_, ?_⟩
  · intro c hc c' hc'
    rw [← h.gram c hc c' hc', he' c, he' c',
      sum_row n k hk _ (fun t => S t c * S t c') fun t _ ht => by rw [rowo t ht, rowo t ht], rowk, rowk]
    change _ + ((C * S k c + D * e c) * (C * S k c' + D * e c') - S k c * S k c') + _ = _ + e c * e c'
    linear_combination (S k c * S k c' + e c * e c') * g1
  · intro c hc
    rw [← h.rhs c hc, he' c, hq,
      sum_row n k hk _ (fun t => S t c * s.wa t) fun t _ ht => by
        rw [rowo t ht, hw, Function.update_of_ne ht], rowk, hw, Function.update_self]
    change _ + ((C * S k c + D * e c) * _ - S k c * s.wa k) + _ = _ + e c * s.q
    linear_combination (S k c * s.wa k + e c * s.q) * g1
  · intro i c hic
    rw [hr, if_neg (by omega), h.up i c hic]
  · intro t ht
    rw [hr, if_neg (by omega), h.dia t ht]
  · intro t ht
    rw [hsd, if_neg (by omega), h.sd t ht]
  · intro hkj; omega
  · intro _
    rw [hr]
    by_cases hkj : j = k
    · subst hkj
      rw [if_pos ⟨rfl, le_rfl⟩]
      intro hz
      -- the new entry has square a^2 + b^2
      have hsum : s.r j j ^ 2 + s.sd j ^ 2 = 0 := by
        have h1 : (C * s.r j j + D * s.sd j) ^ 2 + (-D * s.r j j + C * s.sd j) ^ 2
            = s.r j j ^ 2 + s.sd j ^ 2 := by linear_combination (s.r j j ^ 2 + s.sd j ^ 2) * g1
        rw [← h1, hz, g2]; ring
      exact h0 (by nlinarith [sq_nonneg (s.r j j), sq_nonneg (s.sd j)])
    · rw [if_neg (by omega)]
      exact h.piv (by omega)

/-- Invariant of the elimination before pass `j`. -/
structure ElimInv (n j : ℕ) (R : Mat) (ipvt : ℕ → ℕ) (d qtb : Vec) (s : Giv) : Prop where
  gram : ∀ c < n, ∀ c' < n, ∑ t ∈ range n, Sof j s.r s.sd t c * Sof j s.r s.sd t c'
    = ∑ t ∈ range n, upper R t c * upper R t c' + if c = c' ∧ c < j then d (ipvt c) ^ 2 else 0
  rhs : ∀ c < n, ∑ t ∈ range n, Sof j s.r s.sd t c * s.wa t = ∑ t ∈ range n, upper R t c * qtb t
  up : ∀ i c, i < c → s.r i c = R i c
  dia : ∀ t < j, s.r t t = R t t
  sd : ∀ t < j, s.sd t ≠ 0

theorem elim_inv (n j : ℕ) (hn : n ≤ 2) (hj : j < n) (R : Mat) (ipvt : ℕ → ℕ) (d qtb : Vec)
    (s s' : Giv) (h : ElimInv n j R ipvt d qtb s)
    (hs : elimStep n ipvt d (fun j => R j j) j s = .next s') : ElimInv n (j + 1) R ipvt d qtb s' := by
  unfold elimStep at hs
  by_cases h0 : d (ipvt j) = 0
  · rw [if_pos h0] at hs; exact absurd hs (by simp)
  rw [if_neg h0] at hs
  injection hs with hs
  set s1 : Giv :=
    { s with sd := fun k => if k = j then d (ipvt j) else if j < k then 0 else s.sd k, q := 0 } with hs1
  set s2 := forBreak j n rotStep s1 with hs2
  set G : Mat := fun c c' => ∑ t ∈ range n, upper R t c * upper R t c'
    + if c = c' ∧ c < j + 1 then d (ipvt c) ^ 2 else 0 with hG
  set H : Vec := fun c => ∑ t ∈ range n, upper R t c * qtb t with hH
  have hSof : ∀ t c, Sof j s1.r s1.sd t c = Sof j s.r s.sd t c := by
    intro t c
    unfold Sof
    rw [hs1]
    dsimp only
    by_cases ht : t < j
    · rw [if_neg (by omega : ¬t = j), if_neg (by omega : ¬j < t)]
    · rw [if_neg ht, if_neg ht]
  have hst : RotInv n j j G H R s.sd s1 := by
    refine ⟨?_, ?_, ?_, ?_, ?_, ?_, ?_⟩
    · intro c hc c' hc'
      simp only [hSof]
      rw [h.gram c hc c' hc', hG, hs1]
      dsimp only
      rw [add_assoc]
      congr 1
      have f : ∀ c, (if c < j then (0 : ℝ) else if c = j then d (ipvt j) else if j < c then 0 else s.sd c)
          = if c = j then d (ipvt j) else 0 := by
        intro c
        rcases lt_trichotomy c j with h | h | h
        · rw [if_pos h, if_neg (by omega)]
        · rw [if_neg (by omega), if_pos h, if_pos h]
        · rw [if_neg (by omega), if_neg (by omega), if_pos h, if_neg (by omega)]
      rw [f, f]
      by_cases hcc : c = c'
      · subst hcc
        rcases lt_trichotomy c j with h | h | h
        · rw [if_pos ⟨rfl, h⟩, if_neg (by omega), if_pos ⟨rfl, by omega⟩]; ring
        · subst h; rw [if_neg (by omega), if_pos rfl, if_pos ⟨rfl, by omega⟩]; ring
        · rw [if_neg (by omega), if_neg (by omega), if_neg (by omega)]; ring
      · rw [if_neg (by tauto), if_neg (by tauto : ¬(c = c' ∧ c < j + 1))]
        by_cases h1 : c = j
        · rw [if_neg (by omega : ¬c' = j)]; ring
        · rw [if_neg h1]; ring
    · intro c hc
      simp only [hSof]
      have := h.rhs c hc
      rw [hs1]
      dsimp only
      rw [mul_zero, add_zero, this]
    · exact h.up
    · exact h.dia
    · intro t ht
      rw [hs1]
      dsimp only
      rw [if_neg (by omega), if_neg (by omega)]
    · intro _
      rw [hs1]
      dsimp only
      rw [if_pos rfl]
      exact h0
    · intro hh; exact absurd hh (lt_irrefl _)
  -- after the loop the extra row is zero
  have hend : ∃ k, RotInv n j k G H R s.sd s2 ∧ j < k ∧ ∀ c < n, k ≤ c → s2.sd c = 0 := by
    refine forBreak_ind (fun k u => RotInv n j k G H R s.sd u)
      (fun s2 => ∃ k, RotInv n j k G H R s.sd s2 ∧ j < k ∧ ∀ c < n, k ≤ c → s2.sd c = 0)
      j n hj.le rotStep s1 hst ?_ ?_ ?_
    · intro k s s' hk1 hk2 hi hn'
      exact rot_inv n j k hk1 hk2 G H R _ s s' hi hn'
    · intro k s s' hk1 hk2 hi hb
      unfold rotStep at hb
      by_cases hz : s.sd k = 0
      · rw [if_pos hz] at hb
        injection hb with hb
        subst hb
        have hkj : k ≠ j := fun hkj => hi.start hkj (by rw [← hkj]; exact hz)
        refine ⟨k, hi, by omega, fun c hc hkc => ?_⟩
        rw [show c = k by omega]
        exact hz
      · rw [if_neg hz] at hb; exact absurd hb (by simp)
    · intro s hi
      exact ⟨n, hi, hj, fun c hc hc' => by omega⟩
  obtain ⟨k, hi, hjk, hz⟩ := hend
  have hez : ∀ c < n, (if c < k then (0 : ℝ) else s2.sd c) = 0 := by
    intro c hc
    split_ifs with hck
    · rfl
    · exact hz c hc (by omega)
  have hr : ∀ i c, s'.r i c = if i = j ∧ c = j then R j j else s2.r i c := fun i c => by rw [← hs]
  have hsd : s'.sd = Function.update s2.sd j (s2.r j j) := by rw [← hs]
  have hwa : s'.wa = s2.wa := by rw [← hs]
  have hSof' : ∀ t c, Sof (j + 1) s'.r s'.sd t c = Sof j s2.r s2.sd t c := by
    intro t c
    unfold Sof
    rcases lt_trichotomy c t with hc | hc | hc
    · rw [if_pos hc, if_pos hc]
    · subst hc
      rw [if_neg (lt_irrefl _), if_pos rfl, if_neg (lt_irrefl _), if_pos rfl, hsd]
      rcases lt_trichotomy c j with h1 | h1 | h1
      · rw [if_pos (by omega), if_pos h1, Function.update_of_ne (by omega)]
      · subst h1
        rw [if_pos (by omega), if_neg (by omega), Function.update_self]
      · rw [if_neg (by omega), if_neg (by omega), hr, if_neg (by omega)]
    · rw [if_neg (by omega), if_neg (by omega), if_neg (by omega), if_neg (by omega), hr, if_neg (by omega)]
  refine ⟨?_, ?_, ?_, ?_, ?_⟩
  · intro c hc c' hc'
    simp only [hSof']
    have := hi.gram c hc c' hc'
    rw [hez c hc, zero_mul, add_zero] at this
    exact this
  · intro c hc
    simp only [hSof', hwa]
    have := hi.rhs c hc
    rw [hez c hc, zero_mul, add_zero] at this
    exact this
  · intro i c hic
    rw [hr, if_neg (by omega), hi.up i c hic]
  · intro t ht
    rw [hr]
    rcases Nat.lt_succ_iff_lt_or_eq.mp ht with h1 | h1
    · rw [if_neg (by omega), hi.dia t h1]
    · rw [if_pos ⟨h1, h1⟩, h1]
  · intro t ht
    rw [hsd]
    rcases Nat.lt_succ_iff_lt_or_eq.mp ht with h1 | h1
    · rw [Function.update_of_ne (by omega), hi.sd t h1]
      exact h.sd t h1
    · subst h1
      rw [Function.update_self]
      exact hi.piv hjk

/-- Two matrices with the same upper triangle. -/
def SameUp (n : ℕ) (r r' : Mat) : Prop := ∀ i c, i ≤ c → c < n → r' i c = r i c

theorem SameUp.upper_eq {n : ℕ} {r r' : Mat} (h : SameUp n r r') (i c : ℕ) (hc : c < n) :
    upper r' i c = upper r i c := by
  unfold upper
  split_ifs with hi
  · exact h i c hi hc
  · rfl

theorem SameUp.trans {n : ℕ} {a b c : Mat} (h : SameUp n a b) (h' : SameUp n b c) : SameUp n a c :=
  fun i k hi hk => (h' i k hi hk).trans (h i k hi hk)

/-- A sum over a permuted index. -/
theorem sum_perm (n : ℕ) (ipvt : ℕ → ℕ) (hlt : ∀ k < n, ipvt k < n)
    (hinj : ∀ k < n, ∀ k' < n, ipvt k = ipvt k' → k = k') (g : ℕ → ℝ) :
    ∑ k ∈ range n, g (ipvt k) = ∑ a ∈ range n, g a := by
  have himg : (range n).image ipvt = range n := by
    apply Finset.eq_of_subset_of_card_le
    · intro a ha
      rw [Finset.mem_image] at ha
      obtain ⟨k, hk, rfl⟩ := ha
      rw [Finset.mem_range] at hk ⊢
      exact hlt k hk
    · rw [Finset.card_image_of_injOn]
      intro k hk k' hk' h
      rw [Finset.coe_range, Set.mem_Iio] at hk hk'
      exact hinj k hk k' hk' h
  conv_rhs => rw [← himg]
  rw [Finset.sum_image]
  intro k hk k' hk' h
  rw [Finset.coe_range, Set.mem_Iio] at hk hk'
  exact hinj k hk k' hk' h

/-- Every index is hit by the permutation. -/
theorem perm_surj (n : ℕ) (ipvt : ℕ → ℕ) (hlt : ∀ k < n, ipvt k < n)
    (hinj : ∀ k < n, ∀ k' < n, ipvt k = ipvt k' → k = k') : ∀ a < n, ∃ k < n, ipvt k = a := by
  intro a ha
  by_contra hno
  push Not at hno
  have h1 := sum_perm n ipvt hlt hinj (fun b => if b = a then 1 else 0)
  rw [Finset.sum_eq_zero (fun k hk => if_neg (hno k (Finset.mem_range.mp hk))),
    Finset.sum_ite_eq' (range n) a, if_pos (Finset.mem_range.mpr ha)] at h1
  exact zero_ne_one h1

/-- `qrsolv` for at most two columns: the upper triangle is returned as it came, the step solves the
damped normal equations, and `sdiag` is free of zeros. -/
theorem qrsolv_spec (n : ℕ) (hn : n ≤ 2) (R : Mat) (ipvt : ℕ → ℕ) (d qtb sd : Vec)
    (hinj : ∀ k < n, ∀ k' < n, ipvt k = ipvt k' → k = k') (hd : ∀ j < n, d (ipvt j) ≠ 0) :
    let o := qrsolv n R ipvt d qtb sd
    SameUp n R o.1 ∧ ∀ c < n, ∑ c' ∈ range n, (∑ t ∈ range n, upper R t c * upper R t c') * o.2.1 (ipvt c')
      + d (ipvt c) ^ 2 * o.2.1 (ipvt c) = ∑ t ∈ range n, upper R t c * qtb t := by
  have hx : (fun j => symm R j j) = fun j => R j j := by
    funext j; unfold symm; rw [if_pos le_rfl]
  -- the elimination runs to the end
  have hel : ElimInv n n R ipvt d qtb
      (forBreak 0 n (elimStep n ipvt d fun j => R j j) { r := symm R, wa := qtb, sd := sd, q := 0 }) := by
    refine forBreak_ind (fun j s => ElimInv n j R ipvt d qtb s) (fun s => ElimInv n n R ipvt d qtb s)
      0 n (Nat.zero_le n) _ _ ?_ ?_ ?_ ?_
    · have hS : ∀ t c, Sof 0 (symm R) sd t c = upper R t c := by
        intro t c
        unfold Sof symm upper
        rcases lt_trichotomy c t with h | h | h
        · rw [if_pos h, if_neg (by omega)]
        · subst h; simp
        · rw [if_neg (by omega), if_neg (by omega), if_pos h.le, if_pos h.le]
      refine ⟨fun c _ c' _ => ?_, fun c _ => ?_, fun i c hic => ?_, fun t ht => by omega, fun t ht => by omega⟩
      · simp only [hS]
        rw [if_neg (by omega), add_zero]
      · simp only [hS]
      · unfold symm
        dsimp only
        rw [if_neg (by omega)]
    · intro j s s' _ hj h hs
      exact elim_inv n j hn hj R ipvt d qtb s s' h hs
    · intro j s s' _ hj h hs
      unfold elimStep at hs
      rw [if_neg (hd j hj)] at hs
      exact absurd hs (by simp)
    · exact fun s h => h
  unfold qrsolv
  dsimp only
  rw [hx]
  set s := forBreak 0 n (elimStep n ipvt d fun j => R j j) { r := symm R, wa := qtb, sd := sd, q := 0 }
  have hf : firstIdx n (fun j => s.sd j = 0) = n := firstIdx_eq n _ fun j hj => hel.sd j hj
  rw [hf]
  refine ⟨?_, ?_⟩
  · intro i c hic hc
    rcases Nat.lt_or_ge i c with h | h
    · exact hel.up i c h
    · obtain rfl : i = c := by omega
      exact hel.dia i hc
  · have hz := backSub_solve n s.r s.sd (fun j => if n ≤ j then 0 else s.wa j) hel.sd
    set z := backSub n s.r s.sd fun j => if n ≤ j then 0 else s.wa j
    obtain ⟨hsc, -⟩ := scatter_spec n ipvt z (fun j => R j j) hinj
    -- rows of S applied to z give wa
    have hrow : ∀ t < n, ∑ c' ∈ range n, Sof n s.r s.sd t c' * z c' = s.wa t := by
      intro t ht
      have h1 := hz t ht
      rw [if_neg (by omega)] at h1
      rw [← h1, Finset.range_eq_Ico, ← Finset.sum_Ico_consecutive _ (Nat.zero_le t) ht.le,
        Finset.sum_eq_zero, Finset.sum_eq_sum_Ico_succ_bot ht, zero_add]
      · congr 1
        · unfold Sof
          rw [if_neg (lt_irrefl _), if_pos rfl, if_pos ht]
        · refine Finset.sum_congr rfl fun j hj => ?_
          rw [Finset.mem_Ico] at hj
          unfold Sof
          rw [if_neg (by omega), if_neg (by omega)]
      · intro j hj
        rw [Finset.mem_Ico] at hj
        unfold Sof
        rw [if_pos hj.2, zero_mul]
    intro c hc
    rw [← hel.rhs c hc]
    have e1 : ∑ t ∈ range n, Sof n s.r s.sd t c * s.wa t
        = ∑ c' ∈ range n, (∑ t ∈ range n, Sof n s.r s.sd t c * Sof n s.r s.sd t c') * z c' := by
      have : ∀ t ∈ range n, Sof n s.r s.sd t c * s.wa t
          = ∑ c' ∈ range n, Sof n s.r s.sd t c * Sof n s.r s.sd t c' * z c' := by
        intro t ht
        rw [← hrow t (Finset.mem_range.mp ht), Finset.mul_sum]
        exact Finset.sum_congr rfl fun _ _ => by ring
      rw [Finset.sum_congr rfl this, Finset.sum_comm]
      exact Finset.sum_congr rfl fun _ _ => by rw [Finset.sum_mul]
    rw [e1]
    have e2 : ∀ c' ∈ range n, (∑ t ∈ range n, Sof n s.r s.sd t c * Sof n s.r s.sd t c') * z c'
        = (∑ t ∈ range n, upper R t c * upper R t c') * z c' + if c' = c then d (ipvt c) ^ 2 * z c else 0 := by
      intro c' hc'
      rw [hel.gram c hc c' (Finset.mem_range.mp hc'), add_mul]
      congr 1
      by_cases h : c' = c
      · subst h
        rw [if_pos ⟨rfl, hc⟩, if_pos rfl]
      · rw [if_neg (fun hh => h hh.1.symm), if_neg h, zero_mul]
    rw [Finset.sum_congr rfl e2, Finset.sum_add_distrib, Finset.sum_ite_eq', if_pos (Finset.mem_range.mpr hc),
      hsc c hc]
    congr 1
    refine Finset.sum_congr rfl fun c' hc' => ?_
    rw [hsc c' (Finset.mem_range.mp hc')]

/-- The damped normal equations of a matrix `A`, right-hand side `f`, scales `d`. -/
def Damped (A : Mat) (f : Vec) (m n : ℕ) (d : Vec) (par : ℝ) (x : Vec) : Prop :=
  ∀ a < n, ∑ b ∈ range n, (∑ i ∈ range m, A i a * A i b) * x b + par * d a ^ 2 * x a
    = ∑ i ∈ range m, A i a * f i

/-- From the permuted triangular factor to the matrix itself. -/
theorem damped_of_factor {A : Mat} {f : Vec} {m n : ℕ} {ipvt : ℕ → ℕ} {R : Mat} {qtf : Vec}
    (F : Factor A f m n ipvt R qtf) (d : Vec) (par : ℝ) (x : Vec)
    (h : ∀ c < n, ∑ c' ∈ range n, (∑ t ∈ range n, upper R t c * upper R t c') * x (ipvt c')
      + par * d (ipvt c) ^ 2 * x (ipvt c) = ∑ t ∈ range n, upper R t c * qtf t) :
    Damped A f m n d par x := by
  intro a ha
  obtain ⟨k, hk, rfl⟩ := perm_surj n ipvt F.lt F.inj a ha
  rw [← F.rhs k hk, ← h k hk]
  congr 1
  rw [← sum_perm n ipvt F.lt F.inj]
  refine Finset.sum_congr rfl fun c' hc' => ?_
  rw [F.normal k hk c' (Finset.mem_range.mp hc')]

/-- The largest diagonal entry of the loop at line 2178. -/
theorem maxDiag_spec (n : ℕ) (hn : 1 ≤ n) (r : Mat) (M : ℝ) (hM : ∀ j < n, |r j j| ≤ M) :
    forRange 1 n (fun j b => max b |r j j|) |r 0 0| ≤ M :=
  forRange_ind (fun _ b => b ≤ M) 1 n hn _ _ (hM 0 (by omega))
    fun k b _ hk hb => max_le hb (hM k hk)

/-- The Gauss-Newton direction of a matrix of full numerical rank solves the triangular system. -/
theorem gnDir_spec (eps : ℝ) (n : ℕ) (R : Mat) (qtb : Vec)
    (hrank : ∀ j < n, forRange 1 n (fun j b => max b |R j j|) |R 0 0| * eps ≤ |R j j| ∧ R j j ≠ 0) :
    (gnDir eps n R qtb).1 = n ∧
    ∀ i < n, ∑ j ∈ Ico i n, R i j * (gnDir eps n R qtb).2 j = qtb i := by
  have hf : firstIdx n (fun j => |R j j| < forRange 1 n (fun j b => max b |R j j|) |R 0 0| * eps) = n :=
    firstIdx_eq n _ fun j hj => not_lt.mpr (hrank j hj).1
  unfold gnDir
  dsimp only
  rw [hf]
  refine ⟨rfl, fun i hi => ?_⟩
  rw [(gn_solve n R (fun j => if n ≤ j then 0 else qtb j) fun j hj => (hrank j hj).2).1 i hi,
    if_neg (by omega)]

theorem dampedR {n : ℕ} {R r : Mat} (hs : SameUp n R r) {ipvt : ℕ → ℕ} {d qtb : Vec} (par : ℝ)
    (hp : 0 ≤ par) (x : Vec)
    (h : ∀ c < n, ∑ c' ∈ range n, (∑ t ∈ range n, upper r t c * upper r t c') * x (ipvt c')
      + (Real.sqrt par * d (ipvt c)) ^ 2 * x (ipvt c) = ∑ t ∈ range n, upper r t c * qtb t) :
    ∀ c < n, ∑ c' ∈ range n, (∑ t ∈ range n, upper R t c * upper R t c') * x (ipvt c')
      + par * d (ipvt c) ^ 2 * x (ipvt c) = ∑ t ∈ range n, upper R t c * qtb t := by
  intro c hc
  have e : ∀ c < n, ∀ t, upper r t c = upper R t c := fun c hc t => hs.upper_eq t c hc
  have e1 := h c hc
  rw [mul_pow, Real.sq_sqrt hp] at e1
  have e2 : ∑ t ∈ range n, upper r t c * qtb t = ∑ t ∈ range n, upper R t c * qtb t :=
    Finset.sum_congr rfl fun t _ => by rw [e c hc t]
  rw [← e2, ← e1]
  congr 1
  refine Finset.sum_congr rfl fun c' hc' => ?_
  congr 1
  refine Finset.sum_congr rfl fun t _ => ?_
  rw [e c hc, e c' (Finset.mem_range.mp hc')]

/-- In the damped branch: the step solves the damped normal equations with the returned parameter. -/
theorem lmLoop_spec (dwarf : ℝ) (hdw : 0 < dwarf) (n : ℕ) (hn : n ≤ 2) (R : Mat) (ipvt : ℕ → ℕ)
    (d qtb : Vec) (delta : ℝ) (hinj : ∀ k < n, ∀ k' < n, ipvt k = ipvt k' → k = k')
    (hd : ∀ j < n, 0 < d (ipvt j)) (left : ℕ) (s : LmSt) (hs : SameUp n R s.r) (hp : 0 ≤ s.par)
    (hpl : 0 ≤ s.parl) :
    let o := lmLoop dwarf n ipvt d qtb delta left s
    0 < o.par ∧ SameUp n R o.r ∧
    ∀ c < n, ∑ c' ∈ range n, (∑ t ∈ range n, upper R t c * upper R t c') * o.x (ipvt c')
      + o.par * d (ipvt c) ^ 2 * o.x (ipvt c) = ∑ t ∈ range n, upper R t c * qtb t := by
  induction left generalizing s with
  | zero =>
    unfold lmLoop
    dsimp only
    set par := if s.par = 0 then max dwarf (s.paru * 0.001) else s.par with hpar
    have hpos : 0 < par := by
      rw [hpar]
      split_ifs with h
      · exact lt_max_of_lt_left hdw
      · exact lt_of_le_of_ne hp (Ne.symm h)
    obtain ⟨q1, q2⟩ := qrsolv_spec n hn s.r ipvt (fun i => Real.sqrt par * d i) qtb s.sd hinj
      fun j hj => (mul_pos (Real.sqrt_pos.mpr hpos) (hd j hj)).ne'
    rw [ite_self]
    refine ⟨hpos, hs.trans q1, fun c hc => ?_⟩
    exact dampedR hs par hpos.le _ q2 c hc
  | succ left ih =>
    unfold lmLoop
    dsimp only
    set par := if s.par = 0 then max dwarf (s.paru * 0.001) else s.par with hpar
    have hpos : 0 < par := by
      rw [hpar]
      split_ifs with h
      · exact lt_max_of_lt_left hdw
      · exact lt_of_le_of_ne hp (Ne.symm h)
    obtain ⟨q1, q2⟩ := qrsolv_spec n hn s.r ipvt (fun i => Real.sqrt par * d i) qtb s.sd hinj
      fun j hj => (mul_pos (Real.sqrt_pos.mpr hpos) (hd j hj)).ne'
    set o := qrsolv n s.r ipvt (fun i => Real.sqrt par * d i) qtb s.sd
    set fp := nrm 0 n (fun i => d i * o.2.1 i) - delta
    by_cases hc : |fp| ≤ 0.1 * delta ∨ (s.parl = 0 ∧ fp ≤ s.fp ∧ s.fp < 0)
    · rw [if_pos hc]
      refine ⟨hpos, hs.trans q1, fun c hc => ?_⟩
      exact dampedR hs par hpos.le _ q2 c hc
    · rw [if_neg hc]
      have hl : 0 ≤ if fp > 0 then max s.parl par else s.parl := by
        split_ifs
        · exact le_max_of_le_left hpl
        · exact hpl
      exact ih _ (hs.trans q1) (le_max_of_le_left hl) hl

/-- The step of the fitter. Full rank, at most two columns in the damped branch. -/
theorem lmpar_spec {A : Mat} {f : Vec} {m n : ℕ} {ipvt : ℕ → ℕ} {R : Mat} {qtf : Vec}
    (F : Factor A f m n ipvt R qtf) (eps dwarf : ℝ) (hdw : 0 < dwarf) (d : Vec) (delta : ℝ) (hdel : 0 < delta)
    (x sd : Vec) (par : ℝ) (hpar : 0 ≤ par) (hd : ∀ j < n, 0 < d j)
    (hrank : ∀ j < n, forRange 1 n (fun j b => max b |R j j|) |R 0 0| * eps ≤ |R j j| ∧ R j j ≠ 0) :
    let o := lmpar eps dwarf n R ipvt d qtf delta x sd par
    (o.par = 0 ∧ o.r = R ∧ Damped A f m n d 0 o.x ∧ nrm 0 n (fun i => d i * o.x i) ≤ 1.1 * delta) ∨
      (n ≤ 2 → 0 < o.par ∧ SameUp n R o.r ∧ Damped A f m n d o.par o.x) := by
  obtain ⟨g1, g2⟩ := gnDir_spec eps n R qtf hrank
  unfold lmpar
  dsimp only
  set g := gnDir eps n R qtf
  set x1 := scatter n ipvt g.2 x with hx1
  obtain ⟨hsc, -⟩ := scatter_spec n ipvt g.2 x F.inj
  set fp := nrm 0 n (fun i => d i * x1 i) - delta with hfp
  by_cases hc : fp ≤ 0.1 * delta
  · left
    rw [if_pos hc]
    refine ⟨rfl, rfl, ?_, by dsimp only; linarith⟩
    apply damped_of_factor F
    intro c hc
    dsimp only
    rw [zero_mul, zero_mul, add_zero]
    have hrow : ∀ t < n, ∑ c' ∈ range n, upper R t c' * x1 (ipvt c') = qtf t := by
      intro t ht
      rw [← g2 t ht, Finset.range_eq_Ico, ← Finset.sum_Ico_consecutive _ (Nat.zero_le t) ht.le,
        Finset.sum_eq_zero, zero_add]
      · refine Finset.sum_congr rfl fun j hj => ?_
        rw [Finset.mem_Ico] at hj
        unfold upper
        rw [if_pos hj.1, hx1, hsc j hj.2]
      · intro j hj
        rw [Finset.mem_Ico] at hj
        unfold upper
        rw [if_neg (by omega), zero_mul]
    have : ∀ t ∈ range n, upper R t c * qtf t = ∑ c' ∈ range n, upper R t c * upper R t c' * x1 (ipvt c') := by
      intro t ht
      rw [← hrow t (Finset.mem_range.mp ht), Finset.mul_sum]
      exact Finset.sum_congr rfl fun _ _ => by ring
    rw [Finset.sum_congr rfl this, Finset.sum_comm]
    exact Finset.sum_congr rfl fun _ _ => by rw [Finset.sum_mul]
  · right
    intro hn
    rw [if_neg hc, g1, if_pos le_rfl]
    have hfp0 : 0 < fp := by
      push Not at hc
      linarith [mul_pos (by norm_num : (0 : ℝ) < 0.1) hdel]
    have hdx : 0 < nrm 0 n (fun i => d i * x1 i) := by linarith
    have hparl : ∀ t : ℝ, 0 ≤ fp / delta / t / t := by
      intro t
      rw [div_div]
      exact div_nonneg (div_nonneg hfp0.le hdel.le) (mul_self_nonneg t)
    refine (lmLoop_spec dwarf hdw n hn R ipvt d qtf delta F.inj (fun j hj => hd _ (F.lt j hj)) 9 _
      (fun _ _ _ _ => rfl) ?_ (hparl _)).imp_right (And.imp_right fun h => damped_of_factor F d _ _ h)
    dsimp only
    set gn := nrm 0 n fun j => (∑ i ∈ range (j + 1), R i j * qtf i) / d (ipvt j)
    have hgn : 0 ≤ gn := nrm_nonneg _ _ _
    have hparu : 0 ≤ if gn / delta = 0 then dwarf / min delta 0.1 else gn / delta := by
      split_ifs
      · exact div_nonneg hdw.le (le_min hdel.le (by norm_num))
      · exact div_nonneg hgn hdel.le
    split_ifs with h2
    · exact div_nonneg hgn hdx.le
    all_goals first
      | exact div_nonneg hgn hdx.le
      | exact le_min (le_max_of_le_left hpar) (by first | exact div_nonneg hdw.le (le_min hdel.le (by norm_num)) | exact div_nonneg hgn hdel.le)

end Verif.Mpfit
