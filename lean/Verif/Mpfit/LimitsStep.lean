import Verif.Mpfit.LimitsProps

/-!
# C277: a step that would leave the limits is shortened; largest steps
-/

namespace Verif.Mpfit

open Verif.NumPy Finset

theorem low_cut (x p l : ℝ) (hx : l ≤ x) (h : x + p < l) : p < 0 ∧ 0 ≤ (l - x) / p ∧ x + (l - x) / p * p = l := by
  have hp : p < 0 := by linarith
  refine ⟨hp, div_nonneg_of_nonpos (by linarith) hp.le, ?_⟩
  rw [div_mul_cancel₀ _ hp.ne]
  ring

theorem up_cut (x p u : ℝ) (hx : x ≤ u) (h : u < x + p) : 0 < p ∧ 0 ≤ (u - x) / p ∧ x + (u - x) / p * p = u := by
  have hp : 0 < p := by linarith
  refine ⟨hp, div_nonneg (by linarith) hp.le, ?_⟩
  rw [div_mul_cancel₀ _ hp.ne']
  ring

theorem fraction_spec (c : Cfg) (P : Prob) (B : Info) (x p : Vec) (hx : B.InX P x) :
    0 ≤ fraction c P B x p ∧ fraction c P B x p ≤ 1 ∧
      (∀ j < P.n, ∀ l, B.lower (P.ifree j) = some l → c.eps < |p j| → x j + p j < l → fraction c P B x p ≤ (l - x j) / p j) ∧
      (∀ j < P.n, ∀ u, B.upper (P.ifree j) = some u → c.eps < |p j| → u < x j + p j → fraction c P B x p ≤ (u - x j) / p j) ∧
      (fraction c P B x p = 1 ∨ ∃ j < P.n, c.eps < |p j| ∧
        (B.lower (P.ifree j) = some (x j + fraction c P B x p * p j) ∨ B.upper (P.ifree j) = some (x j + fraction c P B x p * p j))) := by
  unfold fraction
  dsimp only
  set a1 := forRange 0 P.n (fun j (a : ℝ) => cutLow c (x j) (p j) a (B.lower (P.ifree j))) 1 with ha1
  have h1 : 0 ≤ a1 ∧ a1 ≤ 1 ∧ (∀ j < P.n, ∀ l, B.lower (P.ifree j) = some l → c.eps < |p j| → x j + p j < l → a1 ≤ (l - x j) / p j) ∧
      (a1 = 1 ∨ ∃ j < P.n, c.eps < |p j| ∧ B.lower (P.ifree j) = some (x j + a1 * p j)) := by
    refine forRange_ind (fun i a => 0 ≤ a ∧ a ≤ 1 ∧
      (∀ j < i, ∀ l, B.lower (P.ifree j) = some l → c.eps < |p j| → x j + p j < l → a ≤ (l - x j) / p j) ∧
      (a = 1 ∨ ∃ j < P.n, c.eps < |p j| ∧ B.lower (P.ifree j) = some (x j + a * p j))) 0 P.n (Nat.zero_le _) _ _
      ⟨zero_le_one, le_rfl, fun j hj => absurd hj (by omega), Or.inl rfl⟩ ?_
    rintro i a - hi ⟨k1, k2, k3, k4⟩
    cases hl : B.lower (P.ifree i) with
    | none =>
      refine ⟨k1, k2, fun j hj l hjl => ?_, k4⟩
      rcases Nat.lt_succ_iff_lt_or_eq.mp hj with h | rfl
      · exact k3 j h l hjl
      · rw [hl] at hjl; cases hjl
    | some l =>
      change 0 ≤ (if c.eps < |p i| ∧ x i + p i < l then min a ((l - x i) / p i) else a) ∧ _
      unfold cutLow
      dsimp only
      by_cases hcut : c.eps < |p i| ∧ x i + p i < l
      · rw [if_pos hcut]
        obtain ⟨q1, q2, q3⟩ := low_cut (x i) (p i) l ((hx i hi).1 l hl) hcut.2
        refine ⟨le_min k1 q2, (min_le_left _ _).trans k2, fun j hj l' hjl e1 e2 => ?_, ?_⟩
        · rcases Nat.lt_succ_iff_lt_or_eq.mp hj with h | rfl
          · exact (min_le_left _ _).trans (k3 j h l' hjl e1 e2)
          · rw [hl] at hjl
            obtain rfl := Option.some.inj hjl
            exact min_le_right _ _
        · rcases min_choice a ((l - x i) / p i) with e | e
          · rw [e]; exact k4
          · rw [e]
            right
            refine ⟨i, hi, hcut.1, ?_⟩
            rw [hl, q3]
      · rw [if_neg hcut]
        refine ⟨k1, k2, fun j hj l' hjl e1 e2 => ?_, k4⟩
        rcases Nat.lt_succ_iff_lt_or_eq.mp hj with h | rfl
        · exact k3 j h l' hjl e1 e2
        · rw [hl] at hjl
          obtain rfl := Option.some.inj hjl
          exact absurd ⟨e1, e2⟩ hcut
  obtain ⟨m1, m2, m3, m4⟩ := h1
  have h2 := forRange_ind (fun i a => 0 ≤ a ∧ a ≤ a1 ∧
      (∀ j < i, ∀ u, B.upper (P.ifree j) = some u → c.eps < |p j| → u < x j + p j → a ≤ (u - x j) / p j) ∧
      (a = a1 ∨ ∃ j < P.n, c.eps < |p j| ∧ B.upper (P.ifree j) = some (x j + a * p j))) 0 P.n (Nat.zero_le _)
      (fun j (a : ℝ) => cutUp c (x j) (p j) a (B.upper (P.ifree j))) a1
      ⟨m1, le_rfl, fun j hj => absurd hj (by omega), Or.inl rfl⟩ (by
    rintro i a - hi ⟨k1, k2, k3, k4⟩
    cases hl : B.upper (P.ifree i) with
    | none =>
      refine ⟨k1, k2, fun j hj l hjl => ?_, k4⟩
      rcases Nat.lt_succ_iff_lt_or_eq.mp hj with h | rfl
      · exact k3 j h l hjl
      · rw [hl] at hjl; cases hjl
    | some u =>
      unfold cutUp
      dsimp only
      by_cases hcut : c.eps < |p i| ∧ u < x i + p i
      · rw [if_pos hcut]
        obtain ⟨q1, q2, q3⟩ := up_cut (x i) (p i) u ((hx i hi).2 u hl) hcut.2
        refine ⟨le_min k1 q2, (min_le_left _ _).trans k2, fun j hj l' hjl e1 e2 => ?_, ?_⟩
        · rcases Nat.lt_succ_iff_lt_or_eq.mp hj with h | rfl
          · exact (min_le_left _ _).trans (k3 j h l' hjl e1 e2)
          · rw [hl] at hjl
            obtain rfl := Option.some.inj hjl
            exact min_le_right _ _
        · rcases min_choice a ((u - x i) / p i) with e | e
          · rw [e]; exact k4
          · rw [e]
            right
            refine ⟨i, hi, hcut.1, ?_⟩
            rw [hl, q3]
      · rw [if_neg hcut]
        refine ⟨k1, k2, fun j hj l' hjl e1 e2 => ?_, k4⟩
        rcases Nat.lt_succ_iff_lt_or_eq.mp hj with h | rfl
        · exact k3 j h l' hjl e1 e2
        · rw [hl] at hjl
          obtain rfl := Option.some.inj hjl
          exact absurd ⟨e1, e2⟩ hcut)
  obtain ⟨n1, n2, n3, n4⟩ := h2
  refine ⟨n1, n2.trans m2, fun j hj l e1 e2 e3 => n2.trans (m3 j hj l e1 e2 e3), n3, ?_⟩
  rcases n4 with n4 | ⟨j, hj, e1, e2⟩
  · rw [n4]
    rcases m4 with m4 | ⟨j, hj, e1, e2⟩
    · exact Or.inl m4
    · exact Or.inr ⟨j, hj, e1, Or.inl e2⟩
  · exact Or.inr ⟨j, hj, e1, Or.inr e2⟩

/-- A fraction of the step that is not longer leaves the limits by at most `eps`. -/
theorem fraction_inside (c : Cfg) (hc : c.Ok) (P : Prob) (B : Info) (x p : Vec) (hx : B.InX P x) (a : ℝ) (ha : 0 ≤ a) (hle : a ≤ fraction c P B x p)
    (j : ℕ) (hj : j < P.n) :
    (∀ l, B.lower (P.ifree j) = some l → l - c.eps ≤ x j + p j * a) ∧ ∀ u, B.upper (P.ifree j) = some u → x j + p j * a ≤ u + c.eps := by
  obtain ⟨-, f2, f3, f4, -⟩ := fraction_spec c P B x p hx
  obtain ⟨x1, x2⟩ := hx j hj
  have he := hc.eps
  have ha1 : a ≤ 1 := hle.trans f2
  by_cases hs : c.eps < |p j|
  · constructor
    · intro l hl
      by_cases hout : x j + p j < l
      · obtain ⟨q1, -, q3⟩ := low_cut (x j) (p j) l (x1 l hl) hout
        have := hle.trans (f3 j hj l hl hs hout)
        nlinarith
      · have := x1 l hl
        push Not at hout
        nlinarith
    · intro u hu
      by_cases hout : u < x j + p j
      · obtain ⟨q1, -, q3⟩ := up_cut (x j) (p j) u (x2 u hu) hout
        have := hle.trans (f4 j hj u hu hs hout)
        nlinarith
      · have := x2 u hu
        push Not at hout
        nlinarith
  · push Not at hs
    have h1 : |p j * a| ≤ c.eps := by
      rw [abs_mul, abs_of_nonneg ha]
      nlinarith [abs_nonneg (p j)]
    obtain ⟨h2, h3⟩ := abs_le.mp h1
    exact ⟨fun l hl => by linarith [x1 l hl], fun u hu => by linarith [x2 u hu]⟩

theorem snap_near (c : Cfg) (hc : c.Ok) (l u : Option ℝ) (hlu : ∀ l' u', l = some l' → u = some u' → l' < u') (M w : ℝ) (hM : 1 ≤ M)
    (hl : ∀ l', l = some l' → |l'| ≤ M) (hu : ∀ u', u = some u' → |u'| ≤ M) (h1 : ∀ l', l = some l' → l' - c.eps ≤ w)
    (h2 : ∀ u', u = some u' → w ≤ u' + c.eps) : |snapLow c (snapUp c w u) l - w| ≤ 2 * c.eps * M := by
  have he := hc.eps
  have key : ∀ z : ℝ, |z| ≤ M → c.eps * max 1 |z| ≤ c.eps * M := fun z hz => mul_le_mul_of_nonneg_left (max_le hM hz) he.le
  have hem : c.eps ≤ c.eps * M := by nlinarith
  have hup : |snapUp c w u - w| ≤ c.eps * M ∧ ∀ l', l = some l' → l' - c.eps ≤ snapUp c w u := by
    cases u with
    | none =>
      unfold snapUp
      dsimp only
      rw [sub_self, abs_zero]
      exact ⟨by nlinarith, h1⟩
    | some u =>
      unfold snapUp
      dsimp only
      by_cases h : upEdge c u ≤ w
      · rw [if_pos h]
        have := (upper_edge c hc u).2
        have k := key u (hu u rfl)
        refine ⟨abs_le.mpr ⟨by linarith [h2 u rfl], by linarith⟩, fun l' hl' => ?_⟩
        linarith [hlu l' u hl' rfl]
      · rw [if_neg h, sub_self, abs_zero]
        exact ⟨by nlinarith, h1⟩
  set w1 := snapUp c w u
  have hlow : |snapLow c w1 l - w1| ≤ c.eps * M := by
    cases l with
    | none =>
      unfold snapLow
      dsimp only
      rw [sub_self, abs_zero]
      nlinarith
    | some l =>
      unfold snapLow
      dsimp only
      by_cases h : w1 ≤ lowEdge c l
      · rw [if_pos h]
        have := (lower_edge c hc l).2
        have k := key l (hl l rfl)
        exact abs_le.mpr ⟨by linarith, by linarith [hup.2 l rfl]⟩
      · rw [if_neg h, sub_self, abs_zero]
        nlinarith
  have e : snapLow c w1 l - w = (snapLow c w1 l - w1) + (w1 - w) := by ring
  rw [e]
  refine (abs_add_le _ _).trans ?_
  linarith [hup.1]

theorem vmax_ge (n : ℕ) (v : Vec) (j : ℕ) (hj : j < n) : v j ≤ vmax n v := by
  unfold vmax
  have := forRange_ind (fun i (g : ℝ) => ∀ j < i, v j ≤ g) 1 n (by omega) (fun j (g : ℝ) => max g (v j)) (v 0)
    (fun j hj => by obtain rfl : j = 0 := by omega
                    exact le_rfl)
    (fun k s _ _ h j hj => by
      rcases Nat.lt_succ_iff_lt_or_eq.mp hj with h' | rfl
      · exact (h j h').trans (le_max_left _ _)
      · exact le_max_right _ _)
  exact this j hj

theorem vmin_le (n : ℕ) (v : Vec) (j : ℕ) (hj : j < n) : vmin n v ≤ v j := by
  unfold vmin
  have := forRange_ind (fun i (g : ℝ) => ∀ j < i, g ≤ v j) 1 n (by omega) (fun j (g : ℝ) => min g (v j)) (v 0)
    (fun j hj => by obtain rfl : j = 0 := by omega
                    exact le_rfl)
    (fun k s _ _ h j hj => by
      rcases Nat.lt_succ_iff_lt_or_eq.mp hj with h' | rfl
      · exact (min_le_left _ _).trans (h j h')
      · exact min_le_right _ _)
  exact this j hj

/-- Only steps of a parameter at a limit that point out of the range are changed. -/
theorem clipped_spec (P : Prob) (B : Info) (x p : Vec) (j : ℕ) (hj : j < P.n) (h : clipped P B x p j ≠ p j) :
    B.lower (P.ifree j) = some (x j) ∧ p j < 0 ∨ B.upper (P.ifree j) = some (x j) ∧ 0 < p j := by
  classical
  by_contra hn
  push Not at hn
  apply h
  unfold clipped
  dsimp only
  set p1 : Vec := fun j => if B.lower (P.ifree j) = some (x j) then min (max (p j) 0) (vmax P.n p) else p j with hp1
  have e1 : p1 j = p j := by
    rw [hp1]
    dsimp only
    by_cases hl : B.lower (P.ifree j) = some (x j)
    · rw [if_pos hl, max_eq_left (hn.1 hl), min_eq_left (vmax_ge _ _ j hj)]
    · rw [if_neg hl]
  have e2 := vmin_le P.n p1 j hj
  rw [e1] at e2
  change (if B.upper (P.ifree j) = some (x j) then min (max (p1 j) (vmin P.n p1)) 0 else p1 j) = p j
  by_cases hu : B.upper (P.ifree j) = some (x j)
  · rw [if_pos hu, e1, max_eq_left e2, min_eq_left (hn.2 hu)]
  · rw [if_neg hu, e1]

theorem maxFraction_spec (P : Prob) (B : Info) (p : Vec) (a a' : ℝ) (ha : 0 ≤ a) (h : maxFraction P B p a = some a') :
    0 ≤ a' ∧ a' ≤ a ∧ ((∀ i, P.ifree i = i) → P.n = P.npar → ∀ i < P.npar, 0 < B.maxstep i → |p i * a'| ≤ B.maxstep i) := by
  unfold maxFraction at h
  by_cases h1 : ∃ i < P.npar, 0 < B.maxstep i ∧ P.n ≤ i
  · rw [if_pos h1] at h; cases h
  rw [if_neg h1] at h
  by_cases h2 : ∃ i < P.npar, 0 < B.maxstep i ∧ B.maxstep (P.ifree i) = 0 ∧ p i * a = 0
  · rw [if_pos h2] at h
    obtain rfl := Option.some.inj h
    refine ⟨ha, le_rfl, fun hid => ?_⟩
    obtain ⟨i, -, e1, e2, -⟩ := h2
    rw [hid i] at e2
    linarith
  rw [if_neg h2] at h
  by_cases h3 : ∃ i < P.npar, 0 < B.maxstep i ∧ B.maxstep (P.ifree i) = 0
  · rw [if_pos h3] at h
    obtain rfl := Option.some.inj h
    exact ⟨le_rfl, ha, fun _ _ i _ hi => by rw [mul_zero, abs_zero]; exact hi.le⟩
  rw [if_neg h3] at h
  dsimp only at h
  set m := forRange 0 P.npar (fun i (g : ℝ) => if 0 < B.maxstep i then max g (|p i * a| / |B.maxstep (P.ifree i)|) else g) 0 with hm
  have hmr : ∀ i < P.npar, 0 < B.maxstep i → |p i * a| / |B.maxstep (P.ifree i)| ≤ m := by
    refine forRange_ind (fun k (g : ℝ) => ∀ i < k, 0 < B.maxstep i → |p i * a| / |B.maxstep (P.ifree i)| ≤ g) 0 P.npar (Nat.zero_le _) _ _
      (fun i hi => absurd hi (by omega)) ?_
    intro k g _ _ hg i hi hpos
    rcases Nat.lt_succ_iff_lt_or_eq.mp hi with h' | rfl
    · split_ifs
      · exact (hg i h' hpos).trans (le_max_left _ _)
      · exact hg i h' hpos
    · rw [if_pos hpos]
      exact le_max_right _ _
  obtain rfl := Option.some.inj h
  by_cases h4 : 1 < m
  · rw [if_pos h4]
    have hm0 : 0 < m := by linarith
    refine ⟨div_nonneg ha hm0.le, div_le_self ha h4.le, fun hid _ i hi hpos => ?_⟩
    have := hmr i hi hpos
    rw [hid i, abs_of_pos hpos, div_le_iff₀ hpos] at this
    rw [← mul_div_assoc, abs_div, abs_of_pos hm0, div_le_iff₀ hm0]
    linarith
  · rw [if_neg h4]
    push Not at h4
    refine ⟨ha, le_rfl, fun hid _ i hi hpos => ?_⟩
    have := (hmr i hi hpos).trans h4
    rwa [hid i, abs_of_pos hpos, div_le_one hpos] at this

/-- How a step is taken: a common fraction `a` of the step `p`, in which only components that push a parameter at its limit further out are changed; up to
rounding the trial is the old point plus that, and without largest steps the fraction is 1 unless a parameter reaches its limit. -/
theorem move_spec (c : Cfg) (hc : c.Ok) (P : Prob) (B : Info) (hB : B.Consistent P) (M : ℝ) (hM : 1 ≤ M)
    (hlim : ∀ j < P.n, (∀ l, B.lower (P.ifree j) = some l → |l| ≤ M) ∧ ∀ u, B.upper (P.ifree j) = some u → |u| ≤ M)
    (x p : Vec) (hx : B.InX P x) (v : Move) (h : move c P B x p = some v) :
    ∃ (q : Vec) (a : ℝ), 0 ≤ a ∧ a ≤ 1 ∧
      (∀ j < P.n, q j ≠ p j → B.lower (P.ifree j) = some (x j) ∧ p j < 0 ∨ B.upper (P.ifree j) = some (x j) ∧ 0 < p j) ∧
      (∀ j < P.n, |v.wa2 j - (x j + a * q j)| ≤ 2 * c.eps * M) ∧
      ((∀ i < P.npar, B.maxstep i = 0) → a = 1 ∨ ∃ j < P.n, c.eps < |q j| ∧
        (B.lower (P.ifree j) = some (x j + a * q j) ∨ B.upper (P.ifree j) = some (x j + a * q j))) ∧
      ((∀ i, P.ifree i = i) → P.n = P.npar → ∀ i < P.npar, 0 < B.maxstep i → |a * q i| ≤ B.maxstep i) := by
  have he := hc.eps
  unfold move at h
  by_cases h0 : ¬ B.anyLim P ∧ ¬ B.anyMax P
  · rw [if_pos h0] at h
    obtain rfl := Option.some.inj h
    refine ⟨p, 1, zero_le_one, le_rfl, fun j _ hne => absurd rfl hne, fun j _ => ?_, fun _ => Or.inl rfl, fun _ _ i hi hpos => ?_⟩
    · dsimp only
      rw [one_mul, sub_self, abs_zero]
      positivity
    · exact absurd ⟨i, hi, hpos.ne'⟩ h0.2
  rw [if_neg h0] at h
  dsimp only at h
  rw [Option.map_eq_some_iff] at h
  obtain ⟨a, ha, rfl⟩ := h
  -- the fraction for the limits
  by_cases hL : B.anyLim P
  · rw [if_pos hL, if_pos hL] at ha
    rw [if_pos hL]
    set q := clipped P B x p with hq
    obtain ⟨f1, f2, f3, f4, f5⟩ := fraction_spec c P B x q hx
    have hfr : 0 ≤ a ∧ a ≤ fraction c P B x q ∧ ((∀ i < P.npar, B.maxstep i = 0) → a = fraction c P B x q) ∧
        ((∀ i, P.ifree i = i) → P.n = P.npar → ∀ i < P.npar, 0 < B.maxstep i → |q i * a| ≤ B.maxstep i) := by
      by_cases hmx : B.anyMax P
      · rw [if_pos hmx] at ha
        obtain ⟨g1, g2, g3⟩ := maxFraction_spec P B q _ a f1 ha
        refine ⟨g1, g2, fun hz => ?_, g3⟩
        obtain ⟨i, hi, hne⟩ := hmx
        exact absurd (hz i hi) hne
      · rw [if_neg hmx] at ha
        obtain rfl := Option.some.inj ha
        exact ⟨f1, le_rfl, fun _ => rfl, fun _ _ i hi hpos => absurd ⟨i, hi, hpos.ne'⟩ hmx⟩
    obtain ⟨g1, g2, g3, g4⟩ := hfr
    refine ⟨q, a, g1, g2.trans f2, fun j hj hne => clipped_spec P B x p j hj hne, fun j hj => ?_, fun hz => ?_, fun e1 e2 i hi hpos => ?_⟩
    · obtain ⟨k1, k2⟩ := fraction_inside c hc P B x q hx a g1 g2 j hj
      have := snap_near c hc (B.lower (P.ifree j)) (B.upper (P.ifree j)) (fun l u => hB j hj l u) M (x j + q j * a) hM (hlim j hj).1 (hlim j hj).2 k1 k2
      rw [mul_comm a]
      exact this
    · rw [g3 hz]; exact f5
    · rw [mul_comm a]; exact g4 e1 e2 i hi hpos
  · rw [if_neg hL, if_neg hL] at ha
    rw [if_neg hL]
    have hmx : B.anyMax P := by by_contra hmx; exact h0 ⟨hL, hmx⟩
    rw [if_pos hmx] at ha
    obtain ⟨g1, g2, g3⟩ := maxFraction_spec P B p 1 a zero_le_one ha
    refine ⟨p, a, g1, g2, fun j _ hne => absurd rfl hne, fun j hj => ?_, fun hz => ?_, fun e1 e2 i hi hpos => ?_⟩
    · obtain ⟨n1, n2⟩ := anyLim_none hL j hj
      unfold snap
      dsimp only
      rw [n1, n2]
      change |x j + p j * a - (x j + a * p j)| ≤ _
      rw [mul_comm, sub_self, abs_zero]
      positivity
    · obtain ⟨i, hi, hne⟩ := hmx
      exact absurd (hz i hi) hne
    · rw [mul_comm a]; exact g3 e1 e2 i hi hpos

/-! ## Every step of a fit -/

/-- The fitter is at `x` (free parameters), wants to move by `p` and tries `y`. -/
def Moves (c : Cfg) (P : Prob) (B : Info) (x p y : Vec) : Prop :=
  ∃ k s v, runL c P B k = some (.inner s) ∧ x = s.o.x ∧ (p = fun j => -(lmOf c P s).x j) ∧ move c P B x p = some v ∧ y = v.wa2

/-- A step that would leave the limits is shortened as a whole, just so much that a parameter reaches its limit: its direction is kept, apart from parameters
that are already at a limit. The numbers are exact up to rounding (`eps`). -/
theorem step_shortened (c : Cfg) (hc : c.Ok) (P : Prob) (hP : P.Ok) (B : Info) (h0 : Within B.lower B.upper P.npar P.p0) (hB : B.Consistent P)
    (hmax : ∀ i < P.npar, B.maxstep i = 0) (M : ℝ) (hM : 1 ≤ M)
    (hlim : ∀ j < P.n, (∀ l, B.lower (P.ifree j) = some l → |l| ≤ M) ∧ ∀ u, B.upper (P.ifree j) = some u → |u| ≤ M)
    (x p y : Vec) (h : Moves c P B x p y) :
    ∃ (q : Vec) (a : ℝ), 0 ≤ a ∧ a ≤ 1 ∧
      (∀ j < P.n, q j ≠ p j → B.lower (P.ifree j) = some (x j) ∧ p j < 0 ∨ B.upper (P.ifree j) = some (x j) ∧ 0 < p j) ∧
      (∀ j < P.n, |y j - (x j + a * q j)| ≤ 2 * c.eps * M) ∧
      (a = 1 ∨ ∃ j < P.n, B.lower (P.ifree j) = some (x j + a * q j) ∨ B.upper (P.ifree j) = some (x j + a * q j)) := by
  obtain ⟨k, s, v, hk, rfl, rfl, hv, rfl⟩ := h
  obtain ⟨-, i2⟩ := runL_inv c hc P hP B h0 hB k _ hk
  obtain ⟨q, a, a1, a2, a3, a4, a5, -⟩ := move_spec c hc P B hB M hM hlim _ _ i2 v hv
  refine ⟨q, a, a1, a2, a3, a4, ?_⟩
  rcases a5 hmax with e | ⟨j, hj, -, e⟩
  · exact Or.inl e
  · exact Or.inr ⟨j, hj, e⟩

/-- Largest steps are obeyed when all parameters are free. Not otherwise: `max_step_raises`. -/
theorem max_step_partial (c : Cfg) (hc : c.Ok) (P : Prob) (hP : P.Ok) (B : Info) (h0 : Within B.lower B.upper P.npar P.p0) (hB : B.Consistent P)
    (hall : P.n = P.npar) (hid : ∀ i, P.ifree i = i) (M : ℝ) (hM : 1 ≤ M)
    (hlim : ∀ j < P.npar, (∀ l, B.lower j = some l → |l| ≤ M) ∧ ∀ u, B.upper j = some u → |u| ≤ M)
    (x p y : Vec) (h : Moves c P B x p y) (i : ℕ) (hi : i < P.npar) (hpos : 0 < B.maxstep i) : |y i - x i| ≤ B.maxstep i + 2 * c.eps * M := by
  obtain ⟨k, s, v, hk, rfl, rfl, hv, rfl⟩ := h
  obtain ⟨-, i2⟩ := runL_inv c hc P hP B h0 hB k _ hk
  obtain ⟨q, a, -, -, -, a4, -, a6⟩ := move_spec c hc P B hB M hM (fun j hj => by rw [hid]; exact hlim j (hall ▸ hj)) _ _ i2 v hv
  have h1 : |v.wa2 i - (s.o.x i + a * q i)| ≤ 2 * c.eps * M := a4 i (by omega)
  have h2 := a6 hid hall i hi hpos
  have e : v.wa2 i - s.o.x i = (v.wa2 i - (s.o.x i + a * q i)) + a * q i := by ring
  rw [e]
  refine (abs_add_le _ _).trans ?_
  linarith

theorem move_raises (c : Cfg) (P : Prob) (B : Info) (i : ℕ) (hi : i < P.npar) (hpos : 0 < B.maxstep i) (hn : P.n ≤ i) (x q : Vec) :
    move c P B x q = none := by
  have hany : B.anyMax P := ⟨i, hi, hpos.ne'⟩
  have hf : ∀ p a, maxFraction P B p a = none := by
    intro p a
    unfold maxFraction
    rw [if_pos ⟨i, hi, hpos, hn⟩]
  unfold move
  rw [if_neg (fun h => h.2 hany)]
  simp only [if_pos hany, hf, Option.map_none]

theorem headL_inner (c : Cfg) (P : Prob) (B : Info) (o : Outer) (hm : c.maxiter ≠ 0)
    (h : let J := jacOf c P B (scatter P.n P.ifree o.x o.params) o.x o.fvec
      ¬ gnormOf P.n (formQtf P.m P.n (qrfac c.eps P.m P.n J) o.fvec).a (qrfac c.eps P.m P.n J).ipvt (formQtf P.m P.n (qrfac c.eps P.m P.n J) o.fvec).qtf
        (fun j => nrm 0 P.m fun i => J i j) o.fnorm ≤ c.gtol) : ∃ s, headL c P B o = .inner s := by
  unfold headL
  dsimp only
  rw [if_neg h, if_neg hm]
  exact ⟨_, rfl⟩

/-- A largest step for a parameter whose number is not below the number of free parameters: a fit that returns at all has not moved. -/
theorem max_step_stuck (c : Cfg) (hc : c.Ok) (P : Prob) (hP : P.Ok) (B : Info) (i : ℕ) (hi : i < P.npar) (hpos : 0 < B.maxstep i) (hn : P.n ≤ i)
    (r : Fit) (h : EndsL c P B r) (p : Vec) (hp : r.params = some p) : p = P.p0 := by
  have hmove := move_raises c P B i hi hpos hn
  rcases endsL_cases c P B r h with ⟨-, rfl⟩ | ⟨-, -, rfl⟩ | ⟨-, -, h1, h2, k, e, hk, rfl⟩
  · simp at hp
  · exact (Option.some.inj hp).symm
  · have hx : ∀ k s, runL c P B k = some s → s.x = fun j => P.p0 (P.ifree j) := by
      intro k
      induction k with
      | zero =>
        intro s hs
        obtain rfl := Option.some.inj hs
        rfl
      | succ k ih =>
        intro s hs
        unfold runL at hs
        rw [Option.bind_eq_some_iff] at hs
        obtain ⟨s0, e1, e2⟩ := hs
        have := ih s0 e1
        match s0 with
        | .outer o =>
          obtain rfl := Option.some.inj e2
          rw [headL_x]
          exact this
        | .inner s1 =>
          have e2 : trialL c P B s1 = some s := e2
          unfold trialL at e2
          rw [hmove] at e2
          cases e2
        | .done e =>
          obtain rfl := Option.some.inj e2
          exact this
    obtain ⟨i1, -⟩ := runL_inv c hc P hP B h1 h2 k _ hk
    unfold finish at hp
    dsimp only at hp
    rw [scatter_full P hP e.x e.params i1.1] at hp
    obtain rfl := Option.some.inj hp
    have := hx k _ hk
    change e.x = _ at this
    rw [this, full_p0 P hP]

/-- One residual, the second of two parameters; the first is held fixed. -/
def second : Prob where
  m := 1
  npar := 2
  n := 1
  ifree := fun _ => 1
  f := fun p _ => p 1
  p0 := fun _ => 1

theorem second_ok : second.Ok := ⟨fun _ _ => Nat.one_lt_two, fun k hk k' hk' _ => by change k < 1 at hk; change k' < 1 at hk'; omega⟩

/-- A largest step of 1 for the second parameter. -/
def secondMax : Info := { Info.none with maxstep := fun a => if a = 1 then 1 else 0 }

/-- With the first of two parameters fixed and a largest step for the second, a fit that has to move raises `IndexError`. -/
theorem max_step_raises (c : Cfg) (hc : c.Ok) (hg : c.gtol < 1) (hm : 0 < c.maxiter) : RaisesL c second secondMax := by
  refine ⟨by decide, by decide, fun a _ => by simp [secondMax, Info.none], fun j _ l u h => by simp [secondMax, Info.none] at h, 2, ?_⟩
  have hlim : ¬ secondMax.anyLim second := by
    rintro ⟨j, -, h⟩
    simp [secondMax, Info.none] at h
  have hJ : ∀ i j, jacOf c second secondMax second.p0 (fun _ => 1) (second.f second.p0) i j = 1 := by
    intro i j
    unfold jacOf
    rw [if_neg hlim]
    have hd : secondMax.diff c second (fun _ => 1) j = Real.sqrt c.eps := by
      unfold Info.diff Info.size
      simp [secondMax, Info.none]
    unfold fdjacL
    dsimp only
    rw [hd, if_pos (by simp [secondMax, Info.none])]
    have h0 : Real.sqrt c.eps ≠ 0 := (Real.sqrt_pos.mpr hc.eps).ne'
    simp only [second, Function.update_self]
    field_simp
    ring
  have hfull : scatter second.n second.ifree (fun _ => 1) second.p0 = second.p0 := full_p0 second second_ok
  set J := jacOf c second secondMax second.p0 (fun _ => 1) (second.f second.p0) with hJd
  have F := qr_factor J (second.f second.p0) c.eps second.m second.n le_rfl
  have hgn : ¬gnormOf second.n (formQtf second.m second.n (qrfac c.eps second.m second.n J) (second.f second.p0)).a
      (qrfac c.eps second.m second.n J).ipvt (formQtf second.m second.n (qrfac c.eps second.m second.n J) (second.f second.p0)).qtf
      (fun j => nrm 0 second.m fun i => J i j) (second.norm second.p0) ≤ c.gtol := by
    intro h
    have h1 := (gnorm_le F (fun _ _ _ _ => rfl) (fun j => nrm 0 second.m fun i => J i j) (fun _ _ => rfl) c.gtol hc.gtol.le).mp h 0 (by decide)
    have n1 : nrm 0 second.m (second.f second.p0) = 1 := by
      unfold nrm
      simp [second]
    have n2 : nrm 0 second.m (fun i => J i 0) = 1 := by
      unfold nrm
      simp only [hJ]
      simp [second]
    rw [n1, n2] at h1
    simp only [hJ] at h1
    simp [second] at h1
    linarith
  have hhead : ∃ s, headL c second secondMax
      { x := fun j => second.p0 (second.ifree j), params := second.p0, fvec := second.f second.p0, fnorm := second.norm second.p0, fnorm1 := -1
        par := 0, diag := fun _ => 1, delta := 0, xnorm := 0, niter := 1 } = .inner s := by
    refine headL_inner c second secondMax _ (by omega) ?_
    dsimp only
    rw [show scatter second.n second.ifree (fun j => second.p0 (second.ifree j)) second.p0 = second.p0 from hfull]
    exact hgn
  obtain ⟨s, hs⟩ := hhead
  change ((some (start second)).bind (stepL c second secondMax)).bind (stepL c second secondMax) = none
  rw [Option.bind_some]
  change (some (headL c second secondMax _)).bind (stepL c second secondMax) = none
  rw [hs, Option.bind_some]
  change trialL c second secondMax s = none
  unfold trialL
  rw [move_raises c second secondMax 1 (by decide) (by simp [secondMax]) (by decide)]
  rfl

end Verif.Mpfit
