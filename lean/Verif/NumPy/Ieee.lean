import Mathlib.Data.Complex.Basic
import Mathlib.Data.Real.Basic
import Mathlib.Algebra.BigOperators.Group.Finset.Basic
import Mathlib.Tactic

/-!
# Floating-point values with infinities and NaN

The arithmetic of IEEE 754 on exact numbers: the results of operations on infinities and NaN are those of the standard, the finite results
are not rounded and do not overflow. Zeros have no sign: a quotient by zero has the sign of its numerator.
-/

namespace Verif.Ieee

/-- A floating-point value. -/
inductive X where
  | fin (r : ℝ)
  | pinf
  | ninf
  | nan

namespace X

/-- Sum. -/
noncomputable def add : X → X → X
  | nan, _ => nan
  | _, nan => nan
  | fin a, fin b => fin (a + b)
  | fin _, pinf => pinf
  | fin _, ninf => ninf
  | pinf, fin _ => pinf
  | ninf, fin _ => ninf
  | pinf, pinf => pinf
  | ninf, ninf => ninf
  | pinf, ninf => nan
  | ninf, pinf => nan

/-- An infinity times a finite number. -/
noncomputable def infTimes (pos : Bool) (a : ℝ) : X :=
  if a = 0 then nan else if (0 < a) = pos then pinf else ninf

/-- Product. -/
noncomputable def mul : X → X → X
  | nan, _ => nan
  | _, nan => nan
  | fin a, fin b => fin (a * b)
  | fin a, pinf => infTimes true a
  | fin a, ninf => infTimes false a
  | pinf, fin a => infTimes true a
  | ninf, fin a => infTimes false a
  | pinf, pinf => pinf
  | ninf, ninf => pinf
  | pinf, ninf => ninf
  | ninf, pinf => ninf

/-- Quotient. -/
noncomputable def div : X → X → X
  | nan, _ => nan
  | _, nan => nan
  | fin a, fin b => if b = 0 then (if a = 0 then nan else if 0 < a then pinf else ninf) else fin (a / b)
  | fin _, pinf => fin 0
  | fin _, ninf => fin 0
  | pinf, fin a => if 0 ≤ a then pinf else ninf
  | ninf, fin a => if 0 ≤ a then ninf else pinf
  | _, _ => nan

/-- Opposite. -/
def neg : X → X
  | fin a => fin (-a)
  | pinf => ninf
  | ninf => pinf
  | nan => nan

/-- `np.isnan`. -/
def isnan : X → Bool
  | nan => true
  | _ => false

/-- `np.nan_to_num`: zero for NaN, the largest number of the type, `big`, for an infinity. -/
def toNum (big : ℝ) : X → ℝ
  | fin a => a
  | pinf => big
  | ninf => -big
  | nan => 0

/-- A number, or `none` for what is not finite. -/
def finite : X → Option ℝ
  | fin a => some a
  | _ => none

/-- A number or NaN, as in the other models. -/
def ofOption : Option ℝ → X
  | some a => fin a
  | none => nan

instance : Zero X := ⟨fin 0⟩

noncomputable instance : Add X := ⟨add⟩

noncomputable instance : AddCommMonoid X where
  add_assoc a b c := by
    show add (add a b) c = add a (add b c)
    cases a <;> cases b <;> cases c <;> simp [add, add_assoc]
  zero_add a := by
    show add (fin 0) a = a
    cases a <;> simp [add]
  add_zero a := by
    show add a (fin 0) = a
    cases a <;> simp [add]
  add_comm a b := by
    show add a b = add b a
    cases a <;> cases b <;> simp [add, add_comm]
  nsmul := nsmulRec

theorem add_def (a b : X) : a + b = add a b := rfl

theorem zero_def : (0 : X) = fin 0 := rfl

theorem sum_fin {ι : Type*} (s : Finset ι) (f : ι → ℝ) : ∑ j ∈ s, fin (f j) = fin (∑ j ∈ s, f j) := by
  classical
  induction s using Finset.induction_on with
  | empty => rfl
  | insert a s ha ih =>
    rw [Finset.sum_insert ha, Finset.sum_insert ha, ih]
    rfl

/-- Not negative, or not a number. -/
def NonNeg : X → Prop
  | fin a => 0 ≤ a
  | pinf => True
  | ninf => False
  | nan => True

/-- Positive infinity or NaN. -/
def Unbounded : X → Prop
  | pinf => True
  | nan => True
  | _ => False

theorem nonneg_add {a b : X} (ha : NonNeg a) (hb : NonNeg b) : NonNeg (a + b) := by
  rw [add_def]
  cases a <;> cases b <;> simp_all [NonNeg, add]
  exact add_nonneg ha hb

theorem unbounded_add {a b : X} (ha : Unbounded a) (hb : NonNeg b) : Unbounded (a + b) := by
  rw [add_def]
  cases a <;> cases b <;> simp_all [NonNeg, Unbounded, add]

theorem unbounded_sum {ι : Type*} [DecidableEq ι] (s : Finset ι) (f : ι → X) (hf : ∀ j ∈ s, NonNeg (f j)) (j0 : ι) (h0 : j0 ∈ s)
    (hu : Unbounded (f j0)) : Unbounded (∑ j ∈ s, f j) := by
  rw [← Finset.add_sum_erase s f h0]
  refine unbounded_add hu ?_
  have : ∀ t : Finset ι, (∀ j ∈ t, NonNeg (f j)) → NonNeg (∑ j ∈ t, f j) := by
    intro t
    induction t using Finset.induction_on with
    | empty => intro _; exact le_refl (0 : ℝ)
    | insert a t ha ih =>
      intro h
      rw [Finset.sum_insert ha]
      exact nonneg_add (h a (Finset.mem_insert_self _ _)) (ih fun j hj => h j (Finset.mem_insert_of_mem hj))
  exact this _ fun j hj => hf j (Finset.mem_of_mem_erase hj)

end X

/-- A complex number: two floating-point values. -/
structure C where
  re : X
  im : X

namespace C

/-- A real operand of a complex operation. -/
def ofReal (a : X) : C := ⟨a, .fin 0⟩

/-- The imaginary unit, `1j`. -/
def i : C := ⟨.fin 0, .fin 1⟩

/-- Sum of complex numbers. -/
noncomputable def add (a b : C) : C := ⟨a.re + b.re, a.im + b.im⟩

/-- Product of complex numbers as NumPy computes it. -/
noncomputable def mul (a b : C) : C := ⟨a.re.mul b.re + (a.im.mul b.im).neg, a.re.mul b.im + a.im.mul b.re⟩

/-- `np.isnan` of a complex number. -/
def isnan (a : C) : Bool := a.re.isnan || a.im.isnan

/-- `np.nan_to_num` of a complex number, part by part. -/
def toNum (big : ℝ) (a : C) : ℂ := ⟨a.re.toNum big, a.im.toNum big⟩

end C

end Verif.Ieee
