import Mathlib.Data.List.Basic
import Mathlib.Tactic

/-!
# Memory of array programs (C248)

The effect of Python statements on the objects they refer to. A name refers to a block of memory (an array, a dictionary or a FITS header) or to none
(`None`, a number). What values are computed is left open: contents are of an arbitrary type and every statement may store anything.

Python and numpy rules used (not in /repo): arithmetic, `np.where`, `np.zeros_like`, `astype`, `nan_to_num`, fancy indexing and `.copy()` give new memory;
plain assignment, basic slices, `.T`, `np.squeeze` and argument passing share memory; `np.reshape` does either; `x op= …`, `x[…] = …` and `del x[…]` change
the memory of `x`.
-/

namespace Verif.Memory

/-- Statements, with names from `α`. -/
inductive Stmt (α : Type) where
  | skip
  /-- `x` becomes a new object. -/
  | fresh (x : α)
  /-- `x` refers to the object of `y`. -/
  | view (x y : α)
  /-- `x` refers to the object of `y` or to a copy. -/
  | reshape (x y : α)
  /-- The object of `x` is changed. -/
  | write (x : α)
  | seq (a b : Stmt α)
  /-- Either branch of a conditional. -/
  | choice (a b : Stmt α)
  /-- Any number of repetitions. -/
  | loop (a : Stmt α)

/-- Names, memory, and the number of blocks in use. -/
structure State (α V : Type) where
  env : α → Option ℕ
  mem : ℕ → V
  next : ℕ

variable {α β V : Type} [DecidableEq α]

/-- Binding of a name. -/
def State.bind (σ : State α V) (x : α) (l : Option ℕ) : State α V := { σ with env := Function.update σ.env x l }

/-- A new block with content `v`, bound to `x`. -/
def State.alloc (σ : State α V) (x : α) (v : V) : State α V :=
  { env := Function.update σ.env x (some σ.next), mem := Function.update σ.mem σ.next v, next := σ.next + 1 }

/-- Change of a block. -/
def State.store (σ : State α V) (l : ℕ) (v : V) : State α V := { σ with mem := Function.update σ.mem l v }

/-- Complete executions. -/
inductive Exec : Stmt α → State α V → State α V → Prop where
  | skip (σ) : Exec .skip σ σ
  | fresh (σ x v) : Exec (.fresh x) σ (σ.alloc x v)
  | view (σ x y) : Exec (.view x y) σ (σ.bind x (σ.env y))
  | reshapeView (σ x y) : Exec (.reshape x y) σ (σ.bind x (σ.env y))
  | reshapeCopy (σ x y v) : Exec (.reshape x y) σ (σ.alloc x v)
  | write (σ x l v) : σ.env x = some l → Exec (.write x) σ (σ.store l v)
  | seq {a b σ ρ τ} : Exec a σ ρ → Exec b ρ τ → Exec (.seq a b) σ τ
  | left {a b σ τ} : Exec a σ τ → Exec (.choice a b) σ τ
  | right {a b σ τ} : Exec b σ τ → Exec (.choice a b) σ τ
  | stop (a σ) : Exec (.loop a) σ σ
  | again {a σ ρ τ} : Exec (.loop a) σ ρ → Exec a ρ τ → Exec (.loop a) σ τ

/-- States passed through by executions, complete or not: this covers early returns and exceptions. -/
inductive Passes : Stmt α → State α V → State α V → Prop where
  | start (s σ) : Passes s σ σ
  | done {s σ τ} : Exec s σ τ → Passes s σ τ
  | first {a b σ τ} : Passes a σ τ → Passes (.seq a b) σ τ
  | second {a b σ ρ τ} : Exec a σ ρ → Passes b ρ τ → Passes (.seq a b) σ τ
  | left {a b σ τ} : Passes a σ τ → Passes (.choice a b) σ τ
  | right {a b σ τ} : Passes b σ τ → Passes (.choice a b) σ τ
  | loop {a σ ρ τ} : Exec (.loop a) σ ρ → Passes a ρ τ → Passes (.loop a) σ τ

/-! ## Specification -/

/-- No object that existed before the call is changed, at any point of any execution. -/
def Keeps (s : Stmt α) : Prop :=
  ∀ (V : Type) (σ τ : State α V), Passes s σ τ → ∀ l < σ.next, τ.mem l = σ.mem l

/-- After the call `r` refers to no object that existed before. -/
def New (s : Stmt α) (r : α) : Prop :=
  ∀ (V : Type) (σ τ : State α V), Exec s σ τ → ∀ l, τ.env r = some l → σ.next ≤ l

/-! ## Which names refer to objects of the function -/

/-- Names that surely refer to objects made since the start, after the statement; `none` if another object may be changed. -/
def owned (S : List α) : Stmt α → Option (List α)
  | .skip => some S
  | .fresh x => some (x :: S)
  | .view x y => some (if y ∈ S then x :: S else S.filter (· ≠ x))
  | .reshape x y => some (if y ∈ S then x :: S else S.filter (· ≠ x))
  | .write x => if x ∈ S then some S else none
  | .seq a b => (owned S a).bind fun T => owned T b
  | .choice a b =>
    match owned S a, owned S b with
    | some A, some B => some (A.filter (· ∈ B))
    | _, _ => none
  | .loop a =>
    match owned S a with
    | some A => if ∀ x ∈ S, x ∈ A then some S else none
    | none => none

/-- The names of `S` refer to blocks from `n` on. -/
def Own (n : ℕ) (S : List α) (σ : State α V) : Prop := n ≤ σ.next ∧ ∀ x ∈ S, ∀ l, σ.env x = some l → n ≤ l

theorem Own.alloc {n : ℕ} {S : List α} {σ : State α V} (h : Own n S σ) (x : α) (v : V) : Own n (x :: S) (σ.alloc x v) := by
  refine ⟨h.1.trans (Nat.le_succ _), fun y hy l hl => ?_⟩
  unfold State.alloc at hl
  dsimp only at hl
  by_cases e : y = x
  · subst e
    rw [Function.update_self] at hl
    cases hl
    exact h.1
  · rw [Function.update_of_ne e] at hl
    rcases List.mem_cons.mp hy with r | r
    · exact absurd r e
    · exact h.2 y r l hl

theorem Own.bindOwned {n : ℕ} {S : List α} {σ : State α V} (h : Own n S σ) (x y : α) (hy : y ∈ S) : Own n (x :: S) (σ.bind x (σ.env y)) := by
  refine ⟨h.1, fun z hz l hl => ?_⟩
  unfold State.bind at hl
  dsimp only at hl
  by_cases e : z = x
  · subst e
    rw [Function.update_self] at hl
    exact h.2 y hy l hl
  · rw [Function.update_of_ne e] at hl
    rcases List.mem_cons.mp hz with r | r
    · exact absurd r e
    · exact h.2 z r l hl

theorem Own.bindOther {n : ℕ} {S : List α} {σ : State α V} (h : Own n S σ) (x : α) (k : Option ℕ) : Own n (S.filter (· ≠ x)) (σ.bind x k) := by
  refine ⟨h.1, fun z hz l hl => ?_⟩
  rw [List.mem_filter] at hz
  have e : z ≠ x := by simpa using hz.2
  unfold State.bind at hl
  dsimp only at hl
  rw [Function.update_of_ne e] at hl
  exact h.2 z hz.1 l hl

omit [DecidableEq α] in
theorem Own.sub {n : ℕ} {S T : List α} {σ : State α V} (h : Own n S σ) (hs : ∀ x ∈ T, x ∈ S) : Own n T σ :=
  ⟨h.1, fun x hx => h.2 x (hs x hx)⟩

theorem Own.bindView {n : ℕ} {S : List α} {σ : State α V} (h : Own n S σ) (x y : α) :
    Own n (if y ∈ S then x :: S else S.filter (· ≠ x)) (σ.bind x (σ.env y)) := by
  by_cases hy : y ∈ S
  · rw [if_pos hy]
    exact h.bindOwned x y hy
  · rw [if_neg hy]
    exact h.bindOther x _

/-- Complete executions keep old blocks, and the names found by `owned` refer to new ones. -/
theorem exec_sound {s : Stmt α} {σ τ : State α V} (h : Exec s σ τ) :
    ∀ {n : ℕ} {S T : List α}, owned S s = some T → Own n S σ → Own n T τ ∧ ∀ l < n, τ.mem l = σ.mem l := by
  induction h with
  | skip σ =>
    intro n S T ho hO
    cases ho
    exact ⟨hO, fun _ _ => rfl⟩
  | fresh σ x v =>
    intro n S T ho hO
    cases ho
    refine ⟨hO.alloc x v, fun l hl => ?_⟩
    exact Function.update_of_ne (Nat.ne_of_lt (lt_of_lt_of_le hl hO.1)) _ _
  | view σ x y =>
    intro n S T ho hO
    cases ho
    exact ⟨hO.bindView x y, fun _ _ => rfl⟩
  | reshapeView σ x y =>
    intro n S T ho hO
    cases ho
    exact ⟨hO.bindView x y, fun _ _ => rfl⟩
  | reshapeCopy σ x y v =>
    intro n S T ho hO
    cases ho
    refine ⟨(hO.alloc x v).sub fun z hz => ?_, fun l hl => ?_⟩
    · by_cases hy : y ∈ S
      · rwa [if_pos hy] at hz
      · rw [if_neg hy] at hz
        exact List.mem_cons_of_mem _ (List.mem_filter.mp hz).1
    · exact Function.update_of_ne (Nat.ne_of_lt (lt_of_lt_of_le hl hO.1)) _ _
  | write σ x l v hx =>
    intro n S T ho hO
    unfold owned at ho
    by_cases hm : x ∈ S
    · rw [if_pos hm] at ho
      cases ho
      refine ⟨hO, fun k hk => ?_⟩
      exact Function.update_of_ne (Nat.ne_of_lt (lt_of_lt_of_le hk (hO.2 x hm l hx))) _ _
    · rw [if_neg hm] at ho
      cases ho
  | seq _ _ iha ihb =>
    intro n S T ho hO
    unfold owned at ho
    obtain ⟨A, hA, hB⟩ := Option.bind_eq_some_iff.mp ho
    obtain ⟨o1, m1⟩ := iha hA hO
    obtain ⟨o2, m2⟩ := ihb hB o1
    exact ⟨o2, fun l hl => (m2 l hl).trans (m1 l hl)⟩
  | @left a b σ τ _ ih =>
    intro n S T ho hO
    unfold owned at ho
    cases hA : owned S a with
    | none => rw [hA] at ho; cases ho
    | some A =>
      cases hB : owned S b with
      | none => rw [hA, hB] at ho; cases ho
      | some B =>
        rw [hA, hB] at ho
        cases ho
        obtain ⟨o1, m1⟩ := ih hA hO
        exact ⟨o1.sub fun x hx => (List.mem_filter.mp hx).1, m1⟩
  | @right a b σ τ _ ih =>
    intro n S T ho hO
    unfold owned at ho
    cases hA : owned S a with
    | none => rw [hA] at ho; cases ho
    | some A =>
      cases hB : owned S b with
      | none => rw [hA, hB] at ho; cases ho
      | some B =>
        rw [hA, hB] at ho
        cases ho
        obtain ⟨o1, m1⟩ := ih hB hO
        exact ⟨o1.sub fun x hx => by simpa using (List.mem_filter.mp hx).2, m1⟩
  | stop a σ =>
    intro n S T ho hO
    unfold owned at ho
    cases hA : owned S a with
    | none => rw [hA] at ho; cases ho
    | some A =>
      rw [hA] at ho
      dsimp only at ho
      by_cases hs : ∀ x ∈ S, x ∈ A
      · rw [if_pos hs] at ho
        cases ho
        exact ⟨hO, fun _ _ => rfl⟩
      · rw [if_neg hs] at ho
        cases ho
  | @again a σ ρ τ _ _ ihl iha =>
    intro n S T ho hO
    obtain ⟨o1, m1⟩ := ihl ho hO
    unfold owned at ho
    cases hA : owned S a with
    | none => rw [hA] at ho; cases ho
    | some A =>
      rw [hA] at ho
      dsimp only at ho
      by_cases hs : ∀ x ∈ S, x ∈ A
      · rw [if_pos hs] at ho
        cases ho
        obtain ⟨o2, m2⟩ := iha hA o1
        exact ⟨o2.sub hs, fun l hl => (m2 l hl).trans (m1 l hl)⟩
      · rw [if_neg hs] at ho
        cases ho

/-- So do incomplete ones. -/
theorem passes_sound {s : Stmt α} {σ τ : State α V} (h : Passes s σ τ) :
    ∀ {n : ℕ} {S T : List α}, owned S s = some T → Own n S σ → ∀ l < n, τ.mem l = σ.mem l := by
  induction h with
  | start => intro n S T _ _ l _; rfl
  | done he => intro n S T ho hO; exact (exec_sound he ho hO).2
  | first _ ih =>
    intro n S T ho hO
    unfold owned at ho
    obtain ⟨A, hA, _⟩ := Option.bind_eq_some_iff.mp ho
    exact ih hA hO
  | second he _ ih =>
    intro n S T ho hO l hl
    unfold owned at ho
    obtain ⟨A, hA, hB⟩ := Option.bind_eq_some_iff.mp ho
    obtain ⟨o1, m1⟩ := exec_sound he hA hO
    exact (ih hB o1 l hl).trans (m1 l hl)
  | @left a b σ τ _ ih =>
    intro n S T ho hO
    unfold owned at ho
    cases hA : owned S a with
    | none => rw [hA] at ho; cases ho
    | some A => exact ih hA hO
  | @right a b σ τ _ ih =>
    intro n S T ho hO
    unfold owned at ho
    cases hA : owned S a with
    | none => rw [hA] at ho; cases ho
    | some A =>
      cases hB : owned S b with
      | none => rw [hA, hB] at ho; cases ho
      | some B => exact ih hB hO
  | @loop a σ ρ τ he _ ih =>
    intro n S T ho hO l hl
    obtain ⟨o1, m1⟩ := exec_sound he ho hO
    have ho' := ho
    unfold owned at ho'
    cases hA : owned S a with
    | none => rw [hA] at ho'; cases ho'
    | some A =>
      rw [hA] at ho'
      dsimp only at ho'
      by_cases hs : ∀ x ∈ S, x ∈ A
      · rw [if_pos hs] at ho'
        cases ho'
        exact (ih hA o1 l hl).trans (m1 l hl)
      · rw [if_neg hs] at ho'
        cases ho'

omit [DecidableEq α] in
theorem own_nil (σ : State α V) : Own σ.next [] σ := ⟨le_rfl, fun _ h => absurd h List.not_mem_nil⟩

theorem keeps_of_owned {s : Stmt α} {T : List α} (h : owned [] s = some T) : Keeps s :=
  fun _ σ _ hp => passes_sound hp h (own_nil σ)

theorem new_of_owned {s : Stmt α} {T : List α} (h : owned [] s = some T) {r : α} (hr : r ∈ T) : New s r :=
  fun _ σ _ he l hl => (exec_sound he h (own_nil σ)).1.2 r hr l hl

theorem keeps_of_check {s : Stmt α} (h : (owned [] s).isSome = true) : Keeps s := by
  obtain ⟨T, hT⟩ := Option.isSome_iff_exists.mp h
  exact keeps_of_owned hT

theorem new_of_check {s : Stmt α} {R : List α} (h : ((owned [] s).any fun T => R.all fun r => decide (r ∈ T)) = true) : ∀ r ∈ R, New s r := by
  obtain ⟨T, hT, hr⟩ := (Option.any_eq_true ..).mp h
  exact fun r hR => new_of_owned hT (by simpa using List.all_eq_true.mp hr r hR)

/-! ## Examples of executions -/

/-- The execution with the given branches (`true`: the first one; the first one if none is given), without repetitions of loops, and with `v` stored
everywhere. `none`: a name that is written refers to no object. -/
def eval (v : V) : Stmt α → List Bool → State α V → Option (List Bool × State α V)
  | .skip, c, σ => some (c, σ)
  | .fresh x, c, σ => some (c, σ.alloc x v)
  | .view x y, c, σ => some (c, σ.bind x (σ.env y))
  | .reshape x y, c, σ => some (c, σ.bind x (σ.env y))
  | .write x, c, σ => (σ.env x).map fun l => (c, σ.store l v)
  | .seq a b, c, σ => (eval v a c σ).bind fun p => eval v b p.1 p.2
  | .choice a _, [], σ => eval v a [] σ
  | .choice a _, true :: c, σ => eval v a c σ
  | .choice _ b, false :: c, σ => eval v b c σ
  | .loop _, c, σ => some (c, σ)

theorem eval_exec (v : V) (s : Stmt α) : ∀ (c d : List Bool) (σ τ : State α V), eval v s c σ = some (d, τ) → Exec s σ τ := by
  induction s with
  | skip => intro c d σ τ h; cases h; exact .skip _
  | fresh x => intro c d σ τ h; cases h; exact .fresh _ _ _
  | view x y => intro c d σ τ h; cases h; exact .view _ _ _
  | reshape x y => intro c d σ τ h; cases h; exact .reshapeView _ _ _
  | write x =>
    intro c d σ τ h
    unfold eval at h
    obtain ⟨l, hl, e⟩ := Option.map_eq_some_iff.mp h
    cases e
    exact .write _ _ _ _ hl
  | seq a b iha ihb =>
    intro c d σ τ h
    unfold eval at h
    obtain ⟨p, hp, hq⟩ := Option.bind_eq_some_iff.mp h
    exact .seq (iha _ _ _ _ hp) (ihb _ _ _ _ hq)
  | choice a b iha ihb =>
    intro c d σ τ h
    match c with
    | [] => exact .left (iha _ _ _ _ h)
    | true :: c => exact .left (iha _ _ _ _ h)
    | false :: c => exact .right (ihb _ _ _ _ h)
  | loop a => intro c d σ τ h; cases h; exact .stop _ _

/-- The state of a caller whose objects are the arguments, in order. -/
def start (params : List α) : State α Unit where
  env x := if x ∈ params then some (params.idxOf x) else none
  mem _ := ()
  next := params.length

theorem exec_of_eval {s : Stmt α} {c : List Bool} {P : List α} (h : (eval () s c (start P)).isSome = true) : ∃ τ, Exec s (start P) τ := by
  obtain ⟨p, hp⟩ := Option.isSome_iff_exists.mp h
  exact ⟨p.2, eval_exec () s c p.1 _ _ hp⟩

theorem not_new_of_eval {s : Stmt α} {c : List Bool} {P : List α} {r : α} {k : ℕ}
    (h : ((eval () s c (start P)).any fun p => decide (p.2.env r = some k ∧ k < P.length)) = true) : ¬ New s r := by
  obtain ⟨p, hp, hk⟩ := (Option.any_eq_true ..).mp h
  have hk := of_decide_eq_true hk
  intro hN
  exact absurd (hN Unit _ _ (eval_exec () s c p.1 _ p.2 hp) k hk.1) (Nat.not_le.mpr hk.2)

/-! ## Calls -/

/-- Other names. -/
def Stmt.map (f : β → α) : Stmt β → Stmt α
  | .skip => .skip
  | .fresh x => .fresh (f x)
  | .view x y => .view (f x) (f y)
  | .reshape x y => .reshape (f x) (f y)
  | .write x => .write (f x)
  | .seq a b => .seq (a.map f) (b.map f)
  | .choice a b => .choice (a.map f) (b.map f)
  | .loop a => .loop (a.map f)

/-- Statements one after the other. -/
def block : List (Stmt α) → Stmt α
  | [] => .skip
  | s :: t => .seq s (block t)

/-- A call: arguments are bound to the parameters, results to names of the caller. `f` gives the names of the callee in the caller. -/
def call (f : β → α) (args : List (β × α)) (body : Stmt β) (res : List (α × β)) : Stmt α :=
  block (args.map (fun p => .view (f p.1) p.2) ++ [body.map f] ++ res.map (fun p => .view p.1 (f p.2)))

/-- `if`, without an `else` branch. -/
def opt (s : List (Stmt α)) : Stmt α := .choice (block s) .skip

end Verif.Memory
