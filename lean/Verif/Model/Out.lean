/-!
# Outcomes of C++ calls and machine integers

Models the control-flow outcomes of the code in `/repo/src`: normal return, C++ exception,
undefined behaviour, and "still running" (fuel exhausted).
-/

namespace PW

/-- Exceptions thrown by the library.
`badK`: `throw std::invalid_argument("Parameter k must be between 1 and the number of columns in A.")`
(src/sparse/SparseBallWalk.cpp:13-15 and the other `k` checks);
`badDims`: `throw std::invalid_argument("A, b, and init do not match in dimension.")`
(src/dense/BallWalk.cpp:7-9 and the other dimension checks);
`pureVirtual`: the error pybind11 raises for a missing override (`PYBIND11_OVERRIDE_PURE`, pybind11/PybindExt.cpp:10, 78);
`python`: an error raised by Python code. -/
inductive Exn
  | badK
  | badDims
  | pureVirtual
  | python
  deriving DecidableEq, Repr

/-- Kinds of undefined behaviour (or failed Eigen assertion) made explicit by the model. -/
inductive UB
  /-- signed `int` overflow -/
  | signedOverflow
  /-- integer division or remainder by zero -/
  | divByZero
  /-- Eigen object created with a negative size -/
  | negativeSize
  /-- Eigen element / row / block access out of range -/
  | indexOutOfRange
  /-- Eigen coefficient-wise operation or product on objects of different sizes -/
  | sizeMismatch
  /-- `maxCoeff`/`minCoeff` of an empty object -/
  | emptyReduction
  /-- GLPK error exit (`xerror` aborts the process), e.g. `glp_add_rows(lp, 0)` -/
  | glpkAbort
  deriving DecidableEq, Repr

/-- Outcome of a C++ call. -/
inductive Out (α : Type u) : Type u
  /-- normal return -/
  | ok (a : α)
  /-- a C++ exception -/
  | throws (e : Exn)
  /-- undefined behaviour was reached -/
  | ub (u : UB)
  /-- the fuel of a `while (true)` / `while (cond)` loop or of a recursion ran out -/
  | timeout
  deriving DecidableEq, Repr

namespace Out

/-- Sequencing. -/
def bind {α : Type u} {β : Type v} (x : Out α) (f : α → Out β) : Out β :=
  match x with
  | ok a => f a
  | throws e => throws e
  | ub u => ub u
  | timeout => timeout

/-- Map over a normal return. -/
def map {α : Type u} {β : Type v} (f : α → β) (x : Out α) : Out β := x.bind (fun a => ok (f a))

instance : Monad Out where
  pure := Out.ok
  bind := Out.bind

@[simp] theorem pure_eq {α : Type u} (a : α) : (pure a : Out α) = ok a := rfl
@[simp] theorem bind_eq {α β : Type u} (x : Out α) (f : α → Out β) : (x >>= f) = x.bind f := rfl
@[simp] theorem ok_bind {α : Type u} {β : Type v} (a : α) (f : α → Out β) :
    (ok a).bind f = f a := rfl
@[simp] theorem throws_bind {α : Type u} {β : Type v} (e : Exn) (f : α → Out β) :
    (throws e : Out α).bind f = throws e := rfl
@[simp] theorem ub_bind {α : Type u} {β : Type v} (e : UB) (f : α → Out β) :
    (ub e : Out α).bind f = ub e := rfl
@[simp] theorem timeout_bind {α : Type u} {β : Type v} (f : α → Out β) :
    (timeout : Out α).bind f = timeout := rfl
@[simp] theorem map_ok {α : Type u} {β : Type v} (f : α → β) (a : α) : (ok a).map f = ok (f a) := rfl
@[simp] theorem map_throws {α : Type u} {β : Type v} (f : α → β) (e : Exn) :
    (throws e : Out α).map f = throws e := rfl
@[simp] theorem map_ub {α : Type u} {β : Type v} (f : α → β) (e : UB) :
    (ub e : Out α).map f = ub e := rfl
@[simp] theorem map_timeout {α : Type u} {β : Type v} (f : α → β) :
    (timeout : Out α).map f = timeout := rfl

theorem bind_assoc {α : Type u} {β : Type v} {γ : Type w} (x : Out α) (f : α → Out β)
    (g : β → Out γ) : (x.bind f).bind g = x.bind (fun a => (f a).bind g) := by
  cases x <;> rfl

@[simp] theorem bind_ok {α : Type u} (x : Out α) : x.bind ok = x := by cases x <;> rfl

theorem bind_eq_ok {α : Type u} {β : Type v} {x : Out α} {f : α → Out β} {b : β} :
    x.bind f = ok b ↔ ∃ a, x = ok a ∧ f a = ok b := by
  cases x <;> simp

theorem map_eq_ok {α : Type u} {β : Type v} {x : Out α} {f : α → β} {b : β} :
    x.map f = ok b ↔ ∃ a, x = ok a ∧ f a = b := by
  cases x <;> simp

instance : LawfulMonad Out := LawfulMonad.mk'
  (id_map := fun x => by cases x <;> rfl)
  (pure_bind := fun _ _ => rfl)
  (bind_assoc := fun x _ _ => by cases x <;> rfl)
  (map_const := fun _ _ => rfl)
  (seqLeft_eq := fun x y => by cases x <;> cases y <;> rfl)
  (seqRight_eq := fun x y => by cases x <;> cases y <;> rfl)
  (bind_pure_comp := fun _ _ => rfl)
  (bind_map := fun _ _ => rfl)

end Out

/-! ### 32-bit `int` -/

/-- `INT_MIN`. -/
def intMin : Int := -2147483648
/-- `INT_MAX`. -/
def intMax : Int := 2147483647

/-- The values an `int` parameter can have. -/
def IsInt (z : Int) : Prop := intMin ≤ z ∧ z ≤ intMax

instance (z : Int) : Decidable (IsInt z) := inferInstanceAs (Decidable (_ ∧ _))

/-- Result of a signed `int` operation whose mathematical value is `z`
(C++: out of range is undefined behaviour). -/
def toInt (z : Int) : Out Int := if IsInt z then .ok z else .ub .signedOverflow

/-- `int` division, truncating towards zero. -/
def intDiv (a b : Int) : Out Int := if b = 0 then .ub .divByZero else toInt (Int.tdiv a b)

/-- `int` remainder (sign of the dividend). `INT_MIN % -1` is undefined as well. -/
def intMod (a b : Int) : Out Int :=
  if b = 0 then .ub .divByZero
  else if IsInt (Int.tdiv a b) then .ok (Int.tmod a b) else .ub .signedOverflow

end PW
