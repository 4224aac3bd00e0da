import Verif.Model.Scalar
import Mathlib.Data.EReal.Basic
import Mathlib.Algebra.BigOperators.Group.Finset.Basic

/-!
# Specification: floating-point arithmetic

What theorems about rounding assume of the arithmetic: the standard model of floating-point arithmetic with infinities, NaN and
gradual underflow. `Verif/Lemmas/Ieee.lean` proves it for a definition of IEEE arithmetic.
-/

namespace PW

/-- `ext a` is the value of `a` (`none` if `a` is NaN). `u` is the relative rounding error, `θ` the absolute error of a product that
underflows, `Ω` a bound below which nothing overflows. -/
structure Rounding (F : Type) [Scalar F] (ext : F → Option EReal) (u θ Ω : ℝ) : Prop where
  u_nonneg : 0 ≤ u
  u_lt_one : u < 1
  θ_nonneg : 0 ≤ θ
  /-- the literal `0` -/
  zero : ext 0 = some 0
  /-- `<=` compares values and is false on NaN -/
  le_iff : ∀ a b : F, Scalar.le a b = true ↔ ∃ x y, ext a = some x ∧ ext b = some y ∧ x ≤ y
  /-- so does `<` -/
  lt_iff : ∀ a b : F, Scalar.lt a b = true ↔ ∃ x y, ext a = some x ∧ ext b = some y ∧ x < y
  /-- a finite sum is the rounded sum of finite numbers -/
  add : ∀ (a b : F) (r : ℝ), ext (a + b) = some (r : EReal) →
    ∃ x y : ℝ, ext a = some (x : EReal) ∧ ext b = some (y : EReal) ∧ |r - (x + y)| ≤ u * |x + y|
  /-- and so for differences -/
  sub : ∀ (a b : F) (r : ℝ), ext (a - b) = some (r : EReal) →
    ∃ x y : ℝ, ext a = some (x : EReal) ∧ ext b = some (y : EReal) ∧ |r - (x - y)| ≤ u * |x - y|
  /-- products may underflow -/
  mul : ∀ (a b : F) (r : ℝ), ext (a * b) = some (r : EReal) →
    ∃ x y : ℝ, ext a = some (x : EReal) ∧ ext b = some (y : EReal) ∧ |r - x * y| ≤ u * |x * y| + θ
  /-- no overflow below `Ω` -/
  add_fin : ∀ (a b : F) (x y : ℝ), ext a = some (x : EReal) → ext b = some (y : EReal) → |x + y| ≤ Ω →
    ∃ r : ℝ, ext (a + b) = some (r : EReal)
  /-- no overflow below `Ω` -/
  sub_fin : ∀ (a b : F) (x y : ℝ), ext a = some (x : EReal) → ext b = some (y : EReal) → |x - y| ≤ Ω →
    ∃ r : ℝ, ext (a - b) = some (r : EReal)
  /-- no overflow below `Ω` -/
  mul_fin : ∀ (a b : F) (x y : ℝ), ext a = some (x : EReal) → ext b = some (y : EReal) → |x * y| ≤ Ω →
    ∃ r : ℝ, ext (a * b) = some (r : EReal)
  /-- NaN propagates -/
  add_nan : ∀ a b : F, ext a = none ∨ ext b = none → ext (a + b) = none
  /-- NaN propagates -/
  sub_nan : ∀ a b : F, ext a = none ∨ ext b = none → ext (a - b) = none
  /-- NaN propagates -/
  mul_nan : ∀ a b : F, ext a = none ∨ ext b = none → ext (a * b) = none

/-- The numbers `x j` are finite with real values `y j`. -/
def HasValues {F ι : Type} (ext : F → Option EReal) (x : ι → F) (y : ι → ℝ) : Prop := ∀ j, ext (x j) = some (y j : EReal)

/-- `SumOf v s d a`: `a` is a sum of the `v i`, `i ∈ s`, computed in some order by additions nested at most `d` deep (a zero may be
added as well, as the accumulators of the usual loops do). -/
inductive SumOf {F ι : Type} [Scalar F] [DecidableEq ι] (v : ι → F) : Finset ι → ℕ → F → Prop
  | zero : SumOf v ∅ 0 0
  | single (i : ι) : SumOf v {i} 0 (v i)
  | add {s t : Finset ι} {d e : ℕ} {a b : F} (h : Disjoint s t) (hs : SumOf v s d a) (ht : SumOf v t e b) :
      SumOf v (s ∪ t) (max d e + 1) (a + b)

open Finset in
/-- How far rounding can move the computed value of `∑ⱼ αⱼ ξⱼ` (`n` products, additions nested `d` deep). -/
def dotError {n : ℕ} (u θ : ℝ) (d : ℕ) (α ξ : Fin n → ℝ) : ℝ := ((1 + u) ^ (d + 1) - 1) * ∑ j, |α j * ξ j| + (1 + u) ^ d * (n * θ)

open Finset in
/-- Nothing overflows when `∑ⱼ αⱼ ξⱼ - β` is computed. -/
def NoOverflow {n : ℕ} (u θ Ω : ℝ) (d : ℕ) (α ξ : Fin n → ℝ) (β : ℝ) : Prop := (1 + u) ^ (d + 1) * (∑ j, |α j * ξ j| + n * θ) + |β| ≤ Ω

end PW
