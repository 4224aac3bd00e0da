import Verif.Spec.Rounding
import Verif.Model.Rng
import Mathlib.Analysis.Real.Sqrt

/-!
# Specification: division, square roots and small integers in floating point

What theorems about the chord search of Hit-and-Run assume of the arithmetic beside `Rounding`. `Verif/Lemmas/IeeeOps.lean` proves it for IEEE arithmetic.
-/

namespace PW

/-- Rounded division and square root; the integers up to 2 are exact. -/
structure RoundingOps (F : Type) [Scalar F] (ext : F → Option EReal) (u θ Ω : ℝ) : Prop extends Rounding F ext u θ Ω where
  /-- a finite quotient by a finite number is the rounded quotient -/
  div : ∀ (a b : F) (y r : ℝ), ext b = some (y : EReal) → y ≠ 0 → ext (a / b) = some (r : EReal) →
    ∃ x : ℝ, ext a = some (x : EReal) ∧ |r - x / y| ≤ u * |x / y| + θ
  /-- a finite square root is the rounded root of a nonnegative number -/
  sqrt : ∀ (a : F) (r : ℝ), ext (Scalar.sqrt a) = some (r : EReal) →
    ∃ x : ℝ, ext a = some (x : EReal) ∧ 0 ≤ x ∧ 0 ≤ r ∧ |r - Real.sqrt x| ≤ u * Real.sqrt x + θ
  /-- no overflow below `Ω` -/
  sqrt_fin : ∀ (a : F) (x : ℝ), ext a = some (x : EReal) → 0 ≤ x → x ≤ Ω → ∃ r : ℝ, ext (Scalar.sqrt a) = some (r : EReal)
  /-- small integers are exact -/
  ofInt : ∀ z : Int, |z| ≤ 2 → ext (Scalar.ofInt z) = some ((z : ℝ) : EReal)

/-- What is needed beside `RoundingOps` to show that nothing overflows or becomes NaN. -/
structure RoundingFull (F : Type) [Scalar F] (ext : F → Option EReal) (u θ Ω : ℝ) : Prop extends RoundingOps F ext u θ Ω where
  /-- no overflow below `Ω` -/
  div_fin : ∀ (a b : F) (x y : ℝ), ext a = some (x : EReal) → ext b = some (y : EReal) → y ≠ 0 → |x / y| ≤ Ω →
    ∃ r : ℝ, ext (a / b) = some (r : EReal)
  /-- a computed square is not negative -/
  mul_self : ∀ (a : F) (r : ℝ), ext (a * a) = some (r : EReal) → 0 ≤ r
  /-- changing the sign is exact -/
  neg : ∀ (a : F) (x : ℝ), ext a = some (x : EReal) → ext (-a) = some ((-x : ℝ) : EReal)

/-- Arithmetic fine enough for chord searches of at most `N` steps in dimension `n`, for coordinates up to `B`. In binary64 this holds when
`640 n (n + N + 10) ≤ 2⁵³` and `2⁻⁴⁸⁴ ≤ B` (`fineFor_binary64`). -/
structure FineFor (u θ B : ℝ) (n N : ℕ) : Prop where
  dim : 1 ≤ n
  pos : 0 < B
  /-- the errors of a sum of `n` terms and of `N` bisections are small -/
  u_small : (n + N + 10) * u ≤ 1 / 100
  /-- underflow is negligible -/
  θ_u : n * θ ≤ u
  θ_B : θ ≤ u * B
  θ_sq : θ ≤ (u * B) ^ 2

open Finset in
/-- The random numbers of one iteration: a Gaussian vector that is finite, not zero, and whose norm neither underflows nor overflows;
a uniform number in `[0, 1]`. -/
structure Rng.DrawsOk {F : Type} (r : Rng F) (ext : F → Option EReal) (u θ Ω : ℝ) (n : ℕ) (g : r.G) : Prop where
  gaussian : ∃ v : Fin n → ℝ, HasValues ext (r.gaussian n g).1 v ∧ 0 < ∑ j, v j ^ 2 ∧ n * θ ≤ u * ∑ j, v j ^ 2 ∧ 2 * ∑ j, v j ^ 2 ≤ Ω
  uniform : ∃ y : ℝ, ext (r.uniform (r.gaussian n g).2).1 = some (y : EReal) ∧ 0 ≤ y ∧ y ≤ 1

end PW
