import Verif.Model.Scalar
import Mathlib.Data.Int.Log
import Mathlib.Data.EReal.Basic
import Mathlib.Algebra.Order.Floor.Ring

/-!
# IEEE 754 binary floating point

The arithmetic of the `double`s of /repo/src, defined over the reals: round to nearest, ties to even, gradual underflow, overflow to
infinity, NaN. `Ieee 53 (-1074) 1023` is binary64. Simplifications: one unsigned zero (so `1 / 0` is `+∞`); `exp`, `log`, `log2`,
`pow` are correctly rounded; `pow` of infinities is NaN; no NaN payloads or exception flags. Models no lines of /repo: the semantics of
the type `double` used throughout.
-/

namespace PW
open Classical

/-- Nearest integer, ties to even. -/
noncomputable def rint (z : ℝ) : ℤ :=
  if Int.fract z < 1 / 2 then ⌊z⌋ else if 1 / 2 < Int.fract z then ⌊z⌋ + 1 else if Even ⌊z⌋ then ⌊z⌋ else ⌊z⌋ + 1

/-- Exponent of the last place of numbers near `x`, with `p` bits of precision and smallest exponent `emin`. -/
noncomputable def ulpExp (p : ℕ) (emin : ℤ) (x : ℝ) : ℤ := max (Int.log 2 |x| - (p - 1)) emin

/-- Round to the format. -/
noncomputable def rnd (p : ℕ) (emin : ℤ) (x : ℝ) : ℝ := rint (x / 2 ^ ulpExp p emin x) * 2 ^ ulpExp p emin x

/-- A multiple of the smallest positive number. -/
def OnGrid (emin : ℤ) (x : ℝ) : Prop := ∃ z : ℤ, x = z * (2 : ℝ) ^ emin

/-- A floating-point datum: `p` bits of precision, multiples of `2 ^ emin`, magnitudes below `2 ^ (emax + 1)`. (The type
also contains multiples of `2 ^ emin` that do not fit the format; results of operations do. Theorems about all data cover both.) -/
inductive Ieee (p : ℕ) (emin emax : ℤ) : Type
  | num (x : ℝ) (h : OnGrid emin x)
  | inf (neg : Prop)
  | nan

namespace Ieee
variable {p : ℕ} {emin emax : ℤ}

theorem ulpExp_ge (p : ℕ) (emin : ℤ) (x : ℝ) : emin ≤ ulpExp p emin x := le_max_right _ _

theorem rnd_grid (p : ℕ) (emin : ℤ) (x : ℝ) : OnGrid emin (rnd p emin x) := by
  obtain ⟨k, hk⟩ := Int.eq_ofNat_of_zero_le (sub_nonneg.2 (ulpExp_ge p emin x))
  refine ⟨rint (x / 2 ^ ulpExp p emin x) * 2 ^ k, ?_⟩
  unfold rnd
  have h2 : (2 : ℝ) ^ ulpExp p emin x = 2 ^ k * 2 ^ emin := by
    have : ulpExp p emin x = (k : ℤ) + emin := by omega
    rw [this, zpow_add₀ (by norm_num), zpow_natCast]
  push_cast
  rw [mul_assoc, ← h2]

/-- Round, overflowing to infinity. -/
noncomputable def round (x : ℝ) : Ieee p emin emax :=
  if |rnd p emin x| < 2 ^ (emax + 1) then .num (rnd p emin x) (rnd_grid p emin x) else .inf (x < 0)

/-- Zero. -/
def zero : Ieee p emin emax := .num 0 ⟨0, by simp⟩

/-- Addition. -/
noncomputable def add : Ieee p emin emax → Ieee p emin emax → Ieee p emin emax
  | num a _, num b _ => round (a + b)
  | inf s, inf t => if s = t then inf s else nan
  | inf s, num _ _ => inf s
  | num _ _, inf t => inf t
  | _, _ => nan

/-- Negation. -/
def neg : Ieee p emin emax → Ieee p emin emax
  | num a h => .num (-a) (by obtain ⟨z, hz⟩ := h; exact ⟨-z, by rw [hz]; push_cast; ring⟩)
  | inf s => inf (¬ s)
  | nan => nan

/-- Multiplication. -/
noncomputable def mul : Ieee p emin emax → Ieee p emin emax → Ieee p emin emax
  | num a _, num b _ => round (a * b)
  | inf s, inf t => inf (¬ (s ↔ t))
  | inf s, num b _ => if b = 0 then nan else inf (¬ (s ↔ b < 0))
  | num a _, inf t => if a = 0 then nan else inf (¬ (a < 0 ↔ t))
  | _, _ => nan

/-- Division (the sign of a zero divisor is ignored). -/
noncomputable def div : Ieee p emin emax → Ieee p emin emax → Ieee p emin emax
  | num a _, num b _ => if b = 0 then (if a = 0 then nan else inf (a < 0)) else round (a / b)
  | num _ _, inf _ => zero
  | inf s, num b _ => inf (¬ (s ↔ b < 0))
  | _, _ => nan

/-- The value: a real number or an infinity; `none` for NaN. -/
noncomputable def ext : Ieee p emin emax → Option EReal
  | num a _ => some (a : EReal)
  | inf s => some (if s then ⊥ else ⊤)
  | nan => none

/-- A comparison; false on NaN. -/
noncomputable def cmp (R : EReal → EReal → Prop) (a b : Ieee p emin emax) : Bool :=
  match ext a, ext b with
  | some x, some y => decide (R x y)
  | _, _ => false

/-- A function of one number: rounded on its domain `D`, `NaN` outside, `lo` and `hi` at the infinities. -/
noncomputable def fun1 (f : ℝ → ℝ) (D : ℝ → Prop) (lo hi : Ieee p emin emax) : Ieee p emin emax → Ieee p emin emax
  | num a _ => if D a then round (f a) else nan
  | inf s => if s then lo else hi
  | nan => nan

/-- The floating-point operations. -/
noncomputable instance instScalar (p : ℕ) (emin emax : ℤ) : Scalar (Ieee p emin emax) where
  zero := zero
  one := round 1
  add := add
  sub a b := add a (neg b)
  mul := mul
  div := div
  neg := neg
  ofInt z := round z
  sqrt := fun1 Real.sqrt (0 ≤ ·) nan (inf False)
  exp := fun1 Real.exp (fun _ => True) zero (inf False)
  log a := match a with
    | num x _ => if x = 0 then inf True else fun1 Real.log (0 ≤ ·) nan (inf False) a
    | _ => fun1 Real.log (0 ≤ ·) nan (inf False) a
  log2 a := match a with
    | num x _ => if x = 0 then inf True else fun1 (Real.logb 2) (0 ≤ ·) nan (inf False) a
    | _ => fun1 (Real.logb 2) (0 ≤ ·) nan (inf False) a
  pow a b := match a, b with
    | num x _, num y _ => if x < 0 ∧ ¬ ∃ z : ℤ, y = z then nan else if x = 0 ∧ y < 0 then inf False else round (x ^ y)
    | _, _ => nan
  abs a := match a with
    | num x h => if x < 0 then neg (num x h) else num x h
    | inf _ => inf False
    | nan => nan
  lt := cmp (· < ·)
  le := cmp (· ≤ ·)
  eq := cmp (· = ·)

end Ieee

/-- IEEE 754 binary64: the type `double`. -/
abbrev Binary64 := Ieee 53 (-1074) 1023

end PW
