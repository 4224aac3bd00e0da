import Verif.Spec.Polytope
import Mathlib.Algebra.Order.Field.Basic
import Mathlib.Analysis.SpecialFunctions.Pow.Real

/-!
# Specification: where a chord ends, and the chord ends that trap the search
-/

namespace PW
variable {n : ℕ}

/-- The ray `x + t u`, `t ≥ 0`, is in `K` exactly for `t ≤ e`. -/
def ChordEnd (K : Set (Fin n → ℝ)) (x u : Fin n → ℝ) (e : ℝ) : Prop :=
  0 ≤ e ∧ ∀ t, 0 ≤ t → (ray x u t ∈ K ↔ t ≤ e)

/-- The chord length `e` is a multiple of `2 T / 2^J`, where `T` is the first of `2|R|, 4|R|, 8|R|, …` beyond
`e` and `J` is the number of halvings that bring `T` down to `ERR`. -/
def Trapped (R ERR e : ℝ) : Prop :=
  ∃ p J i : ℕ, 1 ≤ p ∧ e < 2 ^ p * |R| ∧ (∀ q, 1 ≤ q → q < p → 2 ^ q * |R| ≤ e) ∧
    2 ^ p * |R| ≤ ERR * 2 ^ J ∧ (∀ j, j < J → ERR * 2 ^ j < 2 ^ p * |R|) ∧
    e = i * (2 * (2 ^ p * |R|) / 2 ^ J)

/-- A draw `v` of dense Hit-and-Run at `x` succeeds: it is not zero and both chord searches along it have an
untrapped end. -/
def DrawEnds (K : Set (Fin n → ℝ)) (R ERR : ℝ) (x v : Fin n → ℝ) : Prop :=
  v ≠ 0 ∧ R ≠ 0 ∧ 0 < ERR ∧
    (∃ e, ChordEnd K x (fun i => v i / Real.sqrt (∑ j, v j * v j)) e ∧ ¬ Trapped R ERR e) ∧
    ∃ e, ChordEnd K x (fun i => -(v i / Real.sqrt (∑ j, v j * v j))) e ∧ ¬ Trapped R ERR e

/-- The sparse search from `x` along `u` ends: it gives up after 10000 doublings, or the chord has an
untrapped end. -/
def SparseSearchEnds (K : Set (Fin n → ℝ)) (R ERR : ℝ) (x u : Fin n → ℝ) : Prop :=
  (∀ q : ℕ, 1 ≤ q → q ≤ 10000 → ray x u (2 ^ q * |R|) ∈ K) ∨
    (0 < ERR ∧ ∃ e, ChordEnd K x u e ∧ ¬ Trapped R ERR e)

/-- A projected draw `v` of sparse Hit-and-Run at `x` succeeds. -/
def SparseDrawEnds (K : Set (Fin n → ℝ)) (R ERR : ℝ) (x v : Fin n → ℝ) : Prop :=
  v = 0 ∨ (SparseSearchEnds K R ERR x (fun i => v i / Real.sqrt (∑ j, v j * v j)) ∧
    SparseSearchEnds K R ERR x (fun i => -(v i / Real.sqrt (∑ j, v j * v j))))

end PW
