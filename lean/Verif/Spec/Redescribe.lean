import Verif.Spec.Polytope

/-!
# Specification: two descriptions of the same polytope
-/

namespace PW
variable {m n : ℕ}

/-- `A' y ≤ b'` are the inequalities `A x ≤ b` of the polytope moved by `v`, listed in the order `σ` and multiplied by the
factors `c`. -/
structure Redescribed (σ : Equiv.Perm (Fin m)) (c : Fin m → ℝ) (v : Fin n → ℝ) (A : Matrix (Fin m) (Fin n) ℝ) (b : Fin m → ℝ)
    (A' : Matrix (Fin m) (Fin n) ℝ) (b' : Fin m → ℝ) : Prop where
  pos : ∀ i, 0 < c i
  mat : ∀ i j, A' i j = c i * A (σ i) j
  rhs : ∀ i, b' i = c i * (b (σ i) + ∑ j, A (σ i) j * v j)

end PW
