import Verif.Spec.Contracts

/-! # Specification: leverage scores -/

namespace PW
open Matrix
variable {m n : ℕ}

/-- The leverage score of row `i` of `M`: the `i`-th diagonal entry of the orthogonal projection
`M (MᵀM)⁻¹ Mᵀ` on the column space. -/
noncomputable def lev (M : Matrix (Fin m) (Fin n) ℝ) (i : Fin m) : ℝ := (M * (Mᵀ * M)⁻¹ * Mᵀ) i i

/-- `diag(1/(b - A x)) A`: every constraint normal divided by its slack. -/
noncomputable def normals (x : Fin n → ℝ) (A : Matrix (Fin m) (Fin n) ℝ) (b : Fin m → ℝ) :
    Matrix (Fin m) (Fin n) ℝ := fun i j => A i j / (b i - (A *ᵥ x) i)

/-- `diag(w^p) M`. -/
noncomputable def scaledRows (w : Fin m → ℝ) (p : ℝ) (M : Matrix (Fin m) (Fin n) ℝ) :
    Matrix (Fin m) (Fin n) ℝ := fun i j => w i ^ p * M i j

/-- `A diag(1/g)`: column `i` of `A` divided by `g i`. -/
noncomputable def colScaled (A : Matrix (Fin m) (Fin n) ℝ) (g : Fin n → ℝ) : Matrix (Fin m) (Fin n) ℝ :=
  fun r i => A r i / g i

/-- `1 - aᵢᵀ (M Mᵀ)⁻¹ aᵢ`, `aᵢ` the `i`-th column of `M`: the `i`-th diagonal entry of the orthogonal
projection on the kernel of `M`. -/
noncomputable def colev (M : Matrix (Fin m) (Fin n) ℝ) (i : Fin n) : ℝ :=
  1 - (fun r => M r i) ⬝ᵥ ((M * Mᵀ)⁻¹ *ᵥ fun r => M r i)

end PW
