import Verif.Props.Renumber
import Verif.Props.Mirror

/-!
# C112, sparse walks: interchangeable variables are treated alike

If the polytope and the starting point do not change when the variables are renumbered by `σ` (for example the simplex and its centre), what is returned for a
variable has the law of what is returned for the variable in its place.
-/

namespace PW
open Matrix MeasureTheory Set

section
variable {m n : ℕ} (e : Env ℝ) [MeasurableSpace e.r.G] (μ : Measure e.r.G)
  {σ : Equiv.Perm (Fin n)} {k : Int} {A : Matrix (Fin m) (Fin n) ℝ} (b : Fin m → ℝ) {x : Fin n → ℝ} (hfix : reorder σ x = x) (j : Fin n)
include hfix

theorem alike_of {w : Walk ℝ} (h : SameLaw w e μ A b x k w e μ A b (reorder σ x) k (reorder σ)) : Alike w e μ A b x k j (σ j) := by
  rw [hfix] at h
  intro niter burnin thin seed hg L S hS hL
  have mS : MeasurableSet {p : Fin L → Fin n → ℝ | (fun i => p i j) ∈ S} :=
    (measurable_pi_lambda (fun (p : Fin L → Fin n → ℝ) i => p i j) fun i => (measurable_pi_apply j).comp (measurable_pi_apply i)) hS
  rw [h.rows niter burnin thin seed seed hg L _ mS hL]
  rfl

variable (hs : IdealSource e.r μ) (hσ : Renumbered σ k.toNat A A) (hA : IndepRows A) (hk : 1 ≤ k ∧ k ≤ n)
include hs hσ hA hk

/-- **C112** (`SparseBallWalk`). -/
theorem C112_sparse_ball (R : ℝ) {E : Eigen ℝ} (hE : E.SparseLUExact) : Alike (.sparseBall R E) e μ A b x k j (σ j) :=
  alike_of e μ b hfix j (C111_ball e μ hs e μ hs hσ hA b hk R hE hE x)

/-- **C112** (`SparseHitAndRun`), from a relative interior point, when the polytope is not wider than `2^10000` radii (C62). -/
theorem C112_sparse_hitrun (R ERR : ℝ) (hE : 0 < ERR) {E : Eigen ℝ} (hL : E.SparseLUExact) (hmn : m + 2 ≤ n)
    (hD : ∀ y ∈ PolyEq A b k.toNat, ∀ z ∈ PolyEq A b k.toNat, ∑ i, (y i - z i) ^ 2 < (2 ^ 10000 * |R|) ^ 2)
    (hxA : A *ᵥ x = b) (hx : x ∈ TailPos n k.toNat) : Alike (.sparseHitRun R ERR E) e μ A b x k j (σ j) :=
  alike_of e μ b hfix j (C111_hitrun e μ hs e μ hs hσ hA b hk R ERR hE hL hL hmn hD x hxA hx)

section
variable (E : Eigen ℝ) (hE : E.Exact) (ERR : ℝ) (hR : 0 < ERR) (R : ℝ) (hr : R ≠ 0) (hmn : m < n)
  (hb : ∃ M, ∀ y ∈ PolyEq A b k.toNat, ∀ i, |y i| ≤ M) (hxA : A *ᵥ x = b) (hx : x ∈ TailPos n k.toNat) (o : BState ℝ)
include hE hR hr hmn hb hxA hx

/-- **C112** (`SparseDikinWalk`). -/
theorem C112_sparse_dikin : Alike (.sparseBarrier (sparseDikinClass R) ERR E o) e μ A b x k j (σ j) :=
  alike_of e μ b hfix j (C111_dikin e μ hs e μ hs hσ hA b hk E E hE hE ERR hR R hr hmn hb x hxA hx o o)

/-- **C112** (`SparseVaidyaWalk`), when the `int` product `k * (cols - rows)` does not overflow. -/
theorem C112_sparse_vaidya (hov : k * ((n : Int) - m) ≤ 2 ^ 31 - 1) : Alike (.sparseBarrier (sparseVaidyaClass E ERR R) ERR E o) e μ A b x k j (σ j) :=
  alike_of e μ b hfix j (C111_vaidya e μ hs e μ hs hσ hA b hk E E hE hE ERR hR R hr hmn hb x hxA hx o o hov)

end
end

/-! ## A concrete case: the simplex from its centre, all three variables -/

section
open PW.RealToy

example := C112_sparse_ball streamEnv streamLaw (fun _ => 1) (rfl : reorder (finRotate 3) (fun _ => 1 / 3) = fun _ => 1 / 3) 0 streamRng_ideal ones3_renumbered
  ones3_indep ⟨by decide, by decide⟩ 1 exactEigen_exact.sparseLU
example := C112_sparse_hitrun streamEnv streamLaw (fun _ => 1) (rfl : reorder (finRotate 3) (fun _ => 1 / 3) = fun _ => 1 / 3) 1 streamRng_ideal ones3_renumbered
  ones3_indep ⟨by decide, by decide⟩ 1 (1 / 100) (by norm_num) exactEigen_exact.sparseLU (by decide) simplex_narrow simplex_start third_pos
example := C112_sparse_dikin streamEnv streamLaw (fun _ => 1) (rfl : reorder (finRotate 3) (fun _ => 1 / 3) = fun _ => 1 / 3) 0 streamRng_ideal ones3_renumbered
  ones3_indep ⟨by decide, by decide⟩ exactEigen exactEigen_exact 1 one_pos (1 / 2) (by norm_num) (by decide) simplex_bdd simplex_start third_pos (BState.fresh 0)
example := C112_sparse_vaidya streamEnv streamLaw (fun _ => 1) (rfl : reorder (finRotate 3) (fun _ => 1 / 3) = fun _ => 1 / 3) 2 streamRng_ideal ones3_renumbered
  ones3_indep ⟨by decide, by decide⟩ exactEigen exactEigen_exact 1 one_pos (1 / 2) (by norm_num) (by decide) simplex_bdd simplex_start third_pos (BState.fresh 0)
  (by decide)

end

end PW
