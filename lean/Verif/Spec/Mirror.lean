import Verif.Spec.SameLaw

/-!
# Specification: mirror images of a polytope
-/

namespace PW
open MeasureTheory

/-- `y` with some coordinates negated (`s j = -1`) and then moved by `v`. -/
def mirror {n : ℕ} (s v y : Fin n → ℝ) : Fin n → ℝ := fun j => s j * y j + v j

/-- `A' x ≤ b'` lists the images of the constraints of `A x ≤ b` under `mirror s v`, in any order: constraint `i` of the first is constraint `π i` of the
second. -/
structure Mirrored {m n : ℕ} (s v : Fin n → ℝ) (π : Equiv.Perm (Fin m)) (A : Matrix (Fin m) (Fin n) ℝ) (b : Fin m → ℝ) (A' : Matrix (Fin m) (Fin n) ℝ)
    (b' : Fin m → ℝ) : Prop where
  /-- every coordinate is kept or negated -/
  sign : ∀ j, s j = 1 ∨ s j = -1
  mat : ∀ i j, A' (π i) j = A i j * s j
  rhs : ∀ i, b' (π i) = b i + ∑ j, A' (π i) j * v j

/-- Errors to either side are equally likely: the average of coordinate `j` over the rows of a call is at most `c - a` with exactly the probability with
which it is at least `c + a`, for every `a`, every number of rows and every seed. -/
def Balanced {m n : ℕ} (w : Walk ℝ) (e : Env ℝ) [MeasurableSpace e.r.G] (μ : Measure e.r.G) (A : Matrix (Fin m) (Fin n) ℝ) (b : Fin m → ℝ)
    (x : Fin n → ℝ) (k : Int) (j : Fin n) (c : ℝ) : Prop :=
  ∀ niter burnin thin seed : Int, GoodInts niter burnin thin → ∀ L : ℕ, (niter - burnin) / thin = L → 0 < L → ∀ a : ℝ,
    rowsProb w e μ (callArgs A b x niter k burnin thin seed) {p : Fin L → Fin n → ℝ | (∑ i, p i j) / L ≤ c - a} =
      rowsProb w e μ (callArgs A b x niter k burnin thin seed) {p : Fin L → Fin n → ℝ | c + a ≤ (∑ i, p i j) / L}

/-- The values of coordinate `j` in the rows of a call, taken together, have the law of those of coordinate `j'`. -/
def Alike {m n : ℕ} (w : Walk ℝ) (e : Env ℝ) [MeasurableSpace e.r.G] (μ : Measure e.r.G) (A : Matrix (Fin m) (Fin n) ℝ) (b : Fin m → ℝ)
    (x : Fin n → ℝ) (k : Int) (j j' : Fin n) : Prop :=
  ∀ niter burnin thin seed : Int, GoodInts niter burnin thin → ∀ (L : ℕ) (S : Set (Fin L → ℝ)), MeasurableSet S → (niter - burnin) / thin = L →
    rowsProb w e μ (callArgs A b x niter k burnin thin seed) {p : Fin L → Fin n → ℝ | (fun i => p i j) ∈ S} =
      rowsProb w e μ (callArgs A b x niter k burnin thin seed) {p : Fin L → Fin n → ℝ | (fun i => p i j') ∈ S}

end PW
