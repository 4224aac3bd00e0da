import Verif.Lemmas.MeasMatrix
import Mathlib.Topology.Algebra.GroupWithZero
import Mathlib.Topology.Algebra.Monoid
import Mathlib.Topology.Instances.Matrix

/-! # Continuity of matrix expressions on a set, entry by entry -/

namespace PW
open Matrix
variable {X : Type} [TopologicalSpace X] {V : Set X} {m n l : ℕ}

/-- All entries are continuous on `V`. -/
def ContMat (V : Set X) (M : X → Matrix (Fin m) (Fin n) ℝ) : Prop := ∀ i j, ContinuousOn (fun x => M x i j) V

theorem ContMat.const (M : Matrix (Fin m) (Fin n) ℝ) : ContMat V fun _ : X => M := fun _ _ => continuousOn_const

theorem ContMat.congr {M M' : X → Matrix (Fin m) (Fin n) ℝ} (h : ContMat V M) (he : ∀ x ∈ V, M' x = M x) :
    ContMat V M' := fun i j => (h i j).congr fun x hx => by simp only [he x hx]

theorem ContMat.mul {M : X → Matrix (Fin m) (Fin n) ℝ} {M' : X → Matrix (Fin n) (Fin l) ℝ} (h : ContMat V M)
    (h' : ContMat V M') : ContMat V fun x => M x * M' x := by
  intro i j
  simp only [Matrix.mul_apply]
  exact continuousOn_finsetSum _ fun k _ => (h i k).mul (h' k j)

theorem ContMat.transpose {M : X → Matrix (Fin m) (Fin n) ℝ} (h : ContMat V M) : ContMat V fun x => (M x)ᵀ :=
  fun i j => h j i

theorem ContMat.diagonal {v : X → Fin n → ℝ} (h : ∀ i, ContinuousOn (fun x => v x i) V) :
    ContMat V fun x => Matrix.diagonal (v x) := by
  intro i j
  simp only [Matrix.diagonal_apply]
  by_cases hij : i = j
  · simp only [hij, if_true]; exact h j
  · simp only [hij, if_false]; exact continuousOn_const

theorem ContMat.det {M : X → Matrix (Fin n) (Fin n) ℝ} (h : ContMat V M) :
    ContinuousOn (fun x => (M x).det) V := by
  simp only [Matrix.det_apply]
  exact continuousOn_finsetSum _ fun σ _ => (continuousOn_finsetProd _ fun i _ => h _ _).const_smul _

theorem ContMat.adjugate {M : X → Matrix (Fin n) (Fin n) ℝ} (h : ContMat V M) :
    ContMat V fun x => (M x).adjugate := by
  intro i j
  simp only [Matrix.adjugate_apply]
  refine ContMat.det fun a b => ?_
  simp only [Matrix.updateRow_apply]
  by_cases hij : a = j
  · simp only [hij, if_true]; exact continuousOn_const
  · simp only [hij, if_false]; exact h a b

theorem ContMat.inv {M : X → Matrix (Fin n) (Fin n) ℝ} (h : ContMat V M) (hd : ∀ x ∈ V, (M x).det ≠ 0) :
    ContMat V fun x => (M x)⁻¹ := by
  intro i j
  have : (fun x => (M x)⁻¹ i j) = fun x => ((M x).det)⁻¹ * (M x).adjugate i j := by
    funext x
    rw [Matrix.inv_def, Ring.inverse_eq_inv', Matrix.smul_apply, smul_eq_mul]
  rw [this]
  exact (h.det.inv₀ hd).mul (h.adjugate i j)

end PW
