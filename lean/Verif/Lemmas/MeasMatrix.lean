import Verif.Lemmas.Real
import Mathlib.LinearAlgebra.Matrix.NonsingularInverse
import Mathlib.MeasureTheory.Constructions.BorelSpace.Real
import Mathlib.MeasureTheory.Function.SpecialFunctions.Basic

/-! # Measurability of matrix expressions, entry by entry -/

namespace PW
open Matrix MeasureTheory
variable {X : Type} [MeasurableSpace X] {m n l : ℕ}

/-- All entries are measurable. -/
def MeasMat (M : X → Matrix (Fin m) (Fin n) ℝ) : Prop := ∀ i j, Measurable fun x => M x i j

theorem MeasMat.const (M : Matrix (Fin m) (Fin n) ℝ) : MeasMat fun _ : X => M := fun _ _ => measurable_const

theorem MeasMat.mul {M : X → Matrix (Fin m) (Fin n) ℝ} {M' : X → Matrix (Fin n) (Fin l) ℝ} (h : MeasMat M)
    (h' : MeasMat M') : MeasMat fun x => M x * M' x := by
  intro i j
  simp only [Matrix.mul_apply]
  exact Finset.measurable_sum _ fun k _ => (h i k).mul (h' k j)

theorem MeasMat.sub {M M' : X → Matrix (Fin m) (Fin n) ℝ} (h : MeasMat M)
    (h' : MeasMat M') : MeasMat fun x => M x - M' x := fun i j => (h i j).sub (h' i j)

theorem MeasMat.smul {M : X → Matrix (Fin m) (Fin n) ℝ} (h : MeasMat M) (c : ℝ) :
    MeasMat fun x => c • M x := fun i j => (h i j).const_mul c

theorem MeasMat.transpose {M : X → Matrix (Fin m) (Fin n) ℝ} (h : MeasMat M) : MeasMat fun x => (M x)ᵀ :=
  fun i j => h j i

theorem MeasMat.diagonal {v : X → Fin n → ℝ} (h : ∀ i, Measurable fun x => v x i) :
    MeasMat fun x => Matrix.diagonal (v x) := by
  intro i j
  simp only [Matrix.diagonal_apply]
  by_cases hij : i = j
  · simp only [hij, if_true]; exact h j
  · simp only [hij, if_false]; exact measurable_const

theorem MeasMat.det {M : X → Matrix (Fin n) (Fin n) ℝ} (h : MeasMat M) : Measurable fun x => (M x).det := by
  simp only [Matrix.det_apply]
  exact Finset.measurable_sum _ fun σ _ => (Finset.measurable_prod _ fun i _ => h _ _).const_smul _

theorem MeasMat.adjugate {M : X → Matrix (Fin n) (Fin n) ℝ} (h : MeasMat M) :
    MeasMat fun x => (M x).adjugate := by
  intro i j
  simp only [Matrix.adjugate_apply]
  refine MeasMat.det fun a b => ?_
  simp only [Matrix.updateRow_apply]
  by_cases hij : a = j
  · simp only [hij, if_true]; exact measurable_const
  · simp only [hij, if_false]; exact h a b

theorem MeasMat.inv {M : X → Matrix (Fin n) (Fin n) ℝ} (h : MeasMat M) : MeasMat fun x => (M x)⁻¹ := by
  intro i j
  have : (fun x => (M x)⁻¹ i j) = fun x => ((M x).det)⁻¹ * (M x).adjugate i j := by
    funext x
    rw [Matrix.inv_def, Ring.inverse_eq_inv', Matrix.smul_apply, smul_eq_mul]
  rw [this]
  exact h.det.inv.mul (h.adjugate i j)

theorem MeasMat.mulVec {M : X → Matrix (Fin m) (Fin n) ℝ} (h : MeasMat M) {v : X → Fin n → ℝ}
    (hv : Measurable v) : Measurable fun x => M x *ᵥ v x := by
  refine measurable_pi_lambda _ fun i => ?_
  simp only [Matrix.mulVec, dotProduct]
  exact Finset.measurable_sum _ fun j _ => (h i j).mul ((measurable_pi_apply j).comp hv)

theorem MeasMat.comp {X' : Type} [MeasurableSpace X'] {M : X → Matrix (Fin m) (Fin n) ℝ} (h : MeasMat M)
    {f : X' → X} (hf : Measurable f) : MeasMat fun x => M (f x) := fun i j => (h i j).comp hf

end PW
