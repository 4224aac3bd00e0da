import Verif.Lemmas.Gaussian
import Verif.Spec.Gaussian
import Mathlib.MeasureTheory.Constructions.Pi
import Mathlib.MeasureTheory.Group.LIntegral
import Mathlib.MeasureTheory.Measure.Lebesgue.Basic
import Mathlib.Probability.Distributions.Gaussian.Real

/-! # Integrals and Gaussian probabilities in the plane -/

namespace PW
open MeasureTheory ProbabilityTheory Set
open scoped ENNReal

/-- Integration in the skew coordinates `(x₀ + x₁, x₁)`. -/
theorem lintegral_shear (f g : ℝ → ℝ≥0∞) (hf : Measurable f) (hg : Measurable g) :
    ∫⁻ x : Fin 2 → ℝ, f (x 0 + x 1) * g (x 1) = (∫⁻ a, f a) * ∫⁻ b, g b := by
  let F : ℝ × ℝ → ℝ≥0∞ := fun p => f (p.1 + p.2) * g p.2
  have hF : Measurable F :=
    (hf.comp (measurable_fst.add measurable_snd)).mul (hg.comp measurable_snd)
  have h1 : ∫⁻ x : Fin 2 → ℝ, f (x 0 + x 1) * g (x 1) = ∫⁻ p : ℝ × ℝ, F p :=
    (volume_preserving_finTwoArrow ℝ).lintegral_comp hF
  rw [h1, Measure.volume_eq_prod, lintegral_prod_symm' _ hF]
  have h2 : ∀ y : ℝ, ∫⁻ x : ℝ, F (x, y) = (∫⁻ a, f a) * g y := by
    intro y
    show ∫⁻ x : ℝ, f (x + y) * g y = _
    have hm : Measurable fun x : ℝ => f (x + y) := hf.comp (measurable_id.add_const y)
    rw [lintegral_mul_const _ hm, lintegral_add_right_eq_self f y]
  simp only [h2]
  rw [lintegral_const_mul _ hg]

/-- The density of a standard normal variable is at most one. -/
theorem gaussian_interval (u v : ℝ) : gaussianReal 0 1 (Ioo u v) ≤ ENNReal.ofReal (v - u) := by
  rw [gaussianReal_apply 0 one_ne_zero]
  calc ∫⁻ x in Ioo u v, gaussianPDF 0 1 x ≤ ∫⁻ _ in Ioo u v, 1 := by
        refine lintegral_mono fun x => ?_
        rw [gaussianPDF, ENNReal.ofReal_le_one, gaussianPDFReal]
        have h1 : (Real.sqrt (2 * Real.pi * ((1 : NNReal) : ℝ)))⁻¹ ≤ 1 := by
          refine inv_le_one_of_one_le₀ ?_
          rw [Real.one_le_sqrt]
          have := Real.two_le_pi
          simp only [NNReal.coe_one]
          linarith
        have h2 : Real.exp (-(x - 0) ^ 2 / (2 * ((1 : NNReal) : ℝ))) ≤ 1 := by
          rw [Real.exp_le_one_iff]
          simp only [NNReal.coe_one]
          have := sq_nonneg (x - 0)
          linarith
        calc _ ≤ (1 : ℝ) * 1 := mul_le_mul h1 h2 (Real.exp_pos _).le zero_le_one
          _ = 1 := one_mul 1
    _ = ENNReal.ofReal (v - u) := by simp

theorem gaussian_affine (c β u v : ℝ) (hβ : β ≠ 0) :
    gaussianReal 0 1 {t | c + β * t ∈ Ioo u v} ≤ ENNReal.ofReal ((v - u) / |β|) := by
  rcases lt_or_gt_of_ne hβ with h | h
  · have e : {t | c + β * t ∈ Ioo u v} ⊆ Ioo ((v - c) / β) ((u - c) / β) := by
      rintro t ⟨h1, h2⟩
      constructor
      · rw [div_lt_iff_of_neg h]; linarith
      · rw [lt_div_iff_of_neg h]; linarith
    refine (measure_mono e).trans ((gaussian_interval _ _).trans_eq ?_)
    congr 1
    rw [abs_of_neg h]; field_simp; ring
  · have e : {t | c + β * t ∈ Ioo u v} ⊆ Ioo ((u - c) / β) ((v - c) / β) := by
      rintro t ⟨h1, h2⟩
      constructor
      · rw [div_lt_iff₀ h]; linarith
      · rw [lt_div_iff₀ h]; linarith
    refine (measure_mono e).trans ((gaussian_interval _ _).trans_eq ?_)
    congr 1
    rw [abs_of_pos h]; field_simp; ring

/-- A linear form of two independent normal variables falls in an interval with a probability bounded by its
length over the larger coefficient. -/
theorem gaussian_strip (c α β u v : ℝ) :
    (β ≠ 0 → stdNormal 2 {ξ | c + (α * ξ 0 + β * ξ 1) ∈ Ioo u v} ≤ ENNReal.ofReal ((v - u) / |β|)) ∧
    (α ≠ 0 → stdNormal 2 {ξ | c + (α * ξ 0 + β * ξ 1) ∈ Ioo u v} ≤ ENNReal.ofReal ((v - u) / |α|)) := by
  let B : Set (ℝ × ℝ) := {p | c + (α * p.1 + β * p.2) ∈ Ioo u v}
  have hB : MeasurableSet B := by
    have : Measurable fun p : ℝ × ℝ => c + (α * p.1 + β * p.2) :=
      measurable_const.add ((measurable_fst.const_mul α).add (measurable_snd.const_mul β))
    exact this measurableSet_Ioo
  have h1 : stdNormal 2 {ξ | c + (α * ξ 0 + β * ξ 1) ∈ Ioo u v} =
      ((gaussianReal 0 1).prod (gaussianReal 0 1)) B :=
    (measurePreserving_finTwoArrow (gaussianReal 0 1)).measure_preimage hB.nullMeasurableSet
  rw [h1]
  constructor
  · intro hβ
    rw [Measure.prod_apply hB]
    calc ∫⁻ x, gaussianReal 0 1 (Prod.mk x ⁻¹' B) ∂gaussianReal 0 1
        ≤ ∫⁻ _, ENNReal.ofReal ((v - u) / |β|) ∂gaussianReal 0 1 := by
          refine lintegral_mono fun x => ?_
          have e : Prod.mk x ⁻¹' B = {t | (c + α * x) + β * t ∈ Ioo u v} := by
            ext t; show c + (α * x + β * t) ∈ Ioo u v ↔ _; rw [← add_assoc]; rfl
          rw [e]; exact gaussian_affine _ _ _ _ hβ
      _ = _ := by simp
  · intro hα
    rw [Measure.prod_apply_symm hB]
    calc ∫⁻ y, gaussianReal 0 1 ((fun x => (x, y)) ⁻¹' B) ∂gaussianReal 0 1
        ≤ ∫⁻ _, ENNReal.ofReal ((v - u) / |α|) ∂gaussianReal 0 1 := by
          refine lintegral_mono fun y => ?_
          have e : (fun x => (x, y)) ⁻¹' B = {t | (c + β * y) + α * t ∈ Ioo u v} := by
            ext t; show c + (α * t + β * y) ∈ Ioo u v ↔ (c + β * y) + α * t ∈ Ioo u v
            rw [show c + (α * t + β * y) = (c + β * y) + α * t by ring]
          rw [e]; exact gaussian_affine _ _ _ _ hα
      _ = _ := by simp

end PW
