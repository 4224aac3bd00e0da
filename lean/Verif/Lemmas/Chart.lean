import Verif.Spec.EndToEnd
import Verif.Props.SparseBarrierLaw

/-!
# The uniform distribution on a polytope does not depend on the coordinates
-/

namespace PW
open MeasureTheory Matrix Set
open scoped ENNReal

variable {n d d₁ : ℕ}

/-- In a solid chart, every direction of the chart is a direction of any other chart. -/
theorem IsChart.range {P : Set (Fin n → ℝ)} {x₀ x₁ : Fin n → ℝ} {B : Matrix (Fin n) (Fin d) ℝ} {B₁ : Matrix (Fin n) (Fin d₁) ℝ}
    (h : IsChart P x₀ B) (h₁ : IsChart P x₁ B₁) (v : Fin d → ℝ) : ∃ u, B₁ *ᵥ u = B *ᵥ v := by
  obtain ⟨u, hu⟩ := h.solid
  have hc : Continuous fun t : ℝ => u + t • v := by fun_prop
  have hm : (fun t : ℝ => u + t • v) ⁻¹' interior {u | chart x₀ B u ∈ P} ∈ nhds (0 : ℝ) :=
    (isOpen_interior.preimage hc).mem_nhds (by simpa using hu)
  obtain ⟨t, ht, ht0⟩ : ∃ t ∈ (fun t : ℝ => u + t • v) ⁻¹' interior {u | chart x₀ B u ∈ P}, t ≠ 0 := by
    obtain ⟨ε, hε, hb⟩ := Metric.mem_nhds_iff.1 hm
    refine ⟨ε / 2, hb ?_, by positivity⟩
    rw [Metric.mem_ball, Real.dist_eq, sub_zero, abs_of_pos (by positivity)]
    linarith
  obtain ⟨a, ha⟩ := h₁.covers _ (interior_subset hu : u ∈ {u | chart x₀ B u ∈ P})
  obtain ⟨c, hc⟩ := h₁.covers _ (interior_subset ht : u + t • v ∈ {u | chart x₀ B u ∈ P})
  refine ⟨t⁻¹ • (c - a), ?_⟩
  have e : B₁ *ᵥ (c - a) = t • (B *ᵥ v) := by
    have h1 := congrArg₂ (· - ·) hc ha
    simp only [chart, Matrix.mulVec_add, Matrix.mulVec_smul] at h1
    rw [Matrix.mulVec_sub]
    funext i
    have := congrFun h1 i
    simp only [Pi.add_apply, Pi.sub_apply, Pi.smul_apply, smul_eq_mul] at this ⊢
    linarith
  rw [Matrix.mulVec_smul, e, smul_smul, inv_mul_cancel₀ ht0, one_smul]

theorem IsChart.factor {P : Set (Fin n → ℝ)} {x₀ x₁ : Fin n → ℝ} {B : Matrix (Fin n) (Fin d) ℝ} {B₁ : Matrix (Fin n) (Fin d₁) ℝ}
    (h : IsChart P x₀ B) (h₁ : IsChart P x₁ B₁) : ∃ S : Matrix (Fin d₁) (Fin d) ℝ, B₁ * S = B := by
  choose f hf using fun j => h.range h₁ (Pi.single j 1)
  refine ⟨fun i j => f j i, ?_⟩
  ext i j
  have := congrFun (hf j) i
  rw [Matrix.mulVec_single_one] at this
  exact this

theorem mul_cancel_inj {B : Matrix (Fin n) (Fin d) ℝ} (hB : ∀ u, B *ᵥ u = 0 → u = 0) {S T : Matrix (Fin d) (Fin d₁) ℝ} (h : B * S = B * T) :
    S = T := by
  ext i j
  have h1 : B *ᵥ (fun i => S i j - T i j) = 0 := by
    funext l
    have := congrFun (congrFun h l) j
    simp only [Matrix.mul_apply] at this
    simp only [Matrix.mulVec, dotProduct, mul_sub, Finset.sum_sub_distrib, this, sub_self, Pi.zero_apply]
  have := congrFun (hB _ h1) i
  simp only [Pi.zero_apply] at this
  linarith

/-- Two charts of the same set have the same dimension. -/
theorem IsChart.dim_eq {P : Set (Fin n → ℝ)} {x₀ x₁ : Fin n → ℝ} {B : Matrix (Fin n) (Fin d) ℝ} {B₁ : Matrix (Fin n) (Fin d₁) ℝ}
    (h : IsChart P x₀ B) (h₁ : IsChart P x₁ B₁) : d = d₁ := by
  obtain ⟨S, hS⟩ := h.factor h₁
  obtain ⟨T, hT⟩ := h₁.factor h
  have e1 : T * S = 1 := mul_cancel_inj h.inj (by rw [← Matrix.mul_assoc, hT, hS, Matrix.mul_one])
  have e2 : S * T = 1 := mul_cancel_inj h₁.inj (by rw [← Matrix.mul_assoc, hS, hT, Matrix.mul_one])
  have := Matrix.square_of_invertible (R := ℝ) T S e1 e2
  simpa using this

/-- Two charts describe the same affine space. -/
theorem IsChart.points {P : Set (Fin n → ℝ)} {x₀ x₁ : Fin n → ℝ} {B : Matrix (Fin n) (Fin d) ℝ} {B₁ : Matrix (Fin n) (Fin d₁) ℝ}
    (h : IsChart P x₀ B) (h₁ : IsChart P x₁ B₁) (u : Fin d → ℝ) : ∃ v, chart x₁ B₁ v = chart x₀ B u := by
  obtain ⟨a, ha⟩ := h.solid
  obtain ⟨c, hc⟩ := h₁.covers _ (interior_subset ha : a ∈ {u | chart x₀ B u ∈ P})
  obtain ⟨s, hs⟩ := h.range h₁ (u - a)
  refine ⟨c + s, ?_⟩
  have e : chart x₁ B₁ (c + s) = chart x₁ B₁ c + B₁ *ᵥ s := by
    simp only [chart, Matrix.mulVec_add]; abel
  rw [e, hc, hs]
  simp only [chart, Matrix.mulVec_sub]
  abel

/-- Two charts give the same measure up to a positive constant factor. -/
theorem uniformIn_chart {P : Set (Fin n → ℝ)} (hP : MeasurableSet P) {x₀ x₁ : Fin n → ℝ} {B : Matrix (Fin n) (Fin d) ℝ}
    {B₁ : Matrix (Fin n) (Fin d₁) ℝ} (h : IsChart P x₀ B) (h₁ : IsChart P x₁ B₁) :
    ∃ c : ℝ≥0∞, c ≠ 0 ∧ c ≠ ⊤ ∧ uniformIn P x₁ B₁ = c • uniformIn P x₀ B := by
  obtain rfl := h.dim_eq h₁
  obtain ⟨T, hT⟩ := h.factor h₁
  obtain ⟨S, hS⟩ := h₁.factor h
  have e1 : T * S = 1 := mul_cancel_inj h₁.inj (by rw [← Matrix.mul_assoc, hT, hS, Matrix.mul_one])
  have hdet : S.det ≠ 0 := by
    have := congrArg Matrix.det e1
    rw [Matrix.det_mul, Matrix.det_one] at this
    exact right_ne_zero_of_mul_eq_one this
  obtain ⟨u, hu⟩ := h₁.solid
  have hu' : u ∈ {u | chart x₁ B₁ u ∈ P} := interior_subset hu
  obtain ⟨a, ha⟩ := h.covers _ hu'
  set s : Fin d → ℝ := a - S *ᵥ u with hs
  have hch : ∀ v, chart x₁ B₁ v = chart x₀ B (s + S *ᵥ v) := by
    intro v
    have e : chart x₀ B (s + S *ᵥ v) = chart x₀ B a - B₁ *ᵥ u + B₁ *ᵥ v := by
      simp only [chart, hs, Matrix.mulVec_add, Matrix.mulVec_sub, Matrix.mulVec_mulVec, hS]
      abel
    rw [e, ha]
    simp only [chart]
    abel
  have mS : Measurable fun v : Fin d → ℝ => s + S *ᵥ v :=
    Continuous.measurable (continuous_const.add (Continuous.matrix_mulVec continuous_const continuous_id))
  have hvol : (volume : Measure (Fin d → ℝ)).map (fun v => s + S *ᵥ v) = ENNReal.ofReal |S.det|⁻¹ • volume := by
    have := map_withDensity_linear S hdet s 1 measurable_one
    rw [withDensity_one] at this
    rw [this]
    simp only [Pi.one_apply, mul_one]
    exact withDensity_const _
  have hK : MeasurableSet {u : Fin d → ℝ | chart x₀ B u ∈ P} := measurable_chart x₀ B hP
  refine ⟨ENNReal.ofReal |S.det|⁻¹, by simpa using hdet, ENNReal.ofReal_ne_top, ?_⟩
  unfold uniformIn
  have e1 : chart x₁ B₁ = chart x₀ B ∘ fun v => s + S *ᵥ v := funext hch
  rw [e1, ← Measure.map_map (measurable_chart x₀ B) mS]
  have e2 : {u : Fin d → ℝ | (chart x₀ B ∘ fun v => s + S *ᵥ v) u ∈ P} = (fun v => s + S *ᵥ v) ⁻¹' {u | chart x₀ B u ∈ P} := rfl
  rw [e2, ← Measure.restrict_map mS hK, hvol, Measure.restrict_smul, Measure.map_smul]

theorem share_smul {X : Type} [MeasurableSpace X] (π : Measure X) {c : ℝ≥0∞} (h0 : c ≠ 0) (h1 : c ≠ ⊤) (T : Set X) : share (c • π) T = share π T := by
  unfold share
  have : c.toReal ≠ 0 := ENNReal.toReal_ne_zero.2 ⟨h0, h1⟩
  rw [Measure.smul_apply, Measure.smul_apply, smul_eq_mul, smul_eq_mul, ENNReal.toReal_mul, ENNReal.toReal_mul, mul_div_mul_left _ _ this]

theorem average_smul {X : Type} [MeasurableSpace X] (π : Measure X) {c : ℝ≥0∞} (h0 : c ≠ 0) (h1 : c ≠ ⊤) (φ : X → ℝ) :
    average (c • π) φ = average π φ := by
  unfold average
  have : c.toReal ≠ 0 := ENNReal.toReal_ne_zero.2 ⟨h0, h1⟩
  rw [integral_smul_measure, Measure.smul_apply, smul_eq_mul, smul_eq_mul, ENNReal.toReal_mul, mul_div_mul_left _ _ this]

theorem share_map {X Y : Type} [MeasurableSpace X] [MeasurableSpace Y] (π : Measure X) {f : X → Y} (hf : Measurable f) {T : Set Y} (hT : MeasurableSet T) :
    share (π.map f) T = share π (f ⁻¹' T) := by
  unfold share
  rw [Measure.map_apply hf hT, Measure.map_apply hf MeasurableSet.univ, preimage_univ]

theorem average_map {X Y : Type} [MeasurableSpace X] [MeasurableSpace Y] (π : Measure X) {f : X → Y} (hf : Measurable f) {φ : Y → ℝ} (hφ : Measurable φ) :
    average (π.map f) φ = average π (φ ∘ f) := by
  unfold average
  rw [integral_map hf.aemeasurable hφ.aestronglyMeasurable, Measure.map_apply hf MeasurableSet.univ, preimage_univ]
  rfl

end PW
