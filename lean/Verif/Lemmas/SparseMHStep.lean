import Verif.Lemmas.SparseMH
import Mathlib.MeasureTheory.Measure.Lebesgue.EqHaar

/-! # The step law of the sparse barrier walks -/

namespace PW
open Matrix MeasureTheory Set
open scoped ENNReal
variable {m n d : ℕ}

theorem measurable_chart (x₀ : Fin n → ℝ) (B : Matrix (Fin n) (Fin d) ℝ) : Measurable (chart x₀ B) :=
  Continuous.measurable
    (continuous_const.add (Continuous.matrix_mulVec continuous_const continuous_id))

theorem measurableSet_tailNonneg (n k : ℕ) : MeasurableSet (TailNonneg n k) := by
  have : TailNonneg n k = ⋂ i : Fin n, ⋂ _ : n - k ≤ i.val, {x | 0 ≤ x i} := by ext; simp [TailNonneg]
  rw [this]
  exact MeasurableSet.iInter fun i => MeasurableSet.iInter fun _ =>
    measurableSet_le measurable_const (measurable_pi_apply i)

theorem measurableSet_tailPos (n k : ℕ) : MeasurableSet (TailPos n k) := by
  have : TailPos n k = ⋂ i : Fin n, ⋂ _ : n - k ≤ i.val, {x | 0 < x i} := by ext; simp [TailPos]
  rw [this]
  exact MeasurableSet.iInter fun i => MeasurableSet.iInter fun _ =>
    measurableSet_lt measurable_const (measurable_pi_apply i)

theorem measurableSet_eqs (A : Matrix (Fin m) (Fin n) ℝ) (y : Fin m → ℝ) : MeasurableSet {x | A *ᵥ x = y} :=
  measurableSet_eq_fun (Continuous.measurable (Continuous.matrix_mulVec continuous_const continuous_id))
    measurable_const

theorem tailPos_subset (n k : ℕ) : TailPos n k ⊆ TailNonneg n k := fun _ h i hi => (h i hi).le

/-- A hyperplane in coordinate space is a null set. -/
theorem hyperplane_null (v : Fin d → ℝ) (hv : v ≠ 0) (c : ℝ) :
    volume {u : Fin d → ℝ | c + v ⬝ᵥ u = 0} = 0 := by
  let f : (Fin d → ℝ) →ₗ[ℝ] ℝ :=
    { toFun := fun u => v ⬝ᵥ u
      map_add' := fun a b => dotProduct_add v a b
      map_smul' := fun a b => by simp }
  have hf : ∀ u, f u = v ⬝ᵥ u := fun u => rfl
  have hvv : v ⬝ᵥ v ≠ 0 := by
    intro h
    exact hv (dotProduct_self_eq_zero.1 h)
  let u0 : Fin d → ℝ := (-c / (v ⬝ᵥ v)) • v
  have hu0 : v ⬝ᵥ u0 = -c := by simp [u0]; field_simp
  let s : AffineSubspace ℝ (Fin d → ℝ) := AffineSubspace.mk' u0 (LinearMap.ker f)
  have hs : {u : Fin d → ℝ | c + v ⬝ᵥ u = 0} = (s : Set (Fin d → ℝ)) := by
    ext u
    simp only [mem_ofPred_eq, SetLike.mem_coe, s, AffineSubspace.mem_mk', LinearMap.mem_ker, vsub_eq_sub, hf]
    rw [dotProduct_sub, hu0]
    constructor <;> intro h <;> linarith
  have hne : s ≠ ⊤ := by
    intro h
    have : u0 + v ∈ s := by rw [h]; exact AffineSubspace.mem_top ℝ _ _
    have h2 : u0 + v ∈ {u : Fin d → ℝ | c + v ⬝ᵥ u = 0} := by rw [hs]; exact this
    simp only [mem_ofPred_eq, dotProduct_add, hu0] at h2
    apply hvv; linarith
  rw [hs]
  exact Measure.addHaar_affineSubspace volume s hne

/-- The boundary of the polytope is a null set. -/
theorem tail_boundary_null {x₀ : Fin n → ℝ} {k : ℕ} (hx₀ : x₀ ∈ TailPos n k) (B : Matrix (Fin n) (Fin d) ℝ) :
    chart x₀ B ⁻¹' TailPos n k =ᵐ[volume] chart x₀ B ⁻¹' TailNonneg n k := by
  refine ae_eq_set.2 ⟨?_, ?_⟩
  · have : chart x₀ B ⁻¹' TailPos n k \ chart x₀ B ⁻¹' TailNonneg n k = ∅ := by
      rw [sdiff_eq_empty]; exact preimage_mono (tailPos_subset n k)
    rw [this]; exact measure_empty
  · have hsub : chart x₀ B ⁻¹' TailNonneg n k \ chart x₀ B ⁻¹' TailPos n k ⊆
        ⋃ i : {i : Fin n // n - k ≤ i.val}, {u : Fin d → ℝ | chart x₀ B u i = 0} := by
      rintro u ⟨h1, h2⟩
      have h2' : ¬ ∀ i : Fin n, n - k ≤ i.val → 0 < chart x₀ B u i := h2
      push Not at h2'
      obtain ⟨i, hi, hle⟩ := h2'
      exact mem_iUnion.2 ⟨⟨i, hi⟩, le_antisymm hle (h1 i hi)⟩
    refine measure_mono_null hsub ((measure_iUnion_null_iff).2 fun i => ?_)
    by_cases hv : B i.1 = 0
    · have : {u : Fin d → ℝ | chart x₀ B u i.1 = 0} = ∅ := by
        ext u
        simp only [mem_ofPred_eq, mem_empty_iff_false, iff_false, chart, Pi.add_apply, Matrix.mulVec]
        rw [show (fun j => B i.1 j) = 0 from hv, zero_dotProduct, add_zero]
        exact (hx₀ i.1 i.2).ne'
      rw [this]; exact measure_empty
    · exact hyperplane_null (B i.1) hv (x₀ i.1)

/-! ## Measurability -/

section
variable {X : Type} [MeasurableSpace X]

theorem measurable_invSqrt {G : X → Fin n → ℝ} (hG : ∀ i, Measurable fun x => G x i) (i : Fin n) :
    Measurable fun x => invSqrt (G x) i :=
  Real.continuous_sqrt.measurable.comp (measurable_const.div (hG i))

theorem measMat_scaled (A : Matrix (Fin m) (Fin n) ℝ) {G : X → Fin n → ℝ}
    (hG : ∀ i, Measurable fun x => G x i) : MeasMat fun x => A * diagonal (invSqrt (G x)) :=
  (MeasMat.const A).mul (MeasMat.diagonal (measurable_invSqrt hG))

theorem measMat_dirMat (A : Matrix (Fin m) (Fin n) ℝ) {G : X → Fin n → ℝ}
    (hG : ∀ i, Measurable fun x => G x i) : MeasMat fun x => dirMat A (G x) := by
  have hS := measMat_scaled A hG
  exact (MeasMat.diagonal (measurable_invSqrt hG)).mul
    ((MeasMat.const 1).sub ((hS.transpose.mul (hS.mul hS.transpose).inv).mul hS))

theorem measurable_kerLogDens (A : Matrix (Fin m) (Fin n) ℝ) (D : ℝ) {G : X → Fin n → ℝ}
    (hG : ∀ i, Measurable fun x => G x i) {f g : X → Fin n → ℝ} (hf : Measurable f) (hg : Measurable g) :
    Measurable fun x => kerLogDens A D (G x) (f x) (g x) := by
  have hS := measMat_scaled A hG
  have hd : ∀ i, Measurable fun x => g x i - f x i := fun i =>
    ((measurable_pi_apply i).comp hg).sub ((measurable_pi_apply i).comp hf)
  unfold kerLogDens
  exact (((Finset.measurable_sum _ fun i _ => Real.measurable_log.comp (hG i)).add
    (Real.measurable_log.comp (hS.mul hS.transpose).det)).const_mul _).sub
    ((Finset.measurable_sum _ fun i _ => (hd i).mul ((hG i).mul (hd i))).const_mul _)

end

/-- Acceptance probability. -/
noncomputable def sparseAccept (A : Matrix (Fin m) (Fin n) ℝ) (D : ℝ) (Gf : (Fin n → ℝ) → Fin n → ℝ)
    (x z : Fin n → ℝ) : ℝ := min 1 (Real.exp (kerLogDens A D (Gf z) z x - kerLogDens A D (Gf x) x z))

/-- Proposal. -/
noncomputable def sparseProp (A : Matrix (Fin m) (Fin n) ℝ) (D : ℝ) (Gf : (Fin n → ℝ) → Fin n → ℝ)
    (x v : Fin n → ℝ) : Fin n → ℝ := x + Real.sqrt D • (dirMat A (Gf x) *ᵥ v)

theorem measurable_sparseProp (A : Matrix (Fin m) (Fin n) ℝ) (D : ℝ) {Gf : (Fin n → ℝ) → Fin n → ℝ} (hGm : ∀ i, Measurable fun x => Gf x i) :
    Measurable fun p : (Fin n → ℝ) × (Fin n → ℝ) => sparseProp A D Gf p.1 p.2 := by
  have h1 : Measurable fun p : (Fin n → ℝ) × (Fin n → ℝ) => dirMat A (Gf p.1) *ᵥ p.2 :=
    ((measMat_dirMat A hGm).comp measurable_fst).mulVec measurable_snd
  exact measurable_fst.add (h1.const_smul (Real.sqrt D))

theorem measurable_sparseAccept (A : Matrix (Fin m) (Fin n) ℝ) (D : ℝ) {Gf : (Fin n → ℝ) → Fin n → ℝ} (hGm : ∀ i, Measurable fun x => Gf x i) :
    Measurable fun p : (Fin n → ℝ) × (Fin n → ℝ) => sparseAccept A D Gf p.1 p.2 := by
  have h1 := measurable_kerLogDens (X := (Fin n → ℝ) × (Fin n → ℝ)) A D (G := fun p => Gf p.2)
    (fun i => (hGm i).comp measurable_snd) measurable_snd measurable_fst
  have h2 := measurable_kerLogDens (X := (Fin n → ℝ) × (Fin n → ℝ)) A D (G := fun p => Gf p.1)
    (fun i => (hGm i).comp measurable_fst) measurable_fst measurable_snd
  exact measurable_const.min (Real.measurable_exp.comp (h1.sub h2))

/-- The part of the affine space where the metric is well defined. -/
def relInterior (A : Matrix (Fin m) (Fin n) ℝ) (k : ℕ) (x₀ : Fin n → ℝ) : Set (Fin n → ℝ) := {x | x ∈ TailPos n k ∧ A *ᵥ x = A *ᵥ x₀}

theorem measurableSet_relInterior (A : Matrix (Fin m) (Fin n) ℝ) (k : ℕ) (x₀ : Fin n → ℝ) : MeasurableSet (relInterior A k x₀) :=
  (measurableSet_tailPos n k).inter (measurableSet_eqs A _)

theorem chart_relInterior {A : Matrix (Fin m) (Fin n) ℝ} {B : Matrix (Fin n) (Fin d) ℝ} (hB : IsKernelBasis A B) (k : ℕ) (x₀ : Fin n → ℝ) :
    chart x₀ B ⁻¹' relInterior A k x₀ = chart x₀ B ⁻¹' TailPos n k := by
  have hchart : ∀ u, A *ᵥ chart x₀ B u = A *ᵥ x₀ := fun u => by
    rw [chart, Matrix.mulVec_add, Matrix.mulVec_mulVec, hB.mul_zero, Matrix.zero_mulVec, add_zero]
  ext u; exact ⟨fun h => h.1, fun h => ⟨h, hchart u⟩⟩

/-- The proposal in coordinates. -/
noncomputable def sparseCoordProp (A : Matrix (Fin m) (Fin n) ℝ) (D : ℝ) (Gf : (Fin n → ℝ) → Fin n → ℝ) (x₀ : Fin n → ℝ)
    (B : Matrix (Fin n) (Fin d) ℝ) (u : Fin d → ℝ) (v : Fin n → ℝ) : Fin d → ℝ :=
  u + (Real.sqrt D • (coordMat B * dirMat A (Gf (chart x₀ B u)))) *ᵥ v

/-- Its density. -/
noncomputable def sparseCoordDens (A : Matrix (Fin m) (Fin n) ℝ) (D : ℝ) (Gf : (Fin n → ℝ) → Fin n → ℝ) (x₀ : Fin n → ℝ)
    (B : Matrix (Fin n) (Fin d) ℝ) (c : ℝ) (u v : Fin d → ℝ) : ℝ≥0∞ :=
  ENNReal.ofReal (c * Real.exp (kerLogDens A D (Gf (chart x₀ B u)) (chart x₀ B u) (chart x₀ B v)))

section
variable {A : Matrix (Fin m) (Fin n) ℝ} (hA : IndepRows A) {k : ℕ} {D : ℝ} (hD : 0 < D) {x₀ : Fin n → ℝ}
  {B : Matrix (Fin n) (Fin d) ℝ} (hB : IsKernelBasis A B) {Gf : (Fin n → ℝ) → Fin n → ℝ} (hGm : ∀ i, Measurable fun x => Gf x i)
  (hGpos : ∀ x ∈ TailPos n k, ∀ i, 0 < Gf x i)

theorem measurable_sparseCoordProp (u : Fin d → ℝ) : Measurable (sparseCoordProp A D Gf x₀ B u) :=
  Continuous.measurable (continuous_const.add (Continuous.matrix_mulVec continuous_const continuous_id))

include hGm in
theorem measurable_sparseCoordDens (c : ℝ) :
    Measurable fun p : (Fin d → ℝ) × (Fin d → ℝ) => sparseCoordDens A D Gf x₀ B c p.1 p.2 := by
  have h2 := measurable_kerLogDens (X := (Fin d → ℝ) × (Fin d → ℝ)) A D (G := fun p => Gf (chart x₀ B p.1))
    (fun i => (hGm i).comp ((measurable_chart x₀ B).comp measurable_fst))
    ((measurable_chart x₀ B).comp measurable_fst) ((measurable_chart x₀ B).comp measurable_snd)
  exact ((Real.measurable_exp.comp h2).const_mul c).ennreal_ofReal

include hA hB hGpos in
theorem sparseCoordProp_lift {u : Fin d → ℝ} (hu : chart x₀ B u ∈ relInterior A k x₀) (ξ : Fin n → ℝ) :
    chart x₀ B (sparseCoordProp A D Gf x₀ B u ξ) = sparseProp A D Gf (chart x₀ B u) ξ := by
  have hk := coordMat_mul_ker hB (dirMat_ker hA (hGpos _ hu.1))
  show x₀ + B *ᵥ (u + _) = (x₀ + B *ᵥ u) + _
  rw [Matrix.mulVec_add, ← add_assoc, Matrix.smul_mulVec, Matrix.mulVec_smul, Matrix.mulVec_mulVec, hk]

include hA hB hGpos hD in
theorem sparseCoordProp_law {c : ℝ}
    (hdens : ∀ G : Fin n → ℝ, (∀ i, 0 < G i) → ∀ (x : Fin n → ℝ) (u v : Fin d → ℝ),
      gaussDensity ((1 / D) • (Bᵀ * diagonal G * B)) u v = c * Real.exp (kerLogDens A D G (chart x B u) (chart x B v)))
    {u : Fin d → ℝ} (hu : chart x₀ B u ∈ relInterior A k x₀) :
    (stdNormal n).map (sparseCoordProp A D Gf x₀ B u) = volume.withDensity (sparseCoordDens A D Gf x₀ B c u) := by
  have hpc := prec_mul_cov hA hB (hGpos _ hu.1)
  have h1 := stdNormal_map (Real.sqrt D • (coordMat B * dirMat A (Gf (chart x₀ B u))))
    ((1 / D) • (Bᵀ * diagonal (Gf (chart x₀ B u)) * B)) (by
      rw [Matrix.transpose_smul, Matrix.smul_mul, Matrix.mul_smul, Matrix.smul_mul, Matrix.mul_smul,
        Matrix.mul_smul, hpc, smul_smul, smul_smul]
      have : 1 / D * (Real.sqrt D * Real.sqrt D) = 1 := by
        rw [Real.mul_self_sqrt hD.le]; field_simp
      rw [mul_assoc] at *
      rw [this, one_smul]) u
  show (stdNormal n).map (fun v => u + (Real.sqrt D • (coordMat B * dirMat A (Gf (chart x₀ B u)))) *ᵥ v) = _
  rw [h1, gaussLaw]
  congr 1
  funext v
  rw [hdens _ (hGpos _ hu.1) x₀ u v]
  rfl

theorem sparseCoord_balance {c : ℝ} (hc : 0 < c) (u v : Fin d → ℝ) :
    sparseCoordDens A D Gf x₀ B c u v * ENNReal.ofReal (sparseAccept A D Gf (chart x₀ B u) (chart x₀ B v)) =
      sparseCoordDens A D Gf x₀ B c v u * ENNReal.ofReal (sparseAccept A D Gf (chart x₀ B v) (chart x₀ B u)) := by
  have key : ∀ p q : ℝ, c * Real.exp p * min 1 (Real.exp (q - p)) = c * min (Real.exp p) (Real.exp q) := by
    intro p q
    rw [mul_assoc, mul_min_of_nonneg _ _ (Real.exp_pos p).le, mul_one, ← Real.exp_add]
    congr 3; ring
  unfold sparseCoordDens
  rw [← ENNReal.ofReal_mul (by positivity), ← ENNReal.ofReal_mul (by positivity)]
  unfold sparseAccept
  rw [key, key, min_comm]

end

/-- One iteration, at a point of the relative interior whose proposal is not on the boundary. -/
theorem sparseBarrier_step_next {σ : Type} (cls : SparseBarrierClass ℝ σ) (ERR : ℝ) (E : Eigen ℝ)
    (hLLT : E.SparseLLTSolveExact) (hL : E.SparseLLTLExact) (hLU : E.SparseLUExact) (r : Rng ℝ) (junk : Fin n → ℝ)
    (A : Matrix (Fin m) (Fin n) ℝ) (hA : IndepRows A) (k : ℕ) (hk : 1 ≤ k) (hkn : k ≤ n) (o : σ) (x₀ : Fin n → ℝ)
    (Gf : (Fin n → ℝ) → Fin n → ℝ) (hGpos : ∀ x ∈ TailPos n k, ∀ i, 0 < Gf x i)
    (hG : ∀ x ∈ TailPos n k, generateG cls ERR junk o x A k = .ok (Gf x, o)) (x : Fin n → ℝ) (hx : x ∈ relInterior A k x₀) (g : r.G)
    (hg : sparseProp A (cls.distTerm o) Gf x (r.gaussian n g).1 ∈ relInterior A k x₀ ∨
      sparseProp A (cls.distTerm o) Gf x (r.gaussian n g).1 ∉ TailNonneg n k) :
    SparseBarrier.step cls ERR E r junk A k (x, o, g) =
      .ok ((mhNext r n (TailNonneg n k) (sparseProp A (cls.distTerm o) Gf) (sparseAccept A (cls.distTerm o) Gf) x g).1, o,
        (mhNext r n (TailNonneg n k) (sparseProp A (cls.distTerm o) Gf) (sparseAccept A (cls.distTerm o) Gf) x g).2) := by
  classical
  set D := cls.distTerm o with hDdef
  set z := sparseProp A D Gf x (r.gaussian n g).1 with hz
  have hprop : SparseBarrier.proposal E D (Gf x) A x (r.gaussian n g).1 = z :=
    sparse_proposal_real hLLT hA (hGpos x hx.1) D x _
  have hgs : SparseBarrier.generateSample cls ERR E r junk A k x o g = .ok (z, o, (r.gaussian n g).2) := by
    unfold SparseBarrier.generateSample
    rw [if_neg (by omega), hG x hx.1, Out.ok_bind]
    simp only
    rw [← hDdef, hprop]
  unfold SparseBarrier.step
  simp only
  rw [hgs, Out.ok_bind]
  simp only
  rw [inPolytopeK_real z k hk hkn, Out.ok_bind]
  by_cases hzC : z ∈ TailNonneg n k
  · have hzV : z ∈ relInterior A k x₀ := by
      rcases hg with h | h
      · exact h
      · exact absurd hzC h
    have hxz : A *ᵥ x = A *ᵥ z := hx.2.trans hzV.2.symm
    rw [if_pos (decide_eq_true (show ∀ i : Fin n, n - k ≤ i.val → 0 ≤ z i from hzC))]
    unfold SparseBarrier.generateProposalDensity
    rw [hG x hx.1, Out.ok_bind, Out.ok_bind]
    simp only
    rw [hG z hzV.1, Out.ok_bind, Out.ok_bind]
    simp only
    rw [← hDdef, sparse_logDensity_real hL hA (hGpos x hx.1) hLU D x z hxz,
      sparse_logDensity_real hL hA (hGpos z hzV.1) hLU D z x hxz.symm]
    unfold mhNext
    rw [if_pos hzC]
    simp only
    rw [← hz]
    congr 2
    unfold mhAccept sparseAccept
    rw [cmin_real]
    simp only [rsc_exp, rsc_lt, decide_eq_true_eq]
  · rw [if_neg (by rw [decide_eq_true_iff]; exact hzC)]
    unfold mhNext
    rw [if_neg hzC]

/-- **Step law of a sparse barrier walk** whose metric at a point is a measurable function of the point. -/
theorem sparseBarrier_stepLaw {σ : Type} (cls : SparseBarrierClass ℝ σ) (ERR : ℝ) (E : Eigen ℝ)
    (hLLT : E.SparseLLTSolveExact) (hL : E.SparseLLTLExact) (hLU : E.SparseLUExact) (r : Rng ℝ)
    [MeasurableSpace r.G] (μ : Measure r.G) (hs : IdealSource r μ) (junk : Fin n → ℝ)
    (A : Matrix (Fin m) (Fin n) ℝ) (hA : IndepRows A) (k : ℕ) (hk : 1 ≤ k) (hkn : k ≤ n) (o : σ)
    (hD : 0 < cls.distTerm o) (x₀ : Fin n → ℝ) (hx₀ : x₀ ∈ TailPos n k) (B : Matrix (Fin n) (Fin d) ℝ)
    (hB : IsKernelBasis A B) (Gf : (Fin n → ℝ) → Fin n → ℝ) (hGm : ∀ i, Measurable fun x => Gf x i)
    (hGpos : ∀ x ∈ TailPos n k, ∀ i, 0 < Gf x i)
    (hG : ∀ x ∈ TailPos n k, generateG cls ERR junk o x A k = .ok (Gf x, o)) :
    StepLaw (uniformOnEq x₀ B k) μ ((stdNormal n).prod unitLaw) (fun x g => (x, o, g))
      (SparseBarrier.step cls ERR E r junk A k)
      (mhNext r n (TailNonneg n k) (sparseProp A (cls.distTerm o) Gf) (sparseAccept A (cls.distTerm o) Gf))
      (mhMove (TailNonneg n k) (sparseProp A (cls.distTerm o) Gf) (sparseAccept A (cls.distTerm o) Gf)) := by
  obtain ⟨c, hc, hdens⟩ := gaussDensity_kernel hA hB hD
  exact mh_stepLaw r μ stdNormal hs n (measurableSet_tailNonneg n k) (measurableSet_relInterior A k x₀) (l := volume) (measurable_chart x₀ B)
    (by rw [chart_relInterior hB]; exact tail_boundary_null hx₀ B) (measurable_sparseProp A _ hGm) (measurable_sparseAccept A _ hGm)
    (fun x z => le_min zero_le_one (Real.exp_pos _).le) (fun x z => min_le_left _ _)
    (fun u _ => measurable_sparseCoordProp u) (fun u hu ξ => sparseCoordProp_lift hA hB hGpos hu ξ)
    (measurable_sparseCoordDens hGm c) (fun u hu => sparseCoordProp_law hA hD hB hGpos hdens hu) (fun u v _ _ => sparseCoord_balance hc u v)
    (fun x hx g hg => sparseBarrier_step_next cls ERR E hLLT hL hLU r junk A hA k hk hkn o x₀ Gf hGpos hG x hx g hg)

end PW
