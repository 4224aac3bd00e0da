import Verif.Lemmas.Cholesky
import Verif.Lemmas.Metropolis
import Verif.Lemmas.Gaussian
import Verif.Lemmas.SparseMHStep
import Verif.Props.BallLaw
import Verif.Props.DenseWeights

/-! # The step of the dense barrier walks as a random map -/

namespace PW
open Matrix MeasureTheory Set
open scoped ENNReal
variable {m n : ℕ}

theorem IsCholesky.det_eq {L M : Matrix (Fin n) (Fin n) ℝ} (h : IsCholesky L M) : L.det = ∏ i, L i i :=
  Matrix.det_of_isLowerTriangular L fun i j hij => h.lower i j hij

theorem IsCholesky.det_pos {L M : Matrix (Fin n) (Fin n) ℝ} (h : IsCholesky L M) : 0 < L.det := by
  rw [h.det_eq]; exact Finset.prod_pos fun i _ => h.diag_pos i

theorem IsCholesky.isUnit {L M : Matrix (Fin n) (Fin n) ℝ} (h : IsCholesky L M) : IsUnit L.det :=
  isUnit_iff_ne_zero.2 h.det_pos.ne'

theorem IsCholesky.log_eq {L M : Matrix (Fin n) (Fin n) ℝ} (h : IsCholesky L M) :
    logDiagSum L = Real.log L.det := by
  rw [h.det_eq, Real.log_prod fun i _ => (h.diag_pos i).ne']
  simp only [logDiagSum, vsum_real, rsc_log]

theorem isCholesky_one : IsCholesky (1 : Matrix (Fin n) (Fin n) ℝ) 1 where
  lower i j hij := Matrix.one_apply_ne hij.ne
  diag_pos i := by rw [Matrix.one_apply_eq]; exact one_pos
  mul_eq := by simp

/-- The proposal of the dense barrier walks with exact solvers: `x + sqrt(D) L⁻¹ v`. -/
theorem dense_proposal_real {E : Eigen ℝ} (hLU : E.LuExact) {H : Matrix (Fin n) (Fin n) ℝ}
    (h : IsCholesky (E.lltL H) H) (D : ℝ) (x v : Fin n → ℝ) :
    BarrierWalk.proposal E D H x v = x + (Real.sqrt D • (E.lltL H)⁻¹) *ᵥ v := by
  have h1 : E.luSolve (E.lltL H) v = (E.lltL H)⁻¹ *ᵥ v := by
    have := hLU (E.lltL H) v h.isUnit
    rw [← this, Matrix.mulVec_mulVec, Matrix.nonsing_inv_mul _ h.isUnit, Matrix.one_mulVec, this]
  funext i
  rw [Pi.add_apply, Matrix.smul_mulVec, Pi.smul_apply, smul_eq_mul, ← h1]
  rfl

/-- Law of `x + sqrt(D) L⁻¹ ξ`. -/
theorem dense_proposal_law {L M : Matrix (Fin n) (Fin n) ℝ} (h : IsCholesky L M) {D : ℝ} (hD : 0 < D)
    (x : Fin n → ℝ) :
    (stdNormal n).map (fun v => x + (Real.sqrt D • L⁻¹) *ᵥ v) = gaussLaw ((1 / D) • (Lᵀ * L)) x := by
  refine stdNormal_map _ _ ?_ x
  have h1 : (Lᵀ * L) * (L⁻¹ * (L⁻¹)ᵀ) = 1 := by
    rw [Matrix.mul_assoc, ← Matrix.mul_assoc L, Matrix.mul_nonsing_inv _ h.isUnit, Matrix.one_mul,
      ← Matrix.transpose_mul, Matrix.nonsing_inv_mul _ h.isUnit, Matrix.transpose_one]
  rw [Matrix.transpose_smul, Matrix.smul_mul, Matrix.mul_smul, Matrix.smul_mul, Matrix.mul_smul, Matrix.mul_smul, h1,
    smul_smul, smul_smul]
  have : 1 / D * (Real.sqrt D * Real.sqrt D) = 1 := by
    rw [Real.mul_self_sqrt hD.le]; field_simp
  rw [mul_assoc] at *
  rw [this, one_smul]

/-- `logDensity` with exact arithmetic. -/
noncomputable def denseLogDens (D : ℝ) (L H : Matrix (Fin n) (Fin n) ℝ) (δ : Fin n → ℝ) : ℝ :=
  Real.log L.det - 1 / 2 / D * (δ ⬝ᵥ H *ᵥ δ)

theorem dense_logDensity_real {L M : Matrix (Fin n) (Fin n) ℝ} (h : IsCholesky L M) (D : ℝ)
    (H : Matrix (Fin n) (Fin n) ℝ) (x z : Fin n → ℝ) :
    BarrierWalk.logDensity D L H x z = denseLogDens D L H (x - z) := by
  unfold BarrierWalk.logDensity denseLogDens
  rw [h.log_eq, half_real]
  have : localNorm (fun i => x i - z i) H = (x - z) ⬝ᵥ H *ᵥ (x - z) := by
    unfold localNorm
    rw [Matrix.dotProduct_mulVec, vsum_real]
    simp only [vsum_real]
    rfl
  rw [this]; ring

theorem quad_neg (H : Matrix (Fin n) (Fin n) ℝ) (δ : Fin n → ℝ) : (-δ) ⬝ᵥ H *ᵥ (-δ) = δ ⬝ᵥ H *ᵥ δ := by
  rw [Matrix.mulVec_neg, neg_dotProduct_neg]

theorem denseLogDens_sub (D : ℝ) (L H : Matrix (Fin n) (Fin n) ℝ) (x z : Fin n → ℝ) :
    denseLogDens D L H (x - z) = denseLogDens D L H (z - x) := by
  unfold denseLogDens; rw [← neg_sub z x, quad_neg]

/-- Density of the proposal: the density the acceptance step uses, times the exponential of the defect
`δᵀ (H - LᵀL) δ / 2D`. -/
theorem dense_density {L H : Matrix (Fin n) (Fin n) ℝ} (h : IsCholesky L H) {D : ℝ} (hD : 0 < D)
    (x z : Fin n → ℝ) :
    gaussDensity ((1 / D) • (Lᵀ * L)) x z =
      (Real.sqrt ((1 / D) ^ n) * (Real.sqrt (2 * Real.pi))⁻¹ ^ n) *
        (Real.exp (denseLogDens D L H (z - x)) *
          Real.exp (1 / 2 / D * ((z - x) ⬝ᵥ (H - Lᵀ * L) *ᵥ (z - x)))) := by
  unfold gaussDensity denseLogDens
  have h1 : Real.sqrt ((1 / D) • (Lᵀ * L)).det = Real.sqrt ((1 / D) ^ n) * L.det := by
    rw [Matrix.det_smul, Fintype.card_fin, Matrix.det_mul, Matrix.det_transpose,
      Real.sqrt_mul (by positivity), Real.sqrt_mul_self h.det_pos.le]
  rw [h1, ← Real.exp_add]
  have h2 : Real.log L.det - 1 / 2 / D * ((z - x) ⬝ᵥ H *ᵥ (z - x)) +
      1 / 2 / D * ((z - x) ⬝ᵥ (H - Lᵀ * L) *ᵥ (z - x)) =
      Real.log L.det + -((z - x) ⬝ᵥ ((1 / D) • (Lᵀ * L)) *ᵥ (z - x)) / 2 := by
    rw [Matrix.sub_mulVec, dotProduct_sub, Matrix.smul_mulVec, dotProduct_smul, smul_eq_mul]
    ring
  rw [h2, Real.exp_add, Real.exp_log h.det_pos]
  ring

/-! ## Metric fields -/

/-- A measurable field of metrics with their Cholesky factors. -/
structure MetricField (n : ℕ) where
  /-- metric -/
  H : (Fin n → ℝ) → Matrix (Fin n) (Fin n) ℝ
  /-- factor -/
  L : (Fin n → ℝ) → Matrix (Fin n) (Fin n) ℝ
  chol : ∀ x, IsCholesky (L x) (H x)
  measH : MeasMat H

namespace MetricField
variable (Φ : MetricField n)

theorem measL : MeasMat Φ.L := IsCholesky.measMat Φ.chol Φ.measH

/-- proposal -/
noncomputable def prop (D : ℝ) (x v : Fin n → ℝ) : Fin n → ℝ := x + (Real.sqrt D • (Φ.L x)⁻¹) *ᵥ v

/-- logarithm of the density the acceptance step uses -/
noncomputable def logd (D : ℝ) (x z : Fin n → ℝ) : ℝ := denseLogDens D (Φ.L x) (Φ.H x) (z - x)

/-- acceptance probability -/
noncomputable def acc (D : ℝ) (x z : Fin n → ℝ) : ℝ := min 1 (Real.exp (Φ.logd D z x - Φ.logd D x z))

/-- density of the proposal -/
noncomputable def dens (D : ℝ) (x z : Fin n → ℝ) : ℝ := gaussDensity ((1 / D) • ((Φ.L x)ᵀ * Φ.L x)) x z

/-- difference of the exponents of the density used by the acceptance step and the density of the proposal -/
noncomputable def defect (x z : Fin n → ℝ) : ℝ := (z - x) ⬝ᵥ (Φ.H x - (Φ.L x)ᵀ * Φ.L x) *ᵥ (z - x)

theorem meas_sub : Measurable fun p : (Fin n → ℝ) × (Fin n → ℝ) => p.2 - p.1 :=
  measurable_snd.sub measurable_fst

theorem measurable_quad {X : Type} [MeasurableSpace X] {M : X → Matrix (Fin n) (Fin n) ℝ} (hM : MeasMat M)
    {δ : X → Fin n → ℝ} (hδ : Measurable δ) : Measurable fun x => δ x ⬝ᵥ M x *ᵥ δ x := by
  have h2 := hM.mulVec hδ
  simp only [dotProduct]
  exact Finset.measurable_sum _ fun i _ =>
    ((measurable_pi_apply i).comp hδ).mul ((measurable_pi_apply i).comp h2)

theorem meas_prop (D : ℝ) : Measurable fun p : (Fin n → ℝ) × (Fin n → ℝ) => Φ.prop D p.1 p.2 :=
  measurable_fst.add ((((Φ.measL.inv).smul (Real.sqrt D)).comp measurable_fst).mulVec measurable_snd)

theorem meas_logd (D : ℝ) : Measurable fun p : (Fin n → ℝ) × (Fin n → ℝ) => Φ.logd D p.1 p.2 := by
  unfold logd denseLogDens
  exact (Real.measurable_log.comp (Φ.measL.comp measurable_fst).det).sub
    ((measurable_quad (Φ.measH.comp measurable_fst) meas_sub).const_mul _)

theorem meas_acc (D : ℝ) : Measurable fun p : (Fin n → ℝ) × (Fin n → ℝ) => Φ.acc D p.1 p.2 := by
  have h1 := (Φ.meas_logd D).comp measurable_swap
  exact measurable_const.min (Real.measurable_exp.comp (h1.sub (Φ.meas_logd D)))

theorem meas_dens (D : ℝ) : Measurable fun p : (Fin n → ℝ) × (Fin n → ℝ) => Φ.dens D p.1 p.2 := by
  have hP : MeasMat fun p : (Fin n → ℝ) × (Fin n → ℝ) => (1 / D) • ((Φ.L p.1)ᵀ * Φ.L p.1) :=
    ((Φ.measL.comp measurable_fst).transpose.mul (Φ.measL.comp measurable_fst)).smul (1 / D)
  unfold dens gaussDensity
  exact (((Real.continuous_sqrt.measurable.comp hP.det).mul_const _)).mul
    (Real.measurable_exp.comp ((measurable_quad hP meas_sub).neg.div_const 2))

theorem acc_nonneg (D : ℝ) (x z : Fin n → ℝ) : 0 ≤ Φ.acc D x z := le_min zero_le_one (Real.exp_pos _).le

theorem acc_le (D : ℝ) (x z : Fin n → ℝ) : Φ.acc D x z ≤ 1 := min_le_left _ _

/-- Proposal density times acceptance probability: symmetric up to the exponential of the defect. -/
theorem dens_mul_acc {D : ℝ} (hD : 0 < D) (x z : Fin n → ℝ) :
    Φ.dens D x z * Φ.acc D x z = (Real.sqrt ((1 / D) ^ n) * (Real.sqrt (2 * Real.pi))⁻¹ ^ n) *
      (min (Real.exp (Φ.logd D x z)) (Real.exp (Φ.logd D z x)) * Real.exp (1 / 2 / D * Φ.defect x z)) := by
  unfold dens
  rw [dense_density (Φ.chol x) hD]
  have key : ∀ p q : ℝ, Real.exp p * min 1 (Real.exp (q - p)) = min (Real.exp p) (Real.exp q) := by
    intro p q
    rw [mul_min_of_nonneg _ _ (Real.exp_pos p).le, mul_one, ← Real.exp_add]
    congr 2; ring
  have := key (Φ.logd D x z) (Φ.logd D z x)
  unfold acc
  rw [← this]
  unfold logd defect
  ring

/-- Detailed balance at a pair of points: exactly if the two defects agree. -/
theorem balance_iff {D : ℝ} (hD : 0 < D) (x z : Fin n → ℝ) :
    Φ.dens D x z * Φ.acc D x z = Φ.dens D z x * Φ.acc D z x ↔ Φ.defect x z = Φ.defect z x := by
  rw [Φ.dens_mul_acc hD, Φ.dens_mul_acc hD, min_comm (Real.exp (Φ.logd D z x))]
  have h1 : 0 < Real.sqrt ((1 / D) ^ n) * (Real.sqrt (2 * Real.pi))⁻¹ ^ n := by positivity
  have h2 : 0 < min (Real.exp (Φ.logd D x z)) (Real.exp (Φ.logd D z x)) :=
    lt_min (Real.exp_pos _) (Real.exp_pos _)
  have h3 : 1 / 2 / D ≠ 0 := by positivity
  rw [mul_right_inj' h1.ne', mul_right_inj' h2.ne', Real.exp_injective.eq_iff, mul_right_inj' h3]

theorem law {D : ℝ} (hD : 0 < D) (x : Fin n → ℝ) :
    (stdNormal n).map (Φ.prop D x) = volume.withDensity fun z => ENNReal.ofReal (Φ.dens D x z) :=
  dense_proposal_law (Φ.chol x) hD x

end MetricField

/-! ## The barrier walks -/

theorem measurableSet_interior (A : Matrix (Fin m) (Fin n) ℝ) (b : Fin m → ℝ) : MeasurableSet (Interior A b) := by
  have : Interior A b = ⋂ i, {x | A.mulVec x i < b i} := by ext; simp [Interior]
  rw [this]
  exact MeasurableSet.iInter fun i => measurableSet_lt
    ((measurable_pi_apply i).comp (Continuous.measurable (Continuous.matrix_mulVec continuous_const continuous_id)))
    measurable_const

theorem interior_subset (A : Matrix (Fin m) (Fin n) ℝ) (b : Fin m → ℝ) : Interior A b ⊆ Poly A b :=
  fun _ h i => (h i).le

/-- The boundary of a polytope with an interior point is a null set. -/
theorem poly_boundary_null {A : Matrix (Fin m) (Fin n) ℝ} {b : Fin m → ℝ} {x₀ : Fin n → ℝ}
    (hx₀ : x₀ ∈ Interior A b) : Interior A b =ᵐ[volume] Poly A b := by
  refine ae_eq_set.2 ⟨?_, ?_⟩
  · rw [sdiff_eq_empty.2 (interior_subset A b)]; exact measure_empty
  · have hsub : Poly A b \ Interior A b ⊆ ⋃ i, {u : Fin n → ℝ | -b i + A i ⬝ᵥ u = 0} := by
      rintro u ⟨h1, h2⟩
      have h2' : ¬ ∀ i, A.mulVec u i < b i := h2
      push Not at h2'
      obtain ⟨i, hi⟩ := h2'
      refine mem_iUnion.2 ⟨i, ?_⟩
      have := le_antisymm (h1 i) hi
      show -b i + A.mulVec u i = 0
      rw [this]; ring
    refine measure_mono_null hsub ((measure_iUnion_null_iff).2 fun i => ?_)
    by_cases hv : A i = 0
    · have : {u : Fin n → ℝ | -b i + A i ⬝ᵥ u = 0} = ∅ := by
        ext u
        simp only [mem_ofPred_eq, mem_empty_iff_false, iff_false, hv, zero_dotProduct, add_zero]
        have := hx₀ i
        have e : A.mulVec x₀ i = 0 := by
          show A i ⬝ᵥ x₀ = 0
          rw [hv, zero_dotProduct]
        rw [e] at this
        linarith
      rw [this]; exact measure_empty
    · exact hyperplane_null (A i) hv (-b i)

/-- `hessianOf` of measurable weights is measurable. -/
theorem measMat_hessianOf (A : Matrix (Fin m) (Fin n) ℝ) (b : Fin m → ℝ) {w : (Fin n → ℝ) → Fin m → ℝ}
    (hw : ∀ i, Measurable fun x => w x i) : MeasMat fun x => hessianOf (w x) x A b := by
  have hs : ∀ i, Measurable fun x : Fin n → ℝ => b i - (A *ᵥ x) i := fun i =>
    measurable_const.sub ((measurable_pi_apply i).comp
      (Continuous.measurable (Continuous.matrix_mulVec continuous_const continuous_id)))
  simp only [hessianOf_real]
  exact ((MeasMat.const _).mul (MeasMat.diagonal fun i => (hw i).div ((hs i).pow_const 2))).mul (MeasMat.const _)

open Classical in
/-- The metric field of a barrier walk with weights `w`: the barrier Hessian in the interior. -/
noncomputable def barrierField (E : Eigen ℝ) (hL : E.LltExact) (A : Matrix (Fin m) (Fin n) ℝ) (b : Fin m → ℝ)
    (hA : IndepCols A) (w : (Fin n → ℝ) → Fin m → ℝ) (hw : ∀ i, Measurable fun x => w x i)
    (hpos : ∀ x ∈ Interior A b, ∀ i, 0 < w x i) : MetricField n where
  H x := if x ∈ Interior A b then hessianOf (w x) x A b else 1
  L x := if x ∈ Interior A b then E.lltL (hessianOf (w x) x A b) else 1
  chol x := by
    by_cases hx : x ∈ Interior A b
    · simp only [hx, if_true]; exact (C26_posDef E hL (w x) (hpos x hx) x A b hA hx).2
    · simp only [hx, if_false]; exact isCholesky_one
  measH i j := by
    have h1 := measMat_hessianOf A b hw i j
    have : (fun x => (if x ∈ Interior A b then hessianOf (w x) x A b else 1) i j) =
        fun x => if x ∈ Interior A b then hessianOf (w x) x A b i j else (1 : Matrix (Fin n) (Fin n) ℝ) i j := by
      funext x; split <;> rfl
    rw [this]
    exact Measurable.ite (measurableSet_interior A b) h1 measurable_const

/-- One iteration, at an interior point whose proposal is not on the boundary. -/
theorem denseBarrier_step_next {σ : Type} (cls : BarrierClass ℝ σ) (E : Eigen ℝ) (hL : E.LltExact) (hLU : E.LuExact)
    (r : Rng ℝ) (A : Matrix (Fin m) (Fin n) ℝ) (b : Fin m → ℝ) (hm : 0 < m) (hA : IndepCols A) (o : σ)
    (w : (Fin n → ℝ) → Fin m → ℝ) (hw : ∀ i, Measurable fun x => w x i)
    (hpos : ∀ x ∈ Interior A b, ∀ i, 0 < w x i)
    (hG : ∀ x ∈ Interior A b, generateHessian cls o x A b = .ok (hessianOf (w x) x A b, o)) (x : Fin n → ℝ) (hx : x ∈ Interior A b) (g : r.G)
    (hg : (barrierField E hL A b hA w hw hpos).prop (cls.distTerm o) x (r.gaussian n g).1 ∈ Interior A b ∨
      (barrierField E hL A b hA w hw hpos).prop (cls.distTerm o) x (r.gaussian n g).1 ∉ Poly A b) :
    BarrierWalk.step cls E r A b (x, o, g) =
      .ok ((mhNext r n (Poly A b) ((barrierField E hL A b hA w hw hpos).prop (cls.distTerm o))
        ((barrierField E hL A b hA w hw hpos).acc (cls.distTerm o)) x g).1, o,
        (mhNext r n (Poly A b) ((barrierField E hL A b hA w hw hpos).prop (cls.distTerm o))
        ((barrierField E hL A b hA w hw hpos).acc (cls.distTerm o)) x g).2) := by
  classical
  set Φ := barrierField E hL A b hA w hw hpos with hΦ
  set D := cls.distTerm o with hDdef
  have hHx : ∀ x ∈ Interior A b, Φ.H x = hessianOf (w x) x A b := fun x hx => if_pos hx
  have hLx : ∀ x ∈ Interior A b, Φ.L x = E.lltL (hessianOf (w x) x A b) := fun x hx => if_pos hx
  have hch : ∀ x ∈ Interior A b, IsCholesky (E.lltL (hessianOf (w x) x A b)) (hessianOf (w x) x A b) :=
    fun x hx => (C26_posDef E hL (w x) (hpos x hx) x A b hA hx).2
  set z := Φ.prop D x (r.gaussian n g).1 with hz
  have hprop : BarrierWalk.proposal E D (hessianOf (w x) x A b) x (r.gaussian n g).1 = z := by
    rw [dense_proposal_real hLU (hch x hx), hz, MetricField.prop, hLx x hx]
  unfold BarrierWalk.step BarrierWalk.generateSample
  simp only
  rw [hG x hx, Out.ok_bind]
  simp only
  rw [← hDdef, hprop, inPolytope_real z A b hm, Out.ok_bind]
  by_cases hzC : z ∈ Poly A b
  · have hzV : z ∈ Interior A b := by
      rcases hg with h | h
      · exact h
      · exact absurd hzC h
    have hdec : decide (∀ i, A.mulVec z i ≤ b i) = true := decide_eq_true hzC
    rw [hdec]
    simp only [Bool.not_true, Bool.false_eq_true, if_false]
    rw [hG z hzV, Out.ok_bind]
    simp only
    rw [← hDdef, dense_logDensity_real (hch x hx), dense_logDensity_real (hch z hzV)]
    unfold mhNext
    rw [if_pos hzC]
    simp only
    rw [← hz]
    congr 2
    unfold mhAccept MetricField.acc MetricField.logd
    rw [cmin_real, hHx x hx, hHx z hzV, hLx x hx, hLx z hzV,
      denseLogDens_sub D (E.lltL (hessianOf (w x) x A b)) _ x z]
    simp only [rsc_exp, rsc_lt, decide_eq_true_eq]
  · have hdec : decide (∀ i, A.mulVec z i ≤ b i) = false := decide_eq_false hzC
    rw [hdec]
    simp only [Bool.not_false, if_true]
    unfold mhNext
    rw [if_neg hzC]


/-- **One step of a dense barrier walk as a random map**: the proposal is Gaussian with precision `LᵀL / D`, and
is kept with probability `min(1, exp(g(z,x) - g(x,z)))`. -/
theorem denseBarrier_kernel {σ : Type} (cls : BarrierClass ℝ σ) (E : Eigen ℝ) (hL : E.LltExact) (hLU : E.LuExact)
    (r : Rng ℝ) [MeasurableSpace r.G] (μ : Measure r.G) (hs : IdealSource r μ)
    (A : Matrix (Fin m) (Fin n) ℝ) (b : Fin m → ℝ) (hm : 0 < m) (hA : IndepCols A) (o : σ)
    (hD : 0 < cls.distTerm o) (x₀ : Fin n → ℝ) (hx₀ : x₀ ∈ Interior A b)
    (w : (Fin n → ℝ) → Fin m → ℝ) (hw : ∀ i, Measurable fun x => w x i)
    (hpos : ∀ x ∈ Interior A b, ∀ i, 0 < w x i)
    (hG : ∀ x ∈ Interior A b, generateHessian cls o x A b = .ok (hessianOf (w x) x A b, o)) :
    StepKernel (uniformOn A b) μ ((stdNormal n).prod unitLaw) (fun x g => (x, o, g))
      (BarrierWalk.step cls E r A b)
      (mhNext r n (Poly A b) ((barrierField E hL A b hA w hw hpos).prop (cls.distTerm o))
        ((barrierField E hL A b hA w hw hpos).acc (cls.distTerm o)))
      (mhMove (Poly A b) ((barrierField E hL A b hA w hw hpos).prop (cls.distTerm o))
        ((barrierField E hL A b hA w hw hpos).acc (cls.distTerm o))) := by
  classical
  set Φ := barrierField E hL A b hA w hw hpos with hΦ
  set D := cls.distTerm o with hDdef
  have key := mh_stepKernel (Y := Fin n → ℝ) r μ stdNormal hs n (measurableSet_poly A b) (measurableSet_interior A b)
    (l := volume) (c := fun x => x) measurable_id (poly_boundary_null hx₀) (Φ.meas_prop D) (Φ.meas_acc D)
    (prop := Φ.prop D) (fun u _ => (Φ.meas_prop D).comp measurable_prodMk_left) (fun _ _ _ => rfl)
    (q := fun x z => ENNReal.ofReal (Φ.dens D x z)) (fun u _ => Φ.law hD u)
    (start := fun x g => (x, o, g)) (step := BarrierWalk.step cls E r A b) ?_
  · have e : ((volume : Measure (Fin n → ℝ)).restrict ((fun x => x) ⁻¹' Poly A b)).map (fun x => x) =
        uniformOn A b := by
      rw [Measure.map_id']; rfl
    rw [e] at key
    exact key
  · exact fun x hx g hg => denseBarrier_step_next cls E hL hLU r A b hm hA o w hw hpos hG x hx g hg

end PW
