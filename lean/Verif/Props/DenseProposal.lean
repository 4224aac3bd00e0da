import Verif.Spec.Metric
import Verif.Lemmas.DenseReverse
import Verif.Lemmas.ContractsSat

/-!
# C34: the law of the proposal of the dense barrier walks

The code draws `x + sqrt(D) L⁻¹ ξ`, where `L Lᵀ = H`. Its covariance is `D (LᵀL)⁻¹`, not `D H⁻¹ = D (L Lᵀ)⁻¹`.
-/

namespace PW
open Matrix MeasureTheory Set
open scoped ENNReal
variable {m n : ℕ}

/-- A symmetric matrix is determined by its quadratic form. -/
theorem quad_ext {P Q : Matrix (Fin n) (Fin n) ℝ} (hP : Pᵀ = P) (hQ : Qᵀ = Q)
    (h : ∀ δ : Fin n → ℝ, δ ⬝ᵥ P *ᵥ δ = δ ⬝ᵥ Q *ᵥ δ) : P = Q := by
  have e : ∀ (M : Matrix (Fin n) (Fin n) ℝ) i j, (Pi.single i 1 : Fin n → ℝ) ⬝ᵥ M *ᵥ Pi.single j 1 = M i j := by
    intro M i j; simp
  have hd : ∀ i, P i i = Q i i := fun i => by rw [← e P i i, ← e Q i i, h]
  ext i j
  have h1 := h (Pi.single i 1 + Pi.single j 1)
  simp only [Matrix.mulVec_add, dotProduct_add, add_dotProduct, e] at h1
  have hP' : P j i = P i j := congrFun (congrFun hP i) j
  have hQ' : Q j i = Q i j := congrFun (congrFun hQ i) j
  have h2 := hd i
  have h3 := hd j
  linarith

/-- Gaussian laws with different precision matrices are different. -/
theorem gaussLaw_inj {P Q : Matrix (Fin n) (Fin n) ℝ} (hP : Pᵀ = P) (hQ : Qᵀ = Q) (hPd : 0 < P.det)
    (x : Fin n → ℝ) (h : gaussLaw P x = gaussLaw Q x) (hfin : IsFiniteMeasure (gaussLaw P x)) : P = Q := by
  have hc : ∀ P : Matrix (Fin n) (Fin n) ℝ, Continuous fun z => ENNReal.ofReal (gaussDensity P x z) := by
    intro P
    unfold gaussDensity
    refine ENNReal.continuous_ofReal.comp (continuous_const.mul (Real.continuous_exp.comp ?_))
    exact (Continuous.neg (Continuous.dotProduct (continuous_id.sub continuous_const)
      (Continuous.matrix_mulVec continuous_const (continuous_id.sub continuous_const)))).div_const _
  have hI : ∫⁻ z, ENNReal.ofReal (gaussDensity P x z) ≠ ∞ := by
    rw [← setLIntegral_univ, ← withDensity_apply _ MeasurableSet.univ]
    exact (measure_ne_top (gaussLaw P x) univ)
  have hae := (withDensity_eq_iff (hc P).measurable.aemeasurable (hc Q).measurable.aemeasurable hI).1 h
  have heq := (Continuous.ae_eq_iff_eq volume (hc P) (hc Q)).1 hae
  have hr : ∀ z, gaussDensity P x z = gaussDensity Q x z := by
    intro z
    have := congrFun heq z
    refine (ENNReal.ofReal_eq_ofReal_iff ?_ ?_).1 this
    · unfold gaussDensity; positivity
    · unfold gaussDensity; positivity
  have h0 := hr x
  unfold gaussDensity at hr h0
  simp only [sub_self, zero_dotProduct, neg_zero, zero_div, Real.exp_zero, mul_one] at h0
  have hpos : 0 < Real.sqrt P.det * (Real.sqrt (2 * Real.pi))⁻¹ ^ n :=
    mul_pos (Real.sqrt_pos.2 hPd) (by positivity)
  refine quad_ext hP hQ fun δ => ?_
  have h1 := hr (x + δ)
  rw [← h0, mul_right_inj' hpos.ne', Real.exp_injective.eq_iff, add_sub_cancel_left] at h1
  linarith

/-- **C34** (what the code does): the proposal is Gaussian with mean `x` and precision matrix `LᵀL / D`. -/
theorem C34_proposal_law (E : Eigen ℝ) (hL : E.LltExact) (hLU : E.LuExact) (H : Matrix (Fin n) (Fin n) ℝ)
    (hH : H.PosDef) (D : ℝ) (hD : 0 < D) (x : Fin n → ℝ) :
    (stdNormal n).map (BarrierWalk.proposal E D H x) = gaussLaw ((1 / D) • ((E.lltL H)ᵀ * E.lltL H)) x := by
  rw [← dense_proposal_law (hL H hH) hD x]
  congr 1
  funext v
  exact dense_proposal_real hLU (hL H hH) D x v

/-- The proposal has precision `H / D` exactly if `H` is diagonal. -/
theorem proposal_law_iff (E : Eigen ℝ) (hL : E.LltExact) (hLU : E.LuExact) (H : Matrix (Fin n) (Fin n) ℝ)
    (hH : H.PosDef) (D : ℝ) (hD : 0 < D) (x : Fin n → ℝ) :
    (stdNormal n).map (BarrierWalk.proposal E D H x) = gaussLaw ((1 / D) • H) x ↔ H.IsDiag := by
  have hC := hL H hH
  have hlaw := C34_proposal_law E hL hLU H hH D hD x
  rw [← hC.normal_iff]
  constructor
  · intro h
    have hmeas : Measurable (BarrierWalk.proposal E D H x) := by
      have : BarrierWalk.proposal E D H x = fun v => x + (Real.sqrt D • (E.lltL H)⁻¹) *ᵥ v :=
        funext fun v => dense_proposal_real hLU hC D x v
      rw [this]
      exact Continuous.measurable
        (continuous_const.add (Continuous.matrix_mulVec continuous_const continuous_id))
    have hfin : IsFiniteMeasure (gaussLaw ((1 / D) • ((E.lltL H)ᵀ * E.lltL H)) x) := by
      rw [← hlaw]
      have := Measure.isProbabilityMeasure_map (μ := stdNormal n) hmeas.aemeasurable
      infer_instance
    have hd : 0 < ((1 / D) • ((E.lltL H)ᵀ * E.lltL H)).det := by
      rw [Matrix.det_smul, Matrix.det_mul, Matrix.det_transpose]
      exact mul_pos (by positivity) (mul_pos hC.det_pos hC.det_pos)
    have := gaussLaw_inj (P := (1 / D) • ((E.lltL H)ᵀ * E.lltL H)) (Q := (1 / D) • H)
      (by rw [Matrix.transpose_smul, Matrix.transpose_mul, Matrix.transpose_transpose])
      (by rw [Matrix.transpose_smul]; congr 1; rw [← hC.mul_eq, Matrix.transpose_mul, Matrix.transpose_transpose])
      hd x (hlaw.symm.trans h) hfin
    exact smul_right_injective _ (by positivity : (1 / D) ≠ 0) this
  · intro h
    rw [hlaw, h]

theorem generateHessian_eq {σ : Type} {cls : BarrierClass ℝ σ} {o o' : σ} {x : Fin n → ℝ}
    {A : Matrix (Fin m) (Fin n) ℝ} {b : Fin m → ℝ} {H : Matrix (Fin n) (Fin n) ℝ}
    (hH : generateHessian cls o x A b = .ok (H, o')) : ∃ w, H = hessianOf w x A b := by
  unfold generateHessian at hH
  obtain ⟨wo, _, hH⟩ := Out.bind_eq_ok.1 hH
  split at hH
  · simp only [Out.ok.injEq, Prod.mk.injEq] at hH
    exact ⟨_, hH.1.symm⟩
  · exact absurd hH (by simp)

theorem AxisAligned.isDiag {A : Matrix (Fin m) (Fin n) ℝ} (hA : AxisAligned A) (w : Fin m → ℝ) (x : Fin n → ℝ)
    (b : Fin m → ℝ) : (hessianOf w x A b).IsDiag := by
  intro j k hjk
  rw [hessianOf_real, Matrix.mul_apply]
  refine Finset.sum_eq_zero fun l _ => ?_
  rw [Matrix.mul_diagonal, Matrix.transpose_apply]
  by_cases h1 : A l j = 0
  · rw [h1, zero_mul, zero_mul]
  · by_cases h2 : A l k = 0
    · rw [h2, mul_zero]
    · exact absurd (hA l j k h1 h2) hjk

section
variable (E : Eigen ℝ) (hE : E.Exact) (cls : BarrierClass ℝ (BState ℝ)) (hc : IsWeighted E cls)
  (o o' : BState ℝ) (ho : GoodStart o.w m) (x : Fin n → ℝ) (A : Matrix (Fin m) (Fin n) ℝ) (b : Fin m → ℝ)
  (hA : IndepCols A) (hn : 0 < n) (hx : x ∈ Interior A b) (H : Matrix (Fin n) (Fin n) ℝ)
  (hH : generateHessian cls o x A b = .ok (H, o')) (D : ℝ) (hD : 0 < D)
include hE hc ho hA hn hx hH hD

/-- **C34** (partial, the exact range in which it holds): for each of the four dense barrier walks, any history of the
object and any interior point, the proposal has law `N(x, D H⁻¹)`, `H` the barrier Hessian of that step, if *and only
if* `H` is diagonal. Missing: the property for non-diagonal `H`, where it is false (`C34_false`). -/
theorem C34_iff_partial :
    (stdNormal n).map (BarrierWalk.proposal E D H x) = gaussLaw ((1 / D) • H) x ↔ H.IsDiag :=
  proposal_law_iff E hE.llt hE.lu H
    (C26_library E hE.inv hE.llt cls hc o o' ho x A b hA hn hx H hH).1 D hD x

/-- **C34** (partial): for axis-aligned constraints the proposal has the right law. -/
theorem C34_axis_partial (hax : AxisAligned A) :
    (stdNormal n).map (BarrierWalk.proposal E D H x) = gaussLaw ((1 / D) • H) x := by
  obtain ⟨w, rfl⟩ := generateHessian_eq hH
  exact (C34_iff_partial E hE cls hc o o' ho x A b hA hn hx _ hH D hD).2 (hax.isDiag w x b)

end

/-- Two-dimensional constraints `|x₀ + x₁ - 1/2| ≤ 1/2`, `|x₁ - 1/2| ≤ 1/2`: a parallelogram. -/
def paraA : Matrix (Fin 4) (Fin 2) ℝ := !![1, 1; 0, 1; -1, -1; 0, -1]

/-- Right-hand side of the parallelogram. -/
def paraB : Fin 4 → ℝ := ![1, 1, 0, 0]

theorem para_mulVec (x : Fin 2 → ℝ) : paraA *ᵥ x = ![x 0 + x 1, x 1, -(x 0 + x 1), -x 1] := by
  funext i
  fin_cases i <;> simp [paraA, Matrix.mulVec, dotProduct, Fin.sum_univ_two] <;> ring

theorem para_indep : IndepCols paraA := by
  intro x hx
  rw [para_mulVec] at hx
  have h0 := congrFun hx 0
  have h1 := congrFun hx 1
  simp at h0 h1
  funext i
  fin_cases i
  · show x 0 = 0; linarith
  · exact h1

theorem para_interior {x : Fin 2 → ℝ} : x ∈ Interior paraA paraB ↔
    (0 < x 0 + x 1 ∧ x 0 + x 1 < 1) ∧ 0 < x 1 ∧ x 1 < 1 := by
  show (∀ i, (paraA *ᵥ x) i < paraB i) ↔ _
  rw [para_mulVec, Fin.forall_fin_succ, Fin.forall_fin_succ, Fin.forall_fin_succ, Fin.forall_fin_one]
  simp [paraB]
  constructor
  · rintro ⟨a, b, c, d⟩; exact ⟨⟨by linarith, a⟩, d, b⟩
  · rintro ⟨⟨a, b⟩, c, d⟩; exact ⟨b, d, by linarith, c⟩

/-- Dikin Hessian of the parallelogram. -/
theorem para_hess (x : Fin 2 → ℝ) : hessianOf (fun _ => 1) x paraA paraB =
    !![1 / (1 - (x 0 + x 1)) ^ 2 + 1 / (x 0 + x 1) ^ 2, 1 / (1 - (x 0 + x 1)) ^ 2 + 1 / (x 0 + x 1) ^ 2;
      1 / (1 - (x 0 + x 1)) ^ 2 + 1 / (x 0 + x 1) ^ 2,
      1 / (1 - (x 0 + x 1)) ^ 2 + 1 / (x 0 + x 1) ^ 2 + (1 / (1 - x 1) ^ 2 + 1 / (x 1) ^ 2)] := by
  rw [hessianOf_real, para_mulVec]
  funext j k
  rw [Matrix.mul_apply, Fin.sum_univ_four]
  simp only [Matrix.mul_diagonal, Matrix.transpose_apply]
  fin_cases j <;> fin_cases k <;> simp [paraA, paraB] <;> ring

/-- **C34 is false**: for `DikinWalk` on a parallelogram, at *every* interior point and for every `DIST_TERM`, the
proposal does not have the law `N(x, D H⁻¹)`. -/
theorem C34_false (E : Eigen ℝ) (hE : E.Exact) (R : ℝ) (o : BState ℝ) (x : Fin 2 → ℝ)
    (hx : x ∈ Interior paraA paraB) (D : ℝ) (hD : 0 < D) :
    ∃ H, generateHessian (dikinClass R) o x paraA paraB = .ok (H, o) ∧
      (stdNormal 2).map (BarrierWalk.proposal E D H x) ≠ gaussLaw ((1 / D) • H) x := by
  refine ⟨hessianOf (fun _ => 1) x paraA paraB, ?_, ?_⟩
  · unfold generateHessian
    rw [C20_weights, Out.ok_bind]
    exact dif_pos rfl
  · intro h
    have hd := (proposal_law_iff E hE.llt hE.lu _
      (C26_posDef E hE.llt _ (fun _ => one_pos) x paraA paraB para_indep hx).1 D hD x).1 h
    have h01 := hd (show (0 : Fin 2) ≠ 1 by decide)
    rw [para_hess] at h01
    obtain ⟨⟨h1, h2⟩, _⟩ := para_interior.1 hx
    simp at h01
    have : 0 < ((1 - (x 0 + x 1)) ^ 2)⁻¹ + ((x 0 + x 1) ^ 2)⁻¹ :=
      add_pos (inv_pos.2 (pow_pos (by linarith) 2)) (inv_pos.2 (pow_pos h1 2))
    linarith

/-- Non-vacuity of `C34_false`: an interior point. -/
example : (![0, 1 / 2] : Fin 2 → ℝ) ∈ Interior paraA paraB := by
  rw [para_interior]; simp; norm_num

/-- Non-vacuity of `C34_axis_partial`: the square `|x₀|, |x₁| ≤ 1` with a fresh Vaidya object. -/
example : ∃ (A : Matrix (Fin 4) (Fin 2) ℝ) (b : Fin 4 → ℝ), AxisAligned A ∧ IndepCols A ∧
    (0 : Fin 2 → ℝ) ∈ Interior A b ∧ GoodStart (BState.fresh (0 : ℝ)).w 4 ∧
    ∃ H, generateHessian (vaidyaClass exactEigen 1) (BState.fresh 0) 0 A b = .ok (H, BState.fresh 0) := by
  refine ⟨!![1, 0; 0, 1; -1, 0; 0, -1], fun _ => 1, ?_, ?_, ?_, ?_, ?_⟩
  · intro i j k
    fin_cases i <;> fin_cases j <;> fin_cases k <;> simp
  · intro x hx
    have h0 := congrFun hx 0
    have h1 := congrFun hx 1
    simp [Matrix.mulVec, dotProduct, Fin.sum_univ_two] at h0 h1
    funext i
    fin_cases i
    · exact h0
    · exact h1
  · intro i
    rw [Matrix.mulVec_zero]; exact one_pos
  · intro w0 h
    have h := warmStart_iff.2 h
    rw [warmStart_iff.2 (startsAtOnes_fresh (0 : ℝ) 4)] at h
    simp only [Out.ok.injEq] at h
    subst h; intro i; exact one_pos
  · exact ⟨_, rfl⟩

end PW
