import Verif.Props.Stall
import Verif.Props.DenseBarrierConverges

/-!
# C103: the dense Dikin walk can stand still for as long as one likes
-/

namespace PW
open Matrix MeasureTheory Set
open scoped ENNReal

/-- A standard normal vector is rarely in a thin slab. -/
theorem stdNormal_slab {n : ℕ} (w : Fin n → ℝ) (hw : 0 < w ⬝ᵥ w) {r : ℝ} (hr : 0 ≤ r) :
    stdNormal n {ξ | |w ⬝ᵥ ξ| ≤ r} ≤ ENNReal.ofReal (r / Real.sqrt (w ⬝ᵥ w)) := by
  let W : Matrix (Fin 1) (Fin n) ℝ := fun _ j => w j
  have hWW : W * W.transpose = (w ⬝ᵥ w) • (1 : Matrix (Fin 1) (Fin 1) ℝ) := by
    ext i j
    fin_cases i; fin_cases j
    show ∑ k, w k * w k = (w ⬝ᵥ w) * 1
    rw [mul_one]; rfl
  have h1 := stdNormal_map W ((w ⬝ᵥ w)⁻¹ • (1 : Matrix (Fin 1) (Fin 1) ℝ)) (by
    rw [hWW, Matrix.smul_mul, Matrix.one_mul, smul_smul, inv_mul_cancel₀ hw.ne', one_smul]) 0
  have hS : MeasurableSet {v : Fin 1 → ℝ | |v 0| ≤ r} := measurableSet_le (measurable_pi_apply 0).abs measurable_const
  have hm : Measurable fun v : Fin n → ℝ => (0 : Fin 1 → ℝ) + W.mulVec v :=
    Continuous.measurable (continuous_const.add (Continuous.matrix_mulVec continuous_const continuous_id))
  have e1 : stdNormal n {ξ | |w ⬝ᵥ ξ| ≤ r} = gaussLaw ((w ⬝ᵥ w)⁻¹ • (1 : Matrix (Fin 1) (Fin 1) ℝ)) 0 {v | |v 0| ≤ r} := by
    rw [← h1, Measure.map_apply hm hS]
    congr 1
    ext ξ
    show _ ↔ |(0 : ℝ) + (W *ᵥ ξ) 0| ≤ r
    rw [zero_add]
    rfl
  rw [e1]
  unfold gaussLaw
  rw [withDensity_apply _ hS]
  have hvol : volume {v : Fin 1 → ℝ | |v 0| ≤ r} = ENNReal.ofReal (2 * r) := by
    have : {v : Fin 1 → ℝ | |v 0| ≤ r} = Icc (fun _ => -r) (fun _ => r) := by
      ext v
      simp only [mem_ofPred_eq, abs_le, mem_Icc, Pi.le_def]
      constructor
      · intro h; exact ⟨fun i => by fin_cases i; exact h.1, fun i => by fin_cases i; exact h.2⟩
      · intro h; exact ⟨h.1 0, h.2 0⟩
    rw [this, Real.volume_Icc_pi]
    rw [Fin.prod_univ_one]
    congr 1; ring
  have hpt : ∀ v : Fin 1 → ℝ, ENNReal.ofReal (gaussDensity ((w ⬝ᵥ w)⁻¹ • (1 : Matrix (Fin 1) (Fin 1) ℝ)) 0 v) ≤ ENNReal.ofReal (1 / 2 / Real.sqrt (w ⬝ᵥ w)) := by
    intro v
    refine ENNReal.ofReal_le_ofReal ?_
    rw [gaussDensity_smul_one, pow_one, pow_one, Real.sqrt_inv]
    have hpi : 2 ≤ Real.sqrt (2 * Real.pi) := by
      rw [Real.le_sqrt (by norm_num) (by positivity)]
      have := Real.two_le_pi
      linarith
    have h2 : (Real.sqrt (2 * Real.pi))⁻¹ ≤ 1 / 2 := by rw [one_div]; exact inv_anti₀ (by norm_num) hpi
    have h3 : Real.exp (-((w ⬝ᵥ w)⁻¹ * (v ⬝ᵥ v)) / 2) ≤ 1 := by
      rw [Real.exp_le_one_iff]
      have : 0 ≤ v ⬝ᵥ v := Finset.sum_nonneg fun i _ => mul_self_nonneg _
      have : 0 ≤ (w ⬝ᵥ w)⁻¹ * (v ⬝ᵥ v) := by positivity
      linarith
    calc (Real.sqrt (w ⬝ᵥ w))⁻¹ * (Real.sqrt (2 * Real.pi))⁻¹ * Real.exp (-((w ⬝ᵥ w)⁻¹ * (v ⬝ᵥ v)) / 2)
        ≤ (Real.sqrt (w ⬝ᵥ w))⁻¹ * (1 / 2) * 1 := mul_le_mul (mul_le_mul_of_nonneg_left h2 (by positivity)) h3 (Real.exp_pos _).le (by positivity)
      _ = _ := by ring
  refine (lintegral_mono hpt).trans ?_
  rw [setLIntegral_const, hvol, ← ENNReal.ofReal_mul (by positivity)]
  refine le_of_eq ?_
  congr 1; ring

/-- The parallelogram `|x₀ + s x₁| ≤ 1, |x₁| ≤ 1`. -/
def skewA (s : ℝ) : Matrix (Fin 4) (Fin 2) ℝ := !![1, s; -1, -s; 0, 1; 0, -1]

/-- Right-hand side of the parallelogram. -/
def skewB : Fin 4 → ℝ := fun _ => 1

theorem skew_mem (s : ℝ) (x : Fin 2 → ℝ) : x ∈ Poly (skewA s) skewB ↔ |x 0 + s * x 1| ≤ 1 ∧ |x 1| ≤ 1 := by
  unfold Poly
  simp only [mem_ofPred_eq]
  rw [show (∀ i, (skewA s *ᵥ x) i ≤ skewB i) ↔ _ from Fin.forall_fin_succ]
  simp only [Fin.forall_fin_succ]
  simp [skewA, skewB, Matrix.mulVec, dotProduct, Fin.sum_univ_two, abs_le]
  constructor
  · rintro ⟨h1, h2, h3, h4⟩
    refine ⟨⟨?_, ?_⟩, ?_, ?_⟩ <;> linarith
  · rintro ⟨⟨h1, h2⟩, h3, h4⟩
    refine ⟨?_, ?_, ?_, ?_⟩ <;> linarith

theorem skew_zero (s : ℝ) : (0 : Fin 2 → ℝ) ∈ Interior (skewA s) skewB := by
  intro i
  rw [Matrix.mulVec_zero]
  exact one_pos

theorem skew_bounded (s : ℝ) : ∃ M, ∀ y ∈ Poly (skewA s) skewB, ∀ i, |y i| ≤ M := by
  refine ⟨1 + |s|, fun y hy i => ?_⟩
  obtain ⟨h1, h2⟩ := (skew_mem s y).1 hy
  fin_cases i
  · have h3 : |s * y 1| ≤ |s| := by rw [abs_mul]; exact mul_le_of_le_one_right (abs_nonneg s) h2
    show |y 0| ≤ _
    calc |y 0| = |(y 0 + s * y 1) - s * y 1| := by congr 1; ring
      _ ≤ |y 0 + s * y 1| + |s * y 1| := abs_sub _ _
      _ ≤ _ := add_le_add h1 h3
  · exact h2.trans (by have := abs_nonneg s; linarith)

theorem skew_hess (s : ℝ) : hessianOf (fun _ => (1 : ℝ)) 0 (skewA s) skewB = !![2, 2 * s; 2 * s, 2 * s ^ 2 + 2] := by
  rw [hessianOf_real]
  rw [Matrix.mulVec_zero]
  ext i j
  fin_cases i <;> fin_cases j <;>
    simp [Matrix.mul_apply, Matrix.diagonal, Fin.sum_univ_four, skewA, skewB] <;> ring

theorem skew_cholesky (s : ℝ) : IsCholesky !![Real.sqrt 2, 0; s * Real.sqrt 2, Real.sqrt 2] (!![2, 2 * s; 2 * s, 2 * s ^ 2 + 2] : Matrix (Fin 2) (Fin 2) ℝ) where
  lower i j h := by
    fin_cases i <;> fin_cases j <;> first | rfl | exact absurd h (by decide)
  diag_pos i := by fin_cases i <;> exact Real.sqrt_pos.2 (by norm_num)
  mul_eq := by
    have h := Real.mul_self_sqrt (show (0 : ℝ) ≤ 2 by norm_num)
    ext i j
    fin_cases i <;> fin_cases j <;> simp [Matrix.mul_apply, Fin.sum_univ_two]
    all_goals first | linear_combination s * h | linear_combination (s ^ 2 + 1) * h | linear_combination s ^ 2 * h

/-- The first coordinate of a proposal of the dense walk from the centre, along the normal of the first constraint. -/
theorem skew_prop {s D : ℝ} {Φ : MetricField 2} (hH : Φ.H 0 = !![2, 2 * s; 2 * s, 2 * s ^ 2 + 2]) (ξ : Fin 2 → ℝ) :
    Φ.prop D 0 ξ 0 + s * Φ.prop D 0 ξ 1 = (![Real.sqrt D / Real.sqrt 2 * (1 - s ^ 2), Real.sqrt D / Real.sqrt 2 * s] : Fin 2 → ℝ) ⬝ᵥ ξ := by
  have hL : Φ.L 0 = !![Real.sqrt 2, 0; s * Real.sqrt 2, Real.sqrt 2] := IsCholesky.unique (hH ▸ Φ.chol 0) (skew_cholesky s)
  have hz : Φ.L 0 *ᵥ Φ.prop D 0 ξ = Real.sqrt D • ξ := by
    show Φ.L 0 *ᵥ (0 + (Real.sqrt D • (Φ.L 0)⁻¹) *ᵥ ξ) = _
    rw [zero_add, Matrix.smul_mulVec, Matrix.mulVec_smul, Matrix.mulVec_mulVec, Matrix.mul_nonsing_inv _ (Φ.chol 0).isUnit, Matrix.one_mulVec]
  rw [hL] at hz
  have h0 := congrFun hz 0
  have h1 := congrFun hz 1
  simp [Matrix.mulVec, dotProduct, Fin.sum_univ_two] at h0 h1
  have h2 : Real.sqrt 2 ≠ 0 := (Real.sqrt_pos.2 (by norm_num)).ne'
  simp [dotProduct, Fin.sum_univ_two]
  have e0 : Φ.prop D 0 ξ 0 = Real.sqrt D / Real.sqrt 2 * ξ 0 := by field_simp; linear_combination h0
  have e1 : Φ.prop D 0 ξ 1 = Real.sqrt D / Real.sqrt 2 * (ξ 1 - s * ξ 0) := by
    rw [e0] at h1
    field_simp at h1 ⊢
    linear_combination h1
  rw [e0, e1]; ring

/-- From the centre of a very skewed parallelogram the proposal is almost always outside. -/
theorem skew_stay {s D : ℝ} (hs : 2 ≤ s) (hD : 0 < D) {Φ : MetricField 2} (hH : Φ.H 0 = !![2, 2 * s; 2 * s, 2 * s ^ 2 + 2]) :
    1 - ENNReal.ofReal (2 / (Real.sqrt D * s)) ≤
      ((stdNormal 2).prod unitLaw) {w | mhMove (Poly (skewA s) skewB) (Φ.prop D) (Φ.acc D) 0 w = 0} := by
  have h1 := stdNormal_slab (![Real.sqrt D / Real.sqrt 2 * (1 - s ^ 2), Real.sqrt D / Real.sqrt 2 * s] : Fin 2 → ℝ)
  have e1 : (![Real.sqrt D / Real.sqrt 2 * (1 - s ^ 2), Real.sqrt D / Real.sqrt 2 * s] : Fin 2 → ℝ) ⬝ᵥ
      ![Real.sqrt D / Real.sqrt 2 * (1 - s ^ 2), Real.sqrt D / Real.sqrt 2 * s] = D / 2 * ((1 - s ^ 2) ^ 2 + s ^ 2) := by
    simp [dotProduct, Fin.sum_univ_two]
    have hq := Real.mul_self_sqrt hD.le
    have hq2 := Real.mul_self_sqrt (show (0 : ℝ) ≤ 2 by norm_num)
    have h2 : Real.sqrt 2 ≠ 0 := (Real.sqrt_pos.2 (by norm_num)).ne'
    have h3 : Real.sqrt D / Real.sqrt 2 * (Real.sqrt D / Real.sqrt 2) = D / 2 := by rw [div_mul_div_comm, hq, hq2]
    linear_combination ((1 - s ^ 2) ^ 2 + s ^ 2) * h3
  have hs0 : 0 < s := by linarith
  have h2 := h1 (by rw [e1]; positivity) (r := 1) zero_le_one
  rw [e1] at h2
  have hge : Real.sqrt D * s / 2 ≤ Real.sqrt (D / 2 * ((1 - s ^ 2) ^ 2 + s ^ 2)) := by
    refine Real.le_sqrt_of_sq_le ?_
    rw [div_pow, mul_pow, Real.sq_sqrt hD.le]
    have : 0 ≤ (1 - s ^ 2) ^ 2 := sq_nonneg _
    have : 0 ≤ D / 2 * (1 - s ^ 2) ^ 2 := by positivity
    have : 0 ≤ D * s ^ 2 := by positivity
    linarith
  have h3 : stdNormal 2 {ξ | |(![Real.sqrt D / Real.sqrt 2 * (1 - s ^ 2), Real.sqrt D / Real.sqrt 2 * s] : Fin 2 → ℝ) ⬝ᵥ ξ| ≤ 1} ≤
      ENNReal.ofReal (2 / (Real.sqrt D * s)) := by
    refine h2.trans (ENNReal.ofReal_le_ofReal ?_)
    have hp : 0 < Real.sqrt D * s := mul_pos (Real.sqrt_pos.2 hD) hs0
    calc 1 / Real.sqrt (D / 2 * ((1 - s ^ 2) ^ 2 + s ^ 2)) ≤ 1 / (Real.sqrt D * s / 2) := one_div_le_one_div_of_le (by positivity) hge
      _ = _ := by rw [one_div_div]
  have hm : MeasurableSet {ξ : Fin 2 → ℝ | |(![Real.sqrt D / Real.sqrt 2 * (1 - s ^ 2), Real.sqrt D / Real.sqrt 2 * s] : Fin 2 → ℝ) ⬝ᵥ ξ| ≤ 1} :=
    measurableSet_le (Measurable.abs (Finset.measurable_sum _ fun i _ => measurable_const.mul (measurable_pi_apply i))) measurable_const
  have hN : IsProbabilityMeasure (stdNormal 2) := inferInstance
  have h4 := prob_compl_eq_one_sub (μ := stdNormal 2) hm
  have hfst : (((stdNormal 2).prod unitLaw)).map Prod.fst = stdNormal 2 := by
    rw [Measure.map_fst_prod, measure_univ, one_smul]
  calc 1 - ENNReal.ofReal (2 / (Real.sqrt D * s)) ≤ 1 - stdNormal 2 _ := tsub_le_tsub_left h3 _
    _ = stdNormal 2 _ := h4.symm
    _ = ((stdNormal 2).prod unitLaw) (Prod.fst ⁻¹' _) := by
      conv_lhs => rw [← hfst]
      exact Measure.map_apply measurable_fst hm.compl
    _ ≤ _ := measure_mono fun w hw => by
      show mhMove _ _ _ 0 w = 0
      unfold mhMove
      refine if_neg fun hc => ?_
      have := ((skew_mem s _).1 hc.1).1
      rw [skew_prop hH] at this
      exact hw this


theorem skew_indep (s : ℝ) : IndepCols (skewA s) := indepCols_of_bounded (skew_bounded s) (interior_subset _ _ (skew_zero s))

/-- A dense barrier walk on the parallelogram with slope `s`, if its metric at the centre is that of the logarithmic barrier. -/
theorem skew_stalls {σ : Type} (cls : BarrierClass ℝ σ) (E : Eigen ℝ) (hE : E.Exact) {s D : ℝ} (h2 : 2 ≤ s) (hD : 0 < D)
    (w : (Fin 2 → ℝ) → Fin 4 → ℝ) (hw : ∀ i, Measurable fun x => w x i) (hpos : ∀ x ∈ Interior (skewA s) skewB, ∀ i, 0 < w x i) (hw0 : w 0 = fun _ => 1)
    (o o' : σ) (ho : cls.setDistTerm o 2 4 = .ok o') (hDo : cls.distTerm o' = D)
    (hG : ∀ x ∈ Interior (skewA s) skewB, generateHessian cls o' x (skewA s) skewB = .ok (hessianOf (w x) x (skewA s) skewB, o'))
    (e : Env ℝ) [MeasurableSpace e.r.G] (μ : Measure e.r.G) (hs : IdealSource e.r μ) (k niter burnin thin seed : Int) (t : ℕ) :
    (1 - ENNReal.ofReal (2 / (Real.sqrt D * s))) ^ t ≤ stallProb (.barrier cls E o) e μ (skewA s) skewB 0 k niter burnin thin seed 0 t := by
  have hA := skew_indep s
  have h := dense_mhBase (skew_zero s) (skew_bounded s) hD (barrierField E hE.llt (skewA s) skewB hA w hw hpos)
  have hfol := barrier_follows cls E hE.llt hE.lu (by norm_num : 0 < 4) hA w hw hpos h o o' ho hDo e μ hs hG (skew_zero s) niter k burnin thin seed
  rw [mh_stall_start h hs hfol]
  refine pow_le_pow_left' (skew_stay h2 hD ?_) t
  have e1 : (barrierField E hE.llt (skewA s) skewB hA w hw hpos).H 0 = hessianOf (w 0) 0 (skewA s) skewB := if_pos (skew_zero s)
  rw [e1, hw0, skew_hess]

/-- A slope that makes the walk stand still. -/
theorem exists_slope {D : ℝ} (hD : 0 < D) (t : ℕ) {ε : ℝ} (hε : 0 < ε) :
    ∃ s : ℝ, 2 ≤ s ∧ ENNReal.ofReal (1 - ε) ≤ (1 - ENNReal.ofReal (2 / (Real.sqrt D * s))) ^ t := by
  have hq : 0 < Real.sqrt D := Real.sqrt_pos.2 hD
  refine ⟨2 + 2 * (t + 1) * (1 / ε + 1) / Real.sqrt D, by have : 0 ≤ 2 * (t + 1) * (1 / ε + 1) / Real.sqrt D := by positivity
                                                          linarith, ?_⟩
  set s := 2 + 2 * (t + 1) * (1 / ε + 1) / Real.sqrt D with hs
  have h1 : 2 * ((t : ℝ) + 1) * (1 / ε + 1) ≤ Real.sqrt D * s := by
    have e0 : Real.sqrt D * s = 2 * Real.sqrt D + 2 * ((t : ℝ) + 1) * (1 / ε + 1) := by
      rw [hs, mul_add, mul_comm (Real.sqrt D) (_ / _), div_mul_cancel₀ _ hq.ne']; ring
    linarith
  have hp : 0 < 2 * ((t : ℝ) + 1) * (1 / ε + 1) := by positivity
  have hδ : 2 / (Real.sqrt D * s) ≤ 1 / (((t : ℝ) + 1) * (1 / ε + 1)) := by
    refine (div_le_div_of_nonneg_left (by norm_num) hp h1).trans (le_of_eq ?_)
    field_simp
  have hsp : 0 < Real.sqrt D * s := lt_of_lt_of_le hp h1
  have hδ0 : 0 ≤ 2 / (Real.sqrt D * s) := by positivity
  generalize 2 / (Real.sqrt D * s) = δ at hδ hδ0
  have ht : (0 : ℝ) ≤ t := Nat.cast_nonneg t
  have hε1 : 0 < 1 / ε := by positivity
  have hδ1 : δ ≤ 1 := hδ.trans (by
    rw [div_le_one (by positivity)]
    nlinarith)
  have hδ2 : t * δ ≤ ε := by
    calc (t : ℝ) * δ ≤ ((t : ℝ) + 1) * (1 / (((t : ℝ) + 1) * (1 / ε + 1))) := mul_le_mul (by linarith) hδ hδ0 (by linarith)
      _ = 1 / (1 / ε + 1) := by field_simp
      _ ≤ 1 / (1 / ε) := one_div_le_one_div_of_le hε1 (by linarith)
      _ = ε := by rw [one_div_one_div]
  have e1 : (1 : ℝ≥0∞) - ENNReal.ofReal δ = ENNReal.ofReal (1 - δ) := by rw [ENNReal.ofReal_sub _ hδ0, ENNReal.ofReal_one]
  rw [e1, ← ENNReal.ofReal_pow (by linarith)]
  refine ENNReal.ofReal_le_ofReal ?_
  have := one_add_mul_le_pow (a := -δ) (by linarith) t
  calc 1 - ε ≤ 1 + t * -δ := by linarith
    _ ≤ (1 + -δ) ^ t := this
    _ = _ := by ring

theorem skew_symm (s : ℝ) : ∀ y ∈ Poly (skewA s) skewB, -y ∈ Poly (skewA s) skewB := by
  intro y hy
  rw [skew_mem] at hy ⊢
  rw [Pi.neg_apply, Pi.neg_apply, abs_neg, mul_neg, ← neg_add, abs_neg]
  exact hy

/-- **C103** (`DikinWalk`): whatever its radius, there are bounded polygons in which the dense `DikinWalk` hardly ever moves from the centre: for every number `t`
of iterations and every `ε` there is a polygon symmetric about the origin such that, started there, with probability at least `1 - ε` the first `t` iterations all return
the starting point. So no bound like that of C102 holds of it. -/
theorem C103_dikin (R : ℝ) (hr : R ≠ 0) (t : ℕ) (ε : ℝ) (hε : 0 < ε) : ∃ (m : ℕ) (A : Matrix (Fin m) (Fin 2) ℝ) (b : Fin m → ℝ),
    (∃ M, ∀ y ∈ Poly A b, ∀ i, |y i| ≤ M) ∧ (0 : Fin 2 → ℝ) ∈ Interior A b ∧ (∀ y ∈ Poly A b, -y ∈ Poly A b) ∧
    ∀ (E : Eigen ℝ), E.Exact → ∀ (e : Env ℝ) [MeasurableSpace e.r.G] (μ : Measure e.r.G), IdealSource e.r μ →
      ∀ (o : BState ℝ) (k niter burnin thin seed : Int),
        ENNReal.ofReal (1 - ε) ≤ stallProb (.barrier (dikinClass R) E o) e μ A b 0 k niter burnin thin seed 0 t := by
  have hD : 0 < R * R / (Scalar.ofInt ((2 : ℕ) : Int) : ℝ) := by
    rw [rsc_ofInt]
    exact div_pos (mul_self_pos.2 hr) (by norm_num)
  obtain ⟨s, h2, hst⟩ := exists_slope hD t hε
  refine ⟨4, skewA s, skewB, skew_bounded s, skew_zero s, skew_symm s, fun E hE e _ μ hs o k niter burnin thin seed => hst.trans ?_⟩
  exact skew_stalls (dikinClass R) E hE h2 hD (fun _ _ => 1) (fun _ => measurable_const) (fun _ _ _ => one_pos) rfl o _ rfl rfl
    (fun x _ => generateHessian_dikin R _ x (skewA s) skewB) e μ hs k niter burnin thin seed t

theorem skew_lev (s : ℝ) (i : Fin 4) : lev (normals 0 (skewA s) skewB) i = 1 / 2 := by
  have hN : normals 0 (skewA s) skewB = skewA s := by
    unfold normals
    rw [Matrix.mulVec_zero]
    ext i j
    show skewA s i j / (1 - 0) = _
    rw [sub_zero, div_one]
  have hG : (skewA s)ᵀ * skewA s = !![2, 2 * s; 2 * s, 2 * s ^ 2 + 2] := by
    ext i j
    fin_cases i <;> fin_cases j <;> simp [Matrix.mul_apply, Fin.sum_univ_four, skewA] <;> ring
  have hI : (!![2, 2 * s; 2 * s, 2 * s ^ 2 + 2] : Matrix (Fin 2) (Fin 2) ℝ)⁻¹ = !![(s ^ 2 + 1) / 2, -s / 2; -s / 2, 1 / 2] := by
    refine Matrix.inv_eq_left_inv ?_
    ext i j
    fin_cases i <;> fin_cases j <;> simp [Matrix.mul_apply, Fin.sum_univ_two] <;> ring
  unfold lev
  rw [hN, hG, hI]
  fin_cases i <;> simp [Matrix.mul_apply, Fin.sum_univ_two, skewA] <;> ring

/-- **C103** (`VaidyaWalk`). -/
theorem C103_vaidya (R : ℝ) (hr : R ≠ 0) (t : ℕ) (ε : ℝ) (hε : 0 < ε) : ∃ (m : ℕ) (A : Matrix (Fin m) (Fin 2) ℝ) (b : Fin m → ℝ),
    (∃ M, ∀ y ∈ Poly A b, ∀ i, |y i| ≤ M) ∧ (0 : Fin 2 → ℝ) ∈ Interior A b ∧ (∀ y ∈ Poly A b, -y ∈ Poly A b) ∧
    ∀ (E : Eigen ℝ), E.Exact → ∀ (e : Env ℝ) [MeasurableSpace e.r.G] (μ : Measure e.r.G), IdealSource e.r μ →
      ∀ (o : BState ℝ) (k niter burnin thin seed : Int),
        ENNReal.ofReal (1 - ε) ≤ stallProb (.barrier (vaidyaClass E R) E o) e μ A b 0 k niter burnin thin seed 0 t := by
  have hD : 0 < R * R / Scalar.sqrt (Scalar.ofInt (2 * 4) : ℝ) := by
    rw [rsc_ofInt, rsc_sqrt]
    exact div_pos (mul_self_pos.2 hr) (Real.sqrt_pos.2 (by norm_num))
  obtain ⟨s, h2, hst⟩ := exists_slope hD t hε
  refine ⟨4, skewA s, skewB, skew_bounded s, skew_zero s, skew_symm s, fun E hE e _ μ hs o k niter burnin thin seed => hst.trans ?_⟩
  have hA := skew_indep s
  refine skew_stalls (vaidyaClass E R) E hE h2 hD (vaidyaW (skewA s) skewB) (measurable_vaidyaW _ _) (fun _ hx => vaidyaW_pos hA (by norm_num) hx) ?_ o
    { o with dist := R * R / Scalar.sqrt (Scalar.ofInt (2 * 4) : ℝ) } ?_ rfl
    (fun x hx => generateHessian_vaidya hE.inv R _ hA hx) e μ hs k niter burnin thin seed t
  · funext i
    unfold vaidyaW
    rw [skew_lev]; norm_num
  · have : toInt (2 * 4) = .ok (2 * 4) := by
      unfold toInt
      rw [if_pos (by unfold IsInt intMin intMax; constructor <;> norm_num)]
    simp only [vaidyaClass]
    rw [this, Out.ok_bind]


/-- The same parallelogram in slack form: `(x₀, x₁, y)` with `skewA x + y = 1`, `y ≥ 0`. -/
def skewSlack (s : ℝ) : Matrix (Fin 4) (Fin 6) ℝ := !![1, s, 1, 0, 0, 0; -1, -s, 0, 1, 0, 0; 0, 1, 0, 0, 1, 0; 0, -1, 0, 0, 0, 1]

theorem skewSlack_rows (s : ℝ) (z : Fin 6 → ℝ) : skewSlack s *ᵥ z = ![z 0 + s * z 1 + z 2, -z 0 - s * z 1 + z 3, z 1 + z 4, -z 1 + z 5] := by
  funext i
  fin_cases i <;> simp [skewSlack, Matrix.mulVec, dotProduct, Fin.sum_univ_succ] <;> ring

theorem skewSlack_indep (s : ℝ) : IndepRows (skewSlack s) := by
  intro v hv
  funext i
  have h := fun j => congrFun hv j
  have h2 := h 2
  have h3 := h 3
  have h4 := h 4
  have h5 := h 5
  simp [skewSlack, Matrix.mulVec, Matrix.vecMul, dotProduct, Fin.sum_univ_four] at h2 h3 h4 h5
  fin_cases i
  · exact h2
  · exact h3
  · exact h4
  · exact h5

/-- It is the slack form of the parallelogram. -/
theorem skewSlack_mem (s : ℝ) (z : Fin 6 → ℝ) : z ∈ PolyEq (skewSlack s) (fun _ => 1) 4 ↔
    ![z 0, z 1] ∈ Poly (skewA s) skewB ∧ ∀ i : Fin 4, z (Fin.natAdd 2 i) = 1 - (skewA s *ᵥ ![z 0, z 1]) i := by
  have e1 : skewA s *ᵥ ![z 0, z 1] = ![z 0 + s * z 1, -z 0 - s * z 1, z 1, -z 1] := by
    funext i
    fin_cases i <;> simp [skewA, Matrix.mulVec, dotProduct, Fin.sum_univ_two] <;> ring
  have e2 : z ∈ PolyEq (skewSlack s) (fun _ => 1) 4 ↔ skewSlack s *ᵥ z = (fun _ => 1) ∧ ∀ i : Fin 6, 2 ≤ i.val → 0 ≤ z i := Iff.rfl
  rw [e2, skewSlack_rows, skew_mem, e1]
  constructor
  · rintro ⟨h, hn⟩
    have h0 : z 0 + s * z 1 + z 2 = 1 := congrFun h 0
    have h1 : -z 0 - s * z 1 + z 3 = 1 := congrFun h 1
    have h2 : z 1 + z 4 = 1 := congrFun h 2
    have h3 : -z 1 + z 5 = 1 := congrFun h 3
    have n2 := hn 2 (by decide)
    have n3 := hn 3 (by decide)
    have n4 := hn 4 (by decide)
    have n5 := hn 5 (by decide)
    refine ⟨⟨abs_le.2 ⟨?_, ?_⟩, abs_le.2 ⟨?_, ?_⟩⟩, fun i => ?_⟩
    · show -1 ≤ z 0 + s * z 1; linarith
    · show z 0 + s * z 1 ≤ 1; linarith
    · show -1 ≤ z 1; linarith
    · show z 1 ≤ 1; linarith
    · fin_cases i
      · show z 2 = 1 - (z 0 + s * z 1); linarith
      · show z 3 = 1 - (-z 0 - s * z 1); linarith
      · show z 4 = 1 - z 1; linarith
      · show z 5 = 1 - -z 1; linarith
  · rintro ⟨⟨h1, h2⟩, h⟩
    have h1 : |z 0 + s * z 1| ≤ 1 := h1
    have h2 : |z 1| ≤ 1 := h2
    rw [abs_le] at h1 h2
    have q0 : z 2 = 1 - (z 0 + s * z 1) := h 0
    have q1 : z 3 = 1 - (-z 0 - s * z 1) := h 1
    have q2 : z 4 = 1 - z 1 := h 2
    have q3 : z 5 = 1 - -z 1 := h 3
    refine ⟨?_, fun i hi => ?_⟩
    · funext i
      fin_cases i
      · show z 0 + s * z 1 + z 2 = 1; linarith
      · show -z 0 - s * z 1 + z 3 = 1; linarith
      · show z 1 + z 4 = 1; linarith
      · show -z 1 + z 5 = 1; linarith
    · fin_cases i
      · exact absurd hi (by decide)
      · exact absurd hi (by decide)
      · show 0 ≤ z 2; linarith
      · show 0 ≤ z 3; linarith
      · show 0 ≤ z 4; linarith
      · show 0 ≤ z 5; linarith

theorem skewSlack_bounded (s : ℝ) : ∃ M, ∀ y ∈ PolyEq (skewSlack s) (fun _ => 1) 4, ∀ i, |y i| ≤ M := by
  refine ⟨2 + |s|, fun z hz i => ?_⟩
  have hs := abs_nonneg s
  obtain ⟨hm, h⟩ := (skewSlack_mem s z).1 hz
  obtain ⟨M1, M2⟩ := (skew_mem s _).1 hm
  have M1 : |z 0 + s * z 1| ≤ 1 := M1
  have M2 : |z 1| ≤ 1 := M2
  have hs1 : |s * z 1| ≤ |s| := by rw [abs_mul]; exact mul_le_of_le_one_right (abs_nonneg s) M2
  have h' := ((skewSlack_mem s z).2 ⟨hm, h⟩).1
  rw [skewSlack_rows] at h'
  have q0 : z 0 + s * z 1 + z 2 = 1 := congrFun h' 0
  have q1 : -z 0 - s * z 1 + z 3 = 1 := congrFun h' 1
  have q2 : z 1 + z 4 = 1 := congrFun h' 2
  have q3 : -z 1 + z 5 = 1 := congrFun h' 3
  rw [abs_le] at M1 M2 hs1
  fin_cases i
  · show |z 0| ≤ _; rw [abs_le]; constructor <;> linarith
  · show |z 1| ≤ _; rw [abs_le]; constructor <;> linarith
  · show |z 2| ≤ _; rw [abs_le]; constructor <;> linarith
  · show |z 3| ≤ _; rw [abs_le]; constructor <;> linarith
  · show |z 4| ≤ _; rw [abs_le]; constructor <;> linarith
  · show |z 5| ≤ _; rw [abs_le]; constructor <;> linarith

/-- **C103**: on the same parallelograms, given in slack form, `SparseDikinWalk` leaves its place with probability at least `(1 - R²) / 9` in every iteration, whatever
the slope `s`. -/
theorem C103_sparse (E : Eigen ℝ) (hE : E.Exact) (ERR : ℝ) (hR : 0 < ERR) (R : ℝ) (hr : R ≠ 0) (s : ℝ) (e : Env ℝ) [MeasurableSpace e.r.G] (μ : Measure e.r.G)
    (hs : IdealSource e.r μ) (o : BState ℝ) :
    StallsAtMost (.sparseBarrier (sparseDikinClass R) ERR E o) e μ (skewSlack s) (fun _ => 1) ![0, 0, 1, 1, 1, 1] 4 (1 - ENNReal.ofReal ((1 - R ^ 2) / 9)) := by
  have h := C102_dikin_small E hE ERR hR R hr (skewSlack_indep s) (by norm_num) 4 (by norm_num) (fun _ => 1) (skewSlack_bounded s) e μ hs ![0, 0, 1, 1, 1, 1]
    (by
      rw [skewSlack_rows]
      funext i
      fin_cases i <;> simp)
    (fun i hi => by
      have hi : 2 ≤ i.val := hi
      fin_cases i
      · exact absurd hi (by decide)
      · exact absurd hi (by decide)
      all_goals exact one_pos) o
  have e1 : (3 : ℝ) ^ (6 - 4) = 9 := by norm_num
  rw [e1] at h
  exact h

end PW
