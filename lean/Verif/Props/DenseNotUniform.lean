import Verif.Lemmas.ParaStationary
import Verif.Lemmas.NotConverge
import Verif.Props.DenseBarrierConverges

/-!
# C35: the uniform distribution is not invariant under the dense Dikin and Vaidya walks

On the parallelogram `0 ≤ x₀ + x₁ ≤ 1, 0 ≤ x₁ ≤ 1`, whatever the (positive) step size.
-/

namespace PW
open Matrix MeasureTheory Set Filter
open scoped ENNReal Topology

theorem para_point : (![0, 1 / 2] : Fin 2 → ℝ) ∈ Interior paraA paraB := by
  rw [para_interior]; simp; norm_num

/-- The Dikin metric of the parallelogram. -/
theorem paraField_dikin (E : Eigen ℝ) (hL : E.LltExact) :
    ParaField (barrierField E hL paraA paraB para_indep (fun _ _ => 1) (fun _ => measurable_const) (fun _ _ _ => one_pos))
      (fun x => wallTerm (x 0 + x 1)) (fun x => wallTerm (x 1)) where
  hess x hx := by
    have e : (barrierField E hL paraA paraB para_indep (fun _ _ => 1) (fun _ => measurable_const)
      (fun _ _ _ => one_pos)).H x = hessianOf (fun _ => 1) x paraA paraB := if_pos hx
    rw [e, para_hess]; rfl
  p_lo x hx := by
    obtain ⟨⟨a, b⟩, _⟩ := para_interior.1 hx
    have := wallTerm_ge a b
    show 1 / 2 * wallTerm (x 0 + x 1) ≤ wallTerm (x 0 + x 1)
    linarith
  p_hi x hx := by
    obtain ⟨⟨a, b⟩, _⟩ := para_interior.1 hx
    have := wallTerm_ge a b
    show wallTerm (x 0 + x 1) ≤ 3 / 2 * wallTerm (x 0 + x 1)
    linarith
  q_lo x hx := by
    obtain ⟨_, a, b⟩ := para_interior.1 hx
    have := wallTerm_ge a b
    show 1 / 2 * wallTerm (x 1) ≤ wallTerm (x 1)
    linarith
  q_hi x hx := by
    obtain ⟨_, a, b⟩ := para_interior.1 hx
    have := wallTerm_ge a b
    show wallTerm (x 1) ≤ 3 / 2 * wallTerm (x 1)
    linarith

/-- The Vaidya coefficient of an interval. -/
noncomputable def wallVaidya (y : ℝ) : ℝ :=
  ((1 / (1 - y)) ^ 2 / ((1 / (1 - y)) ^ 2 + (1 / y) ^ 2) + 1 / 2) / (1 - y) ^ 2 +
    ((1 / y) ^ 2 / ((1 / (1 - y)) ^ 2 + (1 / y) ^ 2) + 1 / 2) / y ^ 2

theorem wallVaidya_bounds {y : ℝ} (h0 : 0 < y) (h1 : y < 1) :
    1 / 2 * wallTerm y ≤ wallVaidya y ∧ wallVaidya y ≤ 3 / 2 * wallTerm y := by
  have h2 : 0 < 1 - y := by linarith
  have hA : 0 < (1 / (1 - y)) ^ 2 := by positivity
  have hB : 0 < (1 / y) ^ 2 := by positivity
  set S := (1 / (1 - y)) ^ 2 + (1 / y) ^ 2 with hS
  have hS0 : 0 < S := by positivity
  have a0 : 0 ≤ (1 / (1 - y)) ^ 2 / S := by positivity
  have b0 : 0 ≤ (1 / y) ^ 2 / S := by positivity
  have a1 : (1 / (1 - y)) ^ 2 / S ≤ 1 := by rw [div_le_one hS0, hS]; linarith
  have b1 : (1 / y) ^ 2 / S ≤ 1 := by rw [div_le_one hS0, hS]; linarith
  have c1 : 0 < 1 / (1 - y) ^ 2 := by positivity
  have c2 : 0 < 1 / y ^ 2 := by positivity
  have e : wallVaidya y = ((1 / (1 - y)) ^ 2 / S + 1 / 2) * (1 / (1 - y) ^ 2) +
      ((1 / y) ^ 2 / S + 1 / 2) * (1 / y ^ 2) := by
    unfold wallVaidya; rw [← hS]; ring
  rw [e]
  unfold wallTerm
  constructor
  · have := mul_nonneg a0 c1.le
    have := mul_nonneg b0 c2.le
    linarith
  · have := mul_le_mul_of_nonneg_right a1 c1.le
    have := mul_le_mul_of_nonneg_right b1 c2.le
    linarith

/-- The Vaidya metric of the parallelogram. -/
theorem paraField_vaidya (E : Eigen ℝ) (hL : E.LltExact) :
    ParaField (barrierField E hL paraA paraB para_indep (vaidyaW paraA paraB) (measurable_vaidyaW paraA paraB)
      (fun _ hx => vaidyaW_pos para_indep two_pos hx))
      (fun x => wallVaidya (x 0 + x 1)) (fun x => wallVaidya (x 1)) where
  hess x hx := by
    have e : (barrierField E hL paraA paraB para_indep (vaidyaW paraA paraB) (measurable_vaidyaW paraA paraB)
      (fun _ hx => vaidyaW_pos para_indep two_pos hx)).H x = hessianOf (vaidyaW paraA paraB x) x paraA paraB := if_pos hx
    rw [e, hessianOf_real]
    exact para_vaidya hx _ _ rfl rfl
  p_lo x hx := by
    obtain ⟨⟨a, b⟩, _⟩ := para_interior.1 hx
    exact (wallVaidya_bounds a b).1
  p_hi x hx := by
    obtain ⟨⟨a, b⟩, _⟩ := para_interior.1 hx
    exact (wallVaidya_bounds a b).2
  q_lo x hx := by
    obtain ⟨_, a, b⟩ := para_interior.1 hx
    exact (wallVaidya_bounds a b).1
  q_hi x hx := by
    obtain ⟨_, a, b⟩ := para_interior.1 hx
    exact (wallVaidya_bounds a b).2

/-- A stationary law is invariant under one step. -/
theorem stationary_one {X G σ W : Type} [MeasurableSpace X] [MeasurableSpace G] [MeasurableSpace W] {π : Measure X} [SFinite π]
    {μ : Measure G} [IsProbabilityMeasure μ] {ν : Measure W} {start : X → G → σ} {pos : σ → X} {step : σ → Out σ}
    {f : X → G → X × G} {T : X → W → X} (h : StepKernel π μ ν start step f T) (hpos : ∀ x g, pos (start x g) = x)
    (hst : Stationary π μ start pos step) {S : Set X} (hS : MeasurableSet S) :
    ∫⁻ x, ∫⁻ w, S.indicator 1 (T x w) ∂ν ∂π = π S := by
  rw [← hst 1 S hS, ← lintegral_congr_ae (h.stepProb_ae hpos S hS)]
  have e : {p : X × G | ∃ s, iter step 1 (start p.1 p.2) = .ok s ∧ pos s ∈ S} =ᵐ[π.prod μ]
      {p : X × G | (f p.1 p.2).1 ∈ S} := by
    filter_upwards [h.step_eq] with p hp
    refine propext ?_
    show (∃ s, iter step 1 (start p.1 p.2) = .ok s ∧ pos s ∈ S) ↔ (f p.1 p.2).1 ∈ S
    have h1 : iter step 1 (start p.1 p.2) = step (start p.1 p.2) := rfl
    rw [h1, hp]
    constructor
    · rintro ⟨s, hs', hs⟩
      have := Out.ok.inj hs'
      rwa [← this, hpos] at hs
    · intro hs; exact ⟨_, rfl, by rwa [hpos]⟩
  have hm : MeasurableSet {p : X × G | (f p.1 p.2).1 ∈ S} := (measurable_fst.comp h.meas) hS
  rw [measure_congr e, Measure.prod_apply hm]
  refine lintegral_congr_ae ?_
  filter_upwards [Measure.ae_ae_of_ae_prod h.step_eq] with x hx
  refine measure_congr ?_
  filter_upwards [hx] with g hg
  refine propext ?_
  show (∃ s, step (start x g) = .ok s ∧ pos s ∈ S) ↔ (f x g).1 ∈ S
  rw [hg]
  constructor
  · rintro ⟨s, hs', hs⟩
    have := Out.ok.inj hs'
    rwa [← this, hpos] at hs
  · intro hs; exact ⟨_, rfl, by rwa [hpos]⟩

/-- **C35 is false**, strongly: on the parallelogram the uniform distribution is not invariant under the dense Dikin walk,
whatever the (positive) step size. -/
theorem C35_dikin_not_stationary (E : Eigen ℝ) (hE : E.Exact) (r : Rng ℝ) [MeasurableSpace r.G] (μ : Measure r.G)
    (hs : IdealSource r μ) (R : ℝ) (o : BState ℝ) (hD : 0 < o.dist) :
    ¬ Stationary (uniformOn paraA paraB) μ (fun x g => (x, o, g)) Prod.fst
      (BarrierWalk.step (dikinClass R) E r paraA paraB) := by
  intro h
  have := hs.prob
  have := hs.probN 2
  have hk := denseBarrier_kernel (dikinClass R) E hE.llt hE.lu r μ hs paraA paraB (by norm_num) para_indep o hD _ para_point
    (fun _ _ => 1) (fun _ => measurable_const) (fun _ _ _ => one_pos) (fun x _ => generateHessian_dikin R o x paraA paraB)
  have : SFinite (uniformOn paraA paraB) := by unfold uniformOn; infer_instance
  exact (paraField_dikin E hE.llt).not_invariant (D := (dikinClass R).distTerm o) hD
    fun S hS => stationary_one hk (fun _ _ => rfl) h hS

/-- **C35 is false**, strongly, for the dense Vaidya walk too. -/
theorem C35_vaidya_not_stationary (E : Eigen ℝ) (hE : E.Exact) (r : Rng ℝ) [MeasurableSpace r.G] (μ : Measure r.G)
    (hs : IdealSource r μ) (R : ℝ) (o : BState ℝ) (hD : 0 < o.dist) :
    ¬ Stationary (uniformOn paraA paraB) μ (fun x g => (x, o, g)) Prod.fst
      (BarrierWalk.step (vaidyaClass E R) E r paraA paraB) := by
  intro h
  have := hs.prob
  have := hs.probN 2
  have hk := denseBarrier_kernel (vaidyaClass E R) E hE.llt hE.lu r μ hs paraA paraB (by norm_num) para_indep o hD _ para_point
    (vaidyaW paraA paraB) (measurable_vaidyaW paraA paraB) (fun _ hx => vaidyaW_pos para_indep two_pos hx)
    (fun x hx => generateHessian_vaidya hE.inv R o para_indep hx)
  have : SFinite (uniformOn paraA paraB) := by unfold uniformOn; infer_instance
  exact (paraField_vaidya E hE.llt).not_invariant (D := (vaidyaClass E R).distTerm o) hD
    fun S hS => stationary_one hk (fun _ _ => rfl) h hS

/-! ## C78: the rows never become uniform -/

theorem para_bounded : ∃ M, ∀ y ∈ Poly paraA paraB, ∀ i, |y i| ≤ M := by
  refine ⟨2, fun y hy i => ?_⟩
  have h0 := hy 0
  have h1 := hy 1
  have h2 := hy 2
  have h3 := hy 3
  rw [para_mulVec] at h0 h1 h2 h3
  simp [paraB] at h0 h1 h2 h3
  rw [abs_le]
  fin_cases i <;> constructor <;> simp <;> linarith

/-- Whatever the start, at one of any two successive times the walk is far from uniform. -/
theorem ParaField.never {Φ : MetricField 2} {p q : (Fin 2 → ℝ) → ℝ} (h : ParaField Φ p q) {D : ℝ} (hD : 0 < D) :
    ∃ ε : ℝ, 0 < ε ∧ ∀ (x : Fin 2 → ℝ) (t : ℕ), ∃ U, MeasurableSet U ∧ ∃ s, (s = t ∨ s = t + 1) ∧
      ε ≤ |(avg ((stdNormal 2).prod unitLaw) (mhMove (Poly paraA paraB) (Φ.prop D) (Φ.acc D)))^[s] (U.indicator 1) x -
        share (uniformOn paraA paraB) U| := by
  have hb := dense_mhBase para_point para_bounded hD Φ
  have hP := hb.prob
  have hT := measurable_mhMove (measurableSet_poly paraA paraB) (Φ.meas_prop D) (Φ.meas_acc D)
  by_contra hcon
  refine h.not_invariant hD fun S hS => ?_
  by_contra hne
  refine hcon ⟨|∫ y, avg ((stdNormal 2).prod unitLaw) (mhMove (Poly paraA paraB) (Φ.prop D) (Φ.acc D)) (S.indicator 1) y
    ∂(mhProb (Poly paraA paraB) volume fun x : Fin 2 → ℝ => x) - (mhProb (Poly paraA paraB) volume fun x : Fin 2 → ℝ => x).real S| / 2,
    ?_, fun x t => ?_⟩
  · refine half_pos (abs_pos.2 (sub_ne_zero.2 fun he => hne ?_))
    have mF := measurable_fieldMove Φ D hS
    have hle : ∀ y, fieldMove Φ D y S ≤ 1 := fun y => by
      calc fieldMove Φ D y S ≤ ∫⁻ _, 1 ∂(stdNormal 2).prod unitLaw := by
            refine lintegral_mono fun w => ?_
            exact indicator_le_self' (fun _ _ => zero_le_one) _
        _ = 1 := by simp
    have e1 : ∀ y, avg ((stdNormal 2).prod unitLaw) (mhMove (Poly paraA paraB) (Φ.prop D) (Φ.acc D)) (S.indicator 1) y =
        (fieldMove Φ D y S).toReal := by
      intro y
      have mS : MeasurableSet (mhMove (Poly paraA paraB) (Φ.prop D) (Φ.acc D) y ⁻¹' S) := (meas_at hT y) hS
      have a1 : fieldMove Φ D y S = ((stdNormal 2).prod unitLaw) (mhMove (Poly paraA paraB) (Φ.prop D) (Φ.acc D) y ⁻¹' S) :=
        lintegral_indicator_one mS
      have a2 : avg ((stdNormal 2).prod unitLaw) (mhMove (Poly paraA paraB) (Φ.prop D) (Φ.acc D)) (S.indicator 1) y =
          (((stdNormal 2).prod unitLaw) (mhMove (Poly paraA paraB) (Φ.prop D) (Φ.acc D) y ⁻¹' S)).toReal :=
        integral_indicator_one mS
      rw [a2, a1]
    simp only [e1] at he
    rw [integral_toReal mF.aemeasurable (ae_of_all _ fun y => (hle y).trans_lt ENNReal.one_lt_top)] at he
    have hfin : ∫⁻ y, fieldMove Φ D y S ∂(mhProb (Poly paraA paraB) volume fun x : Fin 2 → ℝ => x) ≠ ⊤ := by
      refine ne_top_of_le_ne_top ENNReal.one_ne_top ((lintegral_mono hle).trans ?_)
      simp
    have he' := (ENNReal.toReal_eq_toReal_iff' hfin (measure_ne_top _ _)).1 he
    unfold mhProb at he'
    rw [lintegral_smul_measure, Measure.smul_apply, smul_eq_mul, smul_eq_mul, ← uniformOn_eq_mhTarget] at he'
    exact (ENNReal.mul_right_inj (ENNReal.inv_ne_zero.2 hb.mass) (ENNReal.inv_ne_top.2 hb.mass0)).1 he'
  · obtain ⟨U, hU, s, hs, hle⟩ := never_close (ν := (stdNormal 2).prod unitLaw)
      (P := mhProb (Poly paraA paraB) volume fun x : Fin 2 → ℝ => x) hT hS x t
    refine ⟨U, hU, s, hs, ?_⟩
    have := hb.prob_share U
    rw [uniformOn_eq_mhTarget, ← this]
    exact hle

/-- From the chain to the calls. -/
theorem ParaField.never_rows {Φ : MetricField 2} {p q : (Fin 2 → ℝ) → ℝ} (h : ParaField Φ p q) {D : ℝ} (hD : 0 < D) :
    ∃ ε : ℝ, 0 < ε ∧ ∀ (x : Fin 2 → ℝ) (t : ℕ), ∃ T, MeasurableSet T ∧ ∃ s, (s = t ∨ s = t + 1) ∧
      ∀ (w : Walk ℝ) (e : Env ℝ) [MeasurableSpace e.r.G] (μ : Measure e.r.G), IdealSource e.r μ →
      ∀ k seed : Int, w.isSparse = false →
      (∀ niter burnin thin : Int, ∀ᵐ g ∂μ, Follows w e (callArgs paraA paraB x niter k burnin thin seed) ⟨rfl, rfl⟩
        (posAt (mhNext e.r 2 (Poly paraA paraB) (Φ.prop D) (Φ.acc D)) x) g) →
      LawApart w e μ paraA paraB x k seed (uniformOn paraA paraB) s ε T := by
  obtain ⟨ε, hε, hall⟩ := h.never hD
  refine ⟨ε, hε, fun x t => ?_⟩
  obtain ⟨T, hT, s, hs, hle⟩ := hall x t
  refine ⟨T, hT, s, hs, fun w e _ μ hid k seed hw hfol => LawApart.of_follows
    (q := posAt (mhNext e.r 2 (Poly paraA paraB) (Φ.prop D) (Φ.acc D)) x) (by rw [hw]; intro h'; cases h') hfol ?_⟩
  have := hid.prob
  have hb := dense_mhBase para_point para_bounded hD Φ
  have mf := measurable_mhNext e.r 2 (hid.gaussian 2).measurable hid.uniform.measurable hb.measC hb.measP hb.measa
  have mT := measurable_mhMove hb.measC hb.measP hb.measa
  have h1 := markov_pos mf mT (hb.drives hid) (Bdd.indicator_one hT) s x
  have h3 : ∫ g, T.indicator (1 : (Fin 2 → ℝ) → ℝ) (posAt (mhNext e.r 2 (Poly paraA paraB) (Φ.prop D) (Φ.acc D)) x s g) ∂μ =
      (μ {g | posAt (mhNext e.r 2 (Poly paraA paraB) (Φ.prop D) (Φ.acc D)) x s g ∈ T}).toReal := by
    have h4 := integral_indicator_one (μ := μ) ((measurable_posAt mf x s) hT)
    exact h4
  rw [← h1, h3] at hle
  exact hle

/-- **C78** (`DikinWalk`): on the parallelogram there is a distance `ε` such that from every interior starting point, of any two
successive times `t, t + 1` there is one at which the position (and any row recorded then) is not uniform: some region `T` gets a probability
that differs from its share by at least `ε`, whatever the generator, the number of iterations, burn-in and thinning. -/
theorem C78_dikin (E : Eigen ℝ) (hE : E.Exact) (R : ℝ) (hr : R ≠ 0) :
    ∃ ε : ℝ, 0 < ε ∧ ∀ x ∈ Interior paraA paraB, ∀ t : ℕ, ∃ T, MeasurableSet T ∧ ∃ s, (s = t ∨ s = t + 1) ∧
      ∀ (o : BState ℝ) (e : Env ℝ) [MeasurableSpace e.r.G] (μ : Measure e.r.G), IdealSource e.r μ → ∀ k seed : Int,
        LawApart (.barrier (dikinClass R) E o) e μ paraA paraB x k seed (uniformOn paraA paraB) s ε T := by
  have hD : 0 < R * R / (Scalar.ofInt ((2 : ℕ) : Int) : ℝ) := by
    rw [rsc_ofInt]
    exact div_pos (mul_self_pos.2 hr) (by norm_num)
  have hP := paraField_dikin E hE.llt
  obtain ⟨ε, hε, hall⟩ := hP.never_rows hD
  refine ⟨ε, hε, fun x hx t => ?_⟩
  obtain ⟨T, hT, s, hs, hle⟩ := hall x t
  exact ⟨T, hT, s, hs, fun o e _ μ hid k seed => hle _ e μ hid k seed rfl fun niter burnin thin =>
    barrier_follows (dikinClass R) E hE.llt hE.lu (by norm_num) para_indep _ _ _ (dense_mhBase para_point para_bounded hD _) o _ rfl rfl
      e μ hid (fun x _ => generateHessian_dikin R _ x paraA paraB) hx niter k burnin thin seed⟩

theorem vaidya_setDistTerm (E : Eigen ℝ) (R : ℝ) (o : BState ℝ) (n m : ℕ) (h : (n : Int) * m ≤ 2 ^ 31 - 1) :
    (vaidyaClass E R).setDistTerm o n m = .ok { o with dist := R * R / Scalar.sqrt (Scalar.ofInt ((n : Int) * m) : ℝ) } := by
  have h0 : 0 ≤ (n : Int) * m := mul_nonneg (by omega) (by omega)
  show (toInt ((n : Int) * m)).bind _ = _
  have : toInt ((n : Int) * m) = .ok ((n : Int) * m) := by
    unfold toInt
    rw [if_pos (by unfold IsInt intMin intMax; constructor <;> omega)]
  rw [this, Out.ok_bind]

/-- **C78** (`VaidyaWalk`). -/
theorem C78_vaidya (E : Eigen ℝ) (hE : E.Exact) (R : ℝ) (hr : R ≠ 0) :
    ∃ ε : ℝ, 0 < ε ∧ ∀ x ∈ Interior paraA paraB, ∀ t : ℕ, ∃ T, MeasurableSet T ∧ ∃ s, (s = t ∨ s = t + 1) ∧
      ∀ (o : BState ℝ) (e : Env ℝ) [MeasurableSpace e.r.G] (μ : Measure e.r.G), IdealSource e.r μ → ∀ k seed : Int,
        LawApart (.barrier (vaidyaClass E R) E o) e μ paraA paraB x k seed (uniformOn paraA paraB) s ε T := by
  have hD : 0 < R * R / Scalar.sqrt (Scalar.ofInt (((2 : ℕ) : Int) * ((4 : ℕ) : Int)) : ℝ) := by
    rw [rsc_ofInt, rsc_sqrt]
    have h1 : (0 : ℝ) < (((((2 : ℕ) : Int) * ((4 : ℕ) : Int)) : Int) : ℝ) := by norm_num
    exact div_pos (mul_self_pos.2 hr) (Real.sqrt_pos.2 h1)
  have hP := paraField_vaidya E hE.llt
  obtain ⟨ε, hε, hall⟩ := hP.never_rows hD
  refine ⟨ε, hε, fun x hx t => ?_⟩
  obtain ⟨T, hT, s, hs, hle⟩ := hall x t
  exact ⟨T, hT, s, hs, fun o e _ μ hid k seed => hle _ e μ hid k seed rfl fun niter burnin thin =>
    barrier_follows (vaidyaClass E R) E hE.llt hE.lu (by norm_num) para_indep _ _ _ (dense_mhBase para_point para_bounded hD _) o
      { o with dist := R * R / Scalar.sqrt (Scalar.ofInt (((2 : ℕ) : Int) * ((4 : ℕ) : Int)) : ℝ) }
      (vaidya_setDistTerm E R o 2 4 (by norm_num)) rfl
      e μ hid (fun x hx => generateHessian_vaidya hE.inv R _ para_indep hx) hx niter k burnin thin seed⟩

/-- Apart at late times is the opposite of convergence. -/
theorem not_convergent_of_apart {m n : ℕ} {w : Walk ℝ} {e : Env ℝ} [MeasurableSpace e.r.G] {μ : Measure e.r.G} {A : Matrix (Fin m) (Fin n) ℝ}
    {b : Fin m → ℝ} {x : Fin n → ℝ} {k seed : Int} {π : Measure (Fin n → ℝ)} {ε : ℝ} (hε : 0 < ε)
    (h : ∀ t : ℕ, ∃ T, MeasurableSet T ∧ ∃ s, (s = t ∨ s = t + 1) ∧ LawApart w e μ A b x k seed π s ε T) :
    ¬ ∀ ε : ℝ, 0 < ε → ∃ t₀ : ℕ, ∀ t ≥ t₀, LawWithin w e μ A b x k seed π t ε := by
  intro hc
  obtain ⟨t₀, ht₀⟩ := hc (ε / 2) (half_pos hε)
  obtain ⟨T, hT, s, hs, hle⟩ := h t₀
  have h1 := (ht₀ s (by omega) 0 0 0 T hT).1
  have h2 := (hle 0 0 0).1
  linarith

/-- **C78**, as a failure of convergence: the conclusion of C66 is false on the parallelogram, from every interior starting point. -/
theorem C78_dikin_not_convergent (E : Eigen ℝ) (hE : E.Exact) (R : ℝ) (hr : R ≠ 0) (x : Fin 2 → ℝ) (hx : x ∈ Interior paraA paraB)
    (o : BState ℝ) (e : Env ℝ) [MeasurableSpace e.r.G] (μ : Measure e.r.G) (hs : IdealSource e.r μ) (k seed : Int) :
    ¬ ∀ ε : ℝ, 0 < ε → ∃ t₀ : ℕ, ∀ t ≥ t₀,
      LawWithin (.barrier (dikinClass R) E o) e μ paraA paraB x k seed (uniformOn paraA paraB) t ε := by
  obtain ⟨ε, hε, h⟩ := C78_dikin E hE R hr
  refine not_convergent_of_apart hε fun t => ?_
  obtain ⟨T, hT, s, h1, h2⟩ := h x hx t
  exact ⟨T, hT, s, h1, h2 o e μ hs k seed⟩

/-- **C78**, as a failure of convergence (`VaidyaWalk`). -/
theorem C78_vaidya_not_convergent (E : Eigen ℝ) (hE : E.Exact) (R : ℝ) (hr : R ≠ 0) (x : Fin 2 → ℝ) (hx : x ∈ Interior paraA paraB)
    (o : BState ℝ) (e : Env ℝ) [MeasurableSpace e.r.G] (μ : Measure e.r.G) (hs : IdealSource e.r μ) (k seed : Int) :
    ¬ ∀ ε : ℝ, 0 < ε → ∃ t₀ : ℕ, ∀ t ≥ t₀,
      LawWithin (.barrier (vaidyaClass E R) E o) e μ paraA paraB x k seed (uniformOn paraA paraB) t ε := by
  obtain ⟨ε, hε, h⟩ := C78_vaidya E hE R hr
  refine not_convergent_of_apart hε fun t => ?_
  obtain ⟨T, hT, s, h1, h2⟩ := h x hx t
  exact ⟨T, hT, s, h1, h2 o e μ hs k seed⟩

/-- With the generator of the examples, radius `1/2`, from the point `(0, 1/2)`. -/
example : ¬ ∀ ε : ℝ, 0 < ε → ∃ t₀ : ℕ, ∀ t ≥ t₀,
    LawWithin (.barrier (dikinClass (1 / 2)) exactEigen (BState.fresh 0)) streamEnv streamLaw paraA paraB ![0, 1 / 2] 0 7
      (uniformOn paraA paraB) t ε :=
  C78_dikin_not_convergent exactEigen exactEigen_exact (1 / 2) (by norm_num) _ para_point (BState.fresh 0) streamEnv streamLaw streamRng_ideal 0 7

/-- The uniform distribution is not invariant, with the generator of the examples. -/
example (o : BState ℝ) (hD : 0 < o.dist) : ¬ Stationary (uniformOn paraA paraB) streamLaw (fun x g => (x, o, g)) Prod.fst
      (BarrierWalk.step (vaidyaClass exactEigen (1 / 2)) exactEigen streamRng paraA paraB) :=
  C35_vaidya_not_stationary exactEigen exactEigen_exact streamRng streamLaw streamRng_ideal (1 / 2) o hD

end PW
