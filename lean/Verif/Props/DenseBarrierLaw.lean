import Verif.Props.DenseProposal
import Verif.Lemmas.ContMatrix
import Verif.Lemmas.Stream

/-!
# C35: detailed balance of the dense Dikin and Vaidya walks

True for axis-aligned constraints, false in general. The exact condition is `C35_dikin_reversible_iff`.
-/

namespace PW
open Matrix MeasureTheory Set
open scoped ENNReal
variable {m n : ℕ}

/-! ## Weights as functions of the point -/

theorem measurable_slack (A : Matrix (Fin m) (Fin n) ℝ) (b : Fin m → ℝ) (i : Fin m) :
    Measurable fun x : Fin n → ℝ => b i - (A *ᵥ x) i :=
  measurable_const.sub ((measurable_pi_apply i).comp
    (Continuous.measurable (Continuous.matrix_mulVec continuous_const continuous_id)))

theorem measurable_vaidyaW (A : Matrix (Fin m) (Fin n) ℝ) (b : Fin m → ℝ) (i : Fin m) :
    Measurable fun x => vaidyaW A b x i := by
  have hN : MeasMat fun x : Fin n → ℝ => normals x A b := fun i j => measurable_const.div (measurable_slack A b i)
  exact ((hN.mul (hN.transpose.mul hN).inv).mul hN.transpose i i).add_const _

theorem continuousOn_vaidyaW (A : Matrix (Fin m) (Fin n) ℝ) (b : Fin m → ℝ) (hA : IndepCols A) (i : Fin m) :
    ContinuousOn (fun x => vaidyaW A b x i) (Interior A b) := by
  have hN : ContMat (Interior A b) fun x : Fin n → ℝ => normals x A b := fun i j =>
    continuousOn_const.div (continuous_const.sub ((continuous_apply i).comp
      (Continuous.matrix_mulVec continuous_const continuous_id))).continuousOn
      fun x hx => (Interior.slack_pos hx i).ne'
  have hd : ∀ x ∈ Interior A b, ((normals x A b)ᵀ * normals x A b).det ≠ 0 := fun x hx =>
    (gram_det _ (normals_indep hx hA)).ne_zero
  exact ((hN.mul ((hN.transpose.mul hN).inv hd)).mul hN.transpose i i).add continuousOn_const

theorem vaidyaW_pos {A : Matrix (Fin m) (Fin n) ℝ} {b : Fin m → ℝ} (hA : IndepCols A) (hn : 0 < n) {x : Fin n → ℝ}
    (hx : x ∈ Interior A b) (i : Fin m) : 0 < vaidyaW A b x i := by
  have hm : 0 < m := lt_of_lt_of_le hn hA.le
  have h1 := lev_nonneg _ (normals_indep hx hA) i
  have h2 : (0 : ℝ) < (n : ℝ) / m := by positivity
  unfold vaidyaW; linarith

theorem generateHessian_dikin (R : ℝ) (o : BState ℝ) (x : Fin n → ℝ) (A : Matrix (Fin m) (Fin n) ℝ)
    (b : Fin m → ℝ) : generateHessian (dikinClass R) o x A b = .ok (hessianOf (fun _ => 1) x A b, o) := by
  unfold generateHessian
  rw [C20_weights, Out.ok_bind]
  exact dif_pos rfl

theorem generateHessian_vaidya {E : Eigen ℝ} (hE : E.InvExact) (R : ℝ) (o : BState ℝ) {x : Fin n → ℝ}
    {A : Matrix (Fin m) (Fin n) ℝ} {b : Fin m → ℝ} (hA : IndepCols A) (hx : x ∈ Interior A b) :
    generateHessian (vaidyaClass E R) o x A b = .ok (hessianOf (vaidyaW A b x) x A b, o) := by
  obtain ⟨w, h1, h2, _⟩ := C21_vaidya E hE R o x A b hA hx
  have : w = vaidyaW A b x := funext h2
  subst this
  unfold generateHessian
  rw [h1, Out.ok_bind]
  exact dif_pos rfl

/-- The defect of the walk's metric field, in terms of any Cholesky factors. -/
theorem barrierField_defect {E : Eigen ℝ} {hL : E.LltExact} {A : Matrix (Fin m) (Fin n) ℝ} {b : Fin m → ℝ}
    {hA : IndepCols A} {w : (Fin n → ℝ) → Fin m → ℝ} {hw : ∀ i, Measurable fun x => w x i}
    {hpos : ∀ x ∈ Interior A b, ∀ i, 0 < w x i} {x : Fin n → ℝ} (hx : x ∈ Interior A b)
    {L : Matrix (Fin n) (Fin n) ℝ} (hC : IsCholesky L (barrierHess (w x) A b x)) (z : Fin n → ℝ) :
    (barrierField E hL A b hA w hw hpos).defect x z = MetricDefect (barrierHess (w x) A b x) L x z := by
  have h1 : (barrierField E hL A b hA w hw hpos).H x = barrierHess (w x) A b x :=
    (if_pos hx).trans (hessianOf_real _ _ _ _)
  have h2 : (barrierField E hL A b hA w hw hpos).L x = L := by
    refine IsCholesky.unique ?_ hC
    rw [← h1]; exact (barrierField E hL A b hA w hw hpos).chol x
  unfold MetricField.defect MetricDefect
  rw [h1, h2]

/-- Rewriting of the abstract criterion. -/
theorem defect_iff (E : Eigen ℝ) (hL : E.LltExact) (A : Matrix (Fin m) (Fin n) ℝ) (b : Fin m → ℝ)
    (hA : IndepCols A) (w : (Fin n → ℝ) → Fin m → ℝ) (hw : ∀ i, Measurable fun x => w x i)
    (hpos : ∀ x ∈ Interior A b, ∀ i, 0 < w x i) :
    (∀ x ∈ Interior A b, ∀ z ∈ Interior A b, (barrierField E hL A b hA w hw hpos).defect x z =
        (barrierField E hL A b hA w hw hpos).defect z x) ↔
    ∀ x ∈ Interior A b, ∀ z ∈ Interior A b, ∀ Lx Lz,
      IsCholesky Lx (barrierHess (w x) A b x) → IsCholesky Lz (barrierHess (w z) A b z) →
      MetricDefect (barrierHess (w x) A b x) Lx x z = MetricDefect (barrierHess (w z) A b z) Lz z x := by
  constructor
  · intro h x hx z hz Lx Lz hCx hCz
    have := h x hx z hz
    rwa [barrierField_defect hx hCx, barrierField_defect hz hCz] at this
  · intro h x hx z hz
    have hCx := (C26_posDef E hL (w x) (hpos x hx) x A b hA hx).2
    have hCz := (C26_posDef E hL (w z) (hpos z hz) z A b hA hz).2
    rw [hessianOf_real] at hCx hCz
    rw [barrierField_defect hx hCx, barrierField_defect hz hCz]
    exact h x hx z hz _ _ hCx hCz

/-! ## The exact condition -/

section
variable (E : Eigen ℝ) (hE : E.Exact) (r : Rng ℝ) [MeasurableSpace r.G] (μ : Measure r.G) (hs : IdealSource r μ)
  (A : Matrix (Fin m) (Fin n) ℝ) (b : Fin m → ℝ) (hA : IndepCols A) (hn : 0 < n) (R : ℝ) (o : BState ℝ)
  (hD : 0 < o.dist) (x₀ : Fin n → ℝ) (hx₀ : x₀ ∈ Interior A b)
include hE hs hA hn hD hx₀

/-- **C35** (dense Dikin walk, exact condition): one iteration satisfies detailed balance with respect to the uniform
distribution on the polytope if and only if `(z-x)ᵀ (H(x) - L(x)ᵀL(x)) (z-x)` is symmetric in `x` and `z`, where
`H` is the log-barrier Hessian and `L` its Cholesky factor. Missing: this is not always the case
(`C35_dikin_not_reversible`). -/
theorem C35_dikin_reversible_iff_partial :
    Reversible (uniformOn A b) μ (fun x g => (x, o, g)) Prod.fst (BarrierWalk.step (dikinClass R) E r A b) ↔
      ∀ x ∈ Interior A b, ∀ z ∈ Interior A b, ∀ Lx Lz,
        IsCholesky Lx (barrierHess (fun _ => 1) A b x) → IsCholesky Lz (barrierHess (fun _ => 1) A b z) →
        MetricDefect (barrierHess (fun _ => 1) A b x) Lx x z = MetricDefect (barrierHess (fun _ => 1) A b z) Lz z x :=
  (denseBarrier_reversible_iff (dikinClass R) E hE.llt hE.lu r μ hs A b (lt_of_lt_of_le hn hA.le) hA o hD x₀ hx₀
    (fun _ _ => 1) (fun _ => measurable_const) (fun _ _ _ => one_pos)
    (fun x _ => generateHessian_dikin R o x A b) (fun _ => continuousOn_const)).trans
    (defect_iff E hE.llt A b hA (fun _ _ => 1) (fun _ => measurable_const) (fun _ _ _ => one_pos))

/-- **C35** (dense Vaidya walk, exact condition). -/
theorem C35_vaidya_reversible_iff_partial :
    Reversible (uniformOn A b) μ (fun x g => (x, o, g)) Prod.fst (BarrierWalk.step (vaidyaClass E R) E r A b) ↔
      ∀ x ∈ Interior A b, ∀ z ∈ Interior A b, ∀ Lx Lz,
        IsCholesky Lx (barrierHess (vaidyaW A b x) A b x) → IsCholesky Lz (barrierHess (vaidyaW A b z) A b z) →
        MetricDefect (barrierHess (vaidyaW A b x) A b x) Lx x z =
          MetricDefect (barrierHess (vaidyaW A b z) A b z) Lz z x :=
  (denseBarrier_reversible_iff (vaidyaClass E R) E hE.llt hE.lu r μ hs A b (lt_of_lt_of_le hn hA.le) hA o hD x₀ hx₀
    (vaidyaW A b) (measurable_vaidyaW A b) (fun _ hx => vaidyaW_pos hA hn hx)
    (fun _ hx => generateHessian_vaidya hE.inv R o hA hx) (continuousOn_vaidyaW A b hA)).trans
    (defect_iff E hE.llt A b hA (vaidyaW A b) (measurable_vaidyaW A b) (fun _ hx => vaidyaW_pos hA hn hx))

end

/-! ## Axis-aligned constraints -/

theorem AxisAligned.defect {A : Matrix (Fin m) (Fin n) ℝ} (hax : AxisAligned A) {b : Fin m → ℝ} {w : Fin m → ℝ}
    {x : Fin n → ℝ} {L : Matrix (Fin n) (Fin n) ℝ} (hC : IsCholesky L (barrierHess w A b x)) (z : Fin n → ℝ) :
    MetricDefect (barrierHess w A b x) L x z = 0 := by
  have hd : (barrierHess w A b x).IsDiag := by
    have := hax.isDiag w x b
    rwa [hessianOf_real] at this
  unfold MetricDefect
  rw [hC.normal_iff.2 hd, sub_self, Matrix.zero_mulVec, dotProduct_zero]

section
variable (E : Eigen ℝ) (hE : E.Exact) (r : Rng ℝ) [MeasurableSpace r.G] (μ : Measure r.G) (hs : IdealSource r μ)
  (A : Matrix (Fin m) (Fin n) ℝ) (b : Fin m → ℝ) (hA : IndepCols A) (hn : 0 < n) (hax : AxisAligned A) (R : ℝ)
  (o : BState ℝ) (hD : 0 < o.dist) (x₀ : Fin n → ℝ) (hx₀ : x₀ ∈ Interior A b)
include hE hs hA hn hax hD hx₀

theorem dikin_axis_stepLaw : ∃ f T, StepLaw (uniformOn A b) μ ((stdNormal n).prod unitLaw) (fun x g => (x, o, g))
    (BarrierWalk.step (dikinClass R) E r A b) f T :=
  ⟨_, _, denseBarrier_stepLaw (dikinClass R) E hE.llt hE.lu r μ hs A b (lt_of_lt_of_le hn hA.le) hA o hD x₀ hx₀
    (fun _ _ => 1) (fun _ => measurable_const) (fun _ _ _ => one_pos)
    (fun x _ => generateHessian_dikin R o x A b)
    ((defect_iff E hE.llt A b hA (fun _ _ => 1) (fun _ => measurable_const) (fun _ _ _ => one_pos)).2
      fun _ _ _ _ _ _ hCx hCz => by rw [hax.defect hCx, hax.defect hCz])⟩

theorem vaidya_axis_stepLaw : ∃ f T, StepLaw (uniformOn A b) μ ((stdNormal n).prod unitLaw) (fun x g => (x, o, g))
    (BarrierWalk.step (vaidyaClass E R) E r A b) f T :=
  ⟨_, _, denseBarrier_stepLaw (vaidyaClass E R) E hE.llt hE.lu r μ hs A b (lt_of_lt_of_le hn hA.le) hA o hD x₀ hx₀
    (vaidyaW A b) (measurable_vaidyaW A b) (fun _ hx => vaidyaW_pos hA hn hx)
    (fun x hx => generateHessian_vaidya hE.inv R o hA hx)
    ((defect_iff E hE.llt A b hA (vaidyaW A b) (measurable_vaidyaW A b) (fun _ hx => vaidyaW_pos hA hn hx)).2
      fun _ _ _ _ _ _ hCx hCz => by rw [hax.defect hCx, hax.defect hCz])⟩

/-- **C35** (partial): for axis-aligned constraints the dense Dikin walk satisfies detailed balance with respect to the
uniform distribution on the polytope. -/
theorem C35_dikin_axis_partial :
    Reversible (uniformOn A b) μ (fun x g => (x, o, g)) Prod.fst (BarrierWalk.step (dikinClass R) E r A b) ∧
    Stationary (uniformOn A b) μ (fun x g => (x, o, g)) Prod.fst (BarrierWalk.step (dikinClass R) E r A b) := by
  have := hs.prob
  have := hs.probN n
  obtain ⟨f, T, h⟩ := dikin_axis_stepLaw E hE r μ hs A b hA hn hax R o hD x₀ hx₀
  exact ⟨h.reversible fun _ _ => rfl, h.stationary fun _ _ => rfl⟩

/-- **C35** (partial): for axis-aligned constraints the dense Vaidya walk satisfies detailed balance. -/
theorem C35_vaidya_axis_partial :
    Reversible (uniformOn A b) μ (fun x g => (x, o, g)) Prod.fst (BarrierWalk.step (vaidyaClass E R) E r A b) ∧
    Stationary (uniformOn A b) μ (fun x g => (x, o, g)) Prod.fst (BarrierWalk.step (vaidyaClass E R) E r A b) := by
  have := hs.prob
  have := hs.probN n
  obtain ⟨f, T, h⟩ := vaidya_axis_stepLaw E hE r μ hs A b hA hn hax R o hD x₀ hx₀
  exact ⟨h.reversible fun _ _ => rfl, h.stationary fun _ _ => rfl⟩

end

/-! ## The returned samples -/

theorem withGen_barrierStep {σ : Type} (cls : BarrierClass ℝ σ) (E : Eigen ℝ) (e : Env ℝ)
    (g : e.r.G) (A : Matrix (Fin m) (Fin n) ℝ) (b : Fin m → ℝ) :
    BarrierWalk.step cls E (e.withGen g).r A b = BarrierWalk.step cls E e.r A b := by
  funext s
  let body : (Fin n → ℝ) × e.r.G → Out ((Fin n → ℝ) × σ × e.r.G) := fun d =>
    (generateHessian cls s.2.1 s.1 A b).bind fun ho =>
    (inPolytope (BarrierWalk.proposal E (cls.distTerm ho.2) ho.1 s.1 d.1) A b).bind fun c =>
    if !c then .ok (s.1, ho.2, d.2)
    else
      (generateHessian cls ho.2 (BarrierWalk.proposal E (cls.distTerm ho.2) ho.1 s.1 d.1) A b).bind fun ho' =>
      .ok (if mhAccept (BarrierWalk.logDensity (cls.distTerm ho'.2) (E.lltL ho'.1) ho'.1 s.1
            (BarrierWalk.proposal E (cls.distTerm ho.2) ho.1 s.1 d.1))
          (BarrierWalk.logDensity (cls.distTerm ho.2) (E.lltL ho.1) ho.1 s.1
            (BarrierWalk.proposal E (cls.distTerm ho.2) ho.1 s.1 d.1)) (e.r.uniform d.2).1
        then BarrierWalk.proposal E (cls.distTerm ho.2) ho.1 s.1 d.1 else s.1, ho'.2, (e.r.uniform d.2).2)
  exact congrArg body (withGen_gaussian e g s.2.2 n)

theorem barrier_samples {σ W : Type} [MeasurableSpace W] (cls : BarrierClass ℝ σ) (E : Eigen ℝ)
    (o o' : σ) (e : Env ℝ) [MeasurableSpace e.r.G] (μ : Measure e.r.G) [IsProbabilityMeasure μ] (a : Args ℝ)
    (hb : a.A.r = a.b.n) (hg : GoodInts a.niter a.burnin a.thin)
    (ho : cls.setDistTerm o a.A.c a.A.r = .ok o')
    (π : Measure (Fin a.A.c → ℝ)) [SFinite π] (ν : Measure W) [IsProbabilityMeasure ν]
    (hlaw : ∃ f T, StepLaw π μ ν (fun x g => (x, o', g))
      (BarrierWalk.step cls E e.r a.A.val (a.b.at hb.symm)) f T) :
    SamplesHaveLaw (.barrier cls E o) e μ a π := by
  intro j hj T hT
  obtain ⟨f, T', h⟩ := hlaw
  rw [← h.rows (pos := Prod.fst) (fun _ _ => rfl) a.niter a.burnin a.thin hg j hj T hT]
  congr 1
  ext p
  simp only [mem_ofPred_eq]
  have key : (Walk.barrier cls E o).run (e.withGen p.2) (a.from p.1) =
      ((runLoop (BarrierWalk.step cls E e.r a.A.val (a.b.at hb.symm)) Prod.fst a.niter a.burnin a.thin
        (p.1, o', p.2)).map fun q => (q.1, q.2.2.1)).map Prod.fst := by
    show (BarrierWalk.generateCompleteWalk cls E (e.withGen p.2).r o a.niter ⟨a.A.c, p.1⟩ a.A a.b
      a.burnin a.thin a.seed (e.withGen p.2).rd).map Prod.fst = _
    unfold BarrierWalk.generateCompleteWalk checkDims
    rw [dif_pos (show (⟨a.A.c, p.1⟩ : DVec ℝ).n = a.A.c ∧ a.A.r = a.b.n from ⟨rfl, hb⟩),
      withGen_init, ho]
    exact congrArg (fun st => ((runLoop st Prod.fst a.niter a.burnin a.thin (p.1, o', p.2)).map
      fun q : List (Fin a.A.c → ℝ) × (Fin a.A.c → ℝ) × σ × e.r.G => (q.1, q.2.2.1)).map Prod.fst)
      (withGen_barrierStep cls E e p.2 a.A.val (a.b.at hb.symm))
  rw [key]
  exact rows_map_iff _ _ _ fun _ => rfl

/-- **C35** (partial), for the returned samples of `DikinWalk` on axis-aligned constraints: started from a uniform point
of the polytope, every returned row is uniformly distributed on it. -/
theorem C35_dikin_axis_samples_partial (E : Eigen ℝ) (hE : E.Exact) (R : ℝ) (hr : R ≠ 0) (o : BState ℝ)
    (e : Env ℝ) [MeasurableSpace e.r.G] (μ : Measure e.r.G) (hs : IdealSource e.r μ) (a : Args ℝ)
    (hb : a.A.r = a.b.n) (hg : GoodInts a.niter a.burnin a.thin)
    (hA : IndepCols a.A.val) (hn : 0 < a.A.c) (hax : AxisAligned a.A.val) (x₀ : Fin a.A.c → ℝ)
    (hx₀ : x₀ ∈ Interior a.A.val (a.b.at hb.symm)) :
    SamplesHaveLaw (.barrier (dikinClass R) E o) e μ a (uniformOn a.A.val (a.b.at hb.symm)) := by
  have := hs.prob
  have := hs.probN a.A.c
  have hD : 0 < R * R / (Scalar.ofInt (a.A.c : Int) : ℝ) := by
    rw [rsc_ofInt]
    exact div_pos (mul_self_pos.2 hr) (by exact_mod_cast hn)
  exact barrier_samples (W := (Fin a.A.c → ℝ) × ℝ) _ E o _ e μ a hb hg rfl _ _
    (dikin_axis_stepLaw E hE e.r μ hs a.A.val (a.b.at hb.symm) hA hn hax R
      { o with dist := R * R / Scalar.ofInt (a.A.c : Int) } hD x₀ hx₀)

/-- **C35** (partial), for the returned samples of `VaidyaWalk` on axis-aligned constraints, provided the `int` product
`cols * rows` does not overflow. -/
theorem C35_vaidya_axis_samples_partial (E : Eigen ℝ) (hE : E.Exact) (R : ℝ) (hr : R ≠ 0) (o : BState ℝ)
    (e : Env ℝ) [MeasurableSpace e.r.G] (μ : Measure e.r.G) (hs : IdealSource e.r μ) (a : Args ℝ)
    (hb : a.A.r = a.b.n) (hg : GoodInts a.niter a.burnin a.thin) (hov : (a.A.c : Int) * a.A.r ≤ 2 ^ 31 - 1)
    (hA : IndepCols a.A.val) (hn : 0 < a.A.c) (hax : AxisAligned a.A.val) (x₀ : Fin a.A.c → ℝ)
    (hx₀ : x₀ ∈ Interior a.A.val (a.b.at hb.symm)) :
    SamplesHaveLaw (.barrier (vaidyaClass E R) E o) e μ a (uniformOn a.A.val (a.b.at hb.symm)) := by
  have := hs.prob
  have := hs.probN a.A.c
  have hm : 0 < a.A.r := lt_of_lt_of_le hn hA.le
  have hpos : 0 < (a.A.c : Int) * a.A.r := mul_pos (by omega) (by omega)
  have hD : 0 < R * R / Scalar.sqrt (Scalar.ofInt ((a.A.c : Int) * a.A.r) : ℝ) := by
    rw [rsc_ofInt, rsc_sqrt]
    have h1 : (0 : ℝ) < (((a.A.c : Int) * a.A.r : Int) : ℝ) := by exact_mod_cast hpos
    exact div_pos (mul_self_pos.2 hr) (Real.sqrt_pos.2 h1)
  refine barrier_samples (W := (Fin a.A.c → ℝ) × ℝ) _ E o
    { o with dist := R * R / Scalar.sqrt (Scalar.ofInt ((a.A.c : Int) * a.A.r) : ℝ) } e μ a hb hg ?_ _ _
    (vaidya_axis_stepLaw E hE e.r μ hs a.A.val (a.b.at hb.symm) hA hn hax R _ hD x₀ hx₀)
  show (toInt ((a.A.c : Int) * a.A.r)).bind _ = _
  have : toInt ((a.A.c : Int) * a.A.r) = .ok ((a.A.c : Int) * a.A.r) := by
    unfold toInt
    rw [if_pos (by unfold IsInt intMin intMax; constructor <;> omega)]
  rw [this, Out.ok_bind]

/-! ## A polytope where detailed balance fails -/

theorem para_cholesky {p q : ℝ} (hp : 0 < p) (hq : 0 < q) :
    IsCholesky !![Real.sqrt p, 0; Real.sqrt p, Real.sqrt q] !![p, p; p, p + q] where
  lower i j hij := by fin_cases i <;> fin_cases j <;> simp_all
  diag_pos i := by fin_cases i <;> simp [hp, hq]
  mul_eq := by
    have h1 := Real.mul_self_sqrt hp.le
    have h2 := Real.mul_self_sqrt hq.le
    ext i j
    fin_cases i <;> fin_cases j <;> simp [Matrix.mul_apply, Fin.sum_univ_two, h1, h2]

/-- **C35 is false**: the dense Dikin walk on a parallelogram does not satisfy detailed balance with respect to the
uniform distribution, whatever the (positive) step size. -/
theorem C35_dikin_not_reversible (E : Eigen ℝ) (hE : E.Exact) (r : Rng ℝ) [MeasurableSpace r.G] (μ : Measure r.G)
    (hs : IdealSource r μ) (R : ℝ) (o : BState ℝ) (hD : 0 < o.dist) :
    ¬ Reversible (uniformOn paraA paraB) μ (fun x g => (x, o, g)) Prod.fst
      (BarrierWalk.step (dikinClass R) E r paraA paraB) := by
  have hx : (![-(1 / 4), 1 / 2] : Fin 2 → ℝ) ∈ Interior paraA paraB := by
    rw [para_interior]; simp; norm_num
  have hz : (![0, 1 / 2] : Fin 2 → ℝ) ∈ Interior paraA paraB := by
    rw [para_interior]; simp; norm_num
  intro h
  have h1 := (C35_dikin_reversible_iff_partial E hE r μ hs paraA paraB para_indep (by norm_num) R o hD _ hz).1 h
    _ hx _ hz
  have hHx : barrierHess (fun _ => 1) paraA paraB ![-(1 / 4), 1 / 2] = !![160 / 9, 160 / 9; 160 / 9, 160 / 9 + 8] := by
    have := para_hess ![-(1 / 4), 1 / 2]
    rw [hessianOf_real] at this
    refine Eq.trans this ?_
    ext i j
    fin_cases i <;> fin_cases j <;> simp <;> norm_num
  have hHz : barrierHess (fun _ => 1) paraA paraB ![0, 1 / 2] = !![8, 8; 8, 8 + 8] := by
    have := para_hess ![0, 1 / 2]
    rw [hessianOf_real] at this
    refine Eq.trans this ?_
    ext i j
    fin_cases i <;> fin_cases j <;> simp <;> norm_num
  rw [hHx, hHz] at h1
  have h2 := h1 _ _ (para_cholesky (by norm_num) (by norm_num)) (para_cholesky (by norm_num) (by norm_num))
  have e1 := Real.mul_self_sqrt (show (0 : ℝ) ≤ 160 / 9 by norm_num)
  have e2 := Real.mul_self_sqrt (show (0 : ℝ) ≤ 8 by norm_num)
  generalize Real.sqrt (160 / 9) = s at h2 e1
  generalize Real.sqrt 8 = t at h2 e2
  simp [MetricDefect, Matrix.mulVec, dotProduct, Fin.sum_univ_two, Matrix.mul_apply] at h2
  nlinarith

/-- Leverage scores of four rows `p(1,1), q(0,1), -p'(1,1), -q(0,1)`. -/
theorem para_lev (M : Matrix (Fin 4) (Fin 2) ℝ) (a c d e : ℝ) (hM : M = !![a, a; 0, c; -d, -d; 0, -e])
    (h1 : 0 < a ^ 2 + d ^ 2) (h2 : 0 < c ^ 2 + e ^ 2) :
    lev M 0 = a ^ 2 / (a ^ 2 + d ^ 2) ∧ lev M 1 = c ^ 2 / (c ^ 2 + e ^ 2) ∧
      lev M 2 = d ^ 2 / (a ^ 2 + d ^ 2) ∧ lev M 3 = e ^ 2 / (c ^ 2 + e ^ 2) := by
  subst hM
  generalize hp : a ^ 2 + d ^ 2 = p at h1 ⊢
  generalize hq : c ^ 2 + e ^ 2 = q at h2 ⊢
  have hG : (!![a, a; 0, c; -d, -d; 0, -e] : Matrix (Fin 4) (Fin 2) ℝ)ᵀ * !![a, a; 0, c; -d, -d; 0, -e] =
      !![p, p; p, p + q] := by
    ext i j
    fin_cases i <;> fin_cases j <;>
      simp [Matrix.mul_apply, Fin.sum_univ_four, ← hp, ← hq] <;> ring
  have hI : (!![p, p; p, p + q] : Matrix (Fin 2) (Fin 2) ℝ)⁻¹ =
      !![1 / p + 1 / q, -(1 / q); -(1 / q), 1 / q] := by
    refine Matrix.inv_eq_left_inv ?_
    ext i j
    fin_cases i <;> fin_cases j <;> simp [Matrix.mul_apply, Fin.sum_univ_two] <;> field_simp <;> ring
  unfold lev
  rw [hG, hI]
  refine ⟨?_, ?_, ?_, ?_⟩ <;>
    simp [Matrix.mul_apply, Fin.sum_univ_two] <;> ring

/-- Vaidya Hessian of the parallelogram. -/
theorem para_vaidya {x : Fin 2 → ℝ} (hx : x ∈ Interior paraA paraB) (p q : ℝ)
    (hp : p = ((1 / (1 - (x 0 + x 1))) ^ 2 / ((1 / (1 - (x 0 + x 1))) ^ 2 + (1 / (x 0 + x 1)) ^ 2) + 1 / 2) /
        (1 - (x 0 + x 1)) ^ 2 +
      ((1 / (x 0 + x 1)) ^ 2 / ((1 / (1 - (x 0 + x 1))) ^ 2 + (1 / (x 0 + x 1)) ^ 2) + 1 / 2) / (x 0 + x 1) ^ 2)
    (hq : q = ((1 / (1 - x 1)) ^ 2 / ((1 / (1 - x 1)) ^ 2 + (1 / x 1) ^ 2) + 1 / 2) / (1 - x 1) ^ 2 +
      ((1 / x 1) ^ 2 / ((1 / (1 - x 1)) ^ 2 + (1 / x 1) ^ 2) + 1 / 2) / (x 1) ^ 2) :
    barrierHess (vaidyaW paraA paraB x) paraA paraB x = !![p, p; p, p + q] := by
  obtain ⟨⟨h1, h2⟩, h3, h4⟩ := para_interior.1 hx
  have hN : normals x paraA paraB = !![1 / (1 - (x 0 + x 1)), 1 / (1 - (x 0 + x 1)); 0, 1 / (1 - x 1);
      -(1 / (x 0 + x 1)), -(1 / (x 0 + x 1)); 0, -(1 / x 1)] := by
    unfold normals
    rw [para_mulVec]
    ext i j
    fin_cases i <;> fin_cases j <;> simp [paraA, paraB, neg_div]
  have hs : (0 : ℝ) < 1 - (x 0 + x 1) := by linarith
  have ht : (0 : ℝ) < 1 - x 1 := by linarith
  obtain ⟨l0, l1, l2, l3⟩ := para_lev _ _ _ _ _ hN (by positivity) (by positivity)
  unfold barrierHess
  ext i j
  rw [Matrix.mul_apply, Fin.sum_univ_four]
  simp only [Matrix.mul_diagonal, Matrix.transpose_apply, vaidyaW, l0, l1, l2, l3, para_mulVec]
  rw [hp, hq]
  fin_cases i <;> fin_cases j <;> simp [paraA, paraB] <;> ring

/-- **C35 is false** for the dense Vaidya walk too. -/
theorem C35_vaidya_not_reversible (E : Eigen ℝ) (hE : E.Exact) (r : Rng ℝ) [MeasurableSpace r.G] (μ : Measure r.G)
    (hs : IdealSource r μ) (R : ℝ) (o : BState ℝ) (hD : 0 < o.dist) :
    ¬ Reversible (uniformOn paraA paraB) μ (fun x g => (x, o, g)) Prod.fst
      (BarrierWalk.step (vaidyaClass E R) E r paraA paraB) := by
  have hx : (![-(1 / 4), 1 / 2] : Fin 2 → ℝ) ∈ Interior paraA paraB := by
    rw [para_interior]; simp; norm_num
  have hz : (![0, 1 / 2] : Fin 2 → ℝ) ∈ Interior paraA paraB := by
    rw [para_interior]; simp; norm_num
  intro h
  have h1 := (C35_vaidya_reversible_iff_partial E hE r μ hs paraA paraB para_indep (by norm_num) R o hD _ hz).1 h
    _ hx _ hz
  have hHx := para_vaidya hx (352 / 15) 8 (by simp; norm_num) (by simp; norm_num)
  have hHz := para_vaidya hz 8 8 (by simp; norm_num) (by simp; norm_num)
  rw [hHx, hHz] at h1
  have h2 := h1 _ _ (para_cholesky (by norm_num) (by norm_num)) (para_cholesky (by norm_num) (by norm_num))
  have e1 := Real.mul_self_sqrt (show (0 : ℝ) ≤ 352 / 15 by norm_num)
  have e2 := Real.mul_self_sqrt (show (0 : ℝ) ≤ 8 by norm_num)
  generalize Real.sqrt (352 / 15) = s at h2 e1
  generalize Real.sqrt 8 = t at h2 e2
  simp [MetricDefect, Matrix.mulVec, dotProduct, Fin.sum_univ_two, Matrix.mul_apply] at h2
  nlinarith

/-! ## Non-vacuity -/

/-- There are exact solvers and an ideal source; so the walk is really not reversible. -/
example : ¬ Reversible (uniformOn paraA paraB) streamLaw (fun x g => (x, (⟨1, ones 1⟩ : BState ℝ), g)) Prod.fst
      (BarrierWalk.step (dikinClass 1) exactEigen streamRng paraA paraB) :=
  C35_dikin_not_reversible exactEigen exactEigen_exact streamRng streamLaw streamRng_ideal 1 _ one_pos

/-- The segment `|x| ≤ 1` meets the hypotheses of the axis-aligned theorems. -/
example : Reversible (uniformOn (!![1; -1] : Matrix (Fin 2) (Fin 1) ℝ) fun _ => 1) streamLaw
      (fun x g => (x, (⟨1, ones 1⟩ : BState ℝ), g)) Prod.fst
      (BarrierWalk.step (vaidyaClass exactEigen 1) exactEigen streamRng !![1; -1] fun _ => 1) := by
  refine (C35_vaidya_axis_partial exactEigen exactEigen_exact streamRng streamLaw streamRng_ideal _ _ ?_ one_pos ?_ 1 _
    one_pos 0 ?_).1
  · intro x hx
    have h0 := congrFun hx 0
    simp [Matrix.mulVec, dotProduct] at h0
    funext i; fin_cases i; exact h0
  · intro i j k _ _; exact Subsingleton.elim j k
  · intro i; rw [Matrix.mulVec_zero]; exact one_pos

end PW
