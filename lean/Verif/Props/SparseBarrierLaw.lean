import Verif.Lemmas.SparseMHStep
import Verif.Props.BallLaw
import Verif.Props.SparseWeights

/-!
# C36: the sparse Dikin and Vaidya walks leave the uniform distribution invariant
-/

namespace PW
open Matrix MeasureTheory Set
open scoped ENNReal
variable {m n d : ℕ}

instance (x₀ : Fin n → ℝ) (B : Matrix (Fin n) (Fin d) ℝ) (k : ℕ) : SFinite (uniformOnEq x₀ B k) := by
  unfold uniformOnEq; infer_instance

theorem measurable_metricG {X : Type} [MeasurableSpace X] (ERR : ℝ) (junk : Fin n → ℝ) (k : ℕ)
    {x w : X → Fin n → ℝ} (hx : ∀ i, Measurable fun p => x p i) (hw : ∀ i, Measurable fun p => w p i)
    (i : Fin n) : Measurable fun p => metricG ERR junk (x p) (w p) k i := by
  simp only [metricG, generateSlackInverse]
  by_cases h : isTail k i = true
  · simp only [h, if_true]
    exact ((measurable_const.div (hx i)).mul (hw i)).mul (measurable_const.div (hx i))
  · simp only [h]; exact measurable_const

/-! ## The two classes -/

/-- Diagonal metric of the sparse Dikin walk. -/
noncomputable def dikinG (ERR : ℝ) (junk : Fin n → ℝ) (k : ℕ) (x : Fin n → ℝ) : Fin n → ℝ :=
  metricG ERR junk x (fun _ => 1) k

/-- Diagonal metric of the sparse Vaidya walk. -/
noncomputable def vaidyaG (A : Matrix (Fin m) (Fin n) ℝ) (ERR : ℝ) (junk : Fin n → ℝ) (k : ℕ)
    (x : Fin n → ℝ) : Fin n → ℝ :=
  metricG ERR junk x (fun i => colev (colScaled A (slackScale ERR k (fun _ => 1) x)) i + ((n : ℝ) - m) / k) k

theorem measurable_colev (A : Matrix (Fin m) (Fin n) ℝ) {X : Type} [MeasurableSpace X] {g : X → Fin n → ℝ}
    (hg : ∀ i, Measurable fun x => g x i) (i : Fin n) :
    Measurable fun x => colev (colScaled A (g x)) i := by
  have hM : MeasMat fun x => colScaled A (g x) := fun r j => measurable_const.div (hg j)
  unfold colev
  refine measurable_const.sub ?_
  have h2 : Measurable fun x => (fun r => colScaled A (g x) r i) :=
    measurable_pi_lambda _ fun r => hM r i
  have h3 := (hM.mul hM.transpose).inv.mulVec h2
  simp only [dotProduct]
  exact Finset.measurable_sum _ fun r _ => (hM r i).mul ((measurable_pi_apply r).comp h3)

theorem measurable_dikinG (ERR : ℝ) (junk : Fin n → ℝ) (k : ℕ) (i : Fin n) :
    Measurable fun x => dikinG ERR junk k x i :=
  measurable_metricG ERR junk k (x := fun x => x) (w := fun _ _ => 1) (fun i => measurable_pi_apply i)
    (fun _ => measurable_const) i

theorem measurable_vaidyaG (A : Matrix (Fin m) (Fin n) ℝ) (ERR : ℝ) (junk : Fin n → ℝ) (k : ℕ) (i : Fin n) :
    Measurable fun x => vaidyaG A ERR junk k x i := by
  refine measurable_metricG ERR junk k (x := fun x => x)
    (w := fun x i => colev (colScaled A (slackScale ERR k (fun _ => 1) x)) i + ((n : ℝ) - m) / k)
    (fun i => measurable_pi_apply i) (fun i => ?_) i
  refine (measurable_colev A (fun j => ?_) i).add_const _
  unfold slackScale
  by_cases h : n - k ≤ j.val
  · simp only [h, if_true]; exact measurable_const.div (measurable_pi_apply j)
  · simp only [h, if_false]; exact measurable_const

theorem dikinG_pos {ERR : ℝ} (hR : 0 < ERR) (junk : Fin n → ℝ) {k : ℕ} {x : Fin n → ℝ}
    (hx : x ∈ TailPos n k) (i : Fin n) : 0 < dikinG ERR junk k x i :=
  metricG_pos hR junk hx (fun _ _ => one_pos) i

theorem vaidyaG_pos {A : Matrix (Fin m) (Fin n) ℝ} (hA : IndepRows A) (hmn : m < n) {ERR : ℝ} (hR : 0 < ERR)
    (junk : Fin n → ℝ) {k : ℕ} (hk : 1 ≤ k) {x : Fin n → ℝ}
    (hx : x ∈ TailPos n k) (i : Fin n) : 0 < vaidyaG A ERR junk k x i := by
  refine metricG_pos hR junk hx (fun i _ => ?_) i
  have h1 := colev_nonneg (colScaled_indep hA (slackScale_ne hR.ne' (w := fun _ => 1)
    (fun _ _ => one_ne_zero) hx)) i
  have h2 : (m : ℝ) < n := by exact_mod_cast hmn
  have h3 : (0 : ℝ) < k := by exact_mod_cast hk
  have : 0 < ((n : ℝ) - m) / k := div_pos (by linarith) h3
  linarith

theorem generateG_dikin (R ERR : ℝ) (junk : Fin n → ℝ) (o : BState ℝ) (x : Fin n → ℝ)
    (A : Matrix (Fin m) (Fin n) ℝ) (k : ℕ) :
    generateG (sparseDikinClass R) ERR junk o x A k = .ok (dikinG ERR junk k x, o) := by
  show (Out.ok ((ones n : DVec ℝ), o)).bind _ = _
  rw [Out.ok_bind]
  exact dif_pos (rfl : (ones n : DVec ℝ).n = n)

theorem generateG_vaidya {E : Eigen ℝ} (hE : E.LdltExact) (R : ℝ) {ERR : ℝ} (hR : 0 < ERR) (junk : Fin n → ℝ)
    (o : BState ℝ) {x : Fin n → ℝ} {A : Matrix (Fin m) (Fin n) ℝ} (hA : IndepRows A) {k : ℕ} (hk : 1 ≤ k)
    (hkn : k ≤ n) (hx : x ∈ TailPos n k) :
    generateG (sparseVaidyaClass E ERR R) ERR junk o x A k = .ok (vaidyaG A ERR junk k x, o) := by
  obtain ⟨w, h1, _, h3, _⟩ := C29_vaidya E hE ERR R hR.ne' o junk x A hA k hk hkn hx
  unfold generateG
  rw [h1, Out.ok_bind, dif_pos rfl]
  congr 2
  funext i
  simp only [vaidyaG, metricG]
  by_cases h : isTail k i = true
  · rw [if_pos h, if_pos h]
    have := (h3 i ((isTail_iff i).1 h)).1
    rw [← this]; rfl
  · rw [if_neg h, if_neg h]

/-! ## C36 -/

section
variable (E : Eigen ℝ) (hE : E.Exact) (ERR : ℝ) (hR : 0 < ERR) (r : Rng ℝ) [MeasurableSpace r.G]
  (μ : Measure r.G) (hs : IdealSource r μ) (junk : Fin n → ℝ) (A : Matrix (Fin m) (Fin n) ℝ)
  (hA : IndepRows A) (k : ℕ) (hk : 1 ≤ k) (hkn : k ≤ n) (hmn : m < n) (R : ℝ) (o : BState ℝ) (hD : 0 < o.dist)
  (x₀ : Fin n → ℝ) (hx₀ : x₀ ∈ TailPos n k) (B : Matrix (Fin n) (Fin d) ℝ) (hB : IsKernelBasis A B)
include hE hR hs hA hk hkn hD hx₀ hB

theorem dikin_stepLaw : ∃ f T, StepLaw (uniformOnEq x₀ B k) μ ((stdNormal n).prod unitLaw)
    (fun x g => (x, o, g)) (SparseBarrier.step (sparseDikinClass R) ERR E r junk A k) f T :=
  ⟨_, _, sparseBarrier_stepLaw (sparseDikinClass R) ERR E hE.sparseLLTSolve hE.sparseLLTL hE.sparseLU r μ hs junk A
    hA k hk hkn o hD x₀ hx₀ B hB (dikinG ERR junk k) (measurable_dikinG ERR junk k)
    (fun _ hx i => dikinG_pos hR junk hx i) (fun x _ => generateG_dikin R ERR junk o x A k)⟩

include hmn in
theorem vaidya_stepLaw : ∃ f T, StepLaw (uniformOnEq x₀ B k) μ ((stdNormal n).prod unitLaw)
    (fun x g => (x, o, g)) (SparseBarrier.step (sparseVaidyaClass E ERR R) ERR E r junk A k) f T :=
  ⟨_, _, sparseBarrier_stepLaw (sparseVaidyaClass E ERR R) ERR E hE.sparseLLTSolve hE.sparseLLTL hE.sparseLU r μ hs
    junk A hA k hk hkn o hD x₀ hx₀ B hB (vaidyaG A ERR junk k) (measurable_vaidyaG A ERR junk k)
    (fun _ hx i => vaidyaG_pos hA hmn hR junk hk hx i)
    (fun _ hx => generateG_vaidya hE.ldlt R hR junk o hA hk hkn hx)⟩

/-- **C36** (sparse Dikin walk): one iteration satisfies detailed balance with respect to the uniform
distribution on `{A x = b, last k coordinates ≥ 0}`, `b = A x₀`. -/
theorem C36_dikin_reversible : Reversible (uniformOnEq x₀ B k) μ (fun x g => (x, o, g)) Prod.fst
    (SparseBarrier.step (sparseDikinClass R) ERR E r junk A k) := by
  have := hs.prob
  obtain ⟨f, T, h⟩ := dikin_stepLaw E hE ERR hR r μ hs junk A hA k hk hkn R o hD x₀ hx₀ B hB
  exact h.reversible fun _ _ => rfl

/-- **C36** (sparse Dikin walk): a uniform starting point stays uniform, after any number of iterations. -/
theorem C36_dikin_stationary : Stationary (uniformOnEq x₀ B k) μ (fun x g => (x, o, g)) Prod.fst
    (SparseBarrier.step (sparseDikinClass R) ERR E r junk A k) := by
  have := hs.prob
  have := hs.probN n
  obtain ⟨f, T, h⟩ := dikin_stepLaw E hE ERR hR r μ hs junk A hA k hk hkn R o hD x₀ hx₀ B hB
  exact h.stationary fun _ _ => rfl

include hmn in
/-- **C36** (sparse Vaidya walk): detailed balance. -/
theorem C36_vaidya_reversible : Reversible (uniformOnEq x₀ B k) μ (fun x g => (x, o, g)) Prod.fst
    (SparseBarrier.step (sparseVaidyaClass E ERR R) ERR E r junk A k) := by
  have := hs.prob
  obtain ⟨f, T, h⟩ := vaidya_stepLaw E hE ERR hR r μ hs junk A hA k hk hkn hmn R o hD x₀ hx₀ B hB
  exact h.reversible fun _ _ => rfl

include hmn in
/-- **C36** (sparse Vaidya walk): a uniform starting point stays uniform, after any number of iterations. -/
theorem C36_vaidya_stationary : Stationary (uniformOnEq x₀ B k) μ (fun x g => (x, o, g)) Prod.fst
    (SparseBarrier.step (sparseVaidyaClass E ERR R) ERR E r junk A k) := by
  have := hs.prob
  have := hs.probN n
  obtain ⟨f, T, h⟩ := vaidya_stepLaw E hE ERR hR r μ hs junk A hA k hk hkn hmn R o hD x₀ hx₀ B hB
  exact h.stationary fun _ _ => rfl

end

/-! ## The returned samples -/

theorem withGen_sparseBarrierStep {σ : Type} (cls : SparseBarrierClass ℝ σ) (ERR : ℝ) (E : Eigen ℝ) (e : Env ℝ)
    (g : e.r.G) (junk : Fin n → ℝ) (A : Matrix (Fin m) (Fin n) ℝ) (k : ℕ) :
    SparseBarrier.step cls ERR E (e.withGen g).r junk A k = SparseBarrier.step cls ERR E e.r junk A k := by
  funext s
  let body : (Fin n → ℝ) × e.r.G → Out ((Fin n → ℝ) × σ × e.r.G) := fun d =>
    (if k = 0 ∨ n < k then .throws .badK
      else (generateG cls ERR junk s.2.1 s.1 A k).bind fun Go =>
        (.ok (SparseBarrier.proposal E (cls.distTerm Go.2) Go.1 A s.1 d.1, Go.2, d.2) :
          Out ((Fin n → ℝ) × σ × e.r.G))).bind fun zog =>
    (inPolytopeK zog.1 k).bind fun c =>
    if c then
      (SparseBarrier.generateProposalDensity cls ERR E junk A k zog.2.1 s.1 zog.1).bind fun p =>
      (SparseBarrier.generateProposalDensity cls ERR E junk A k p.2 zog.1 s.1).bind fun q =>
      .ok (if mhAccept q.1 p.1 (e.r.uniform zog.2.2).1 then zog.1 else s.1, q.2, (e.r.uniform zog.2.2).2)
    else .ok (s.1, zog.2.1, zog.2.2)
  exact congrArg body (withGen_gaussian e g s.2.2 n)

theorem sparseBarrier_samples {σ W : Type} [MeasurableSpace W] (cls : SparseBarrierClass ℝ σ) (ERR : ℝ) (E : Eigen ℝ)
    (o o' : σ) (e : Env ℝ) [MeasurableSpace e.r.G] (μ : Measure e.r.G) [IsProbabilityMeasure μ] (a : Args ℝ)
    (hb : a.A.r = a.b.n) (hk : 1 ≤ a.k) (hkn : a.k ≤ a.A.c) (hg : GoodInts a.niter a.burnin a.thin)
    (ho : cls.setDistTerm o ((a.A.c : Int) - a.A.r) a.k = .ok o')
    (π : Measure (Fin a.A.c → ℝ)) [SFinite π] (ν : Measure W) [IsProbabilityMeasure ν]
    (hlaw : ∃ f T, StepLaw π μ ν (fun x g => (x, o', g))
      (SparseBarrier.step cls ERR E e.r (e.junk _) a.A.val a.k.toNat) f T) :
    SamplesHaveLaw (.sparseBarrier cls ERR E o) e μ a π := by
  intro j hj T hT
  obtain ⟨f, T', h⟩ := hlaw
  rw [← h.rows (pos := Prod.fst) (fun _ _ => rfl) a.niter a.burnin a.thin hg j hj T hT]
  congr 1
  ext p
  simp only [mem_ofPred_eq]
  have key : (Walk.sparseBarrier cls ERR E o).run (e.withGen p.2) (a.from p.1) =
      ((runLoop (SparseBarrier.step cls ERR E e.r (e.junk _) a.A.val a.k.toNat) Prod.fst a.niter a.burnin a.thin
        (p.1, o', p.2)).map fun q => (q.1, q.2.2.1)).map Prod.fst := by
    show (SparseBarrier.generateCompleteWalk cls ERR E (e.withGen p.2).r o a.niter ⟨a.A.c, p.1⟩ a.A a.b a.k
      a.burnin a.thin a.seed (e.withGen p.2).rd ((e.withGen p.2).junk _)).map Prod.fst = _
    unfold SparseBarrier.generateCompleteWalk checkKDims checkDims
    rw [if_neg (by omega), dif_pos (show (⟨a.A.c, p.1⟩ : DVec ℝ).n = a.A.c ∧ a.A.r = a.b.n from ⟨rfl, hb⟩),
      withGen_init, ho]
    exact congrArg (fun st => ((runLoop st Prod.fst a.niter a.burnin a.thin (p.1, o', p.2)).map
      fun q : List (Fin a.A.c → ℝ) × (Fin a.A.c → ℝ) × σ × e.r.G => (q.1, q.2.2.1)).map Prod.fst)
      (withGen_sparseBarrierStep cls ERR E e p.2 (e.junk _) a.A.val a.k.toNat)
  rw [key]
  exact rows_map_iff _ _ _ fun _ => rfl

/-- **C36**, for the returned samples of `SparseDikinWalk`: started from a uniform point of
`{A x = b, last k coordinates ≥ 0}`, every returned row is uniformly distributed on it. -/
theorem C36_dikin_samples (E : Eigen ℝ) (hE : E.Exact) (ERR : ℝ) (hR : 0 < ERR) (R : ℝ) (hr : R ≠ 0) (o : BState ℝ)
    (e : Env ℝ) [MeasurableSpace e.r.G] (μ : Measure e.r.G) (hs : IdealSource e.r μ) (a : Args ℝ)
    (hb : a.A.r = a.b.n) (hk : 1 ≤ a.k) (hkn : a.k ≤ a.A.c) (hg : GoodInts a.niter a.burnin a.thin)
    (hA : IndepRows a.A.val) (hmn : a.A.r < a.A.c) (x₀ : Fin a.A.c → ℝ) (hx₀ : x₀ ∈ TailPos _ a.k.toNat)
    (B : Matrix (Fin a.A.c) (Fin d) ℝ) (hB : IsKernelBasis a.A.val B) :
    SamplesHaveLaw (.sparseBarrier (sparseDikinClass R) ERR E o) e μ a (uniformOnEq x₀ B a.k.toNat) := by
  have := hs.prob
  have := hs.probN a.A.c
  have hD : 0 < R * R / (Scalar.ofInt ((a.A.c : Int) - a.A.r) : ℝ) := by
    rw [rsc_ofInt]
    have h1 : (a.A.r : ℝ) < a.A.c := by exact_mod_cast hmn
    push_cast
    exact div_pos (mul_self_pos.2 hr) (by linarith)
  exact sparseBarrier_samples (W := (Fin a.A.c → ℝ) × ℝ) _ ERR E o _ e μ a hb hk hkn hg rfl _ _
    (dikin_stepLaw E hE ERR hR e.r μ hs (e.junk _) a.A.val hA a.k.toNat (by omega) (by omega) R
      { o with dist := R * R / Scalar.ofInt ((a.A.c : Int) - a.A.r) } hD x₀ hx₀ B hB)

/-- **C36**, for the returned samples of `SparseVaidyaWalk`, provided the `int` product `k * (cols - rows)`
does not overflow. -/
theorem C36_vaidya_samples (E : Eigen ℝ) (hE : E.Exact) (ERR : ℝ) (hR : 0 < ERR) (R : ℝ) (hr : R ≠ 0) (o : BState ℝ)
    (e : Env ℝ) [MeasurableSpace e.r.G] (μ : Measure e.r.G) (hs : IdealSource e.r μ) (a : Args ℝ)
    (hb : a.A.r = a.b.n) (hk : 1 ≤ a.k) (hkn : a.k ≤ a.A.c) (hg : GoodInts a.niter a.burnin a.thin)
    (hov : a.k * ((a.A.c : Int) - a.A.r) ≤ 2 ^ 31 - 1)
    (hA : IndepRows a.A.val) (hmn : a.A.r < a.A.c) (x₀ : Fin a.A.c → ℝ) (hx₀ : x₀ ∈ TailPos _ a.k.toNat)
    (B : Matrix (Fin a.A.c) (Fin d) ℝ) (hB : IsKernelBasis a.A.val B) :
    SamplesHaveLaw (.sparseBarrier (sparseVaidyaClass E ERR R) ERR E o) e μ a (uniformOnEq x₀ B a.k.toNat) := by
  have := hs.prob
  have := hs.probN a.A.c
  have hpos : 0 < a.k * ((a.A.c : Int) - a.A.r) := mul_pos (by omega) (by omega)
  have hD : 0 < R * R / Scalar.sqrt (Scalar.ofInt (a.k * ((a.A.c : Int) - a.A.r)) : ℝ) := by
    rw [rsc_ofInt, rsc_sqrt]
    have h1 : (0 : ℝ) < ((a.k * ((a.A.c : Int) - a.A.r) : Int) : ℝ) := by exact_mod_cast hpos
    exact div_pos (mul_self_pos.2 hr) (Real.sqrt_pos.2 h1)
  refine sparseBarrier_samples (W := (Fin a.A.c → ℝ) × ℝ) _ ERR E o
    { o with dist := R * R / Scalar.sqrt (Scalar.ofInt (a.k * ((a.A.c : Int) - a.A.r)) : ℝ) } e μ a hb hk hkn hg
    ?_ _ _
    (vaidya_stepLaw E hE ERR hR e.r μ hs (e.junk _) a.A.val hA a.k.toNat (by omega) (by omega) hmn R
      _ hD x₀ hx₀ B hB)
  show (toInt (a.k * ((a.A.c : Int) - a.A.r))).bind _ = _
  have : toInt (a.k * ((a.A.c : Int) - a.A.r)) = .ok (a.k * ((a.A.c : Int) - a.A.r)) := by
    unfold toInt
    rw [if_pos (by unfold IsInt intMin intMax; constructor <;> omega)]
  rw [this, Out.ok_bind]

/-! ## The proposal density -/

/-- **C36** (proposal): for every positive diagonal metric `G`, the proposal at `x` is distributed on the affine space
`x + ker A` with a density whose logarithm is, up to a constant `log c` that depends neither on the point, nor on the
metric, nor on the proposal, the number `generateProposalDensity` computes. -/
theorem C36_proposal_density (E : Eigen ℝ) (hE : E.Exact) (A : Matrix (Fin m) (Fin n) ℝ) (hA : IndepRows A)
    (B : Matrix (Fin n) (Fin d) ℝ) (hB : IsKernelBasis A B) (D : ℝ) (hD : 0 < D) :
    ∃ c : ℝ, 0 < c ∧ ∀ G : Fin n → ℝ, (∀ i, 0 < G i) → ∀ x : Fin n → ℝ,
      (stdNormal n).map (SparseBarrier.proposal E D G A x) =
        (volume.withDensity fun v : Fin d → ℝ =>
          ENNReal.ofReal (c * Real.exp (SparseBarrier.logDensity E D G A x (chart x B v)))).map (chart x B) := by
  obtain ⟨c, hc, hdens⟩ := gaussDensity_kernel hA hB hD
  refine ⟨c, hc, fun G hG x => ?_⟩
  have hpc := prec_mul_cov hA hB hG
  have h1 := stdNormal_map (Real.sqrt D • (coordMat B * dirMat A G)) ((1 / D) • (Bᵀ * diagonal G * B)) (by
    rw [Matrix.transpose_smul, Matrix.smul_mul, Matrix.mul_smul, Matrix.smul_mul, Matrix.mul_smul,
      Matrix.mul_smul, hpc, smul_smul, smul_smul]
    have : 1 / D * (Real.sqrt D * Real.sqrt D) = 1 := by
      rw [Real.mul_self_sqrt hD.le]; field_simp
    rw [mul_assoc] at *
    rw [this, one_smul]) 0
  have hm : Measurable fun v : Fin n → ℝ => (0 : Fin d → ℝ) + (Real.sqrt D • (coordMat B * dirMat A G)) *ᵥ v :=
    Continuous.measurable (continuous_const.add (Continuous.matrix_mulVec continuous_const continuous_id))
  have hk := coordMat_mul_ker hB (dirMat_ker hA hG)
  have e1 : SparseBarrier.proposal E D G A x =
      chart x B ∘ fun v => (0 : Fin d → ℝ) + (Real.sqrt D • (coordMat B * dirMat A G)) *ᵥ v := by
    funext v
    rw [sparse_proposal_real hE.sparseLLTSolve hA hG, Function.comp_apply, chart, zero_add, Matrix.smul_mulVec,
      Matrix.mulVec_smul, Matrix.mulVec_mulVec, hk]
  rw [e1, ← Measure.map_map (measurable_chart x B) hm, h1, gaussLaw]
  congr 2
  funext v
  have hx0 : chart x B (0 : Fin d → ℝ) = x := by simp [chart]
  have hAv : A *ᵥ x = A *ᵥ chart x B v := by
    rw [chart, Matrix.mulVec_add, Matrix.mulVec_mulVec, hB.mul_zero, Matrix.zero_mulVec, add_zero]
  rw [hdens G hG x 0 v, hx0, sparse_logDensity_real hE.sparseLLTL hA hG hE.sparseLU D x _ hAv]

/-! ## The target does not depend on the chart -/

/-- Two charts of the same affine space give the same measure up to a positive constant factor. -/
theorem uniformOnEq_chart {A : Matrix (Fin m) (Fin n) ℝ} {B B' : Matrix (Fin n) (Fin d) ℝ}
    (hB : IsKernelBasis A B) (hB' : IsKernelBasis A B') {x₀ x₁ : Fin n → ℝ} (hx : A *ᵥ x₁ = A *ᵥ x₀) (k : ℕ) :
    ∃ c : ℝ≥0∞, c ≠ 0 ∧ c ≠ ⊤ ∧ uniformOnEq x₁ B' k = c • uniformOnEq x₀ B k := by
  obtain ⟨s, hs⟩ := hB.span (x₁ - x₀) (by rw [Matrix.mulVec_sub, hx, sub_self])
  let S := coordMat B * B'
  have hBS : B * S = B' := coordMat_mul_ker hB hB'.mul_zero
  have hBS' : B' * (coordMat B' * B) = B := coordMat_mul_ker hB' hB.mul_zero
  have hdet : S.det ≠ 0 := by
    have h1 : (coordMat B' * B) * S = 1 := by
      rw [Matrix.mul_assoc, hBS, coordMat_mul hB'.inj]
    have := congrArg Matrix.det h1
    rw [Matrix.det_mul, Matrix.det_one] at this
    exact right_ne_zero_of_mul_eq_one this
  have hch : ∀ u, chart x₁ B' u = chart x₀ B (s + S *ᵥ u) := by
    intro u
    unfold chart
    rw [Matrix.mulVec_add, Matrix.mulVec_mulVec, hBS, hs]
    abel
  have mS : Measurable fun v : Fin d → ℝ => s + S *ᵥ v :=
    Continuous.measurable (continuous_const.add (Continuous.matrix_mulVec continuous_const continuous_id))
  have hvol : (volume : Measure (Fin d → ℝ)).map (fun v => s + S *ᵥ v) =
      ENNReal.ofReal |S.det|⁻¹ • volume := by
    have := map_withDensity_linear S hdet s 1 measurable_one
    rw [withDensity_one] at this
    rw [this]
    simp only [Pi.one_apply, mul_one]
    exact withDensity_const _
  have hK : MeasurableSet {u : Fin d → ℝ | chart x₀ B u ∈ TailNonneg n k} :=
    measurable_chart x₀ B (measurableSet_tailNonneg n k)
  refine ⟨ENNReal.ofReal |S.det|⁻¹, by simpa using hdet, ENNReal.ofReal_ne_top, ?_⟩
  unfold uniformOnEq
  have e1 : chart x₁ B' = chart x₀ B ∘ fun v => s + S *ᵥ v := funext hch
  rw [e1, ← Measure.map_map (measurable_chart x₀ B) mS]
  have e2 : {u : Fin d → ℝ | (chart x₀ B ∘ fun v => s + S *ᵥ v) u ∈ TailNonneg n k} =
      (fun v => s + S *ᵥ v) ⁻¹' {u | chart x₀ B u ∈ TailNonneg n k} := rfl
  rw [e2, ← Measure.restrict_map mS hK, hvol, Measure.restrict_smul, Measure.map_smul]

/-- The target is concentrated on the polytope `{A x = b, last k coordinates ≥ 0}`. -/
theorem uniformOnEq_support {A : Matrix (Fin m) (Fin n) ℝ} {B : Matrix (Fin n) (Fin d) ℝ}
    (hB : IsKernelBasis A B) (x₀ : Fin n → ℝ) (k : ℕ) :
    uniformOnEq x₀ B k (PolyEq A (A *ᵥ x₀) k)ᶜ = 0 := by
  have hm : MeasurableSet (PolyEq A (A *ᵥ x₀) k) :=
    (measurableSet_eqs A _).inter (measurableSet_tailNonneg n k)
  have hK := measurable_chart x₀ B (measurableSet_tailNonneg n k)
  unfold uniformOnEq
  rw [Measure.map_apply (measurable_chart x₀ B) hm.compl,
    Measure.restrict_apply (measurable_chart x₀ B hm.compl)]
  have : chart x₀ B ⁻¹' (PolyEq A (A *ᵥ x₀) k)ᶜ ∩ {u | chart x₀ B u ∈ TailNonneg n k} = ∅ := by
    ext u
    simp only [mem_inter_iff, mem_preimage, mem_compl_iff, mem_ofPred_eq, mem_empty_iff_false, iff_false, not_and]
    intro h h'
    refine h ⟨?_, h'⟩
    rw [chart, Matrix.mulVec_add, Matrix.mulVec_mulVec, hB.mul_zero, Matrix.zero_mulVec, add_zero]
  rw [this, measure_empty]

/-! ## The hypotheses are met: the segment `{x ≥ 0 | x1 + x2 = 1}` with ideal draws -/

section Examples

/-- The direction `(1, -1)` of the segment. -/
def segDir : Matrix (Fin 2) (Fin 1) ℝ := fun i _ => if i = 0 then 1 else -1

theorem segDir_basis : IsKernelBasis rowOnes segDir where
  mul_zero := by
    ext i j
    simp [Matrix.mul_apply, rowOnes, segDir, Fin.sum_univ_two]
  inj u hu := by
    have h := congrFun hu 0
    simp [Matrix.mulVec, dotProduct, segDir] at h
    funext i
    rw [Subsingleton.elim i 0, h]; rfl
  span v hv := by
    have h := congrFun hv 0
    simp [Matrix.mulVec, dotProduct, rowOnes, Fin.sum_univ_two] at h
    refine ⟨fun _ => v 0, funext fun i => ?_⟩
    fin_cases i
    · simp [Matrix.mulVec, dotProduct, segDir]
    · simp [Matrix.mulVec, dotProduct, segDir]; linarith

example : Reversible (uniformOnEq midpoint2 segDir 2) streamLaw (fun x g => (x, (⟨1, ones 0⟩ : BState ℝ), g)) Prod.fst
    (SparseBarrier.step (sparseDikinClass 1) 1 exactEigen streamRng (fun _ => 0) rowOnes 2) :=
  C36_dikin_reversible exactEigen exactEigen_exact 1 one_pos streamRng streamLaw streamRng_ideal _ rowOnes rowOnes_indep 2
    (by norm_num) le_rfl 1 ⟨1, ones 0⟩ one_pos midpoint2 midpoint2_pos segDir segDir_basis

/-- The environment of ideal draws. -/
noncomputable def idealEnv : Env ℝ := ⟨streamRng, 0, fun _ _ => 0, 0⟩

instance : MeasurableSpace idealEnv.r.G := inferInstanceAs (MeasurableSpace streamRng.G)

/-- A call on the segment. -/
noncomputable def segArgs : Args ℝ :=
  { niter := 100, init := ⟨2, midpoint2⟩, A := ⟨1, 2, rowOnes⟩, b := ⟨1, fun _ => 1⟩, k := 2, burnin := 10,
    thin := 3, seed := 7 }

theorem segArgs_good : GoodInts segArgs.niter segArgs.burnin segArgs.thin := by
  constructor <;> norm_num [segArgs, IsInt, intMin, intMax]

example : SamplesHaveLaw (.sparseBarrier (sparseDikinClass 1) 1 exactEigen (BState.fresh 0)) idealEnv streamLaw segArgs
    (uniformOnEq midpoint2 segDir 2) :=
  C36_dikin_samples exactEigen exactEigen_exact 1 one_pos 1 one_ne_zero (BState.fresh 0) idealEnv streamLaw
    streamRng_ideal segArgs rfl (by norm_num [segArgs]) (by norm_num [segArgs])
    segArgs_good rowOnes_indep (by norm_num [segArgs]) midpoint2
    midpoint2_pos segDir segDir_basis

example : SamplesHaveLaw (.sparseBarrier (sparseVaidyaClass exactEigen 1 1) 1 exactEigen (BState.fresh 0)) idealEnv
    streamLaw segArgs (uniformOnEq midpoint2 segDir 2) :=
  C36_vaidya_samples exactEigen exactEigen_exact 1 one_pos 1 one_ne_zero (BState.fresh 0) idealEnv streamLaw
    streamRng_ideal segArgs rfl (by norm_num [segArgs]) (by norm_num [segArgs])
    segArgs_good (by norm_num [segArgs]) rowOnes_indep
    (by norm_num [segArgs]) midpoint2 midpoint2_pos segDir segDir_basis

end Examples

end PW
