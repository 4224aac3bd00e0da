import Verif.Props.SparseBarrierLaw

/-!
# C53: the sparse ball walk leaves the uniform distribution invariant
-/

namespace PW
open Matrix MeasureTheory Set
open scoped ENNReal
variable {m n d : ℕ}

/-- The displacement of the sparse ball walk: radius `R / sqrt(n - m)` along the projected direction. -/
noncomputable def sparseBallShift (R : ℝ) (A : Matrix (Fin m) (Fin n) ℝ) (v : Fin n → ℝ) : Fin n → ℝ :=
  (R / Real.sqrt ((n : ℝ) - m)) • normalize ((1 - Aᵀ * (A * Aᵀ)⁻¹ * A) *ᵥ v)

theorem kernelProject_real {E : Eigen ℝ} (hE : E.SparseLUExact) {A : Matrix (Fin m) (Fin n) ℝ}
    (hA : IndepRows A) (v : Fin n → ℝ) : kernelProject E A v = (1 - Aᵀ * (A * Aᵀ)⁻¹ * A) *ᵥ v := by
  have hu := PosDef.isUnit_det hA.posDef
  have h1 : kernelProject E A v = v - Aᵀ *ᵥ E.sparseLUSolve (A * Aᵀ) (A *ᵥ v) := by
    funext i; simp [kernelProject, mulVec_real, mulMat_real, transp_eq]
  have hsol : E.sparseLUSolve (A * Aᵀ) (A *ᵥ v) = (A * Aᵀ)⁻¹ *ᵥ (A *ᵥ v) := by
    have := congrArg ((A * Aᵀ)⁻¹ *ᵥ ·) (hE (A * Aᵀ) (A *ᵥ v) hu)
    simpa [Matrix.nonsing_inv_mul _ hu] using this
  rw [h1, hsol, Matrix.sub_mulVec, Matrix.one_mulVec, Matrix.mulVec_mulVec, Matrix.mulVec_mulVec]

theorem measurable_normalize : Measurable (normalize (F := ℝ) (n := n)) :=
  measurable_pi_lambda _ fun i => (measurable_pi_apply i).div measurable_norm2

theorem normalize_neg (v : Fin n → ℝ) : normalize (-v) = -normalize v := by
  funext i
  have : norm2 (-v) = norm2 v := by
    rw [norm2_real, norm2_real]; congr 1; refine Finset.sum_congr rfl fun i _ => ?_
    simp
  simp only [normalize, this, Pi.neg_apply, neg_div]

theorem measurable_sparseBallShift (R : ℝ) (A : Matrix (Fin m) (Fin n) ℝ) : Measurable (sparseBallShift R A) := by
  have h : Measurable fun v : Fin n → ℝ => normalize ((1 - Aᵀ * (A * Aᵀ)⁻¹ * A) *ᵥ v) :=
    measurable_normalize.comp
      (Continuous.measurable (Continuous.matrix_mulVec continuous_const continuous_id))
  exact h.const_smul (R / Real.sqrt ((n : ℝ) - m))

theorem sparseBallShift_neg (R : ℝ) (A : Matrix (Fin m) (Fin n) ℝ) (v : Fin n → ℝ) :
    sparseBallShift R A (-v) = -sparseBallShift R A v := by
  unfold sparseBallShift
  rw [Matrix.mulVec_neg, normalize_neg, smul_neg]

theorem sparseBallShift_ker (R : ℝ) {A : Matrix (Fin m) (Fin n) ℝ} (hA : IndepRows A) (v : Fin n → ℝ) :
    A *ᵥ sparseBallShift R A v = 0 := by
  have h : A *ᵥ ((1 - Aᵀ * (A * Aᵀ)⁻¹ * A) *ᵥ v) = 0 := by
    rw [Matrix.mulVec_mulVec, projKer_ker (PosDef.isUnit_det hA.posDef), Matrix.zero_mulVec]
  unfold sparseBallShift
  rw [Matrix.mulVec_smul, normalize_ker h, smul_zero]

theorem sparseBall_step_eq (R : ℝ) {E : Eigen ℝ} (hE : E.SparseLUExact) (r : Rng ℝ) {A : Matrix (Fin m) (Fin n) ℝ}
    (hA : IndepRows A) {k : ℕ} (hk : 1 ≤ k) (hkn : k ≤ n) (x : Fin n → ℝ) (g : r.G)
    [DecidablePred (· ∈ TailNonneg n k)] :
    SparseBallWalk.step R E r A k (x, g) =
      .ok (if x + sparseBallShift R A (r.gaussian n g).1 ∈ TailNonneg n k
        then x + sparseBallShift R A (r.gaussian n g).1 else x, (r.gaussian n g).2) := by
  have e : (fun i => R / Scalar.sqrt (Scalar.ofInt ((n : Int) - m) : ℝ) *
      normalize (kernelProject E A (r.gaussian n g).1) i + x i) =
      x + sparseBallShift R A (r.gaussian n g).1 := by
    funext i
    rw [Pi.add_apply, add_comm, kernelProject_real hE hA]
    simp [sparseBallShift]
  unfold SparseBallWalk.step
  simp only [e]
  rw [inPolytopeK_real _ _ hk hkn, Out.ok_bind]
  by_cases h : x + sparseBallShift R A (r.gaussian n g).1 ∈ TailNonneg n k
  · rw [if_pos h]
    rw [if_pos (decide_eq_true (show ∀ i : Fin n, n - k ≤ i.val → _ from h))]
  · rw [if_neg h, if_neg (by rw [decide_eq_true_iff]; exact h)]

open Classical in
theorem sparseBall_stepLaw (R : ℝ) (E : Eigen ℝ) (hE : E.SparseLUExact) (r : Rng ℝ) [MeasurableSpace r.G]
    (μ : Measure r.G) (N : (d : ℕ) → Measure (Fin d → ℝ)) (hs : Source r μ N) (hN : SymmetricLaw (N n))
    (A : Matrix (Fin m) (Fin n) ℝ) (hA : IndepRows A) (k : ℕ) (hk : 1 ≤ k) (hkn : k ≤ n)
    (x₀ : Fin n → ℝ) (B : Matrix (Fin n) (Fin d) ℝ) (hB : IsKernelBasis A B) :
    StepLaw (uniformOnEq x₀ B k) μ (N n) Prod.mk (SparseBallWalk.step R E r A k)
      (fun x g => (if x + sparseBallShift R A (r.gaussian n g).1 ∈ TailNonneg n k
        then x + sparseBallShift R A (r.gaussian n g).1 else x, (r.gaussian n g).2))
      (fun x v => if x + sparseBallShift R A v ∈ TailNonneg n k then x + sparseBallShift R A v else x) := by
  have hK := measurableSet_tailNonneg n k
  have hprob := hs.probN n
  have hmu := hs.prob
  have mT : Measurable fun p : (Fin n → ℝ) × (Fin n → ℝ) =>
      if p.1 + sparseBallShift R A p.2 ∈ TailNonneg n k then p.1 + sparseBallShift R A p.2 else p.1 := by
    have h1 : Measurable fun p : (Fin n → ℝ) × (Fin n → ℝ) => p.1 + sparseBallShift R A p.2 :=
      measurable_fst.add ((measurable_sparseBallShift R A).comp measurable_snd)
    exact Measurable.ite (h1 hK) h1 measurable_fst
  have mg := (hs.gaussian n).measurable
  refine ⟨⟨?_, mT, Filter.Eventually.of_forall fun p => sparseBall_step_eq R hE r hA hk hkn p.1 p.2, ?_⟩, ?_⟩
  · refine Measurable.prodMk ?_ (mg.snd.comp measurable_snd)
    have : Measurable fun p : (Fin n → ℝ) × r.G => (p.1, (r.gaussian n p.2).1) :=
      measurable_fst.prodMk (mg.fst.comp measurable_snd)
    exact mT.comp this
  · intro F hF x
    have hm2 : Measurable fun q : (Fin n → ℝ) × r.G =>
        F (if x + sparseBallShift R A q.1 ∈ TailNonneg n k then x + sparseBallShift R A q.1 else x, q.2) := by
      have h1 : Measurable fun q : (Fin n → ℝ) × r.G => (x, q.1) := measurable_const.prodMk measurable_fst
      exact hF.comp ((mT.comp h1).prodMk measurable_snd)
    rw [← lintegral_prod _ hm2.aemeasurable, ← (hs.gaussian n).lintegral_comp hm2]
  · intro F hF
    let c : (Fin n → ℝ) → Fin d → ℝ := fun v => coordMat B *ᵥ sparseBallShift R A v
    have hc : Measurable c :=
      (Continuous.measurable (Continuous.matrix_mulVec continuous_const continuous_id)).comp
        (measurable_sparseBallShift R A)
    have hcn : ∀ v, c (-v) = -c v := fun v => by
      show coordMat B *ᵥ sparseBallShift R A (-v) = _
      rw [sparseBallShift_neg, Matrix.mulVec_neg]
    have hch : ∀ u v, chart x₀ B (u + c v) = chart x₀ B u + sparseBallShift R A v := by
      intro u v
      show x₀ + B *ᵥ (u + c v) = x₀ + B *ᵥ u + _
      rw [Matrix.mulVec_add, ← add_assoc, coordMat_mulVec hB (sparseBallShift_ker R hA v)]
    have mch := measurable_chart x₀ B
    have hKu : MeasurableSet {u : Fin d → ℝ | chart x₀ B u ∈ TailNonneg n k} := mch hK
    have hF2 : Measurable fun p : (Fin d → ℝ) × (Fin d → ℝ) => F (chart x₀ B p.1, chart x₀ B p.2) :=
      hF.comp ((mch.comp measurable_fst).prodMk (mch.comp measurable_snd))
    have key := translate_balance hKu c hc (symm_map hN c hc hcn) _ hF2
    have m1 : Measurable fun x => ∫⁻ w, F (x, if x + sparseBallShift R A w ∈ TailNonneg n k
        then x + sparseBallShift R A w else x) ∂(N n) :=
      Measurable.lintegral_prod_right' (hF.comp (measurable_fst.prodMk mT))
    have m2 : Measurable fun x => ∫⁻ w, F (if x + sparseBallShift R A w ∈ TailNonneg n k
        then x + sparseBallShift R A w else x, x) ∂(N n) :=
      Measurable.lintegral_prod_right' (hF.comp (mT.prodMk measurable_fst))
    unfold uniformOnEq
    rw [lintegral_map m1 mch, lintegral_map m2 mch]
    simp only [mem_ofPred_eq, apply_ite (chart x₀ B), hch] at key
    exact key

/-- **C53**: one iteration of the sparse ball walk satisfies detailed balance with respect to the uniform
distribution on `{A x = b, last k coordinates ≥ 0}`, for every law of the random vector that is symmetric under
negation. -/
theorem C53_reversible (R : ℝ) (E : Eigen ℝ) (hE : E.SparseLUExact) (r : Rng ℝ) [MeasurableSpace r.G]
    (μ : Measure r.G) (N : (d : ℕ) → Measure (Fin d → ℝ)) (hs : Source r μ N) (hN : SymmetricLaw (N n))
    (A : Matrix (Fin m) (Fin n) ℝ) (hA : IndepRows A) (k : ℕ) (hk : 1 ≤ k) (hkn : k ≤ n)
    (x₀ : Fin n → ℝ) (B : Matrix (Fin n) (Fin d) ℝ) (hB : IsKernelBasis A B) :
    Reversible (uniformOnEq x₀ B k) μ Prod.mk Prod.fst (SparseBallWalk.step R E r A k) := by
  have := hs.prob
  exact (sparseBall_stepLaw R E hE r μ N hs hN A hA k hk hkn x₀ B hB).reversible fun _ _ => rfl

/-- **C53**: a uniform starting point stays uniform. -/
theorem C53_stationary (R : ℝ) (E : Eigen ℝ) (hE : E.SparseLUExact) (r : Rng ℝ) [MeasurableSpace r.G]
    (μ : Measure r.G) (N : (d : ℕ) → Measure (Fin d → ℝ)) (hs : Source r μ N) (hN : SymmetricLaw (N n))
    (A : Matrix (Fin m) (Fin n) ℝ) (hA : IndepRows A) (k : ℕ) (hk : 1 ≤ k) (hkn : k ≤ n)
    (x₀ : Fin n → ℝ) (B : Matrix (Fin n) (Fin d) ℝ) (hB : IsKernelBasis A B) :
    Stationary (uniformOnEq x₀ B k) μ Prod.mk Prod.fst (SparseBallWalk.step R E r A k) := by
  have := hs.prob
  have := hs.probN n
  exact (sparseBall_stepLaw R E hE r μ N hs hN A hA k hk hkn x₀ B hB).stationary fun _ _ => rfl

theorem withGen_sparseBallStep (R : ℝ) (E : Eigen ℝ) (e : Env ℝ) (g : e.r.G) (A : Matrix (Fin m) (Fin n) ℝ) (k : ℕ) :
    SparseBallWalk.step R E (e.withGen g).r A k = SparseBallWalk.step R E e.r A k := by
  funext s
  let body : (Fin n → ℝ) × e.r.G → Out ((Fin n → ℝ) × e.r.G) := fun d =>
    let z' : Fin n → ℝ := fun i => R / Scalar.sqrt (Scalar.ofInt ((n : Int) - m) : ℝ) *
      normalize (kernelProject E A d.1) i + s.1 i
    (inPolytopeK z' k).bind fun c => if c then .ok (z', d.2) else .ok (s.1, d.2)
  exact congrArg body (withGen_gaussian e g s.2 n)

/-- **C53**, for the returned samples of `SparseBallWalk::generateCompleteWalk`. -/
theorem C53_samples (R : ℝ) (E : Eigen ℝ) (hE : E.SparseLUExact)
    (e : Env ℝ) [MeasurableSpace e.r.G] (μ : Measure e.r.G) (N : (d : ℕ) → Measure (Fin d → ℝ))
    (hs : Source e.r μ N) (a : Args ℝ) (hN : SymmetricLaw (N a.A.c))
    (hb : a.A.r = a.b.n) (hk : 1 ≤ a.k) (hkn : a.k ≤ a.A.c) (hg : GoodInts a.niter a.burnin a.thin)
    (hA : IndepRows a.A.val) (x₀ : Fin a.A.c → ℝ)
    (B : Matrix (Fin a.A.c) (Fin d) ℝ) (hB : IsKernelBasis a.A.val B) :
    SamplesHaveLaw (.sparseBall R E) e μ a (uniformOnEq x₀ B a.k.toNat) := by
  intro j hj T hT
  have := hs.prob
  have := hs.probN a.A.c
  rw [← (sparseBall_stepLaw R E hE e.r μ N hs hN a.A.val hA a.k.toNat (by omega) (by omega) x₀ B hB).rows
    (pos := Prod.fst) (fun _ _ => rfl) a.niter a.burnin a.thin hg j hj T hT]
  congr 1
  ext p
  simp only [mem_ofPred_eq]
  have key : (Walk.sparseBall R E).run (e.withGen p.2) (a.from p.1) =
      ((runLoop (SparseBallWalk.step R E e.r a.A.val a.k.toNat) Prod.fst a.niter a.burnin a.thin
        (p.1, p.2)).map Prod.fst).map id := by
    show SparseBallWalk.generateCompleteWalk R E (e.withGen p.2).r a.niter ⟨a.A.c, p.1⟩ a.A a.b a.k
      a.burnin a.thin a.seed (e.withGen p.2).rd = _
    unfold SparseBallWalk.generateCompleteWalk checkKDims checkDims
    rw [if_neg (by omega), dif_pos (show (⟨a.A.c, p.1⟩ : DVec ℝ).n = a.A.c ∧ a.A.r = a.b.n from ⟨rfl, hb⟩),
      withGen_init, out_map_id]
    exact congrArg (fun st => (runLoop st Prod.fst a.niter a.burnin a.thin (p.1, p.2)).map Prod.fst)
      (withGen_sparseBallStep R E e p.2 a.A.val a.k.toNat)
  rw [key]
  exact rows_map_iff _ _ _ fun _ => rfl

/-- The hypotheses are met by a call on the segment with ideal draws. -/
example : SamplesHaveLaw (.sparseBall (1 / 3) exactEigen) idealEnv streamLaw segArgs
    (uniformOnEq midpoint2 segDir 2) :=
  C53_samples (1 / 3) exactEigen exactEigen_exact.sparseLU idealEnv streamLaw stdNormal streamRng_ideal segArgs
    (stdNormal_symmetric 2) rfl (by norm_num [segArgs]) (by norm_num [segArgs]) segArgs_good rowOnes_indep midpoint2
    segDir segDir_basis

end PW
