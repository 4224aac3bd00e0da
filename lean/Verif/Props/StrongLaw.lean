import Verif.Lemmas.StrongRows
import Verif.Props.Joint

/-!
# C97: averages over one run converge to the mean over the polytope, with probability one

The theorems on averages (C65, C66, C75, C76, C80) bound the probability that the average over a given number of rows is off. Here the run is fixed and
continued: with probability one its averages converge.
-/

namespace PW
open Matrix MeasureTheory Set Filter Topology
open scoped ENNReal
variable {m n d : ℕ}

/-! ## Sparse barrier walks -/

section
variable (E : Eigen ℝ) (hE : E.Exact) (ERR : ℝ) (hR : 0 < ERR) (R : ℝ) (hr : R ≠ 0) {A : Matrix (Fin m) (Fin n) ℝ} (hA : IndepRows A)
  (hmn : m < n) (k : Int) (hk : 1 ≤ k ∧ k ≤ n) (b : Fin m → ℝ) (hb : ∃ M, ∀ y ∈ PolyEq A b k.toNat, ∀ i, |y i| ≤ M) (x₀ : Fin n → ℝ)
  (hx₀A : A *ᵥ x₀ = b) (hx₀ : x₀ ∈ TailPos n k.toNat) (B : Matrix (Fin n) (Fin d) ℝ) (hB : IsKernelBasis A B)
  (x : Fin n → ℝ) (hxA : A *ᵥ x = b) (hx : x ∈ TailPos n k.toNat)
  (φ : (Fin n → ℝ) → ℝ) (hφ : Measurable φ) (M : ℝ) (hM : 0 < M) (hφM : ∀ y ∈ PolyEq A b k.toNat, |φ y| ≤ M)
include hE hR hr hA hmn hk hb hx₀A hx₀ hB hxA hx hφ hM hφM

/-- **C97** (`SparseDikinWalk`): with probability one the mean of a bounded measurable `φ` over the rows of a run converges to the mean of `φ` over the
polytope, whatever the burn-in and the thinning. -/
theorem C97_sparse_dikin (o : BState ℝ) (e : Env ℝ) [MeasurableSpace e.r.G] (μ : Measure e.r.G) (hs : IdealSource e.r μ) (seed : Int) :
    MeanConverges (.sparseBarrier (sparseDikinClass R) ERR E o) e μ A b x k seed φ (average (uniformOnEq x₀ B k.toNat) φ) := by
  obtain ⟨D, c, h, hxV, hfol⟩ := dikin_mh E hE ERR hR R hr hA hmn k hk b hb x₀ hx₀A hx₀ B hB x hxA hx
  exact h.strong hxV hφ hM (fun y hy => hφM y ⟨hy.2.trans hx₀A, tailPos_subset _ _ hy.1⟩) _ e μ hs A b k seed (fun _ => hk)
    (fun niter burnin thin => hfol o e μ hs niter burnin thin seed)

/-- **C97** (`SparseVaidyaWalk`): the same, when the `int` product `k * (cols - rows)` does not overflow. -/
theorem C97_sparse_vaidya (hov : k * ((n : Int) - m) ≤ 2 ^ 31 - 1) (o : BState ℝ) (e : Env ℝ) [MeasurableSpace e.r.G] (μ : Measure e.r.G)
    (hs : IdealSource e.r μ) (seed : Int) :
    MeanConverges (.sparseBarrier (sparseVaidyaClass E ERR R) ERR E o) e μ A b x k seed φ (average (uniformOnEq x₀ B k.toNat) φ) := by
  obtain ⟨D, c, h, hxV, hfol⟩ := vaidya_mh E hE ERR hR R hr hA hmn k hk b hb x₀ hx₀A hx₀ B hB x hxA hx hov
  exact h.strong hxV hφ hM (fun y hy => hφM y ⟨hy.2.trans hx₀A, tailPos_subset _ _ hy.1⟩) _ e μ hs A b k seed (fun _ => hk)
    (fun niter burnin thin => hfol o e μ hs niter burnin thin seed)

end

section
variable {σ : Type} (cls : SparseBarrierClass ℝ σ) (E : Eigen ℝ) (hE : E.Exact) (ERR : ℝ) (hR : 0 < ERR) {A : Matrix (Fin m) (Fin n) ℝ}
  (hA : IndepRows A) (k : Int) (hk : 1 ≤ k ∧ k ≤ n) {D : ℝ} (hD : 0 < D) {wf : (Fin n → ℝ) → Fin n → ℝ} (hwm : Measurable wf)
  (hwp : ∀ x ∈ TailPos n k.toNat, ∀ i : Fin n, n - k.toNat ≤ i.val → 0 < wf x i)
  (b : Fin m → ℝ) (hb : ∃ M, ∀ y ∈ PolyEq A b k.toNat, ∀ i, |y i| ≤ M) (x₀ : Fin n → ℝ)
  (hx₀A : A *ᵥ x₀ = b) (hx₀ : x₀ ∈ TailPos n k.toNat) (B : Matrix (Fin n) (Fin d) ℝ) (hB : IsKernelBasis A B)
  (x : Fin n → ℝ) (hxA : A *ᵥ x = b) (hx : x ∈ TailPos n k.toNat)
  (φ : (Fin n → ℝ) → ℝ) (hφ : Measurable φ) (M : ℝ) (hM : 0 < M) (hφM : ∀ y ∈ PolyEq A b k.toNat, |φ y| ≤ M)
include hE hR hA hk hD hwm hwp hb hx₀A hx₀ hB hxA hx hφ hM hφM

/-- **C97** (any subclass of `SparseBarrierWalk` whose weights are a positive function of the point). -/
theorem C97_sparse_user (o : σ) (ho : WeightsAre cls o A k D wf) (e : Env ℝ) [MeasurableSpace e.r.G] (μ : Measure e.r.G) (hs : IdealSource e.r μ)
    (seed : Int) : MeanConverges (.sparseBarrier cls ERR E o) e μ A b x k seed φ (average (uniformOnEq x₀ B k.toNat) φ) := by
  obtain ⟨Gf, c, h, hxV, hfol⟩ := user_mh cls E hE ERR hR hA k hk hD hwm hwp b hb x₀ hx₀A hx₀ B hB x hxA hx
  exact h.strong hxV hφ hM (fun y hy => hφM y ⟨hy.2.trans hx₀A, tailPos_subset _ _ hy.1⟩) _ e μ hs A b k seed (fun _ => hk)
    (fun niter burnin thin => hfol o ho e μ hs niter burnin thin seed)

end

/-! ## Dense barrier walks on boxes -/

section
variable (E : Eigen ℝ) (hE : E.Exact) (R : ℝ) (hr : R ≠ 0) {A : Matrix (Fin m) (Fin n) ℝ} {b : Fin m → ℝ} (hn : 0 < n)
  (hax : AxisAligned A) (hb : ∃ M, ∀ y ∈ Poly A b, ∀ i, |y i| ≤ M) {x : Fin n → ℝ} (hx : x ∈ Interior A b)
  (φ : (Fin n → ℝ) → ℝ) (hφ : Measurable φ) (M : ℝ) (hM : 0 < M) (hφM : ∀ y ∈ Poly A b, |φ y| ≤ M)
include hE hr hn hax hb hx hφ hM hφM

/-- **C97** (`DikinWalk`, axis-aligned constraints). -/
theorem C97_dense_dikin (o : BState ℝ) (e : Env ℝ) [MeasurableSpace e.r.G] (μ : Measure e.r.G) (hs : IdealSource e.r μ) (k seed : Int) :
    MeanConverges (.barrier (dikinClass R) E o) e μ A b x k seed φ (average (uniformOn A b) φ) := by
  obtain ⟨P, acc, q, h, hfol⟩ := dense_dikin_mh E hE R hr hn hax hb hx
  rw [uniformOn_eq_mhTarget]
  exact h.strong hx hφ hM (fun y hy => hφM y (interior_subset A b hy)) _ e μ hs A b k seed (by intro h; cases h)
    (fun niter burnin thin => hfol o e μ hs niter k burnin thin seed)

/-- **C97** (`VaidyaWalk`, axis-aligned constraints): the same, when the `int` product `cols * rows` does not overflow. -/
theorem C97_dense_vaidya (hov : (n : Int) * m ≤ 2 ^ 31 - 1) (o : BState ℝ) (e : Env ℝ) [MeasurableSpace e.r.G] (μ : Measure e.r.G)
    (hs : IdealSource e.r μ) (k seed : Int) :
    MeanConverges (.barrier (vaidyaClass E R) E o) e μ A b x k seed φ (average (uniformOn A b) φ) := by
  obtain ⟨P, acc, q, h, hfol⟩ := dense_vaidya_mh E hE R hr hn hax hb hx hov
  rw [uniformOn_eq_mhTarget]
  exact h.strong hx hφ hM (fun y hy => hφM y (interior_subset A b hy)) _ e μ hs A b k seed (by intro h; cases h)
    (fun niter burnin thin => hfol o e μ hs niter k burnin thin seed)

end

/-! ## Ball walks -/

section
variable (hn : 2 ≤ n) {A : Matrix (Fin m) (Fin n) ℝ} {b : Fin m → ℝ} (hb : ∃ M, ∀ y ∈ Poly A b, ∀ i, |y i| ≤ M)
  {R : ℝ} (hR : R ≠ 0) {c : Fin n → ℝ} {ρ : ℝ} (hρ : |R| / Real.sqrt n < ρ) (hball : ∀ y, ∑ i, (y i - c i) ^ 2 ≤ ρ ^ 2 → y ∈ Poly A b)
  (φ : (Fin n → ℝ) → ℝ) (hφ : Measurable φ) (M : ℝ) (hM : 0 < M) (hφM : ∀ y ∈ Poly A b, |φ y| ≤ M)
include hn hb hR hρ hball hφ hM hφM

/-- **C97** (`BallWalk`): the same under the conditions of C75, from every starting point in the polytope. -/
theorem C97_ball (e : Env ℝ) [MeasurableSpace e.r.G] (μ : Measure e.r.G) (hs : IdealSource e.r μ) {x : Fin n → ℝ} (hx : x ∈ Poly A b) (k seed : Int) :
    MeanConverges (.ball R) e μ A b x k seed φ (average (uniformOn A b) φ) := by
  obtain ⟨β, n₀, h⟩ := ball_mixes hn hb hR hρ hball
  have hm := ball_rows_pos hn hb
  have := hs.prob
  rw [← normed_average]
  exact h.strong hx hφ hM hφM (.ball R) e μ (measurable_ballNext R e.r μ hs A b) (ball_drives R e.r μ hs A b)
    (ae_of_all _ fun g t => posAt_keep (fun x hx g => ballMove_mem _ hx _) hx g t) A b k seed (by intro h; cases h)
    (fun niter burnin thin => ae_of_all _ (ball_follows R e A b hm x niter k burnin thin seed))

end

section
variable {E : Eigen ℝ} (hE : E.SparseLUExact) {A : Matrix (Fin m) (Fin n) ℝ} (hA : IndepRows A) (hmn : m + 2 ≤ n) {k : Int} (hk : 1 ≤ k ∧ k ≤ n)
  {b : Fin m → ℝ} (hb : ∃ M, ∀ y ∈ PolyEq A b k.toNat, ∀ i, |y i| ≤ M) {R : ℝ} (hR : R ≠ 0) {x₀ : Fin n → ℝ} (hx₀ : A *ᵥ x₀ = b) {ρ : ℝ}
  (hρ : |R| / Real.sqrt ((n : ℝ) - m) < ρ) (hball : ∀ y, A *ᵥ y = b → ∑ i, (y i - x₀ i) ^ 2 ≤ ρ ^ 2 → y ∈ PolyEq A b k.toNat)
  {B : Matrix (Fin n) (Fin d) ℝ} (hB : IsKernelBasis A B)
  (φ : (Fin n → ℝ) → ℝ) (hφ : Measurable φ) (M : ℝ) (hM : 0 < M) (hφM : ∀ y ∈ PolyEq A b k.toNat, |φ y| ≤ M)
include hE hA hmn hk hb hR hx₀ hρ hball hB hφ hM hφM

/-- **C97** (`SparseBallWalk`): the same under the conditions of C76. -/
theorem C97_sparse_ball (e : Env ℝ) [MeasurableSpace e.r.G] (μ : Measure e.r.G) (hs : IdealSource e.r μ) {x : Fin n → ℝ}
    (hx : x ∈ PolyEq A b k.toNat) (seed : Int) :
    MeanConverges (.sparseBall R E) e μ A b x k seed φ (average (uniformOnEq x₀ B k.toNat) φ) := by
  obtain ⟨β, n₀, h⟩ := sparseBall_mixes hA hmn hk hb hR hx₀ hρ hball hB
  have := hs.prob
  rw [← normed_average]
  exact h.strong hx hφ hM hφM (.sparseBall R E) e μ (measurable_sparseBallNext R e.r μ hs A _) (sparseBall_drives R e.r μ hs A _)
    (ae_of_all _ fun g t => posAt_keep (fun x hx g => sparseBallMove_mem R hA hx _) hx g t) A b k seed (fun _ => hk)
    (fun niter burnin thin => ae_of_all _ (sparseBall_follows R hE e hA b hk x niter burnin thin seed))

end

/-! ## Concrete cases -/

/-- On the simplex, with the Dikin walk: the mean of the first coordinate. -/
example (x : Fin 3 → ℝ) (hxA : ones3 *ᵥ x = fun _ => 1) (hx : x ∈ TailPos 3 3) :
    MeanConverges (.sparseBarrier (sparseDikinClass (1 / 2)) 1 exactEigen (BState.fresh 0)) streamEnv streamLaw ones3 (fun _ => 1) x 3 7
      (fun y => y 0) (average (uniformOnEq (fun _ => 1 / 3) simplexBasis 3) fun y => y 0) :=
  C97_sparse_dikin exactEigen exactEigen_exact 1 one_pos (1 / 2) (by norm_num) ones3_indep (by decide) 3 ⟨by decide, by decide⟩
    (fun _ => 1) simplex_bdd (fun _ => 1 / 3) simplex_start (by intro i _; show (0 : ℝ) < 1 / 3; norm_num) simplexBasis ones3_kernel x hxA hx
    (fun y => y 0) (measurable_pi_apply 0) 1 one_pos
    (fun y hy => by have := simplex_box y hy 0; exact abs_le.2 ⟨by linarith [this.1], this.2⟩) (BState.fresh 0) streamEnv streamLaw streamRng_ideal 7

/-- On the square, with the ball walk from a corner: the share of the rows in a region converges to the region's share of the square. -/
example {T : Set (Fin 2 → ℝ)} (hT : MeasurableSet T) :
    MeanConverges (.ball 1) streamEnv streamLaw boxA (fun _ => 1) (fun _ => 1) 0 7 (T.indicator 1) (share (uniformOn boxA fun _ => 1) T) := by
  have hstep : |(1 : ℝ)| / Real.sqrt ((2 : ℕ) : ℝ) < 1 := by
    rw [abs_one, div_lt_one (lt_trans one_pos one_lt_sqrt_two)]; exact one_lt_sqrt_two
  have h := C97_ball (le_refl 2) boxA_bdd one_ne_zero hstep box_ball (T.indicator 1) (measurable_one.indicator hT) 1 one_pos
    (fun y _ => by by_cases hy : y ∈ T <;> simp [hy]) streamEnv streamLaw streamRng_ideal (x := fun _ => 1)
    ((squareArgs_mem _).2 fun i => by simp) 0 7
  have e : average (uniformOn boxA fun _ => 1) (T.indicator 1) = share (uniformOn boxA fun _ => 1) T := by
    unfold average share
    rw [integral_indicator_one hT]
    rfl
  rw [e] at h
  exact h

end PW
