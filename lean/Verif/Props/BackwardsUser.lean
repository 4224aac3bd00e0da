import Verif.Props.Backwards
import Verif.Props.SparseUserLaw

/-!
# C114 for user-defined subclasses of `SparseBarrierWalk`
-/

namespace PW
open Matrix MeasureTheory Set
open scoped ENNReal
variable {m n d : ℕ}

theorem rev_sparse_user {σ : Type} (cls : SparseBarrierClass ℝ σ) (E : Eigen ℝ) (hE : E.Exact) (ERR : ℝ) (hR : 0 < ERR) {A : Matrix (Fin m) (Fin n) ℝ}
    (hA : IndepRows A) (k : Int) (hk : 1 ≤ k ∧ k ≤ n) {D : ℝ} (hD : 0 < D) {wf : (Fin n → ℝ) → Fin n → ℝ} (hwm : Measurable wf)
    (hwp : ∀ x ∈ TailPos n k.toNat, ∀ i : Fin n, n - k.toNat ≤ i.val → 0 < wf x i)
    (x₀ : Fin n → ℝ) (hx₀ : x₀ ∈ TailPos n k.toNat) (hb : ∃ M, ∀ y ∈ PolyEq A (A *ᵥ x₀) k.toNat, ∀ i, |y i| ≤ M)
    {B : Matrix (Fin n) (Fin d) ℝ} (hB : IsKernelBasis A B) (o : σ) (ho : WeightsAre cls o A k D wf)
    (e : Env ℝ) [MeasurableSpace e.r.G] (μ : Measure e.r.G) (hs : IdealSource e.r μ) :
    RevRun (.sparseBarrier cls ERR E o) e μ A (A *ᵥ x₀) k (uniformOnEq x₀ B k.toNat) := by
  have hpos : ∀ x ∈ TailPos n k.toNat, ∀ i, 0 < metricG ERR 0 x (wf x) k.toNat i := fun x hx i => metricG_pos hR 0 hx (hwp x hx) i
  have hmeas : ∀ i, Measurable fun x => metricG ERR 0 x (wf x) k.toNat i :=
    measurable_metricG ERR 0 k.toNat (fun i => measurable_pi_apply i) (fun i => (measurable_pi_apply i).comp hwm)
  obtain ⟨c, hc⟩ := sparse_mhData hA hD hx₀ hB hb hmeas hpos
  obtain ⟨o', h1, h2, h3⟩ := ho.weights
  refine mh_revRun hc hs (fun _ => hk) fun y hy niter burnin thin seed =>
    sparseBarrier_follows cls ERR E hE hA hk hpos hc o o' h1 h2 e μ hs (fun y hy => ?_) _ hy niter burnin thin seed
  unfold generateG
  rw [h3 _ y hy, Out.ok_bind, dif_pos rfl]
  congr 2
  funext i
  simp only [metricG, generateSlackInverse]
  by_cases h : isTail k.toNat i = true
  · simp only [h, if_true]; rfl
  · simp only [h, Bool.false_eq_true, if_false]

/-- **C114** (any subclass of `SparseBarrierWalk` whose weights are a positive function of the point). -/
theorem C114_sparse_user {σ : Type} (cls : SparseBarrierClass ℝ σ) (E : Eigen ℝ) (hE : E.Exact) (ERR : ℝ) (hR : 0 < ERR) {A : Matrix (Fin m) (Fin n) ℝ}
    (hA : IndepRows A) (k : Int) (hk : 1 ≤ k ∧ k ≤ n) {D : ℝ} (hD : 0 < D) {wf : (Fin n → ℝ) → Fin n → ℝ} (hwm : Measurable wf)
    (hwp : ∀ x ∈ TailPos n k.toNat, ∀ i : Fin n, n - k.toNat ≤ i.val → 0 < wf x i)
    (x₀ : Fin n → ℝ) (hx₀ : x₀ ∈ TailPos n k.toNat) (hb : ∃ M, ∀ y ∈ PolyEq A (A *ᵥ x₀) k.toNat, ∀ i, |y i| ≤ M)
    {B : Matrix (Fin n) (Fin d) ℝ} (hB : IsKernelBasis A B) (o : σ) (ho : WeightsAre cls o A k D wf)
    (e : Env ℝ) [MeasurableSpace e.r.G] (μ : Measure e.r.G) (hs : IdealSource e.r μ) :
    SameBackwards (.sparseBarrier cls ERR E o) e μ A (A *ᵥ x₀) k (uniformOnEq x₀ B k.toNat) :=
  (rev_sparse_user cls E hE ERR hR hA k hk hD hwm hwp x₀ hx₀ hb hB o ho e μ hs).backwards

/-- It applies to the subclass `squareClass` on the simplex. -/
example : SameBackwards (.sparseBarrier squareClass 1 exactEigen ()) streamEnv streamLaw ones3 (ones3 *ᵥ fun _ => 1 / 3) 3
    (uniformOnEq (fun _ => 1 / 3) simplexBasis 3) :=
  C114_sparse_user squareClass exactEigen exactEigen_exact 1 one_pos ones3_indep 3 ⟨by decide, by decide⟩ (D := 2) two_pos
    (wf := fun x i => 1 + x i * x i)
    (measurable_pi_lambda _ fun i => measurable_const.add ((measurable_pi_apply i).mul (measurable_pi_apply i)))
    (fun x _ i _ => by have := mul_self_nonneg (x i); linarith)
    (fun _ => 1 / 3) (by intro i _; show (0 : ℝ) < 1 / 3; norm_num) (by rw [simplex_start]; exact simplex_bdd) ones3_kernel ()
    ⟨(), rfl, rfl, fun _ _ _ => rfl⟩ streamEnv streamLaw streamRng_ideal

end PW
