import Verif.Props.BallConverges
import Verif.Props.SparseBallLaw
import Verif.Props.SparseBarrierConverges
import Verif.Lemmas.SparseJohnPotential

/-!
# C76: the sparse ball walk converges to the uniform distribution when the polytope contains a ball larger than its step; it is stuck,
or confined to a lattice, otherwise
-/

namespace PW
open Matrix MeasureTheory Set
open scoped ENNReal
variable {m n d : ℕ}

/-- A kernel has an orthonormal basis. -/
theorem exists_orthoBasis {A : Matrix (Fin m) (Fin n) ℝ} {B : Matrix (Fin n) (Fin d) ℝ} (hB : IsKernelBasis A B) :
    ∃ Q : Matrix (Fin n) (Fin d) ℝ, IsKernelBasis A Q ∧ Qᵀ * Q = 1 := by
  have hpd : (Bᵀ * B).PosDef := (kernelBasis_indep hB).posDef
  obtain ⟨L, hL⟩ := exists_isCholesky _ hpd
  have hLL : L * Lᵀ = Bᵀ * B := hL.mul_eq
  have hdet : IsUnit L.det := by
    have h1 := PosDef.isUnit_det hpd
    rw [← hLL, Matrix.det_mul] at h1
    exact isUnit_of_mul_isUnit_left h1
  have hdetT : IsUnit Lᵀ.det := by rwa [Matrix.det_transpose]
  refine ⟨B * Lᵀ⁻¹, ⟨?_, fun u hu => ?_, fun v hv => ?_⟩, ?_⟩
  · rw [← Matrix.mul_assoc, hB.mul_zero, Matrix.zero_mul]
  · rw [← Matrix.mulVec_mulVec] at hu
    have h1 := hB.inj _ hu
    have h2 := congrArg (Lᵀ *ᵥ ·) h1
    simpa [Matrix.mulVec_mulVec, Matrix.mul_nonsing_inv _ hdetT] using h2
  · obtain ⟨u, hu⟩ := hB.span v hv
    refine ⟨Lᵀ *ᵥ u, ?_⟩
    rw [Matrix.mulVec_mulVec, Matrix.mul_assoc, Matrix.nonsing_inv_mul _ hdetT, Matrix.mul_one, hu]
  · rw [Matrix.transpose_mul, Matrix.mul_assoc, ← Matrix.mul_assoc Bᵀ, ← hLL, Matrix.mul_assoc L, Matrix.mul_nonsing_inv _ hdetT, Matrix.mul_one,
      Matrix.transpose_nonsing_inv, Matrix.transpose_transpose, Matrix.nonsing_inv_mul _ hdet]

/-- The projection on the kernel. -/
theorem proj_eq_ortho {A : Matrix (Fin m) (Fin n) ℝ} (hA : IndepRows A) {Q : Matrix (Fin n) (Fin d) ℝ} (hQ : IsKernelBasis A Q)
    (hQQ : Qᵀ * Q = 1) : 1 - Aᵀ * (A * Aᵀ)⁻¹ * A = Q * Qᵀ := by
  have h1 := coordMat_mul_ker hQ (projKer_ker (PosDef.isUnit_det hA.posDef))
  have h2 : coordMat Q = Qᵀ := by unfold coordMat; rw [hQQ, inv_one, Matrix.one_mul]
  have h3 : Qᵀ * Aᵀ = 0 := by rw [← Matrix.transpose_mul, hQ.mul_zero, Matrix.transpose_zero]
  rw [h2] at h1
  rw [← h1]
  congr 1
  rw [Matrix.mul_sub, Matrix.mul_one, ← Matrix.mul_assoc, ← Matrix.mul_assoc, h3, Matrix.zero_mul, Matrix.zero_mul, sub_zero]

theorem len_ortho {Q : Matrix (Fin n) (Fin d) ℝ} (hQQ : Qᵀ * Q = 1) (u : Fin d → ℝ) : len (Q *ᵥ u) = len u := by
  unfold len
  rw [Matrix.dotProduct_mulVec, ← Matrix.mulVec_transpose, Matrix.mulVec_mulVec, hQQ, Matrix.one_mulVec]

theorem hat_ortho {Q : Matrix (Fin n) (Fin d) ℝ} (hQQ : Qᵀ * Q = 1) (u : Fin d → ℝ) : hat (Q *ᵥ u) = Q *ᵥ hat u := by
  unfold hat; rw [len_ortho hQQ, Matrix.mulVec_smul]

theorem normalize_eq_hat (v : Fin n → ℝ) : normalize v = hat v := by
  funext i
  unfold normalize hat
  rw [norm2_eq_len, Pi.smul_apply, smul_eq_mul, div_eq_inv_mul]

theorem sparseBallShift_ortho (R : ℝ) {A : Matrix (Fin m) (Fin n) ℝ} (hA : IndepRows A) {Q : Matrix (Fin n) (Fin d) ℝ} (hQ : IsKernelBasis A Q)
    (hQQ : Qᵀ * Q = 1) (v : Fin n → ℝ) : sparseBallShift R A v = Q *ᵥ ((R / Real.sqrt ((n : ℝ) - m)) • hat (Qᵀ *ᵥ v)) := by
  unfold sparseBallShift
  rw [proj_eq_ortho hA hQ hQQ, normalize_eq_hat, ← Matrix.mulVec_mulVec, hat_ortho hQQ, Matrix.mulVec_smul]

open Classical in
/-- One iteration. -/
noncomputable def sparseBallMove (R : ℝ) (A : Matrix (Fin m) (Fin n) ℝ) (k : ℕ) (x v : Fin n → ℝ) : Fin n → ℝ :=
  if x + sparseBallShift R A v ∈ TailNonneg n k then x + sparseBallShift R A v else x

theorem measurable_sparseBallMove (R : ℝ) (A : Matrix (Fin m) (Fin n) ℝ) (k : ℕ) :
    Measurable fun p : (Fin n → ℝ) × (Fin n → ℝ) => sparseBallMove R A k p.1 p.2 := by
  have h1 : Measurable fun p : (Fin n → ℝ) × (Fin n → ℝ) => p.1 + sparseBallShift R A p.2 :=
    measurable_fst.add ((measurable_sparseBallShift R A).comp measurable_snd)
  unfold sparseBallMove
  exact Measurable.ite (h1 (measurableSet_tailNonneg n k)) h1 measurable_fst

theorem sparseBallMove_mem (R : ℝ) {A : Matrix (Fin m) (Fin n) ℝ} (hA : IndepRows A) {b : Fin m → ℝ} {k : ℕ} {x : Fin n → ℝ} (hx : x ∈ PolyEq A b k)
    (v : Fin n → ℝ) : sparseBallMove R A k x v ∈ PolyEq A b k := by
  unfold sparseBallMove
  split
  · exact ⟨by rw [Matrix.mulVec_add, sparseBallShift_ker R hA, add_zero]; exact hx.1, by assumption⟩
  · exact hx

/-- In orthonormal coordinates the walk is the ball walk. -/
theorem sparseBallMove_chart (R : ℝ) {A : Matrix (Fin m) (Fin n) ℝ} (hA : IndepRows A) {Q : Matrix (Fin n) (Fin d) ℝ} (hQ : IsKernelBasis A Q)
    (hQQ : Qᵀ * Q = 1) (k : ℕ) (x₀ : Fin n → ℝ) (u : Fin d → ℝ) (v : Fin n → ℝ) :
    sparseBallMove R A k (chart x₀ Q u) v =
      chart x₀ Q (ballMove {u | chart x₀ Q u ∈ TailNonneg n k} (R / Real.sqrt ((n : ℝ) - m)) u (Qᵀ *ᵥ v)) := by
  have h1 : chart x₀ Q u + sparseBallShift R A v = chart x₀ Q (u + (R / Real.sqrt ((n : ℝ) - m)) • hat (Qᵀ *ᵥ v)) := by
    rw [sparseBallShift_ortho R hA hQ hQQ]
    unfold chart
    rw [Matrix.mulVec_add, add_assoc]
  unfold sparseBallMove ballMove
  rw [h1, apply_ite (chart x₀ Q)]
  rfl

theorem stdNormal_ortho {Q : Matrix (Fin n) (Fin d) ℝ} (hQQ : Qᵀ * Q = 1) : (stdNormal n).map (fun v => Qᵀ *ᵥ v) = stdNormal d := by
  have h := stdNormal_map_congr Qᵀ (1 : Matrix (Fin d) (Fin d) ℝ) (by rw [Matrix.transpose_transpose, hQQ]; simp)
  rw [h]
  simp

theorem stepE_chart (R : ℝ) {A : Matrix (Fin m) (Fin n) ℝ} (hA : IndepRows A) {Q : Matrix (Fin n) (Fin d) ℝ} (hQ : IsKernelBasis A Q)
    (hQQ : Qᵀ * Q = 1) (k : ℕ) (x₀ : Fin n → ℝ) {F : (Fin n → ℝ) → ℝ≥0∞} (hF : Measurable F) (t : ℕ) (u : Fin d → ℝ) :
    (stepE (stdNormal n) (sparseBallMove R A k))^[t] F (chart x₀ Q u) =
      (stepE (stdNormal d) (ballMove {u | chart x₀ Q u ∈ TailNonneg n k} (R / Real.sqrt ((n : ℝ) - m))))^[t] (fun u => F (chart x₀ Q u)) u := by
  have mK : MeasurableSet {u : Fin d → ℝ | chart x₀ Q u ∈ TailNonneg n k} := measurable_chart x₀ Q (measurableSet_tailNonneg n k)
  have mT := measurable_ballMove mK (R / Real.sqrt ((n : ℝ) - m))
  induction t generalizing u with
  | zero => rfl
  | succ t ih =>
    rw [Function.iterate_succ_apply', Function.iterate_succ_apply']
    unfold stepE
    have mG := stepE_meas (ν := stdNormal d) mT (hF.comp (measurable_chart x₀ Q)) t
    have h1 := lintegral_map (μ := stdNormal n) (mG.comp (meas_at mT u)) (measurable_mulVec Qᵀ)
    rw [stdNormal_ortho hQQ] at h1
    refine Eq.trans ?_ h1.symm
    refine lintegral_congr fun v => ?_
    rw [sparseBallMove_chart R hA hQ hQQ]
    exact ih _

/-- A point and the generator after one iteration. -/
noncomputable def sparseBallNext (R : ℝ) (r : Rng ℝ) (A : Matrix (Fin m) (Fin n) ℝ) (k : ℕ) (x : Fin n → ℝ) (g : r.G) : (Fin n → ℝ) × r.G :=
  (sparseBallMove R A k x (r.gaussian n g).1, (r.gaussian n g).2)

theorem sparseBall_step_next (R : ℝ) {E : Eigen ℝ} (hE : E.SparseLUExact) (r : Rng ℝ) {A : Matrix (Fin m) (Fin n) ℝ}
    (hA : IndepRows A) {k : ℕ} (hk : 1 ≤ k) (hkn : k ≤ n) (p : (Fin n → ℝ) × r.G) :
    SparseBallWalk.step R E r A k p = .ok (sparseBallNext R r A k p.1 p.2) := by
  classical
  obtain ⟨x, g⟩ := p
  rw [sparseBall_step_eq R hE r hA hk hkn x g]
  unfold sparseBallNext sparseBallMove
  congr

/-- The chain of a call, in any environment. -/
theorem sparseBall_chain (R : ℝ) {E : Eigen ℝ} (hE : E.SparseLUExact) (e : Env ℝ) {A : Matrix (Fin m) (Fin n) ℝ} (hA : IndepRows A) (b : Fin m → ℝ)
    {k : Int} (hk : 1 ≤ k ∧ k ≤ n) (x : Fin n → ℝ) (niter burnin thin seed : Int) (t : ℕ) :
    (Walk.sparseBall R E).chain e (callArgs A b x niter k burnin thin seed) ⟨rfl, rfl⟩ t =
      .ok ((fun p : (Fin n → ℝ) × e.r.G => sparseBallNext R e.r A k.toNat p.1 p.2)^[t] (x, e.r.initRng seed e.rd)) := by
  have h1 : 1 ≤ k.toNat := by omega
  have h2 : k.toNat ≤ n := by omega
  exact iter_ok (fun p => sparseBall_step_next R hE e.r hA h1 h2 p) t _

theorem measurableSet_polyEq (A : Matrix (Fin m) (Fin n) ℝ) (b : Fin m → ℝ) (k : ℕ) : MeasurableSet (PolyEq A b k) := by
  have : PolyEq A b k = {x | A *ᵥ x = b} ∩ TailNonneg n k := rfl
  rw [this]
  exact (measurableSet_eq_fun (measurable_mulVec A) measurable_const).inter (measurableSet_tailNonneg n k)

theorem sparseBall_follows (R : ℝ) {E : Eigen ℝ} (hE : E.SparseLUExact) (e : Env ℝ) {A : Matrix (Fin m) (Fin n) ℝ} (hA : IndepRows A) (b : Fin m → ℝ)
    {k : Int} (hk : 1 ≤ k ∧ k ≤ n) (x : Fin n → ℝ) (niter burnin thin seed : Int) (g : e.r.G) :
    Follows (.sparseBall R E) e (callArgs A b x niter k burnin thin seed) ⟨rfl, rfl⟩ (posAt (sparseBallNext R e.r A k.toNat) x) g := by
  intro t
  refine ⟨0, fun f _ => ⟨(fun p : (Fin n → ℝ) × e.r.G => sparseBallNext R e.r A k.toNat p.1 p.2)^[t] (x, g), ?_, rfl⟩⟩
  have h1 : (Walk.sparseBall R E).chain ((e.withGen g).withFuel f) (callArgs A b x niter k burnin thin seed) ⟨rfl, rfl⟩ t =
      iter (SparseBallWalk.step R E (e.withGen g).r A k.toNat) t (x, (e.withGen g).r.initRng seed (e.withGen g).rd) := rfl
  rw [h1, withGen_init]
  exact (congrArg (fun s => iter s t (x, g)) (withGen_sparseBallStep R E e g A k.toNat)).trans
    (iter_ok (fun p => sparseBall_step_next R hE e.r hA (by omega) (by omega) p) t (x, g))

theorem measurable_sparseBallNext (R : ℝ) (r : Rng ℝ) [MeasurableSpace r.G] (μ : Measure r.G) (hs : IdealSource r μ) (A : Matrix (Fin m) (Fin n) ℝ)
    (k : ℕ) : Measurable fun p : (Fin n → ℝ) × r.G => sparseBallNext R r A k p.1 p.2 := by
  have mg := (hs.gaussian n).measurable
  exact ((measurable_sparseBallMove R A k).comp (measurable_fst.prodMk (mg.fst.comp measurable_snd))).prodMk (mg.snd.comp measurable_snd)

theorem sparseBall_drives (R : ℝ) (r : Rng ℝ) [MeasurableSpace r.G] (μ : Measure r.G) (hs : IdealSource r μ) (A : Matrix (Fin m) (Fin n) ℝ)
    (k : ℕ) : Drives μ (stdNormal n) (sparseBallNext R r A k) (sparseBallMove R A k) := by
  intro F hF x
  have := hs.prob
  have := hs.probN n
  have hm2 : Measurable fun q : (Fin n → ℝ) × r.G => F (sparseBallMove R A k x q.1, q.2) :=
    hF.comp (((meas_at (measurable_sparseBallMove R A k) x).comp measurable_fst).prodMk measurable_snd)
  rw [← lintegral_prod _ hm2.aemeasurable, ← (hs.gaussian n).lintegral_comp hm2]
  rfl

theorem sparseBall_balance (R : ℝ) {A : Matrix (Fin m) (Fin n) ℝ} (hA : IndepRows A) {k : ℕ} (hk : 1 ≤ k) (hkn : k ≤ n)
    (x₀ : Fin n → ℝ) {B : Matrix (Fin n) (Fin d) ℝ} (hB : IsKernelBasis A B) :
    Balance (uniformOnEq x₀ B k) (stdNormal n) (sparseBallMove R A k) := by
  intro F hF
  have h := (sparseBall_stepLaw R exactEigen exactEigen_exact.sparseLU streamRng streamLaw stdNormal streamRng_ideal (stdNormal_symmetric n)
    A hA k hk hkn x₀ B hB).balance F hF
  exact h

theorem tailNonneg_convex (n k : ℕ) : Convex ℝ (TailNonneg n k) := by
  intro x hx y hy s t hs ht _ i hi
  exact add_nonneg (mul_nonneg hs (hx i hi)) (mul_nonneg ht (hy i hi))

section
variable {E : Eigen ℝ} (hE : E.SparseLUExact) {A : Matrix (Fin m) (Fin n) ℝ} (hA : IndepRows A) (hmn : m + 2 ≤ n) {k : Int} (hk : 1 ≤ k ∧ k ≤ n)
  {b : Fin m → ℝ} (hb : ∃ M, ∀ y ∈ PolyEq A b k.toNat, ∀ i, |y i| ≤ M) {R : ℝ} (hR : R ≠ 0) {x₀ : Fin n → ℝ} (hx₀ : A *ᵥ x₀ = b) {ρ : ℝ}
  (hρ : |R| / Real.sqrt ((n : ℝ) - m) < ρ) (hball : ∀ y, A *ᵥ y = b → ∑ i, (y i - x₀ i) ^ 2 ≤ ρ ^ 2 → y ∈ PolyEq A b k.toNat)
  {B : Matrix (Fin n) (Fin d) ℝ} (hB : IsKernelBasis A B)
include hA hmn hk hb hR hx₀ hρ hball hB

theorem sparseBall_mixes : ∃ β n₀, Mixes (normed (uniformOnEq x₀ B k.toNat)) (stdNormal n) (sparseBallMove R A k.toNat) (PolyEq A b k.toNat)
    β n₀ := by
  have hnm : (0 : ℝ) < (n : ℝ) - m := by
    have : (m : ℝ) + 2 ≤ n := by exact_mod_cast hmn
    linarith
  have hs0 : (0 : ℝ) < Real.sqrt ((n : ℝ) - m) := Real.sqrt_pos.2 hnm
  have hρ0 : 0 < ρ := lt_of_le_of_lt (by positivity) hρ
  have hd : 2 ≤ d := by have := kernelBasis_card hA hB; omega
  obtain ⟨Q, hQ, hQQ⟩ := exists_orthoBasis hB
  have hchA : ∀ {l : ℕ} {C : Matrix (Fin n) (Fin l) ℝ}, IsKernelBasis A C → ∀ u, A *ᵥ chart x₀ C u = b := fun hC u => by
    show A *ᵥ (x₀ + _ *ᵥ u) = _
    rw [Matrix.mulVec_add, Matrix.mulVec_mulVec, hC.mul_zero, Matrix.zero_mulVec, add_zero, hx₀]
  have hchlen : ∀ u, len (chart x₀ Q u - x₀) = len u := fun u => by
    unfold chart; rw [add_sub_cancel_left, len_ortho hQQ]
  set K' : Set (Fin d → ℝ) := {u | chart x₀ Q u ∈ TailNonneg n k.toNat} with hK'
  have mK' : MeasurableSet K' := measurable_chart x₀ Q (measurableSet_tailNonneg n k.toNat)
  have hconv : Convex ℝ K' := by
    intro u hu v hv s t hs ht hst
    show chart x₀ Q _ ∈ TailNonneg n k.toNat
    have : chart x₀ Q (s • u + t • v) = s • chart x₀ Q u + t • chart x₀ Q v := by
      unfold chart
      rw [Matrix.mulVec_add, Matrix.mulVec_smul, Matrix.mulVec_smul, smul_add, smul_add, add_add_add_comm, ← add_smul, hst, one_smul]
    rw [this]
    exact tailNonneg_convex n _ hu hv hs ht hst
  have hball' : ∀ u, len (u - 0) ≤ ρ → u ∈ K' := fun u hu => by
    rw [sub_zero, ← hchlen] at hu
    exact (hball _ (hchA hQ u) ((len_le_iff _ hρ0.le).1 hu)).2
  obtain ⟨M, hM⟩ := hb
  have hM0 : 0 ≤ M := by
    have h1 := hM x₀ (hball x₀ hx₀ (by simp; positivity)) ⟨0, by omega⟩
    exact (abs_nonneg _).trans h1
  have hD : ∀ u ∈ K', len (u - 0) ≤ n * M + len x₀ := fun u hu => by
    rw [sub_zero, ← hchlen]
    refine (len_sub_le _ _).trans (add_le_add ?_ le_rfl)
    rw [← norm2_eq_len]
    exact norm2_le_of_abs hM0 (hM _ ⟨hchA hQ u, hu⟩)
  have habs : |R / Real.sqrt ((n : ℝ) - m)| < ρ := by rwa [abs_div, abs_of_pos hs0]
  obtain ⟨n₀, hn₀, mm, h0, hK, hmin⟩ := ball_minor_measure hd hconv (div_ne_zero hR hs0.ne') habs hball' hD mK'
  have mch := measurable_chart x₀ Q
  have mT := measurable_chart x₀ B (measurableSet_tailNonneg n k.toNat)
  have huniv : uniformOnEq x₀ B k.toNat univ = volume (chart x₀ B ⁻¹' TailNonneg n k.toNat) := by
    unfold uniformOnEq
    rw [Measure.map_apply (measurable_chart x₀ B) MeasurableSet.univ, preimage_univ, Measure.restrict_apply_univ]
    rfl
  have hvt : uniformOnEq x₀ B k.toNat univ ≠ ⊤ := by
    rw [huniv]
    refine (lt_of_le_of_lt (measure_mono fun u hu => ?_) (volume_chart_thicken_lt_top hB x₀ ⟨M, hM⟩ 1)).ne
    exact ⟨chart x₀ B u, ⟨hchA hB u, hu⟩, by simp⟩
  have hv0 : uniformOnEq x₀ B k.toNat univ ≠ 0 := by
    rw [huniv]
    have hc : Continuous fun u : Fin d → ℝ => len (chart x₀ B u - x₀) := by
      have h1 : Continuous (chart x₀ B) := by
        unfold chart
        exact continuous_const.add (Continuous.matrix_mulVec continuous_const continuous_id)
      have h2 : Continuous fun y : Fin n → ℝ => len (y - x₀) := by
        unfold len dotProduct
        fun_prop
      exact h2.comp h1
    have ho : IsOpen {u : Fin d → ℝ | len (chart x₀ B u - x₀) < ρ} := isOpen_lt hc continuous_const
    refine (lt_of_lt_of_le (ho.measure_pos volume ⟨0, ?_⟩) (measure_mono fun u (hu : len (chart x₀ B u - x₀) < ρ) => ?_)).ne'
    · show len (chart x₀ B 0 - x₀) < ρ
      unfold chart
      rw [Matrix.mulVec_zero, add_zero, sub_self, len_zero]; exact hρ0
    · exact (hball _ (hchA hB u) ((len_le_iff _ hρ0.le).1 hu.le)).2
  have := normed_prob hv0 hvt
  have hmK : ∀ᵐ x ∂(mm.map (chart x₀ Q)), x ∈ PolyEq A b k.toNat := by
    have h1 : ∀ᵐ u ∂mm, chart x₀ Q u ∈ PolyEq A b k.toNat := hK.mono fun u hu => ⟨hchA hQ u, hu⟩
    exact (ae_map_iff mch.aemeasurable (measurableSet_polyEq A b k.toNat)).2 h1
  obtain ⟨β, hβ⟩ := mixes_of_minor (P := normed (uniformOnEq x₀ B k.toNat)) (m := mm.map (chart x₀ Q)) (n₀ := n₀)
    (measurable_sparseBallMove R A k.toNat) (fun x hx v => sparseBallMove_mem R hA hx v)
    (normed_ae ((ae_map_iff (measurable_chart x₀ B).aemeasurable (measurableSet_polyEq A b k.toNat)).2
      ((ae_restrict_mem mT).mono fun u hu => ⟨hchA hB u, hu⟩)))
    (normed_balance (sparseBall_balance R hA (by omega) (by omega) x₀ hB)) hn₀
    (by rw [Measure.map_apply mch MeasurableSet.univ, preimage_univ]; exact h0) hmK
    (fun x hx F hF => by
      obtain ⟨u, hu⟩ := hQ.span (x - x₀) (by rw [Matrix.mulVec_sub, hx.1, hx₀, sub_self])
      have hux : chart x₀ Q u = x := by show x₀ + Q *ᵥ u = x; rw [hu]; abel
      rw [lintegral_map hF mch, ← hux, stepE_chart R hA hQ hQQ k.toNat x₀ hF]
      refine hmin u ?_ _ (hF.comp mch)
      show chart x₀ Q u ∈ TailNonneg n k.toNat
      rw [hux]; exact hx.2)
  exact ⟨β, n₀, hβ⟩

include hE
/-- **C76**: if the polytope `{A x = b, last k coordinates ≥ 0}` is bounded, of dimension at least two, and contains, within the affine space
`A x = b`, the Euclidean ball of radius `ρ` around `x₀`, where `ρ` is greater than the step `|R| / sqrt(n - m)`, then from every starting point
in it the law of the position (and of any row recorded then) approaches the uniform distribution geometrically. -/
theorem C76_rows : ∃ (β : ℝ) (n₀ : ℕ), 0 < β ∧ β ≤ 1 ∧ 0 < n₀ ∧ ∀ (e : Env ℝ) [MeasurableSpace e.r.G] (μ : Measure e.r.G),
    IdealSource e.r μ → ∀ x ∈ PolyEq A b k.toNat, ∀ (seed : Int) (t : ℕ),
      LawWithin (.sparseBall R E) e μ A b x k seed (uniformOnEq x₀ B k.toNat) t ((1 - β) ^ (t / n₀)) := by
  obtain ⟨β, n₀, h⟩ := sparseBall_mixes hA hmn hk hb hR hx₀ hρ hball hB
  refine ⟨β, n₀, h.pos, h.le, h.len_pos, fun e _ μ hs x hx seed t => ?_⟩
  have := hs.prob
  exact h.rows (measurable_sparseBallNext R e.r μ hs A _) (sparseBall_drives R e.r μ hs A _) hx (fun _ => hk)
    (fun niter burnin thin => ae_of_all _ (sparseBall_follows R hE e hA b hk x niter burnin thin seed)) (fun S => normed_share _ S) t

/-- **C76**, as a limit. -/
theorem C76_limit (ε : ℝ) (hε : 0 < ε) : ∃ t₀ : ℕ, ∀ (e : Env ℝ) [MeasurableSpace e.r.G] (μ : Measure e.r.G),
    IdealSource e.r μ → ∀ x ∈ PolyEq A b k.toNat, ∀ seed : Int, ∀ t ≥ t₀,
      LawWithin (.sparseBall R E) e μ A b x k seed (uniformOnEq x₀ B k.toNat) t ε := by
  obtain ⟨β, n₀, h0, h1, hn₀, h⟩ := C76_rows hE hA hmn hk hb hR hx₀ hρ hball hB
  obtain ⟨t₀, ht₀⟩ := rate_small h0 h1 hn₀ 1 hε
  refine ⟨t₀, fun e _ μ hs x hx seed t ht => (h e μ hs x hx seed t).mono ?_⟩
  have := ht₀ _ ht
  rwa [mul_one] at this

/-- **C76**, averages. -/
theorem C76_average {x : Fin n → ℝ} (hx : x ∈ PolyEq A b k.toNat) (φ : (Fin n → ℝ) → ℝ) (hφ : Measurable φ) (M : ℝ) (hM : 0 < M)
    (hφM : ∀ y ∈ PolyEq A b k.toNat, |φ y| ≤ M) (ε δ : ℝ) (hε : 0 < ε) (hδ : 0 < δ) :
    ∃ L₀ : ℕ, ∀ (e : Env ℝ) [MeasurableSpace e.r.G] (μ : Measure e.r.G), IdealSource e.r μ → ∀ seed : Int, ∀ L ≥ L₀,
      MeanWithin (.sparseBall R E) e μ A b x k seed φ (average (uniformOnEq x₀ B k.toNat) φ) L ε δ := by
  obtain ⟨β, n₀, h⟩ := sparseBall_mixes hA hmn hk hb hR hx₀ hρ hball hB
  obtain ⟨L₀, hL₀⟩ := h.averages (m := m) hx hφ hM hφM hε hδ
  refine ⟨L₀, fun e _ μ hs seed L hL => ?_⟩
  have := hs.prob
  rw [← normed_average]
  exact hL₀ (.sparseBall R E) e μ (sparseBallNext R e.r A k.toNat) (measurable_sparseBallNext R e.r μ hs A _) (sparseBall_drives R e.r μ hs A _)
    (fun x hx g => sparseBallMove_mem R hA hx _) A b k seed (fun _ => hk)
    (fun niter burnin thin => ae_of_all _ (sparseBall_follows R hE e hA b hk x niter burnin thin seed)) L hL

end

/-! ## When it does not converge -/

/-- The call returns, and its rows stay in every set that the moves do not leave. -/
theorem sparseBall_run_in (R : ℝ) {E : Eigen ℝ} (hE : E.SparseLUExact) (e : Env ℝ) {A : Matrix (Fin m) (Fin n) ℝ} (hA : IndepRows A)
    (b : Fin m → ℝ) {k : Int} (hk : 1 ≤ k ∧ k ≤ n) (x : Fin n → ℝ) (niter burnin thin seed : Int) (hg : GoodInts niter burnin thin)
    (S : Set (Fin n → ℝ)) (hx : x ∈ S) (hS : ∀ y ∈ S, ∀ v, sparseBallMove R A k.toNat y v ∈ S) :
    ∃ rows, (Walk.sparseBall R E).run e (callArgs A b x niter k burnin thin seed) = .ok rows ∧
      (rows.length : Int) = (niter - burnin) / thin ∧ ∀ y ∈ rows, y ∈ S := by
  have h1 := C01_recording_total (.sparseBall R E) e (callArgs A b x niter k burnin thin seed) hg ⟨rfl, rfl⟩ (fun _ => hk)
  rw [sparseBall_chain R hE e hA b hk x] at h1
  cases hr : (Walk.sparseBall R E).run e (callArgs A b x niter k burnin thin seed) with
  | throws _ => rw [hr] at h1; cases h1
  | ub _ => rw [hr] at h1; cases h1
  | timeout => rw [hr] at h1; cases h1
  | ok rows =>
    refine ⟨rows, rfl, C01_shape _ _ _ hg rows hr, fun y hy => ?_⟩
    obtain ⟨hd, h3⟩ := C02_rows _ _ _ hg rows hr
    obtain ⟨j, hj, rfl⟩ := List.mem_iff_getElem.1 hy
    obtain ⟨s, hs, hp⟩ := h3 j hj
    have h4 := hs.symm.trans (sparseBall_chain R hE e hA b hk x niter burnin thin seed _)
    replace h4 := Out.ok.inj h4
    rw [← hp]
    show s.1 ∈ S
    rw [h4]
    generalize (burnin + ((j : Int) + 1) * thin).toNat = t
    induction t with
    | zero => exact hx
    | succ t ih => rw [Function.iterate_succ_apply']; exact hS _ ih _

/-- **C76**, step too large: if every point of the polytope is closer to the starting point than the step `|R| / sqrt(n - m)`, every row is
the starting point, whatever the generator. -/
theorem C76_stuck (R : ℝ) {E : Eigen ℝ} (hE : E.SparseLUExact) (e : Env ℝ) {A : Matrix (Fin m) (Fin n) ℝ} (hA : IndepRows A)
    (hmn : m < n) (b : Fin m → ℝ) {k : Int} (hk : 1 ≤ k ∧ k ≤ n) (x : Fin n → ℝ) (hx : A *ᵥ x = b)
    (hfar : ∀ y ∈ PolyEq A b k.toNat, ∑ i, (y i - x i) ^ 2 < R ^ 2 / ((n : ℝ) - m)) (niter burnin thin seed : Int)
    (hg : GoodInts niter burnin thin) :
    ∃ rows, (Walk.sparseBall R E).run e (callArgs A b x niter k burnin thin seed) = .ok rows ∧
      (rows.length : Int) = (niter - burnin) / thin ∧ ∀ y ∈ rows, y = x := by
  refine sparseBall_run_in R hE e hA b hk x niter burnin thin seed hg {x} rfl fun y hy v => ?_
  obtain rfl : y = x := hy
  show sparseBallMove _ _ _ y v = y
  have hnm : (0 : ℝ) ≤ (n : ℝ) - m := by
    have : (m : ℝ) < n := by exact_mod_cast hmn
    linarith
  have hsh := sparseBallShift_ker R hA v
  unfold sparseBallMove
  by_cases hv : (1 - Aᵀ * (A * Aᵀ)⁻¹ * A) *ᵥ v = 0
  · have h0 : y + sparseBallShift R A v = y := by unfold sparseBallShift; rw [hv, normalize_eq_hat]; simp [hat]
    rw [h0, ite_self]
  · rw [if_neg]
    intro h
    have h1 := hfar _ ⟨by rw [Matrix.mulVec_add, hsh, add_zero, hx], h⟩
    have h2 : ∑ i, ((y + sparseBallShift R A v) i - y i) ^ 2 = R ^ 2 / ((n : ℝ) - m) := by
      have h3 : ∑ i, ((y + sparseBallShift R A v) i - y i) ^ 2 = len (sparseBallShift R A v) ^ 2 := by
        rw [len_sq]
        refine Finset.sum_congr rfl fun i _ => ?_
        rw [Pi.add_apply, add_sub_cancel_left, sq]
      rw [h3]
      unfold sparseBallShift
      rw [normalize_eq_hat, len_smul, len_hat hv, mul_one, sq_abs, div_pow, Real.sq_sqrt hnm]
    rw [h2] at h1
    exact lt_irrefl _ h1

/-- **C76**, dimension one: every row differs from the starting point by an integer multiple of a fixed vector of length `|R|`, whatever the
generator. -/
theorem C76_lattice {A : Matrix (Fin m) (Fin n) ℝ} (hA : IndepRows A) (hmn : m + 1 = n) :
    ∃ w : Fin n → ℝ, ∑ i, w i ^ 2 = 1 ∧ A *ᵥ w = 0 ∧ ∀ (R : ℝ) {E : Eigen ℝ}, E.SparseLUExact → ∀ (e : Env ℝ) (b : Fin m → ℝ) {k : Int},
      1 ≤ k ∧ k ≤ n → ∀ (x : Fin n → ℝ) (niter burnin thin seed : Int), GoodInts niter burnin thin →
    ∃ rows, (Walk.sparseBall R E).run e (callArgs A b x niter k burnin thin seed) = .ok rows ∧
      (rows.length : Int) = (niter - burnin) / thin ∧ ∀ y ∈ rows, ∃ z : ℤ, y = x + (z * R) • w := by
  obtain ⟨d, B, hB⟩ := exists_kernelBasis A
  obtain rfl : d = 1 := by have := kernelBasis_card hA hB; omega
  obtain ⟨Q, hQ, hQQ⟩ := exists_orthoBasis hB
  have hone : ((n : ℝ) - m) = 1 := by
    have : (m : ℝ) + 1 = n := by exact_mod_cast hmn
    linarith
  refine ⟨Q *ᵥ fun _ => 1, ?_, ?_, fun R E hE e b k hk x niter burnin thin seed hg => ?_⟩
  · have h1 : ∑ i, (Q *ᵥ fun _ => (1 : ℝ)) i ^ 2 = len (Q *ᵥ fun _ => (1 : ℝ)) ^ 2 := by
      rw [len_sq]; exact Finset.sum_congr rfl fun i _ => sq _
    rw [h1, len_ortho hQQ, len_sq]
    simp [dotProduct]
  · rw [Matrix.mulVec_mulVec, hQ.mul_zero, Matrix.zero_mulVec]
  · refine sparseBall_run_in R hE e hA b hk x niter burnin thin seed hg {y | ∃ z : ℤ, y = x + (z * R) • (Q *ᵥ fun _ => (1 : ℝ))} ⟨0, by simp⟩
      fun y hy v => ?_
    obtain ⟨z, hz⟩ := hy
    unfold sparseBallMove
    split
    · rw [sparseBallShift_ortho R hA hQ hQQ, hone, Real.sqrt_one, div_one]
      have hc : ∀ u : Fin 1 → ℝ, u = u 0 • (fun _ => (1 : ℝ)) := fun u => by
        funext i; rw [Subsingleton.elim i 0]; simp
      by_cases hv : Qᵀ *ᵥ v = 0
      · exact ⟨z, by rw [hv]; simp [hat, hz]⟩
      · have h1 := len_hat hv
        have h2 : hat (Qᵀ *ᵥ v) 0 * hat (Qᵀ *ᵥ v) 0 = 1 := by
          have := len_sq (hat (Qᵀ *ᵥ v))
          rw [h1] at this
          simpa [dotProduct] using this.symm
        rw [hc (hat (Qᵀ *ᵥ v)), Matrix.mulVec_smul, Matrix.mulVec_smul]
        rcases mul_self_eq_one_iff.1 h2 with h | h
        · refine ⟨z + 1, ?_⟩
          rw [h, hz, one_smul, add_assoc, ← add_smul]; push_cast; rw [add_mul, one_mul]
        · refine ⟨z - 1, ?_⟩
          rw [h, hz, neg_smul, one_smul, smul_neg, ← sub_eq_add_neg, add_sub_assoc, ← sub_smul]; push_cast; rw [sub_mul, one_mul]
    · exact ⟨z, hz⟩

/-- **C76**, dimension one: the law of a row never gets any closer to the uniform distribution. -/
theorem C76_line_never {A : Matrix (Fin m) (Fin n) ℝ} (hA : IndepRows A) (hmn : m + 1 = n) (R : ℝ) (x₀ : Fin n → ℝ) {B : Matrix (Fin n) (Fin d) ℝ}
    (hB : IsKernelBasis A B) (b : Fin m → ℝ) {k : Int} (hk : 1 ≤ k ∧ k ≤ n) (x : Fin n → ℝ) :
    ∃ T, MeasurableSet T ∧ ∀ {E : Eigen ℝ}, E.SparseLUExact → ∀ (e : Env ℝ) [MeasurableSpace e.r.G] (μ : Measure e.r.G), IdealSource e.r μ →
      ∀ niter burnin thin seed : Int, GoodInts niter burnin thin → ∀ j : ℕ, (j : Int) < (niter - burnin) / thin →
        |(rowProb (.sparseBall R E) e μ (callArgs A b x niter k burnin thin seed) j T).toReal - share (uniformOnEq x₀ B k.toNat) T| = 1 := by
  obtain ⟨w, -, -, hw⟩ := C76_lattice hA hmn
  obtain rfl : d = 1 := by have := kernelBasis_card hA hB; omega
  set T : Set (Fin n → ℝ) := ⋃ z : ℤ, {x + (z * R) • w} with hT
  have hc : T.Countable := countable_iUnion fun z => countable_singleton _
  refine ⟨T, hc.measurableSet, fun {E} hE e _ μ hs niter burnin thin seed hg j hj => ?_⟩
  have := hs.prob
  have h0 : share (uniformOnEq x₀ B k.toNat) T = 0 := by
    have hinj : Function.Injective (chart x₀ B) := fun u v huv => by
      have h1 : B *ᵥ u = B *ᵥ v := add_left_cancel huv
      rw [← sub_eq_zero]
      exact hB.inj _ (by rw [Matrix.mulVec_sub, h1, sub_self])
    have h2 : uniformOnEq x₀ B k.toNat T = 0 := by
      unfold uniformOnEq
      rw [Measure.map_apply (measurable_chart x₀ B) hc.measurableSet]
      exact le_antisymm ((Measure.le_iff'.1 Measure.restrict_le_self _).trans (le_of_eq ((hc.preimage hinj).measure_zero volume))) bot_le
    unfold share
    rw [h2]
    simp
  have h1 : rowProb (.sparseBall R E) e μ (callArgs A b x niter k burnin thin seed) j T = 1 := by
    have : {g : e.r.G | ∃ (f0 : ℕ) (rows : List (Fin n → ℝ)),
        (∀ f ≥ f0, (Walk.sparseBall R E).run ((e.withGen g).withFuel f) (callArgs A b x niter k burnin thin seed) = .ok rows) ∧
          ∃ hj : j < rows.length, rows[j] ∈ T} = univ := by
      refine eq_univ_of_forall fun g => ?_
      obtain ⟨rows, hr, hl, hin⟩ := hw R hE (e.withGen g) b hk x niter burnin thin seed hg
      refine ⟨0, rows, fun f _ => hr, by omega, ?_⟩
      obtain ⟨z, hz⟩ := hin _ (List.getElem_mem (show j < rows.length by omega))
      exact mem_iUnion.2 ⟨z, hz⟩
    unfold rowProb
    exact (congrArg μ this).trans measure_univ
  rw [h0, h1]; simp

/-! ## The simplex -/

/-- The triangle `x₁ + x₂ + x₃ = 1`, `x ≥ 0` contains the disc of radius `1/3` around its centre. -/
theorem simplex_disc (y : Fin 3 → ℝ) (hy : ones3 *ᵥ y = fun _ => 1) (hd : ∑ i, (y i - (fun _ => 1 / 3 : Fin 3 → ℝ) i) ^ 2 ≤ (1 / 3) ^ 2) :
    y ∈ PolyEq ones3 (fun _ => 1) (3 : Int).toNat := by
  refine ⟨hy, fun i _ => ?_⟩
  rw [Fin.sum_univ_three] at hd
  simp only at hd
  fin_cases i
  · show 0 ≤ y 0
    nlinarith [sq_nonneg (y 1 - 1 / 3), sq_nonneg (y 2 - 1 / 3)]
  · show 0 ≤ y 1
    nlinarith [sq_nonneg (y 0 - 1 / 3), sq_nonneg (y 2 - 1 / 3)]
  · show 0 ≤ y 2
    nlinarith [sq_nonneg (y 1 - 1 / 3), sq_nonneg (y 0 - 1 / 3)]

/-- On the simplex, with radius `1/4` (step `1 / (4 √2)`): the region `x₁ ≤ 1/2`, from a vertex. -/
example (ε : ℝ) (hε : 0 < ε) :
    ∃ t₀ : ℕ, ∀ t ≥ t₀,
      |(pathProb (.sparseBall (1 / 4) exactEigen) streamEnv streamLaw
        (callArgs ones3 (fun _ => 1) ![1, 0, 0] 100 3 0 1 7) ⟨rfl, rfl⟩ {p | p t (0 : Fin 3) ≤ 1 / 2}).toReal -
          share (uniformOnEq (fun _ => 1 / 3) simplexBasis 3) {y | y (0 : Fin 3) ≤ 1 / 2}| ≤ ε := by
  have hstep : |(1 / 4 : ℝ)| / Real.sqrt (((3 : ℕ) : ℝ) - ((1 : ℕ) : ℝ)) < 1 / 3 := by
    have h1 : (1 : ℝ) < Real.sqrt (((3 : ℕ) : ℝ) - ((1 : ℕ) : ℝ)) := by rw [Real.lt_sqrt (by norm_num)]; norm_num
    rw [abs_of_pos (by norm_num), div_lt_iff₀ (lt_trans one_pos h1)]
    generalize Real.sqrt (((3 : ℕ) : ℝ) - ((1 : ℕ) : ℝ)) = q at h1 ⊢
    linarith
  obtain ⟨t₀, h⟩ := C76_limit exactEigen_exact.sparseLU ones3_indep (by decide) (k := 3) ⟨by decide, by decide⟩ simplex_bdd (R := 1 / 4)
    (by norm_num) (x₀ := fun _ => 1 / 3) simplex_start hstep simplex_disc ones3_kernel ε hε
  refine ⟨t₀, fun t ht => (h streamEnv streamLaw streamRng_ideal _ ⟨?_, ?_⟩ 7 t ht 100 0 1 _
    (measurableSet_le (measurable_pi_apply (0 : Fin 3)) measurable_const)).1⟩
  · funext i
    fin_cases i
    simp [ones3, Matrix.mulVec, dotProduct, Fin.sum_univ_three]
  · intro i _
    fin_cases i <;> simp

end PW
